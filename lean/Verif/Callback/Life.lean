import Verif.Callback.Told

/-!
# Entries and heartbeats
-/

namespace Verif.Callback

section
variable {R : Type} {read : String → Option R} {limit : Nat}

/-! ## Entries -/

/-- An entry is there only for a stream that goes on, or it is about to be removed. -/
def NoLeak (w : World) : Prop := ∀ i, w.subs i ≠ none → (∃ q, w.chan i = .open q) ∨ i ∈ w.removing

theorem send_open {c : Chan} {m : Message} (h : ∃ q, c = .open q) : ∃ q, send c m = .open q := by
  obtain ⟨q, rfl⟩ := h
  simp only [send]
  split <;> exact ⟨_, rfl⟩

/-- What a request does to `removing`. -/
theorem handle_removing (w : World) (r : Request) :
    (∀ i ∈ w.removing, i ∈ (handle w r).1.removing) ∧
    ∀ i ∈ (handle w r).1.removing, i ∈ w.removing ∨ (w.subs i ≠ none ∧ i = r.path ∧
      ((∀ q, w.chan i ≠ .open q) ∨ ∃ b s, w.subs i = some s ∧ Genuine s.verifier i r b ∧ b.action = .complete ∧
        (handle w r).2 = 204)) := by
  unfold handle
  split
  · exact ⟨fun i h => h, fun i h => .inl h⟩
  next hp =>
    split
    · exact ⟨fun i h => h, fun i h => .inl h⟩
    next b hb =>
      split
      · exact ⟨fun i h => h, fun i h => .inl h⟩
      next hi =>
        split
        · exact ⟨fun i h => h, fun i h => .inl h⟩
        next s hs =>
          split
          · exact ⟨fun i h => h, fun i h => .inl h⟩
          next hv =>
            have hp := Decidable.not_not.1 hp
            have hi := Decidable.not_not.1 hi
            have hv := Decidable.not_not.1 hv
            cases ha : b.action with
            | check => exact ⟨fun i h => h, fun i h => .inl h⟩
            | next =>
              simp only [handleNext]
              cases hpl : b.payload with
              | none => exact ⟨fun i h => h, fun i h => .inl h⟩
              | some p =>
                simp only
                cases hc : w.chan b.id with
                | «open» q => exact ⟨fun i h => h, fun i h => .inl h⟩
                | fresh =>
                  refine ⟨fun i h => List.mem_append.2 (.inl h), fun i h => (List.mem_append.1 h).imp id fun h => ?_⟩
                  simp only [List.mem_singleton] at h
                  subst h
                  exact ⟨by rw [hs]; simp, hi, .inl fun q hq => by rw [hc] at hq; cases hq⟩
                | over =>
                  refine ⟨fun i h => List.mem_append.2 (.inl h), fun i h => (List.mem_append.1 h).imp id fun h => ?_⟩
                  simp only [List.mem_singleton] at h
                  subst h
                  exact ⟨by rw [hs]; simp, hi, .inl fun q hq => by rw [hc] at hq; cases hq⟩
            | complete =>
              refine ⟨fun i h => List.mem_append.2 (.inl h), fun i h => (List.mem_append.1 h).imp id fun h => ?_⟩
              simp only [List.mem_singleton] at h
              subst h
              exact ⟨by rw [hs]; simp, hi, .inr ⟨b, s, hs, ⟨hp, hi.symm, hb, rfl, hv.symm⟩, ha, rfl⟩⟩

/-- What polling does to a world. -/
theorem recv_cases (w : World) (j : Id) : (recv read w j).1 = w ∨ (∃ q, w.chan j = .open q) ∧
    ((recv read w j).1 = close w j ∨ ∃ q, (recv read w j).1 = { w with chan := set w.chan j (.open q) }) := by
  unfold recv
  split
  next h =>
    refine .inr ⟨⟨_, h⟩, ?_⟩
    split
    · exact .inr ⟨_, rfl⟩
    · exact .inl rfl
  next h =>
    refine .inr ⟨⟨_, h⟩, .inl ?_⟩
    split <;> rfl
  next h =>
    split
    · exact .inr ⟨⟨_, h⟩, .inl rfl⟩
    · exact .inl rfl
  · exact .inl rfl

theorem close_leak {w : World} {j : Id} (h : NoLeak w) : NoLeak (close w j) := by
  intro i hi
  by_cases hij : i = j
  · exact .inr (by simp [close, hij])
  · rcases h i hi with ⟨q, hq⟩ | hr
    · exact .inl ⟨q, by simp only [close, set_other hij]; exact hq⟩
    · exact .inr (List.mem_append.2 (.inl hr))

theorem noLeak_step {w : World} (h : NoLeak w) (e : Event) : NoLeak (step read limit w e).1 := by
  cases e with
  | subscribe j u =>
    simp only [step]
    cases hc : w.chan j with
    | fresh =>
      intro i hi
      by_cases hij : i = j
      · exact .inl ⟨[], by simp [set, hij]⟩
      · simp only [set_other hij] at hi ⊢
        exact h i hi
    | «open» q => exact h
    | over => exact h
  | request r =>
    simp only [step]
    have hr := handle_removing w r
    intro i hi
    rcases handle_cases w r with ⟨h1, h2, _⟩ | ⟨b, s, _, hs, _, hx⟩
    · simp only [h1, h2] at hi ⊢
      exact (h i hi).imp id (hr.1 i)
    · rcases hx with ⟨_, h1, h2⟩ | ⟨m, _, h1, h2⟩
      · simp only [h1, h2] at hi ⊢
        have : w.subs i ≠ none := by
          by_cases hij : i = r.path
          · rw [hij, hs]
            simp
          · rwa [set_other hij] at hi
        exact (h i this).imp id (hr.1 i)
      · simp only [h1, h2] at hi ⊢
        refine (h i hi).imp (fun ho => ?_) (hr.1 i)
        by_cases hij : i = r.path
        · rw [hij, set_same]
          rw [hij] at ho
          exact send_open ho
        · rw [set_other hij]
          exact ho
  | remove j =>
    simp only [step]
    split
    · intro i hi
      by_cases hij : i = j
      · simp [set, hij] at hi
      · simp only [set_other hij] at hi ⊢
        exact (h i hi).imp id fun hm => (List.mem_erase_of_ne hij).2 hm
    · exact h
  | recv j =>
    simp only [step]
    rcases recv_cases (read := read) w j with e | ⟨_, e | ⟨q, e⟩⟩
    · rw [e]
      exact h
    · rw [e]
      exact close_leak h
    · rw [e]
      intro i hi
      refine (h i hi).imp (fun ho => ?_) id
      by_cases hij : i = j
      · exact ⟨q, by simp [set, hij]⟩
      · simp only [set_other hij]
        exact ho
  | leave j =>
    simp only [step]
    split
    · exact close_leak h
    · exact h
  | tick n => exact h
  | look j =>
    simp only [step]
    split
    · split <;> exact h
    · exact h
  | evict j =>
    simp only [step]
    split
    · split
      · intro i hi
        by_cases hij : i = j
        · simp [set, hij] at hi
        · simp only [set_other hij] at hi ⊢
          exact h i hi
      · exact h
    · exact h

theorem noLeak_run (es : List Event) : NoLeak (run read limit {} es).1 :=
  run_induct (P := fun w (_ : Trace R) => NoLeak w) (fun i h => absurd rfl h) (fun _ _ e h => noLeak_step h e) es

/-- A subscription that is gone stays gone. -/
theorem gone_step {i : Id} {w : World} (hf : w.chan i ≠ .fresh) (hn : w.subs i = none) (e : Event) :
    (step read limit w e).1.chan i ≠ .fresh ∧ (step read limit w e).1.subs i = none := by
  have hv : ∀ s, w.subs i = some s → s.verifier = "" := by
    intro s hs
    rw [hn] at hs
    cases hs
  have hk := step_kind (read := read) (limit := limit) hv e
  cases hk with
  | quiet hc _ hs _ _ => exact ⟨by rw [hc]; exact hf, none_step hs hn⟩
  | opened u hw => exact absurd hw hf
  | push m hw => exact absurd hn hw
  | left q _ hc _ hs => exact ⟨by rw [hc]; simp, hs.trans hn⟩
  | yield p q r _ _ hc _ hs => exact ⟨by rw [hc]; simp, hs.trans hn⟩
  | broke p q _ _ hc _ hs => exact ⟨by rw [hc]; simp, hs.trans hn⟩
  | done es q _ hc _ hs => exact ⟨by rw [hc]; simp, hs.trans hn⟩
  | closed _ _ hc _ hs => exact ⟨by rw [hc]; simp, hs.trans hn⟩

/-- Requests for it are refused. -/
theorem gone_status {w : World} {r : Request} (hn : w.subs r.path = none) : (handle w r).2 = 400 ∨ (handle w r).2 = 404 := by
  unfold handle
  split
  · exact .inl rfl
  · split
    · exact .inl rfl
    · split
      · exact .inr rfl
      next hi =>
        have hi := Decidable.not_not.1 hi
        rw [hi, hn]
        exact .inr rfl

theorem gone_run {i : Id} : ∀ (es : List Event) {w : World}, w.chan i ≠ .fresh → w.subs i = none →
    (run read limit w es).1.subs i = none ∧ ∀ r o, (.request r, o) ∈ (run read limit w es).2 → r.path = i →
      Refused o
  | [], w, _, hn => ⟨hn, by simp [run]⟩
  | e :: es, w, hf, hn => by
    obtain ⟨h1, h2⟩ := gone_step (read := read) (limit := limit) hf hn e
    obtain ⟨ih1, ih2⟩ := gone_run es h1 h2
    refine ⟨ih1, fun r o hm hp => ?_⟩
    simp only [run, List.mem_cons, Prod.mk.injEq] at hm
    rcases hm with ⟨he, ho⟩ | hm
    · subst he
      rw [ho]
      simp only [step]
      rcases gone_status (w := w) (r := r) (by rw [hp]; exact hn) with h | h
      · exact .inl (by rw [h])
      · exact .inr (by rw [h])
    · exact ih2 r o hm hp

/-- As long as a stream goes on and nobody has ended it, its entry is there and nobody is about to remove it. -/
structure Kept (i : Id) (w : World) (t : Trace R) : Prop where
  fresh : w.chan i = .fresh → i ∉ w.removing
  there : ∀ q v, w.chan i = .open q → verifierOf i t = some v → (∀ es, .complete es ∉ pushes v i t) →
    w.subs i ≠ none ∧ i ∉ w.removing

theorem kept_step {i : Id} {w : World} {t : Trace R} (ht : Told read i w t) (h : Kept i w t) (e : Event) :
    Kept i (step read limit w e).1 (t ++ [(e, (step read limit w e).2)]) := by
  have hpre : ∀ {v x}, (∀ es, Message.complete es ∉ pushes v i (t ++ [x])) →
      ∀ es, Message.complete es ∉ pushes (R := R) v i t := by
    intro v x hh es hm
    exact hh es (by rw [pushes_snoc]; exact List.mem_append.2 (.inl hm))
  -- a step that leaves the entry, the channel's kind and `removing` as they are
  have easy : ∀ (w' : World) (x : Event × List (Output R)), verifierIn i x = none →
      (w'.chan i = .fresh → w.chan i = .fresh) → (∀ q, w'.chan i = .open q → ∃ q, w.chan i = .open q) →
      (w.subs i ≠ none → w'.subs i ≠ none) → (i ∈ w'.removing → i ∈ w.removing) → Kept i w' (t ++ [x]) := by
    intro w' x hx h1 h2 h3 h4
    refine ⟨fun hf hm => h.fresh (h1 hf) (h4 hm), fun q v hq hv hh => ?_⟩
    obtain ⟨q', hq'⟩ := h2 q hq
    have hv' : verifierOf i t = some v := by
      rw [verifierOf_append] at hv
      simpa [verifierOf, hx] using hv
    obtain ⟨a, b⟩ := h.there q' v hq' hv' (hpre hh)
    exact ⟨h3 a, fun hm => b (h4 hm)⟩
  have hclose : ∀ (j : Id) (x : Event × List (Output R)), verifierIn i x = none → (∃ q, w.chan j = .open q) →
      Kept i (close w j) (t ++ [x]) := by
    intro j x hx hj
    by_cases hij : i = j
    · subst hij
      refine ⟨fun hf => ?_, fun q v hq => ?_⟩
      · simp [close, set] at hf
      · simp [close, set] at hq
    · refine easy _ _ hx ?_ ?_ id ?_
      · simp only [close, set_other hij]
        exact id
      · simp only [close, set_other hij]
        exact fun q hq => ⟨q, hq⟩
      · simp [close, hij]
  cases e with
  | subscribe j u =>
    simp only [step]
    cases hc : w.chan j with
    | fresh =>
      by_cases hij : i = j
      · subst hij
        refine ⟨fun hf => ?_, fun q v _ _ _ => ⟨?_, h.fresh hc⟩⟩
        · simp [set] at hf
        · simp [set]
      · refine easy _ _ (by simp [verifierIn, Ne.symm hij]) ?_ ?_ ?_ id
        · simp only [set_other hij]
          exact id
        · simp only [set_other hij]
          exact fun q hq => ⟨q, hq⟩
        · simp only [set_other hij]
          exact id
    | «open» q => exact easy _ _ rfl id (fun q hq => ⟨q, hq⟩) id id
    | over => exact easy _ _ rfl id (fun q hq => ⟨q, hq⟩) id id
  | request r =>
    simp only [step]
    have hrm := (handle_removing w r).2 i
    have hsub : w.subs i ≠ none → (handle w r).1.subs i ≠ none := by
      rcases handle_cases w r with ⟨_, h2, _⟩ | ⟨b, s, _, hs, _, ⟨_, _, h2⟩ | ⟨m, _, h1, _⟩⟩
      · rw [h2]
        exact id
      · rw [h2]
        intro hn
        by_cases hij : i = r.path
        · rw [hij, set_same]
          simp
        · rwa [set_other hij]
      · rw [h1]
        exact id
    have hch : ((handle w r).1.chan i = .fresh → w.chan i = .fresh) ∧
        ∀ q, (handle w r).1.chan i = .open q → ∃ q, w.chan i = .open q := by
      rcases handle_cases w r with ⟨h1, _, _⟩ | ⟨b, s, _, hs, _, ⟨_, h1, _⟩ | ⟨m, _, _, h2⟩⟩
      · rw [h1]
        exact ⟨id, fun q hq => ⟨q, hq⟩⟩
      · rw [h1]
        exact ⟨id, fun q hq => ⟨q, hq⟩⟩
      · rw [h2]
        by_cases hij : i = r.path
        · rw [hij, set_same]
          cases hc : w.chan r.path with
          | fresh => exact ⟨id, fun q hq => by simp [send] at hq⟩
          | «open» q => exact ⟨fun hf => absurd hf (send_fresh (by simp)), fun _ _ => ⟨q, rfl⟩⟩
          | over => exact ⟨fun hf => by simp [send] at hf, fun q hq => by simp [send] at hq⟩
        · rw [set_other hij]
          exact ⟨id, fun q hq => ⟨q, hq⟩⟩
    by_cases hold : i ∈ w.removing ∨ i ∉ (handle w r).1.removing
    · exact easy _ _ rfl hch.1 hch.2 hsub fun hm => hold.elim id fun hn => absurd hm hn
    · rw [not_or] at hold
      have hin := Decidable.not_not.1 hold.2
      rcases hrm hin with hr | ⟨hs, hp, hno | ⟨b, s, hs', hg, ha, h204⟩⟩
      · exact absurd hr hold.1
      · refine ⟨fun hf => absurd (ht.fresh (hch.1 hf)).2.1 hs, fun q v hq => ?_⟩
        obtain ⟨q', hq'⟩ := hch.2 q hq
        exact absurd hq' (hno q')
      · refine ⟨fun hf => absurd (ht.fresh (hch.1 hf)).2.1 hs, fun q v hq hv hh => ?_⟩
        obtain ⟨q', hq'⟩ := hch.2 q hq
        obtain ⟨v', hv1, hv2, _⟩ := ht.used (by rw [hq']; simp)
        have : v = v' := by
          rw [verifierOf_append, hv1] at hv
          simpa using hv.symm
        subst this
        have hsv := hv2 s hs'
        subst hsv
        exfalso
        apply hh b.errors
        rw [pushes_snoc, List.mem_append]
        right
        rw [h204, pushed_genuine (hp ▸ hg) hp]
        simp [messageIn, ha]
  | remove j =>
    simp only [step]
    split
    next hj =>
      by_cases hij : i = j
      · subst hij
        refine ⟨fun hf => absurd hj (h.fresh hf), fun q v hq hv hh => ?_⟩
        have hv' : verifierOf i t = some v := by
          rw [verifierOf_append] at hv
          simpa [verifierOf, verifierIn] using hv
        exact absurd hj (h.there q v hq hv' (hpre hh)).2
      · refine easy _ _ rfl id (fun q hq => ⟨q, hq⟩) ?_ fun hm => List.mem_of_mem_erase hm
        simp only [set_other hij]
        exact id
    · exact easy _ _ rfl id (fun q hq => ⟨q, hq⟩) id id
  | recv j =>
    simp only [step]
    rcases recv_cases (read := read) w j with e | ⟨ho, e | ⟨q, e⟩⟩
    · rw [e]
      exact easy _ _ rfl id (fun q hq => ⟨q, hq⟩) id id
    · rw [e]
      exact hclose j _ rfl ho
    · rw [e]
      by_cases hij : i = j
      · subst hij
        refine easy _ _ rfl ?_ (fun _ _ => ho) id id
        simp [set]
      · refine easy _ _ rfl ?_ ?_ id id
        · simp only [set_other hij]
          exact id
        · simp only [set_other hij]
          exact fun q hq => ⟨q, hq⟩
  | leave j =>
    simp only [step]
    split
    next q hq => exact hclose j _ rfl ⟨q, hq⟩
    · exact easy _ _ rfl id (fun q hq => ⟨q, hq⟩) id id
  | tick n => exact easy _ _ rfl id (fun q hq => ⟨q, hq⟩) id id
  | look j =>
    simp only [step]
    split
    · split <;> exact easy _ _ rfl id (fun q hq => ⟨q, hq⟩) id id
    · exact easy _ _ rfl id (fun q hq => ⟨q, hq⟩) id id
  | evict j =>
    simp only [step]
    split
    · cases hs : w.subs j with
      | none => exact easy _ _ rfl id (fun q hq => ⟨q, hq⟩) id id
      | some s =>
        by_cases hij : i = j
        · subst hij
          refine ⟨fun hf => ?_, fun q v hq hv hh => ?_⟩
          · simp only [set_same] at hf
            cases hc : w.chan i with
            | fresh =>
              have := (ht.fresh hc).2.1
              rw [hs] at this
              cases this
            | «open» q => exact absurd (hc ▸ hf) (send_fresh (by simp))
            | over => exact absurd (hc ▸ hf) (send_fresh (by simp))
          · exfalso
            apply hh (some [gone])
            rw [pushes_snoc, List.mem_append]
            right
            simp [pushed]
        · refine easy _ _ rfl ?_ ?_ ?_ id
          · simp only [set_other hij]
            exact id
          · simp only [set_other hij]
            exact fun q hq => ⟨q, hq⟩
          · simp only [set_other hij]
            exact id
    · exact easy _ _ rfl id (fun q hq => ⟨q, hq⟩) id id

theorem kept_run (i : Id) (es : List Event) : Kept i (run read limit {} es).1 (run read limit {} es).2 := by
  have := run_induct (read := read) (limit := limit) (P := fun w (t : Trace R) => Told read i w t ∧ Kept i w t)
    ⟨⟨fun _ => ⟨rfl, rfl, fun _ => rfl, by simp [outputs]⟩, fun h => absurd rfl h⟩,
      ⟨fun _ => by simp, fun q v hq => by cases hq⟩⟩
    (fun w t e h => ⟨told_step h.1 e, kept_step h.1 h.2 e⟩) es
  exact this.2

/-! ## Heartbeats -/

theorem clock_snoc (t : Trace R) (x : Event × List (Output R)) : clock (t ++ [x]) = clock t + ticks x := by
  simp [clock]

theorem clock_append (t s : Trace R) : clock (t ++ s) = clock t + clock s := by
  simp [clock]

theorem snoc_split {α : Type} {t a b : List α} {x y : α} (h : t ++ [y] = a ++ x :: b) :
    (a = t ∧ x = y ∧ b = []) ∨ ∃ b', b = b' ++ [y] ∧ t = a ++ x :: b' := by
  rcases List.eq_nil_or_concat b with rfl | ⟨b', z, rfl⟩
  · have := List.append_inj' h rfl
    simp only [List.cons.injEq, and_true] at this
    exact .inl ⟨this.1.symm, this.2.symm, rfl⟩
  · right
    have h' : t ++ [y] = (a ++ x :: b') ++ [z] := by simpa using h
    have := List.append_inj' h' rfl
    simp only [List.cons.injEq, and_true] at this
    exact ⟨b', by simp [this.2], this.1⟩

/-- The last sign of life. -/
def Sub.last (s : Sub) : Nat := s.beat.getD s.created

theorem silent_last {now : Nat} {s : Sub} : silent limit now s = true ↔ limit < now - s.last := by
  unfold silent Sub.last
  cases s.beat <;> simp

theorem sign_status {v : String} {i : Id} {r : Request} {n : Nat} (h : n ≠ 204) :
    sign v i ((.request r, [.status n]) : Event × List (Output R)) = false := by
  unfold sign
  split
  next h' => simp at h'
  next h' => simp only [Prod.mk.injEq, List.cons.injEq, Output.status.injEq] at h'; exact absurd h'.2.1 h
  next => rfl

theorem sign_other {v : String} {i : Id} {r : Request} (h : i ≠ r.path) :
    sign v i ((.request r, [.status 204]) : Event × List (Output R)) = false := by
  simp only [sign]
  cases r.body with
  | none => rfl
  | some b =>
    simp only [Bool.and_eq_false_imp, decide_eq_true_eq]
    rintro ⟨_, hp, _⟩
    exact absurd hp.symm h

/-- What a step does to the last sign of life. -/
theorem step_sign {v : String} {i : Id} {w : World} (hv : ∀ s, w.subs i = some s → s.verifier = v) (e : Event) :
    (sign v i (e, (step read limit w e).2) = false ∧
      ((step read limit w e).1.subs i = w.subs i ∨ (step read limit w e).1.subs i = none)) ∨
    (sign v i (e, (step read limit w e).2) = true ∧
      ∃ s, (step read limit w e).1.subs i = some s ∧ s.last = w.now) := by
  cases e with
  | subscribe j u =>
    simp only [step]
    cases hc : w.chan j with
    | fresh =>
      by_cases hij : i = j
      · subst hij
        exact .inr ⟨by simp [sign], _, set_same .., rfl⟩
      · exact .inl ⟨by simp [sign, Ne.symm hij], .inl (set_other hij)⟩
    | «open» q => exact .inl ⟨rfl, .inl rfl⟩
    | over => exact .inl ⟨rfl, .inl rfl⟩
  | request r =>
    simp only [step]
    rcases handle_cases w r with ⟨_, h2, h3⟩ | ⟨b, s, hg, hs, h204, h⟩
    · exact .inl ⟨sign_status h3, .inl (by rw [h2])⟩
    · rw [h204]
      by_cases hi : i = r.path
      · subst hi
        have := hv s hs
        subst this
        rcases h with ⟨ha, _, h2⟩ | ⟨m, hm, h1, _⟩
        · refine .inr ⟨?_, { s with beat := some w.now }, ?_, rfl⟩
          · simp only [sign, hg.2.2.1]
            simp [hg, ha]
          · rw [h2, set_same]
        · refine .inl ⟨?_, .inl (by rw [h1])⟩
          simp only [sign, hg.2.2.1]
          have : b.action ≠ .check := by
            intro ha
            rw [messageIn_check ha] at hm
            cases hm
          simp [this]
      · refine .inl ⟨sign_other hi, .inl ?_⟩
        rcases h with ⟨_, _, h2⟩ | ⟨m, _, h1, _⟩
        · rw [h2, set_other hi]
        · rw [h1]
  | remove j =>
    simp only [step]
    split
    · refine .inl ⟨rfl, ?_⟩
      by_cases hij : i = j
      · exact .inr (by simp [set, hij])
      · exact .inl (set_other hij)
    · exact .inl ⟨rfl, .inl rfl⟩
  | recv j =>
    simp only [step]
    refine .inl ⟨rfl, .inl ?_⟩
    rcases recv_cases (read := read) w j with e | ⟨_, e | ⟨q, e⟩⟩ <;> rw [e] <;> rfl
  | leave j =>
    simp only [step]
    split <;> exact .inl ⟨rfl, .inl rfl⟩
  | tick n => exact .inl ⟨rfl, .inl rfl⟩
  | look j =>
    simp only [step]
    split
    · split <;> exact .inl ⟨rfl, .inl rfl⟩
    · exact .inl ⟨rfl, .inl rfl⟩
  | evict j =>
    simp only [step]
    split
    · split
      · refine .inl ⟨rfl, ?_⟩
        by_cases hij : i = j
        · exact .inr (by simp [set, hij])
        · exact .inl (set_other hij)
      · exact .inl ⟨rfl, .inl rfl⟩
    · exact .inl ⟨rfl, .inl rfl⟩

theorem step_now (w : World) (e : Event) : (step read limit w e).1.now = w.now + ticks (e, (step read limit w e).2) := by
  have hh : ∀ r, (handle w r).1.now = w.now := by
    intro r
    unfold handle
    repeat' split
    all_goals first | rfl | skip
    unfold handleNext
    repeat' split
    all_goals rfl
  cases e with
  | subscribe j u =>
    simp only [step]
    split <;> rfl
  | request r =>
    simp only [step]
    rw [hh]
    rfl
  | remove j =>
    simp only [step]
    split <;> rfl
  | recv j =>
    simp only [step]
    rcases recv_cases (read := read) w j with e | ⟨_, e | ⟨q, e⟩⟩ <;> rw [e] <;> rfl
  | leave j =>
    simp only [step]
    split <;> rfl
  | tick n => rfl
  | look j =>
    simp only [step]
    split
    · split <;> rfl
    · rfl
  | evict j =>
    simp only [step]
    split
    · split <;> rfl
    · rfl

/-- What the enforcer has marked. -/
theorem step_marked {w : World} {e : Event} {i : Id} (h : i ∈ (step read limit w e).1.marked) :
    i ∈ w.marked ∨ e = .look i ∧ ∃ s, w.subs i = some s ∧ silent limit w.now s = true := by
  have hh : ∀ r, (handle w r).1.marked = w.marked := by
    intro r
    unfold handle
    repeat' split
    all_goals first | rfl | skip
    unfold handleNext
    repeat' split
    all_goals rfl
  cases e with
  | subscribe j u =>
    simp only [step] at h
    split at h <;> exact .inl h
  | request r =>
    simp only [step, hh] at h
    exact .inl h
  | remove j =>
    simp only [step] at h
    split at h <;> exact .inl h
  | recv j =>
    simp only [step] at h
    rcases recv_cases (read := read) w j with e | ⟨_, e | ⟨q, e⟩⟩ <;> rw [e] at h <;> exact .inl h
  | leave j =>
    simp only [step] at h
    split at h <;> exact .inl h
  | tick n => exact .inl h
  | look j =>
    simp only [step] at h
    split at h
    next s hs =>
      split at h
      next hq =>
        rcases List.mem_append.1 h with h | h
        · exact .inl h
        · simp only [List.mem_singleton] at h
          subst h
          exact .inr ⟨rfl, s, hs, hq⟩
      next => exact .inl h
    next => exact .inl h
  | evict j =>
    simp only [step] at h
    split at h
    · split at h <;> exact .inl (List.mem_of_mem_erase h)
    · exact .inl h

/-- The clock, the last sign of life and the marks agree with what happened. -/
structure Beats (limit : Nat) (i : Id) (w : World) (t : Trace R) : Prop where
  now : w.now = clock t
  fresh : w.chan i = .fresh → ∀ v a x b, t = a ++ x :: b → sign v i x = false
  last : ∀ v s, verifierOf i t = some v → w.subs i = some s →
    (∀ a x b, t = a ++ x :: b → sign v i x = true → clock a ≤ s.last) ∧
    ∃ a x b, t = a ++ x :: b ∧ sign v i x = true ∧ clock a = s.last
  marks : i ∈ w.marked → ∃ v a o b, verifierOf i a = some v ∧ t = a ++ (.look i, o) :: b ∧ Silent v i limit a

theorem beats_step {i : Id} {w : World} {t : Trace R} (ht : Told read i w t) (h : Beats limit i w t) (e : Event) :
    Beats limit i (step read limit w e).1 (t ++ [(e, (step read limit w e).2)]) := by
  have ht' := told_step (limit := limit) ht e
  have hnone : ∀ v, w.chan i = .fresh → ∀ s, w.subs i = some s → s.verifier = v := by
    intro v hf s hs
    rw [(ht.fresh hf).2.1] at hs
    cases hs
  have hle : ∀ a x b, t = a ++ x :: b → clock a ≤ clock t := by
    intro a x b he
    rw [he, clock_append]
    exact Nat.le_add_right _ _
  refine ⟨?_, ?_, ?_, ?_⟩
  · rw [step_now, clock_snoc, h.now]
  · intro hf v a x b he
    have hf0 : w.chan i = .fresh := by
      refine Decidable.byContradiction fun hne => ?_
      obtain ⟨u, hu, _⟩ := ht.used hne
      have := (ht'.fresh hf).1
      rw [verifierOf_append, hu] at this
      cases this
    rcases snoc_split he with ⟨_, rfl, _⟩ | ⟨b', _, hb⟩
    · rcases step_sign (read := read) (limit := limit) (hnone v hf0) e with ⟨h1, _⟩ | ⟨_, s, hs, _⟩
      · exact h1
      · rw [(ht'.fresh hf).2.1] at hs
        cases hs
    · exact h.fresh hf0 v a x b' hb
  · intro v s hv hs
    have hkn : ∀ s, w.subs i = some s → s.verifier = v := by
      by_cases hf0 : w.chan i = .fresh
      · exact hnone v hf0
      · obtain ⟨u, hu, hk, _⟩ := ht.used hf0
        rw [verifierOf_append, hu] at hv
        cases hv
        exact hk
    rcases step_sign (read := read) (limit := limit) hkn e with ⟨h1, h2⟩ | ⟨h1, s', hs', hl⟩
    · rcases h2 with h2 | h2
      · rw [h2] at hs
        have hf0 : w.chan i ≠ .fresh := by
          intro hf0
          rw [(ht.fresh hf0).2.1] at hs
          cases hs
        obtain ⟨u, hu, _⟩ := ht.used hf0
        have huv : u = v := by
          rw [verifierOf_append, hu] at hv
          simpa using hv
        subst huv
        obtain ⟨l1, a, x, b, l2, l3, l4⟩ := h.last u s hu hs
        refine ⟨fun a' x' b' he hx => ?_, a, x, b ++ [_], by rw [l2]; simp; rfl, l3, l4⟩
        rcases snoc_split he with ⟨_, rfl, _⟩ | ⟨b'', _, hb⟩
        · rw [h1] at hx
          cases hx
        · exact l1 a' x' b'' hb hx
      · rw [h2] at hs
        cases hs
    · rw [hs'] at hs
      cases hs
      rw [hl, h.now]
      refine ⟨fun a' x' b' he hx => ?_, t, _, [], rfl, h1, rfl⟩
      rcases snoc_split he with ⟨rfl, _, _⟩ | ⟨b'', _, hb⟩
      · exact Nat.le_refl _
      · exact hle a' x' b'' hb
  · intro hm
    rcases step_marked hm with hm | ⟨he, s, hs, hq⟩
    · obtain ⟨v, a, o, b, m1, m2, m3⟩ := h.marks hm
      exact ⟨v, a, o, b ++ [_], m1, by rw [m2]; simp; rfl, m3⟩
    · subst he
      have hf0 : w.chan i ≠ .fresh := by
        intro hf0
        rw [(ht.fresh hf0).2.1] at hs
        cases hs
      obtain ⟨v, hv, _⟩ := ht.used hf0
      refine ⟨v, t, _, [], hv, rfl, fun a x b he hx => ?_⟩
      have := (h.last v s hv hs).1 a x b he hx
      rw [silent_last, h.now] at hq
      omega

theorem beats_run (i : Id) (es : List Event) :
    Told read i (run read limit {} es).1 (run read limit {} es).2 ∧
    Beats limit i (run read limit {} es).1 (run read limit {} es).2 := by
  refine run_induct (read := read) (limit := limit) (P := fun w (t : Trace R) => Told read i w t ∧ Beats limit i w t)
    ⟨⟨fun _ => ⟨rfl, rfl, fun _ => rfl, by simp [outputs]⟩, fun h => absurd rfl h⟩, ?_⟩
    (fun w t e h => ⟨told_step h.1 e, beats_step h.1 h.2 e⟩) es
  exact ⟨rfl, fun _ v a x b he => by simp at he, fun v s hv => by simp [verifierOf] at hv, fun hm => by simp at hm⟩

end

end Verif.Callback
