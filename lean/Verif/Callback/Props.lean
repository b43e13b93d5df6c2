import Verif.Callback.Life

/-!
# C71 to C74: subscriptions over callbacks
-/

namespace Verif.Callback

section
variable {R : Type} {read : String → Option R} {limit : Nat}

/-! ## Histories -/

theorem run_append (w : World) (as bs : List Event) : run read limit w (as ++ bs) =
    ((run read limit (run read limit w as).1 bs).1, (run read limit w as).2 ++ (run read limit (run read limit w as).1 bs).2) := by
  induction as generalizing w with
  | nil => rfl
  | cons a as ih =>
    simp only [List.cons_append, run]
    rw [ih]

/-- A stream is over if it has ended or its reader has left. -/
theorem over_run (i : Id) (es : List Event) : (run read limit {} es).1.chan i = .over ↔
    .ended i ∈ outputs (run read limit {} es).2 ∨ Left i (run read limit {} es).2 := by
  have := run_induct (read := read) (limit := limit) (P := fun w (t : Trace R) => Told read i w t ∧
      (w.chan i = .over ↔ .ended i ∈ outputs t ∨ Left i t))
    ⟨⟨fun _ => ⟨rfl, rfl, fun _ => rfl, by simp [outputs]⟩, fun h => absurd rfl h⟩, by simp [outputs, Left]⟩ ?_ es
  · exact this.2
  intro w t e ⟨ht, h⟩
  refine ⟨told_step ht e, ?_⟩
  have hleft : ∀ o, Left i (t ++ [(e, o)]) ↔ Left i t ∨ (e = .leave i ∧ verifierOf i t ≠ none) := by
    intro o
    constructor
    · rintro ⟨a, o', b, he, hv⟩
      rcases snoc_split he with ⟨rfl, hx, _⟩ | ⟨b', _, hb⟩
      · simp only [Prod.mk.injEq] at hx
        exact .inr ⟨hx.1.symm, hv⟩
      · exact .inl ⟨a, o', b', hb, hv⟩
    · rintro (⟨a, o', b, he, hv⟩ | ⟨rfl, hv⟩)
      · exact ⟨a, o', b ++ [(e, o)], by rw [he]; simp, hv⟩
      · exact ⟨t, o, [], rfl, hv⟩
  rw [hleft, outputs_snoc, List.mem_append]
  by_cases he : e = .leave i
  · subst he
    simp only [step]
    cases hc : w.chan i with
    | fresh =>
      simp only [hc, (ht.fresh hc).1]
      have : ¬ (.ended i ∈ outputs t ∨ Left i t) := by
        rw [← h, hc]
        simp
      simpa using this
    | «open» q =>
      obtain ⟨v, hv, _⟩ := ht.used (by rw [hc]; simp)
      simp [close, set, hv]
    | over =>
      have := h.1 hc
      simp only [hc, true_iff]
      exact this.elim (fun hx => .inl (.inl hx)) fun hx => .inr (.inl hx)
  · have hex : ∃ v, ∀ s, w.subs i = some s → s.verifier = v := by
      by_cases hf : w.chan i = .fresh
      · exact ⟨"", fun s hs => by rw [(ht.fresh hf).2.1] at hs; cases hs⟩
      · obtain ⟨v, _, hv, _⟩ := ht.used hf
        exact ⟨v, hv⟩
    obtain ⟨v, hv⟩ := hex
    have hk := step_kind (read := read) (limit := limit) hv e
    generalize step read limit w e = st at hk ⊢
    obtain ⟨w', o⟩ := st
    simp only [he, false_and, or_false] at hk ⊢
    have hq : (∀ x ∈ o, about i x = false) → .ended i ∉ o := fun hh => (not_about hh).1
    have key : (w'.chan i = .over ↔ w.chan i = .over ∨ .ended i ∈ o) := by
      cases hk with
      | quiet hc _ _ _ ho => simp [hc, hq ho]
      | opened u hf hc _ _ ho => simp [hc, hf, ho]
      | push m _ hc _ _ _ ho =>
        rw [hc]
        have := hq ho
        cases w.chan i with
        | fresh => simp [send, this]
        | «open» q =>
          obtain ⟨q', hq'⟩ := send_open (m := m) ⟨q, rfl⟩
          rw [hq']
          simp [this]
        | over => simp [send]
      | left _ _ _ he' _ _ => exact absurd he' he
      | yield p q r hw _ hc _ _ ho => simp [hc, hw, ho]
      | broke p q hw _ hc _ _ ho => simp [hc, ho]
      | done es q hw hc _ _ ho =>
        simp only [hc, ho, true_iff]
        right
        unfold lastOutputs
        split <;> simp
      | closed _ _ hc _ _ ho => simp [hc, ho]
    rw [key, h, or_right_comm]

/-- The last step. -/
theorem run_last (es : List Event) (e : Event) : run read limit {} (es ++ [e]) =
    ((step read limit (run read limit {} es).1 e).1,
      (run read limit {} es).2 ++ [(e, (step read limit (run read limit {} es).1 e).2)]) := by
  rw [run_append]
  rfl

theorem verifier_fresh {i : Id} {es : List Event} {v : String} (h : verifierOf i (run read limit {} es).2 = some v) :
    (run read limit {} es).1.chan i ≠ .fresh := by
  intro hf
  rw [((told_run i es).fresh hf).1] at h
  cases h

/-! ## C71 -/

/-- **C71.** A request of somebody who does not know the verifier that the subscription was opened with, that is for no
subscription at all, or whose path, body or header is wrong, is refused, and everything goes on as if it had never been
sent: whatever happens before and after. -/
theorem C71_forged (es fs : List Event) (r : Request)
    (h : ∀ v b, verifierOf r.path (run read limit {} es).2 = some v → ¬ Genuine v r.path r b) :
    ∃ o later, Refused o ∧
      (run read limit {} (es ++ fs)).2 = (run read limit {} es).2 ++ later ∧
      (run read limit {} (es ++ .request r :: fs)).2 = (run read limit {} es).2 ++ (.request r, o) :: later := by
  have key : ∃ n, (n = 400 ∨ n = 404) ∧ handle (run read limit {} es).1 r = ((run read limit {} es).1, n) := by
    have ht := told_run (read := read) (limit := limit) r.path es
    generalize run read limit {} es = x at h ht ⊢
    unfold handle
    split
    · exact ⟨400, .inl rfl, rfl⟩
    next hp =>
      split
      · exact ⟨400, .inl rfl, rfl⟩
      next b hb =>
        split
        · exact ⟨404, .inr rfl, rfl⟩
        next hi =>
          split
          · exact ⟨404, .inr rfl, rfl⟩
          next s hs =>
            split
            · exact ⟨400, .inl rfl, rfl⟩
            next hv =>
              exfalso
              have hp := Decidable.not_not.1 hp
              have hi := Decidable.not_not.1 hi
              have hv := Decidable.not_not.1 hv
              rw [hi] at hs
              have hf : x.1.chan r.path ≠ .fresh := by
                intro hf
                rw [(ht.fresh hf).2.1] at hs
                cases hs
              obtain ⟨v, h1, h2, _⟩ := ht.used hf
              exact h v b h1 ⟨hp, rfl, hb, hi, by rw [← hv, h2 s hs]⟩
  obtain ⟨n, hn, hh⟩ := key
  refine ⟨[.status n], (run read limit (run read limit {} es).1 fs).2, ?_, by rw [run_append], ?_⟩
  · rcases hn with rfl | rfl
    · exact .inl rfl
    · exact .inr rfl
  · rw [run_append]
    simp only [run, step, hh]

theorem mem_pushes {v : String} {i : Id} {t : Trace R} {p : String} (h : .next p ∈ pushes v i t) :
    ∃ r b, (.request r, [.status 204]) ∈ t ∧ Genuine v i r b ∧ b.action = .next ∧ b.payload = some p := by
  obtain ⟨⟨e, o⟩, hx, hm⟩ := List.mem_flatMap.1 h
  unfold pushed at hm
  split at hm
  next r heq =>
    simp only [Prod.mk.injEq] at heq
    obtain ⟨rfl, rfl⟩ := heq
    split at hm
    next b hb =>
      split at hm
      next hg =>
        refine ⟨r, b, hx, hg, ?_⟩
        unfold messageIn at hm
        split at hm
        next ha hp => exact ⟨ha, by simp only [List.mem_singleton, Message.next.injEq] at hm; rw [hp, hm]⟩
        next => simp at hm
        next => simp at hm
      next => simp at hm
    next => simp at hm
  next =>
    split at hm <;> simp at hm
  next => simp at hm

/-- **C71.** Each response that a subscription yields is the payload of a request that was sent for this subscription,
with the verifier it was opened with, and that was accepted. -/
theorem C71_answers (es : List Event) (i : Id) (v : String) (hv : verifierOf i (run read limit {} es).2 = some v) :
    ∀ a ∈ answers i (run read limit {} es).2, ∃ r b p, (.request r, [.status 204]) ∈ (run read limit {} es).2 ∧
      Genuine v i r b ∧ b.action = .next ∧ b.payload = some p ∧ read p = some a := by
  intro a ha
  obtain ⟨v', h1, _, kept, ps, rest, hsub, _, hk, hr, _⟩ := (told_run i es).used (verifier_fresh hv)
  rw [hv] at h1
  cases h1
  have : some a ∈ ps.map read := by
    rw [hr]
    exact List.mem_map_of_mem ha
  obtain ⟨p, hp, hpa⟩ := List.mem_map.1 this
  have : Message.next p ∈ pushes v i (run read limit {} es).2 :=
    hsub.subset (by rw [hk]; exact List.mem_append.2 (.inl (List.mem_map_of_mem hp)))
  obtain ⟨r, b, h1, h2, h3, h4⟩ := mem_pushes this
  exact ⟨r, b, p, h1, h2, h3, h4, hpa⟩

/-! ## C72 -/

/-- **C72, order.** A subscription yields what it was sent in the order in which it was sent, nothing twice. -/
theorem C72_order (es : List Event) (i : Id) (v : String) (hv : verifierOf i (run read limit {} es).2 = some v) :
    ∃ ps : List String, (ps.map .next).Sublist (pushes v i (run read limit {} es).2) ∧
      ps.map read = (answers i (run read limit {} es).2).map some := by
  obtain ⟨v', h1, _, kept, ps, rest, hsub, _, hk, hr, _⟩ := (told_run i es).used (verifier_fresh hv)
  rw [hv] at h1
  cases h1
  refine ⟨ps, List.Sublist.trans ?_ hsub, hr⟩
  rw [hk]
  exact List.sublist_append_left ..

/-- **C72, partial.** As long as no more than 16 messages wait for the reader, the subscription yields everything it was
sent, in order, up to the first payload that cannot be read or the first message that ends it; when it has ended, it was
for one of these, whose errors it has told, or it has yielded all and there is no longer an entry that could get more.
What is missing: more than 16, see `C72_slow_refuted` and `C72_errors_refuted`. -/
theorem C72_all_partial (es : List Event) (i : Id) (v : String) (hv : verifierOf i (run read limit {} es).2 = some v)
    (hr : Roomy v i (run read limit {} es).2) :
    ∃ (ps : List String) (rest : List Message), pushes v i (run read limit {} es).2 = ps.map .next ++ rest ∧
      ps.map read = (answers i (run read limit {} es).2).map some ∧
      (.ended i ∈ outputs (run read limit {} es).2 → EndsAt read i (outputs (run read limit {} es).2) rest) := by
  obtain ⟨v', h1, _, kept, ps, rest, _, hall, hk, hr', _, hend⟩ := (told_run i es).used (verifier_fresh hv)
  rw [hv] at h1
  cases h1
  refine ⟨ps, rest, by rw [← hall hr, hk], hr', fun he => (hend ?_ he).1⟩
  exact (over_run i es).2 (.inl he)

/-- What a poll must yield if these messages wait. -/
def Yields (read : String → Option R) (i : Id) (o : List (Output R)) : List Message → Prop
  | [] => o = [] ∨ o = [.ended i]
  | .next p :: _ => (∃ r, read p = some r ∧ o = [.answer i r]) ∨ read p = none ∧ o = [.failed i, .ended i]
  | .complete (some (e :: l)) :: _ => o = [.errors i (e :: l), .ended i]
  | .complete _ :: _ => o = [.ended i]

/-- **C72, progress.** A reader that polls a stream that goes on gets the first message it has not got: nothing that is
waiting is held back. -/
theorem C72_progress (es : List Event) (i : Id) (v : String) (hv : verifierOf i (run read limit {} es).2 = some v)
    (hr : Roomy v i (run read limit {} es).2) (he : .ended i ∉ outputs (run read limit {} es).2)
    (hl : ¬ Left i (run read limit {} es).2) :
    ∃ (ps : List String) (rest : List Message) (o : List (Output R)), pushes v i (run read limit {} es).2 = ps.map .next ++ rest ∧
      ps.map read = (answers i (run read limit {} es).2).map some ∧
      (run read limit {} (es ++ [.recv i])).2 = (run read limit {} es).2 ++ [(.recv i, o)] ∧ Yields read i o rest := by
  obtain ⟨v', h1, _, kept, ps, rest, _, hall, hk, hr', hopen, _⟩ := (told_run i es).used (verifier_fresh hv)
  rw [hv] at h1
  cases h1
  refine ⟨ps, rest, _, by rw [← hall hr, hk], hr', by rw [run_last], ?_⟩
  have ho : ∃ q, (run read limit {} es).1.chan i = .open q := by
    have h1 := verifier_fresh hv
    have h2 : (run read limit {} es).1.chan i ≠ .over := by
      rw [Ne, over_run]
      exact not_or.2 ⟨he, hl⟩
    cases hc : (run read limit {} es).1.chan i with
    | fresh => exact absurd hc h1
    | «open» q => exact ⟨q, rfl⟩
    | over => exact absurd hc h2
  obtain ⟨q, hq⟩ := ho
  rw [(hopen q hq).1]
  simp only [step, recv, hq]
  cases q with
  | nil =>
    simp only [Yields]
    cases (run read limit {} es).1.subs i <;> simp
  | cons m q =>
    cases m with
    | next p =>
      simp only [Yields]
      cases read p <;> simp
    | complete es => rcases es with _ | _ | ⟨e, l⟩ <;> rfl

/-! ## C73 -/

/-- **C73.** As long as a stream goes on and nobody has ended its subscription, checks and responses that are sent for
it with its verifier are accepted. -/
theorem C73_accepted (es : List Event) (i : Id) (v : String) (hv : verifierOf i (run read limit {} es).2 = some v)
    (he : .ended i ∉ outputs (run read limit {} es).2) (hl : ¬ Left i (run read limit {} es).2)
    (hc : ∀ e, .complete e ∉ pushes v i (run read limit {} es).2)
    (r : Request) (b : Body) (hg : Genuine v i r b) (hb : b.action = .next → b.payload ≠ none) :
    (run read limit {} (es ++ [.request r])).2 = (run read limit {} es).2 ++ [(.request r, [.status 204])] := by
  obtain ⟨v', h1, hver, _⟩ := (told_run i es).used (verifier_fresh hv)
  rw [hv] at h1
  cases h1
  have ho : ∃ q, (run read limit {} es).1.chan i = .open q := by
    have h1 := verifier_fresh hv
    have h2 : (run read limit {} es).1.chan i ≠ .over := by
      rw [Ne, over_run]
      exact not_or.2 ⟨he, hl⟩
    cases hc : (run read limit {} es).1.chan i with
    | fresh => exact absurd hc h1
    | «open» q => exact ⟨q, rfl⟩
    | over => exact absurd hc h2
  obtain ⟨q, hq⟩ := ho
  obtain ⟨hs, _⟩ := (kept_run i es).there q v hq hv hc
  obtain ⟨s, hs⟩ := Option.ne_none_iff_exists'.1 hs
  obtain ⟨g1, g2, g3, g4, g5⟩ := hg
  have hsv := hver s hs
  rw [run_last]
  have : (handle (run read limit {} es).1 r).2 = 204 := by
    unfold handle
    rw [if_neg (fun hn => hn g1), g3]
    simp only
    rw [if_neg (fun hn => hn (by rw [g4, g2])), g4, hs]
    simp only
    rw [if_neg (fun hn => hn (by rw [hsv, g5]))]
    cases ha : b.action with
    | check => rfl
    | complete => rfl
    | next =>
      obtain ⟨p, hp⟩ := Option.ne_none_iff_exists'.1 (hb ha)
      simp only [handleNext, hp, g4, hq]
  simp only [step, this]

/-- **C73.** Once a stream has ended or its reader has left, and who was about to remove its entry has done so, there is
no entry, and whatever is sent for it is refused, for ever. -/
theorem C73_gone (es fs : List Event) (i : Id)
    (h : .ended i ∈ outputs (run read limit {} es).2 ∨ Left i (run read limit {} es).2) :
    ∃ later, (run read limit {} (es ++ .remove i :: fs)).2 = (run read limit {} es).2 ++ (.remove i, []) :: later ∧
      (run read limit {} (es ++ .remove i :: fs)).1.subs i = none ∧
      ∀ r o, (.request r, o) ∈ later → r.path = i → Refused o := by
  have hc := (over_run (read := read) (limit := limit) i es).2 h
  have hleak := noLeak_run (read := read) (limit := limit) es i
  rw [run_append]
  generalize run read limit {} es = x at hc hleak ⊢
  have key : (step read limit x.1 (.remove i)).2 = [] ∧ (step read limit x.1 (.remove i)).1.chan i ≠ .fresh ∧
      (step read limit x.1 (.remove i)).1.subs i = none := by
    simp only [step]
    split
    next => exact ⟨rfl, by rw [hc]; simp, set_same ..⟩
    next hn =>
      refine ⟨rfl, by rw [hc]; simp, ?_⟩
      refine Decidable.byContradiction fun hs => ?_
      rcases hleak hs with ⟨q, hq⟩ | hm
      · rw [hc] at hq
        cases hq
      · exact hn hm
  obtain ⟨k1, k2, k3⟩ := key
  obtain ⟨g1, g2⟩ := gone_run (read := read) (limit := limit) fs k2 k3
  refine ⟨_, ?_, g1, g2⟩
  simp only [run, k1]

/-! ## C74 -/

/-- **C74, partial.** The router terminates a subscription only if, when it looked, neither had the subscription been
opened nor had a check for it been accepted within the limit. What is missing: it does not look again,
see `C74_late_refuted`. -/
theorem C74_silent_partial (es : List Event) (i : Id)
    (h : (run read limit {} (es ++ [.evict i])).2 = (run read limit {} es).2 ++ [(.evict i, [.evicted i])]) :
    ∃ v a o b, (run read limit {} es).2 = a ++ (.look i, o) :: b ∧ verifierOf i a = some v ∧ Silent v i limit a := by
  rw [run_last] at h
  simp only [List.append_cancel_left_eq, List.cons.injEq, Prod.mk.injEq, true_and, and_true] at h
  have hm : i ∈ (run read limit {} es).1.marked := by
    refine Decidable.byContradiction fun hn => ?_
    simp [step, hn] at h
  obtain ⟨v, a, o, b, h1, h2, h3⟩ := (beats_run i es).2.marks hm
  exact ⟨v, a, o, b, h2, h1, h3⟩

/-- A mark stays until it is acted on. -/
theorem marked_step {w : World} {i : Id} {e : Event} (h : i ∈ w.marked) (he : e ≠ .evict i) :
    i ∈ (step read limit w e).1.marked := by
  have hh : ∀ r, (handle w r).1.marked = w.marked := by
    intro r
    unfold handle
    repeat' split
    all_goals first | rfl | skip
    unfold handleNext
    repeat' split
    all_goals rfl
  cases e with
  | subscribe j u =>
    simp only [step]
    split <;> exact h
  | request r =>
    simp only [step, hh]
    exact h
  | remove j =>
    simp only [step]
    split <;> exact h
  | recv j =>
    simp only [step]
    rcases recv_cases (read := read) w j with e | ⟨_, e | ⟨q, e⟩⟩ <;> rw [e] <;> exact h
  | leave j =>
    simp only [step]
    split <;> exact h
  | tick n => exact h
  | look j =>
    simp only [step]
    split
    · split
      · exact List.mem_append.2 (.inl h)
      · exact h
    · exact h
  | evict j =>
    have hij : i ≠ j := fun hh => he (by rw [hh])
    simp only [step]
    split
    · split <;> exact (List.mem_erase_of_ne hij).2 h
    · exact h

/-- Acting on a mark removes the entry. -/
theorem evict_gone {w : World} {i : Id} (h : i ∈ w.marked) : (step read limit w (.evict i)).1.subs i = none := by
  simp only [step, if_pos h]
  split
  · exact set_same ..
  next hn => exact hn

theorem marked_run {i : Id} : ∀ (fs : List Event) {w : World}, w.chan i ≠ .fresh → i ∈ w.marked →
    (step read limit (run read limit w fs).1 (.evict i)).1.subs i = none ∧ (run read limit w fs).1.chan i ≠ .fresh
  | [], _, hf, hm => ⟨evict_gone hm, hf⟩
  | e :: fs, w, hf, hm => by
    have hf' : (step read limit w e).1.chan i ≠ .fresh := by
      cases hs : w.subs i with
      | none => exact (gone_step hf hs e).1
      | some s =>
        have hk := step_kind (read := read) (limit := limit) (i := i) (v := s.verifier)
          (fun s' hs' => by rw [hs] at hs'; cases hs'; rfl) e
        cases hk with
        | quiet hc _ _ _ _ => rw [hc]; exact hf
        | opened u hw => exact absurd hw hf
        | push m _ hc => rw [hc]; exact send_fresh hf
        | left q _ hc => rw [hc]; simp
        | yield p q r _ _ hc => rw [hc]; simp
        | broke p q _ _ hc => rw [hc]; simp
        | done es q _ hc => rw [hc]; simp
        | closed _ _ hc => rw [hc]; simp
    by_cases he : e = .evict i
    · subst he
      obtain ⟨g1, g2⟩ : (run read limit (step read limit w (.evict i)).1 fs).1.subs i = none ∧
          (run read limit (step read limit w (.evict i)).1 fs).1.chan i ≠ .fresh := by
        have hn := evict_gone (read := read) (limit := limit) hm
        generalize (step read limit w (.evict i)).1 = w' at hf' hn
        clear hf hm
        induction fs generalizing w' with
        | nil => exact ⟨hn, hf'⟩
        | cons f fs ih =>
          obtain ⟨a, b⟩ := gone_step (read := read) (limit := limit) hf' hn f
          exact ih _ a b
      exact ⟨(gone_step g2 g1 _).2, g2⟩
    · exact marked_run fs hf' (marked_step hm he)

/-- **C74, progress.** If the router looks at a subscription that has shown no sign of life within the limit, then, once
it acts on what it saw, whatever happened in between, the subscription has no entry, and all that is sent for it is
refused from then on. -/
theorem C74_terminated (es fs gs : List Event) (i : Id) (v : String)
    (hv : verifierOf i (run read limit {} es).2 = some v) (hs : Silent v i limit (run read limit {} es).2) :
    ∃ now later, (run read limit {} (es ++ .look i :: fs ++ .evict i :: gs)).2 = now ++ later ∧
      now.length = es.length + fs.length + 2 ∧
      (run read limit {} (es ++ .look i :: fs ++ .evict i :: gs)).1.subs i = none ∧
      ∀ r o, (.request r, o) ∈ later → r.path = i → Refused o := by
  have hlen : ∀ (l : List Event) (w : World), (run read limit w l).2.length = l.length := by
    intro l
    induction l with
    | nil => exact fun _ => rfl
    | cons e l ih => exact fun w => by simp only [run, List.length_cons, ih]
  obtain ⟨ht, hb⟩ := beats_run (read := read) (limit := limit) i es
  have hf := verifier_fresh hv
  have key : ∀ w : World, w = (run read limit {} (es ++ .look i :: fs)).1 →
      (step read limit w (.evict i)).1.subs i = none ∧ w.chan i ≠ .fresh := by
    intro w hw
    rw [run_append] at hw
    simp only [run] at hw
    subst hw
    cases hsub : (run read limit {} es).1.subs i with
    | none =>
      have hst : step read limit (run read limit {} es).1 (.look i) = ((run read limit {} es).1, []) := by
        simp only [step, hsub]
      rw [hst]
      obtain ⟨g1, g2⟩ : (run read limit (run read limit {} es).1 fs).1.subs i = none ∧
          (run read limit (run read limit {} es).1 fs).1.chan i ≠ .fresh := by
        generalize (run read limit {} es).1 = w at hsub hf
        clear hst hs hv ht hb
        induction fs generalizing w with
        | nil => exact ⟨hsub, hf⟩
        | cons f fs ih =>
          obtain ⟨a, b⟩ := gone_step (read := read) (limit := limit) hf hsub f
          exact ih _ b a
      exact ⟨(gone_step g2 g1 _).2, g2⟩
    | some s =>
      obtain ⟨_, a, x, b, h1, h2, h3⟩ := hb.last v s hv hsub
      have hq : silent limit (run read limit {} es).1.now s = true := by
        rw [silent_last, hb.now, ← h3]
        exact hs a x b h1 h2
      have hst : step read limit (run read limit {} es).1 (.look i) =
          ({ (run read limit {} es).1 with marked := (run read limit {} es).1.marked ++ [i] }, []) := by
        simp only [step, hsub, hq, if_true]
      rw [hst]
      exact marked_run fs hf (by simp)
  obtain ⟨k1, k2⟩ := key _ rfl
  have k3 := (gone_step (read := read) (limit := limit) (i := i) (w := (run read limit {} (es ++ .look i :: fs)).1))
  rw [run_append]
  have k4 : (step read limit (run read limit {} (es ++ .look i :: fs)).1 (.evict i)).1.chan i ≠ .fresh := by
    have := (told_run (read := read) (limit := limit) i (es ++ .look i :: fs ++ [.evict i])).fresh
    rw [run_last] at this
    intro hc
    have h1 := (this hc).1
    rw [run_append, verifierOf_append, verifierOf_append, hv] at h1
    cases h1
  obtain ⟨g1, g2⟩ := gone_run (read := read) (limit := limit) gs k4 k1
  refine ⟨(run read limit {} (es ++ .look i :: fs)).2 ++ [(.evict i, (step read limit (run read limit {} (es ++ .look i :: fs)).1 (.evict i)).2)],
    _, ?_, ?_, g1, g2⟩
  · simp only [run, List.append_assoc, List.singleton_append]
  · simp only [List.length_append, hlen, List.length_cons, List.length_nil]
    omega

end

/-! ## Where the code does not have the property, and cases that meet the hypotheses -/

/-- A subscription with one event. -/
def one (a : Action) (p : String) (errors : Option (List String) := none) : Event :=
  .request ⟨some "callback/1.0", "a", some { action := a, id := "a", verifier := "v", payload := some p, errors := errors }⟩

/-- The run of a subscription to which events are sent faster than they are read. -/
def slow (n : Nat) (errors : Option (List String)) : List Event :=
  .subscribe "a" "v" :: (List.range n).map (fun k => one .next (toString k)) ++ [one .complete "" errors, .remove "a"] ++
    List.replicate (n + 1) (.recv "a")

theorem ps_unique {t : Trace String} {i : Id} {ps : List String} (h : ps.map some = (answers i t).map some) :
    ps = answers i t := by
  have := congrArg (List.filterMap id) h
  simpa [List.filterMap_map] using this

/-- The full statement of C72 does not hold: the errors that end a subscription are lost if 16 messages wait, although
they were accepted; its stream ends as if all were well. -/
theorem C72_errors_refuted : ¬ ∀ (es : List Event) (i : Id) (v : String),
    verifierOf i (run some 31000 {} es).2 = some v → .ended i ∈ outputs (run some 31000 {} es).2 →
    ∃ (ps : List String) (rest : List Message), pushes v i (run some 31000 {} es).2 = ps.map .next ++ rest ∧
      ps.map some = (answers i (run some 31000 {} es).2).map some ∧ EndsAt some i (outputs (run some 31000 {} es).2) rest := by
  intro h
  obtain ⟨ps, rest, h1, h2, h3⟩ := h (slow 16 (some ["broken"])) "a" "v" (by decide +kernel) (by decide +kernel)
  rw [ps_unique h2] at h1
  have hp : pushes "v" "a" (run some 31000 {} (slow 16 (some ["broken"]))).2 =
      (answers "a" (run some 31000 {} (slow 16 (some ["broken"]))).2).map .next ++ [.complete (some ["broken"])] := by
    decide +kernel
  rw [hp, List.append_cancel_left_eq] at h1
  subst h1
  have := (h3.2 "broken" []).2 rfl
  revert this
  decide +kernel

/-- The full statement of C72 does not hold: an event is lost if 16 messages wait, although it was accepted. -/
theorem C72_slow_refuted : ∃ (es : List Event) (p : String), .next p ∈ pushes "v" "a" (run some 31000 {} es).2 ∧
    .ended "a" ∈ outputs (run some 31000 {} es).2 ∧ .failed "a" ∉ outputs (run some 31000 {} es).2 ∧
    p ∉ answers "a" (run some 31000 {} es).2 := by
  exact ⟨slow 17 none, "16", by decide +kernel, by decide +kernel, by decide +kernel, by decide +kernel⟩

/-- Read or write events of a subscription in turns. -/
def steady (n : Nat) : List Event :=
  .subscribe "a" "v" :: (List.range n).flatMap (fun k => [one .next (toString k), .recv "a"]) ++
    [one .complete "" (some ["broken"]), .recv "a"]

/-- The hypothesis of `C72_all_partial` can be checked. -/
theorem roomy_iff {R : Type} {v : String} {i : Id} {t : Trace R} : Roomy v i t ↔
    ∀ n ∈ List.range (t.length + 1), (pushes v i (t.take n)).length ≤ (answers i (t.take n)).length + 16 := by
  constructor
  · exact fun h n _ => h _ _ (List.take_append_drop n t).symm
  · rintro h a b rfl
    have := h a.length (by simp; omega)
    simpa using this

theorem not_left {R : Type} {i : Id} {t : Trace R} (h : ∀ x ∈ t, x.1 ≠ .leave i) : ¬ Left i t := by
  rintro ⟨a, o, b, rfl, _⟩
  exact h (.leave i, o) (by simp) rfl

-- C71: a forged request, with another verifier, between two that are not.
example : ∃ r : Request, r.path = "a" ∧ r.protocol = some "callback/1.0" ∧ r.body ≠ none ∧
    verifierOf "a" (run some 31000 {} (steady 2)).2 = some "v" ∧
    ∀ v b, verifierOf r.path (run some 31000 {} (steady 2)).2 = some v → ¬ Genuine v r.path r b := by
  refine ⟨⟨some "callback/1.0", "a", some { action := .next, id := "a", verifier := "w", payload := some "x" }⟩, rfl, rfl,
    by simp, by decide +kernel, fun v b hv hg => ?_⟩
  have : verifierOf "a" (run some 31000 {} (steady 2)).2 = some "v" := by decide +kernel
  rw [this] at hv
  cases hv
  have h3 := hg.2.2.1
  simp only [Option.some.injEq] at h3
  have h5 := hg.2.2.2.2
  rw [← h3] at h5
  revert h5
  decide

-- C71 and C72: thirty events are yielded, which is more than the buffer has room for, and then the errors.
example : verifierOf "a" (run some 31000 {} (steady 30)).2 = some "v" ∧ Roomy "v" "a" (run some 31000 {} (steady 30)).2 ∧
    answers "a" (run some 31000 {} (steady 30)).2 = (List.range 30).map toString ∧
    .errors "a" ["broken"] ∈ outputs (run some 31000 {} (steady 30)).2 ∧
    .ended "a" ∈ outputs (run some 31000 {} (steady 30)).2 := by
  rw [roomy_iff]
  decide +kernel

-- C72 and C73: a stream that goes on.
example : verifierOf "a" (run some 31000 {} [.subscribe "a" "v", one .next "x", one .next "y"]).2 = some "v" ∧
    .ended "a" ∉ outputs (run some 31000 {} [.subscribe "a" "v", one .next "x", one .next "y"]).2 ∧
    Roomy "v" "a" (run some 31000 {} [.subscribe "a" "v", one .next "x", one .next "y"]).2 ∧
    pushes "v" "a" (run some 31000 {} [.subscribe "a" "v", one .next "x", one .next "y"]).2 = [.next "x", .next "y"] ∧
    ¬ Left "a" (run some 31000 {} [.subscribe "a" "v", one .next "x", one .next "y"]).2 := by
  exact ⟨by decide +kernel, by decide +kernel, by rw [roomy_iff]; decide +kernel, by decide +kernel,
    not_left (by decide +kernel)⟩

-- C73: a stream that has ended, and one whose reader has left.
example : .ended "a" ∈ outputs (run some 31000 {} (steady 2)).2 := by decide +kernel

example : Left "a" (run some 31000 {} [.subscribe "a" "v", one .next "x", .leave "a"]).2 :=
  ⟨(run some 31000 {} [.subscribe "a" "v", one .next "x"]).2, [], [], by decide +kernel, by decide +kernel⟩

/-- Whether a subscription is silent can be checked. -/
theorem silent_iff {R : Type} {v : String} {i : Id} {limit : Nat} {t : Trace R} : Silent v i limit t ↔
    ∀ n ∈ List.range t.length, ((t[n]?).map (sign v i)).getD false = true → limit < clock t - clock (t.take n) := by
  constructor
  · intro h n hn hs
    have hn : n < t.length := by simpa using hn
    rw [List.getElem?_eq_getElem hn] at hs
    refine h (t.take n) t[n] (t.drop (n + 1)) ?_ (by simpa using hs)
    rw [List.getElem_cons_drop, List.take_append_drop]
  · rintro h a x b rfl hx
    have := h a.length (by simp)
    simpa [hx] using this

/-- A subscription that shows signs of life twice and then none. -/
def dying : List Event := [.subscribe "a" "v", .tick 30000, one .check "", .tick 31001]

-- C74: the router terminates the subscription, and its reader is told.
example : verifierOf "a" (run some 31000 {} dying).2 = some "v" ∧ Silent "v" "a" 31000 (run some 31000 {} dying).2 ∧
    ¬ Silent "v" "a" 31000 (run some 31000 {} (dying.take 3 ++ [.tick 31000])).2 ∧
    (run some 31000 {} (dying ++ [.look "a"] ++ [.evict "a"])).2 =
      (run some 31000 {} (dying ++ [.look "a"])).2 ++ [(.evict "a", [.evicted "a"])] ∧
    .errors "a" [gone] ∈ outputs (run some 31000 {} (dying ++ [.look "a", .evict "a", .recv "a"])).2 := by
  rw [silent_iff, silent_iff]
  decide +kernel

/-- The full statement of C74 does not hold: a check that is accepted after the router has looked and before it acts is
not seen, and the subscription is terminated at the very moment at which the subgraph was told that all is well. -/
theorem C74_late_refuted : ¬ ∀ (es : List Event) (i : Id) (v : String), verifierOf i (run some 31000 {} es).2 = some v →
    (run some 31000 {} (es ++ [.evict i])).2 = (run some 31000 {} es).2 ++ [(.evict i, [.evicted i])] →
    Silent v i 31000 (run some 31000 {} es).2 := by
  intro h
  have := h (dying ++ [.look "a", one .check ""]) "a" "v" (by decide +kernel) (by decide +kernel)
  rw [silent_iff] at this
  revert this
  decide +kernel

end Verif.Callback
