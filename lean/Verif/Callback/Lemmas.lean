import Verif.Callback.Spec

/-!
# Lemmas about callbacks
-/

namespace Verif.Callback

section
variable {R : Type} {read : String → Option R} {limit : Nat}

theorem set_same {α : Type} (f : Id → α) (i : Id) (a : α) : set f i a i = a := by simp [set]

theorem set_other {α : Type} {f : Id → α} {i j : Id} {a : α} (h : j ≠ i) : set f i a j = f j := by simp [set, h]

/-- Outputs that belong to the stream of a subscription. -/
def about (i : Id) : Output R → Bool
  | .answer j _ => decide (j = i)
  | .failed j => decide (j = i)
  | .errors j _ => decide (j = i)
  | .ended j => decide (j = i)
  | _ => false

/-- What is put out for the last message. -/
def lastOutputs (i : Id) (es : Option (List String)) : List (Output R) :=
  match es with
  | none => [.ended i]
  | some [] => [.ended i]
  | some (e :: es) => [.errors i (e :: es), .ended i]

/-- All that a step can do to a subscription. -/
inductive Kind (read : String → Option R) (v : String) (i : Id) (w w' : World) (e : Event) (o : List (Output R)) : Prop
  | quiet (hc : w'.chan i = w.chan i) (hv : verifierOf i [(e, o)] = none)
      (hs : ∀ s', w'.subs i = some s' → ∃ s, w.subs i = some s ∧ s'.verifier = s.verifier)
      (hp : pushed v i (e, o) = []) (ho : ∀ x ∈ o, about i x = false)
  | opened (u : String) (hf : w.chan i = .fresh) (hc : w'.chan i = .open []) (he : e = .subscribe i u)
      (hs : w'.subs i = some { verifier := u, created := w.now }) (ho : o = [.opened i])
  | push (m : Message) (hw : w.subs i ≠ none) (hc : w'.chan i = send (w.chan i) m) (hv : verifierOf i [(e, o)] = none)
      (hs : ∀ s', w'.subs i = some s' → ∃ s, w.subs i = some s ∧ s'.verifier = s.verifier)
      (hp : pushed v i (e, o) = [m]) (ho : ∀ x ∈ o, about i x = false)
  | left (q : List Message) (hw : w.chan i = .open q) (hc : w'.chan i = .over) (he : e = .leave i)
      (hs : w'.subs i = w.subs i) (ho : o = [])
  | yield (p : String) (q : List Message) (r : R) (hw : w.chan i = .open (.next p :: q)) (hr : read p = some r)
      (hc : w'.chan i = .open q) (he : e = .recv i) (hs : w'.subs i = w.subs i) (ho : o = [.answer i r])
  | broke (p : String) (q : List Message) (hw : w.chan i = .open (.next p :: q)) (hr : read p = none)
      (hc : w'.chan i = .over) (he : e = .recv i) (hs : w'.subs i = w.subs i) (ho : o = [.failed i, .ended i])
  | done (es : Option (List String)) (q : List Message) (hw : w.chan i = .open (.complete es :: q))
      (hc : w'.chan i = .over) (he : e = .recv i) (hs : w'.subs i = w.subs i) (ho : o = lastOutputs i es)
  | closed (hw : w.chan i = .open []) (hn : w.subs i = none)
      (hc : w'.chan i = .over) (he : e = .recv i) (hs : w'.subs i = w.subs i) (ho : o = [.ended i])

/-- A request that is not answered with 204 changes nothing that can be seen. -/
theorem handle_cases (w : World) (r : Request) :
    ((handle w r).1.chan = w.chan ∧ (handle w r).1.subs = w.subs ∧ (handle w r).2 ≠ 204) ∨
    ∃ b s, Genuine s.verifier r.path r b ∧ w.subs r.path = some s ∧ (handle w r).2 = 204 ∧
      ((b.action = .check ∧ (handle w r).1.chan = w.chan ∧
          (handle w r).1.subs = set w.subs r.path (some { s with beat := some w.now })) ∨
        ∃ m, messageIn b = [m] ∧ (handle w r).1.subs = w.subs ∧
          (handle w r).1.chan = set w.chan r.path (send (w.chan r.path) m)) := by
  unfold handle
  split
  · exact .inl ⟨rfl, rfl, by simp⟩
  next hp =>
    split
    · exact .inl ⟨rfl, rfl, by simp⟩
    next b hb =>
      split
      · exact .inl ⟨rfl, rfl, by simp⟩
      next hi =>
        split
        · exact .inl ⟨rfl, rfl, by simp⟩
        next s hs =>
          split
          · exact .inl ⟨rfl, rfl, by simp⟩
          next hv =>
            have hp := Decidable.not_not.1 hp
            have hi := Decidable.not_not.1 hi
            have hv := Decidable.not_not.1 hv
            have hg : Genuine s.verifier r.path r b := ⟨hp, rfl, hb, hi, hv.symm⟩
            rw [hi] at hs
            cases ha : b.action with
            | check =>
              refine .inr ⟨b, s, hg, hs, rfl, .inl ⟨ha, rfl, ?_⟩⟩
              rw [hi]
            | next =>
              simp only [handleNext]
              cases hpl : b.payload with
              | none => exact .inl ⟨rfl, rfl, by simp⟩
              | some p =>
                simp only
                cases hc : w.chan b.id with
                | «open» q =>
                  refine .inr ⟨b, s, hg, hs, rfl, .inr ⟨.next p, by simp [messageIn, ha, hpl], rfl, ?_⟩⟩
                  simp only
                  rw [← hi, hc]
                | fresh => exact .inl ⟨rfl, rfl, by simp⟩
                | over => exact .inl ⟨rfl, rfl, by simp⟩
            | complete =>
              refine .inr ⟨b, s, hg, hs, rfl, .inr ⟨.complete b.errors, by simp [messageIn, ha], rfl, ?_⟩⟩
              simp only [handleComplete]
              rw [hi]

theorem pushed_status {v : String} {i : Id} {r : Request} {n : Nat} (h : n ≠ 204) :
    pushed v i ((.request r, [.status n]) : Event × List (Output R)) = [] := by
  unfold pushed
  split
  next h' => simp only [Prod.mk.injEq, List.cons.injEq, Output.status.injEq] at h'; exact absurd h'.2.1 h
  next h' => simp at h'
  next => rfl

theorem pushed_genuine {v : String} {i : Id} {r : Request} {b : Body} (h : Genuine v r.path r b) (hi : i = r.path) :
    pushed v i ((.request r, [.status 204]) : Event × List (Output R)) = messageIn b := by
  subst hi
  simp only [pushed, h.2.2.1, if_pos h]

theorem pushed_other {v : String} {i : Id} {r : Request} (h : i ≠ r.path) :
    pushed v i ((.request r, [.status 204]) : Event × List (Output R)) = [] := by
  simp only [pushed]
  cases r.body with
  | none => rfl
  | some b =>
    simp only
    rw [if_neg]
    rintro ⟨_, hp, _⟩
    exact h hp.symm

theorem messageIn_check {b : Body} (h : b.action = .check) : messageIn b = [] := by simp [messageIn, h]

/-- Every step is of one of these kinds. -/
theorem step_kind {v : String} {i : Id} {w : World} (hv : ∀ s, w.subs i = some s → s.verifier = v) (e : Event) :
    Kind read v i w (step read limit w e).1 e (step read limit w e).2 := by
  cases e with
  | subscribe j u =>
    simp only [step]
    cases hc : w.chan j with
    | fresh =>
      by_cases hj : i = j
      · subst hj
        exact .opened u hc (set_same ..) rfl (set_same ..) rfl
      · refine .quiet (set_other hj) ?_ ?_ rfl (by simp [about])
        · simp [verifierOf, verifierIn, Ne.symm hj]
        · intro s' hs'
          simp only [set_other hj] at hs'
          exact ⟨s', hs', rfl⟩
    | «open» q => exact .quiet rfl rfl (fun s' h => ⟨s', h, rfl⟩) rfl (by simp)
    | over => exact .quiet rfl rfl (fun s' h => ⟨s', h, rfl⟩) rfl (by simp)
  | request r =>
    simp only [step]
    rcases handle_cases w r with ⟨h1, h2, h3⟩ | ⟨b, s, hg, hs, h204, h⟩
    · refine .quiet (by rw [h1]) rfl (fun s' h => ⟨s', by rw [← h2]; exact h, rfl⟩) (pushed_status h3) (by simp [about])
    · rw [h204]
      rcases h with ⟨ha, h1, h2⟩ | ⟨m, hm, h1, h2⟩
      · refine .quiet (by rw [h1]) rfl ?_ ?_ (by simp [about])
        · intro s' hs'
          rw [h2] at hs'
          by_cases hi : i = r.path
          · rw [hi, set_same] at hs'
            cases hs'
            exact ⟨s, by rw [hi]; exact hs, rfl⟩
          · rw [set_other hi] at hs'
            exact ⟨s', hs', rfl⟩
        · by_cases hi : i = r.path
          · have := hv s (by rw [hi]; exact hs)
            subst this
            rw [pushed_genuine hg hi, messageIn_check ha]
          · exact pushed_other hi
      · by_cases hi : i = r.path
        · have hvs := hv s (by rw [hi]; exact hs)
          subst hvs
          refine .push m ?_ ?_ rfl ?_ ?_ (by simp [about])
          · rw [hi, hs]
            simp
          · rw [h2, hi, set_same]
          · intro s' hs'
            rw [h1] at hs'
            exact ⟨s', hs', rfl⟩
          · rw [pushed_genuine hg hi, hm]
        · refine .quiet (by rw [h2, set_other hi]) rfl (fun s' h => ⟨s', by rw [← h1]; exact h, rfl⟩)
            (pushed_other hi) (by simp [about])
  | remove j =>
    simp only [step]
    split
    · refine .quiet rfl rfl ?_ rfl (by simp)
      intro s' hs'
      simp only at hs'
      by_cases hi : i = j
      · rw [hi, set_same] at hs'
        cases hs'
      · rw [set_other hi] at hs'
        exact ⟨s', hs', rfl⟩
    · exact .quiet rfl rfl (fun s' h => ⟨s', h, rfl⟩) rfl (by simp)
  | recv j =>
    simp only [step]
    by_cases hi : i = j
    · subst hi
      simp only [recv]
      cases hc : w.chan i with
      | fresh => exact .quiet rfl rfl (fun s' h => ⟨s', h, rfl⟩) rfl (by simp)
      | over => exact .quiet rfl rfl (fun s' h => ⟨s', h, rfl⟩) rfl (by simp)
      | «open» q =>
        cases q with
        | nil =>
          simp only
          cases hs : w.subs i with
          | none => exact .closed hc hs (set_same ..) rfl rfl rfl
          | some s => exact .quiet rfl rfl (fun s' h => ⟨s', h, rfl⟩) rfl (by simp)
        | cons m q =>
          cases m with
          | next p =>
            simp only
            cases hr : read p with
            | none => exact .broke p q hc hr (set_same ..) rfl rfl rfl
            | some r => exact .yield p q r hc hr (set_same ..) rfl rfl rfl
          | complete es =>
            cases es with
            | none => exact .done none q hc (set_same ..) rfl rfl rfl
            | some es =>
              cases es with
              | nil => exact .done (some []) q hc (set_same ..) rfl rfl rfl
              | cons e es => exact .done (some (e :: es)) q hc (set_same ..) rfl rfl rfl
    · have hji : j ≠ i := Ne.symm hi
      have hq : (recv read w j).1.chan i = w.chan i ∧ (recv read w j).1.subs = w.subs ∧
          ∀ x ∈ (recv read w j).2, about i x = false := by
        unfold recv
        split
        · split
          · exact ⟨set_other hi, rfl, by simp [about, hji]⟩
          · exact ⟨set_other hi, rfl, by simp [about, hji]⟩
        · split <;> exact ⟨set_other hi, rfl, by simp [about, hji]⟩
        · split
          · exact ⟨set_other hi, rfl, by simp [about, hji]⟩
          · exact ⟨rfl, rfl, by simp⟩
        · exact ⟨rfl, rfl, by simp⟩
      exact .quiet hq.1 rfl (fun s' h => ⟨s', by rw [← hq.2.1]; exact h, rfl⟩) rfl hq.2.2
  | leave j =>
    simp only [step]
    cases hc : w.chan j with
    | «open» q =>
      by_cases hi : i = j
      · subst hi
        exact .left q hc (set_same ..) rfl rfl rfl
      · exact .quiet (set_other hi) rfl (fun s' h => ⟨s', h, rfl⟩) rfl (by simp)
    | fresh => exact .quiet rfl rfl (fun s' h => ⟨s', h, rfl⟩) rfl (by simp)
    | over => exact .quiet rfl rfl (fun s' h => ⟨s', h, rfl⟩) rfl (by simp)
  | tick n => exact .quiet rfl rfl (fun s' h => ⟨s', h, rfl⟩) rfl (by simp [step])
  | look j =>
    simp only [step]
    split
    · split <;> exact .quiet rfl rfl (fun s' h => ⟨s', h, rfl⟩) rfl (by simp)
    · exact .quiet rfl rfl (fun s' h => ⟨s', h, rfl⟩) rfl (by simp)
  | evict j =>
    simp only [step]
    split
    · cases hs : w.subs j with
      | none => exact .quiet rfl rfl (fun s' h => ⟨s', h, rfl⟩) rfl (by simp)
      | some s =>
        by_cases hi : i = j
        · subst hi
          refine .push (.complete (some [gone])) ?_ (set_same ..) rfl ?_ ?_ (by simp [about])
          · rw [hs]
            simp
          · intro s' hs'
            simp only [set_same] at hs'
            cases hs'
          · simp [pushed]
        · refine .quiet (set_other hi) rfl ?_ ?_ (by simp [about])
          · intro s' hs'
            simp only [set_other hi] at hs'
            exact ⟨s', hs', rfl⟩
          · simp [pushed, Ne.symm hi]
    · exact .quiet rfl rfl (fun s' h => ⟨s', h, rfl⟩) rfl (by simp)

/-! ## Traces -/

theorem run_snoc (w : World) (es : List Event) (e : Event) : run read limit w (es ++ [e]) =
    ((step read limit (run read limit w es).1 e).1,
      (run read limit w es).2 ++ [(e, (step read limit (run read limit w es).1 e).2)]) := by
  induction es generalizing w with
  | nil => simp [run]
  | cons x es ih => simp [run, ih]

theorem verifierOf_append (i : Id) (t s : Trace R) :
    verifierOf i (t ++ s) = (verifierOf i t).or (verifierOf i s) := by
  simp [verifierOf, List.findSome?_append]

theorem outputs_snoc (t : Trace R) (e : Event) (o : List (Output R)) : outputs (t ++ [(e, o)]) = outputs t ++ o := by
  simp [outputs]

theorem answers_snoc (i : Id) (t : Trace R) (e : Event) (o : List (Output R)) :
    answers i (t ++ [(e, o)]) = answers i t ++ o.filterMap (answerIn i) := by
  simp [answers, outputs_snoc]

theorem pushes_snoc (v : String) (i : Id) (t : Trace R) (x : Event × List (Output R)) :
    pushes v i (t ++ [x]) = pushes v i t ++ pushed v i x := by
  simp [pushes]

theorem Roomy.before {v : String} {i : Id} {t s : Trace R} (h : Roomy v i (t ++ s)) : Roomy v i t := by
  intro a b hab
  exact h a (b ++ s) (by rw [hab]; simp)

theorem answers_quiet {i : Id} {o : List (Output R)} (h : ∀ x ∈ o, about i x = false) : o.filterMap (answerIn i) = [] := by
  rw [List.filterMap_eq_nil_iff]
  intro x hx
  have := h x hx
  cases x <;> simp_all [about, answerIn]

end

end Verif.Callback
