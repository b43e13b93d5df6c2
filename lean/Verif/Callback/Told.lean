import Verif.Callback.Lemmas

/-!
# What subscriptions are told
-/

namespace Verif.Callback

section
variable {R : Type} {read : String → Option R} {limit : Nat}

/-- What is kept of the messages, and what has become of them. -/
def Fate (read : String → Option R) (v : String) (i : Id) (w : World) (t : Trace R) : Prop :=
  ∃ (kept : List Message) (ps : List String) (rest : List Message),
    kept.Sublist (pushes v i t) ∧ (Roomy v i t → kept = pushes v i t) ∧ kept = ps.map .next ++ rest ∧
    ps.map read = (answers i t).map some ∧
    (∀ q, w.chan i = .open q → rest = q ∧ .ended i ∉ outputs t ∧ .failed i ∉ outputs t ∧
      ∀ es, .errors i es ∉ outputs t) ∧
    (w.chan i = .over → .ended i ∈ outputs t → EndsAt read i (outputs t) rest ∧ (rest = [] → w.subs i = none))

/-- The state of a subscription agrees with what happened. -/
structure Told (read : String → Option R) (i : Id) (w : World) (t : Trace R) : Prop where
  fresh : w.chan i = .fresh → verifierOf i t = none ∧ w.subs i = none ∧ (∀ v, pushes v i t = []) ∧
    ∀ x ∈ outputs t, about i x = false
  used : w.chan i ≠ .fresh → ∃ v, verifierOf i t = some v ∧ (∀ s, w.subs i = some s → s.verifier = v) ∧
    Fate read v i w t

theorem send_fresh {c : Chan} {m : Message} (h : c ≠ .fresh) : send c m ≠ .fresh := by
  cases c with
  | fresh => exact absurd rfl h
  | «open» q =>
    simp only [send]
    split <;> simp
  | over => simp [send]

theorem not_about {i : Id} {o : List (Output R)} (h : ∀ x ∈ o, about i x = false) :
    .ended i ∉ o ∧ .failed i ∉ o ∧ ∀ es, .errors i es ∉ o :=
  ⟨fun hx => by simpa [about] using h _ hx, fun hx => by simpa [about] using h _ hx,
    fun es hx => by simpa [about] using h _ hx⟩

theorem EndsAt.quiet {i : Id} {a o : List (Output R)} (h : ∀ x ∈ o, about i x = false) {ms : List Message}
    (he : EndsAt read i a ms) : EndsAt read i (a ++ o) ms := by
  obtain ⟨_, h2, h3⟩ := not_about h
  cases ms with
  | nil => exact ⟨fun es hx => (List.mem_append.1 hx).elim (he.1 es) (h3 es), fun hx => (List.mem_append.1 hx).elim he.2 h2⟩
  | cons m ms =>
    cases m with
    | next p => exact ⟨he.1, List.mem_append.2 (.inl he.2)⟩
    | complete es =>
      refine ⟨fun hx => (List.mem_append.1 hx).elim he.1 h2, fun e l => ?_⟩
      rw [← he.2 e l, List.mem_append]
      exact ⟨fun hx => hx.elim id fun hx => absurd hx (h3 _), .inl⟩

theorem EndsAt.more {i : Id} {o : List (Output R)} {m : Message} {ms : List Message} (hne : ms ≠ [])
    (he : EndsAt read i o ms) : EndsAt read i o (ms ++ [m]) := by
  cases ms with
  | nil => exact absurd rfl hne
  | cons x ms => cases x <;> exact he

/-- Verifiers stay known. -/
theorem known_step {v : String} {i : Id} {w w' : World}
    (hv : ∀ s, w.subs i = some s → s.verifier = v)
    (hs : ∀ s', w'.subs i = some s' → ∃ s, w.subs i = some s ∧ s'.verifier = s.verifier) :
    ∀ s, w'.subs i = some s → s.verifier = v := by
  intro s' hs'
  obtain ⟨s, h1, h2⟩ := hs s' hs'
  rw [h2, hv s h1]

theorem none_step {i : Id} {w w' : World}
    (hs : ∀ s', w'.subs i = some s' → ∃ s, w.subs i = some s ∧ s'.verifier = s.verifier) (hn : w.subs i = none) :
    w'.subs i = none := by
  cases h : w'.subs i with
  | none => rfl
  | some s' =>
    obtain ⟨s, h1, _⟩ := hs s' h
    rw [hn] at h1
    cases h1

theorem told_step {i : Id} {w : World} {t : Trace R} (h : Told read i w t) (e : Event) :
    Told read i (step read limit w e).1 (t ++ [(e, (step read limit w e).2)]) := by
  generalize hst : step read limit w e = st
  obtain ⟨w', o⟩ := st
  have hk : ∀ v, (∀ s, w.subs i = some s → s.verifier = v) → Kind read v i w w' e o := by
    intro v hv
    have := step_kind (read := read) (limit := limit) hv e
    rw [hst] at this
    exact this
  by_cases hf : w.chan i = .fresh
  · obtain ⟨h1, h2, h3, h4⟩ := h.fresh hf
    have hv : ∀ v, ∀ s, w.subs i = some s → s.verifier = v := by
      intro v s hs
      rw [h2] at hs
      cases hs
    cases hk "" (hv _) with
    | quiet hc hver hs hp ho =>
      refine ⟨fun _ => ⟨?_, none_step hs h2, fun v => ?_, ?_⟩, fun hne => absurd (hc.trans hf) hne⟩
      · rw [verifierOf_append, h1, hver]
        rfl
      · rw [pushes_snoc, h3 v]
        cases hk v (hv v) with
        | quiet _ _ _ hp _ => simpa using hp
        | opened u _ hc' => rw [hc, hf] at hc'; cases hc'
        | push m hw => exact absurd h2 hw
        | left q hw => rw [hf] at hw; cases hw
        | yield p q r hw => rw [hf] at hw; cases hw
        | broke p q hw => rw [hf] at hw; cases hw
        | done es q hw => rw [hf] at hw; cases hw
        | closed hw => rw [hf] at hw; cases hw
      · rw [outputs_snoc]
        intro x hx
        exact (List.mem_append.1 hx).elim (h4 x) (ho x)
    | opened u hw hc he hs ho =>
      refine ⟨fun hx => (by rw [hc] at hx; cases hx), fun _ => ⟨u, ?_, ?_, [], [], [], ?_⟩⟩
      · rw [verifierOf_append, h1, he, ho]
        simp [verifierOf, verifierIn]
      · intro s hs'
        rw [hs] at hs'
        cases hs'
        rfl
      · have hp : pushes u i (t ++ [(e, o)]) = [] := by
          rw [pushes_snoc, h3 u, he, ho]
          rfl
        have ho' : ∀ x ∈ outputs (t ++ [(e, o)]), about i x = false := by
          rw [outputs_snoc]
          intro x hx
          rcases List.mem_append.1 hx with hx | hx
          · exact h4 x hx
          · rw [ho] at hx
            simp only [List.mem_singleton] at hx
            rw [hx]
            rfl
        obtain ⟨n1, n2, n3⟩ := not_about ho'
        refine ⟨List.nil_sublist _, fun _ => hp.symm, rfl, ?_, ?_, ?_⟩
        · rw [answers, answers_quiet ho']
          rfl
        · intro q hq
          rw [hc] at hq
          cases hq
          exact ⟨rfl, n1, n2, n3⟩
        · intro hov
          rw [hc] at hov
          cases hov
    | push m hw => exact absurd h2 hw
    | left q hw => rw [hf] at hw; cases hw
    | yield p q r hw => rw [hf] at hw; cases hw
    | broke p q hw => rw [hf] at hw; cases hw
    | done es q hw => rw [hf] at hw; cases hw
    | closed hw => rw [hf] at hw; cases hw
  · obtain ⟨v, h1, hv, kept, ps, rest, k1, k2, k3, k4, k5, k6⟩ := h.used hf
    have hver : ∀ x, verifierOf i (t ++ [x]) = some v := by
      intro x
      rw [verifierOf_append, h1]
      rfl
    cases hk v hv with
    | quiet hc _ hs hp ho =>
      obtain ⟨n1, n2, n3⟩ := not_about ho
      refine ⟨fun hx => absurd (hc.symm.trans hx) hf, fun _ => ⟨v, hver _, known_step hv hs, kept, ps, rest, ?_⟩⟩
      rw [pushes_snoc, hp, List.append_nil, answers_snoc, answers_quiet ho, List.append_nil, outputs_snoc, hc]
      refine ⟨k1, fun hr => k2 hr.before, k3, k4, fun q hq => ?_, fun hov hend => ?_⟩
      · obtain ⟨a1, a2, a3, a4⟩ := k5 q hq
        refine ⟨a1, ?_, ?_, fun es => ?_⟩
        · exact fun hx => (List.mem_append.1 hx).elim a2 n1
        · exact fun hx => (List.mem_append.1 hx).elim a3 n2
        · exact fun hx => (List.mem_append.1 hx).elim (a4 es) (n3 es)
      · obtain ⟨a1, a2⟩ := k6 hov ((List.mem_append.1 hend).elim id fun hx => absurd hx n1)
        exact ⟨a1.quiet ho, fun hr => none_step hs (a2 hr)⟩
    | opened u hw => exact absurd hw hf
    | push m hw hc _ hs hp ho =>
      obtain ⟨n1, n2, n3⟩ := not_about ho
      refine ⟨fun hx => absurd (hc.symm.trans hx) (send_fresh hf), fun _ => ⟨v, hver _, known_step hv hs, ?_⟩⟩
      cases hch : w.chan i with
      | fresh => exact absurd hch hf
      | «open» q =>
        obtain ⟨a1, a2, a3, a4⟩ := k5 q hch
        subst a1
        rw [hch] at hc
        simp only [send] at hc
        have hout : .ended i ∉ outputs (t ++ [(e, o)]) ∧ .failed i ∉ outputs (t ++ [(e, o)]) ∧
            ∀ es, .errors i es ∉ outputs (t ++ [(e, o)]) := by
          rw [outputs_snoc]
          refine ⟨?_, ?_, fun es => ?_⟩
          · exact fun hx => (List.mem_append.1 hx).elim a2 n1
          · exact fun hx => (List.mem_append.1 hx).elim a3 n2
          · exact fun hx => (List.mem_append.1 hx).elim (a4 es) (n3 es)
        by_cases hl : rest.length < capacity
        · rw [if_pos hl] at hc
          refine ⟨kept ++ [m], ps, rest ++ [m], ?_, ?_, ?_, ?_, ?_, ?_⟩
          · rw [pushes_snoc, hp]
            exact k1.append (List.Sublist.refl _)
          · intro hr
            rw [pushes_snoc, hp, k2 hr.before]
          · rw [k3]
            simp
          · rw [answers_snoc, answers_quiet ho, List.append_nil]
            exact k4
          · intro q hq
            rw [hc] at hq
            cases hq
            exact ⟨rfl, hout⟩
          · intro hov
            rw [hc] at hov
            cases hov
        · rw [if_neg hl] at hc
          refine ⟨kept, ps, rest, ?_, ?_, k3, ?_, ?_, ?_⟩
          · rw [pushes_snoc, hp]
            exact k1.trans (List.sublist_append_left _ _)
          · intro hr
            exfalso
            have h2 := k2 hr.before
            have h3 := hr (t ++ [(e, o)]) [] (by simp)
            rw [pushes_snoc, hp, ← h2, k3, answers_snoc, answers_quiet ho, List.append_nil] at h3
            have h4 := congrArg List.length k4
            simp only [List.length_append, List.length_map, List.length_cons, List.length_nil] at h3 h4
            simp only [capacity] at hl
            omega
          · rw [answers_snoc, answers_quiet ho, List.append_nil]
            exact k4
          · intro q hq
            rw [hc] at hq
            cases hq
            exact ⟨rfl, hout⟩
          · intro hov
            rw [hc] at hov
            cases hov
      | over =>
        rw [hch] at hc
        simp only [send] at hc
        refine ⟨kept ++ [m], ps, rest ++ [m], ?_, ?_, ?_, ?_, ?_, ?_⟩
        · rw [pushes_snoc, hp]
          exact k1.append (List.Sublist.refl _)
        · intro hr
          rw [pushes_snoc, hp, k2 hr.before]
        · rw [k3]
          simp
        · rw [answers_snoc, answers_quiet ho, List.append_nil]
          exact k4
        · intro q hq
          rw [hc] at hq
          cases hq
        · intro _ hend
          rw [outputs_snoc] at hend ⊢
          obtain ⟨b1, b2⟩ := k6 hch ((List.mem_append.1 hend).elim id fun hx => absurd hx n1)
          refine ⟨(b1.more fun hr => hw (b2 hr)).quiet ho, fun hr => ?_⟩
          simp at hr
    | left q hw hc he hs ho =>
      subst he ho
      obtain ⟨a1, a2, a3, a4⟩ := k5 q hw
      refine ⟨fun hx => (by rw [hc] at hx; cases hx), fun _ => ⟨v, hver _, by rw [hs]; exact hv, kept, ps, rest, ?_⟩⟩
      rw [pushes_snoc, answers_snoc, outputs_snoc]
      simp only [pushed, List.append_nil, List.filterMap_nil]
      refine ⟨k1, fun hr => k2 hr.before, k3, k4, fun q hq => ?_, fun _ hend => absurd hend a2⟩
      rw [hc] at hq
      cases hq
    | yield p q r hw hr hc he hs ho =>
      subst he ho
      obtain ⟨a1, a2, a3, a4⟩ := k5 _ hw
      refine ⟨fun hx => (by rw [hc] at hx; cases hx), fun _ => ⟨v, hver _, by rw [hs]; exact hv,
        kept, ps ++ [p], q, ?_⟩⟩
      rw [pushes_snoc, answers_snoc, outputs_snoc]
      simp only [pushed, List.append_nil]
      refine ⟨k1, fun hr => k2 hr.before, ?_, ?_, fun q' hq => ?_, fun hov => ?_⟩
      · rw [k3, a1]
        simp
      · simp [answerIn, k4, hr]
      · rw [hc] at hq
        cases hq
        simp [a2, a3, a4]
      · rw [hc] at hov
        cases hov
    | broke p q hw hr hc he hs ho =>
      subst he ho
      obtain ⟨a1, a2, a3, a4⟩ := k5 _ hw
      refine ⟨fun hx => (by rw [hc] at hx; cases hx), fun _ => ⟨v, hver _, by rw [hs]; exact hv, kept, ps, rest, ?_⟩⟩
      rw [pushes_snoc, answers_snoc, outputs_snoc]
      simp only [pushed, List.append_nil]
      refine ⟨k1, fun hr => k2 hr.before, k3, ?_, fun q' hq => ?_, fun _ _ => ?_⟩
      · simp [answerIn, k4]
      · rw [hc] at hq
        cases hq
      · rw [a1]
        exact ⟨⟨hr, by simp⟩, by simp⟩
    | done es q hw hc he hs ho =>
      subst he ho
      obtain ⟨a1, a2, a3, a4⟩ := k5 _ hw
      refine ⟨fun hx => (by rw [hc] at hx; cases hx), fun _ => ⟨v, hver _, by rw [hs]; exact hv, kept, ps, rest, ?_⟩⟩
      rw [pushes_snoc, answers_snoc, outputs_snoc]
      simp only [pushed, List.append_nil]
      refine ⟨k1, fun hr => k2 hr.before, k3, ?_, fun q' hq => ?_, fun _ _ => ?_⟩
      · unfold lastOutputs
        split <;> simp [answerIn, k4]
      · rw [hc] at hq
        cases hq
      · rw [a1]
        refine ⟨⟨?_, fun e l => ?_⟩, by simp⟩
        · unfold lastOutputs
          split <;> simp [a3]
        · unfold lastOutputs
          split
          · simp [a4]
          · simp [a4]
          · simp [a4]
            exact ⟨fun hx => ⟨hx.1.symm, hx.2.symm⟩, fun hx => ⟨hx.1.symm, hx.2.symm⟩⟩
    | closed hw hn hc he hs ho =>
      subst he ho
      obtain ⟨a1, a2, a3, a4⟩ := k5 _ hw
      refine ⟨fun hx => (by rw [hc] at hx; cases hx), fun _ => ⟨v, hver _, by rw [hs]; exact hv, kept, ps, rest, ?_⟩⟩
      rw [pushes_snoc, answers_snoc, outputs_snoc]
      simp only [pushed, List.append_nil]
      refine ⟨k1, fun hr => k2 hr.before, k3, ?_, fun q' hq => ?_, fun _ _ => ?_⟩
      · simp [answerIn, k4]
      · rw [hc] at hq
        cases hq
      · rw [a1]
        refine ⟨⟨fun es => ?_, ?_⟩, fun _ => by rw [hs]; exact hn⟩
        · simp [a4]
        · simp [a3]

/-- Events one by one from the begin, with an invariant of the world and the trace. -/
theorem run_induct {P : World → Trace R → Prop} (h0 : P {} [])
    (hs : ∀ w t e, P w t → P (step read limit w e).1 (t ++ [(e, (step read limit w e).2)])) (es : List Event) :
    P (run read limit {} es).1 (run read limit {} es).2 := by
  suffices ∀ rs : List Event, P (run read limit {} rs.reverse).1 (run read limit {} rs.reverse).2 by
    simpa using this es.reverse
  intro rs
  induction rs with
  | nil => exact h0
  | cons e rs ih =>
    rw [List.reverse_cons, run_snoc]
    exact hs _ _ _ ih

theorem told_run (i : Id) (es : List Event) : Told read i (run read limit {} es).1 (run read limit {} es).2 := by
  refine run_induct (P := Told read i) ?_ (fun w t e h => told_step h e) es
  refine ⟨fun _ => ⟨rfl, rfl, fun _ => rfl, by simp [outputs]⟩, fun h => absurd rfl h⟩

end

end Verif.Callback
