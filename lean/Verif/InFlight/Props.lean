import Verif.InFlight.Lemmas

/-!
# C20: deduplicated requests share the result of one execution made for them
-/

namespace Verif.InFlight

variable {K V E : Type} [DecidableEq K]

theorem fairLog_mem {keep : Bool} : ∀ {log : List (Event K V E)}, FairLog keep log →
    ∀ post e past, log = post ++ e :: past → Fair keep past e := by
  intro log h post
  induction post generalizing log with
  | nil => intro e past he; subst he; exact h.1
  | cons a post ih => intro e past he; subst he; exact ih h.2 e past rfl

/-- **C20** In every run, whatever the interleaving, failures and cancellations: a caller that is
told it joined gets a value `v` such that, for the key `k` it asked for, some caller `l` ran an
execution for the same key `k` which produced `v`, and the deduplication window of that execution
had not ended when the caller arrived. -/
theorem C20_joiner_result (keep : Bool) (k0 : K) (s : State K V E) (hr : Reachable keep k0 s)
    (c : Caller) (v : V) (later past : List (Event K V E))
    (h : s.log = later ++ .returned c v .joiner :: past) :
    ∃ k before l, arrival c past = some (k, before) ∧ .executed l k v ∈ past ∧ .ended l ∉ before :=
  fairLog_mem (reachable_all hr).2.2 _ _ _ h

/-- **C20** A caller told it led gets the result of its own execution for the key it asked for;
unless the execution keeps its window open, the window has ended by then, so that
(`C20_joiner_result`) nobody arriving later gets this result. -/
theorem C20_leader_result (keep : Bool) (k0 : K) (s : State K V E) (hr : Reachable keep k0 s)
    (c : Caller) (v : V) (later past : List (Event K V E))
    (h : s.log = later ++ .returned c v .leader :: past) :
    (∃ k, .executed c k v ∈ past) ∧ (keep = false → .ended c ∈ past) :=
  fairLog_mem (reachable_all hr).2.2 _ _ _ h

/-- **C20** Executions have one result, for the key their caller asked for: hence all callers that
got their value from the execution of `l` got the same one. -/
theorem C20_one_result (keep : Bool) (k0 : K) (s : State K V E) (hr : Reachable keep k0 s)
    (l : Caller) (k k' : K) (v v' : V) (h : .executed l k v ∈ s.log) (h' : .executed l k' v' ∈ s.log) :
    k = k' ∧ v = v' := by
  have hf := (reachable_all hr).2.2
  generalize s.log = log at h h' hf
  induction log with
  | nil => simp at h
  | cons e log ih =>
    rcases List.mem_cons.1 h with h1 | h1 <;> rcases List.mem_cons.1 h' with h2 | h2
    · rw [← h1] at h2; simp at h2; exact ⟨h2.1.symm, h2.2.symm⟩
    · subst h1; exact absurd h2 (hf.1.2.1 k' v')
    · subst h2; exact absurd h1 (hf.1.2.1 k v)
    · exact ih h1 h2 hf.2

/-- **C20** A caller that gets an error gets the error of its own execution: failures of others are
never shared. -/
theorem C20_own_errors (keep : Bool) (k0 : K) (s : State K V E) (hr : Reachable keep k0 s)
    (c : Caller) (e : E) (later past : List (Event K V E))
    (h : s.log = later ++ .failed c e :: past) : .execFailed c e ∈ past :=
  fairLog_mem (reachable_all hr).2.2 _ _ _ h

/-- **C20** No caller is left behind: whoever waits can go on at once, or waits for an execution
that is running or about to hand over. -/
theorem C20_no_lost_waiter (keep : Bool) (k0 : K) (s : State K V E) (hr : Reachable keep k0 s)
    (c : Caller) (x : Nat) (hc : s.phase c = some (.attached x)) :
    (∃ t, Step keep s t ∧ t.phase c ≠ s.phase c ∧ ∀ d, d ≠ c → t.phase d = s.phase d) ∨
    ∃ l, l ≠ c ∧ (s.phase l = some (.running x) ∨ ∃ r, s.phase l = some (.computed x r)) := by
  have hi := (reachable_all hr).1
  cases hv : (s.cells x).value with
  | some p =>
    obtain ⟨v, l⟩ := p
    exact Or.inl ⟨_, .join s c x v l hc hv, by simp [upd, hc], fun d hd => by simp [upd, hd]⟩
  | none =>
    cases hp : (s.cells x).permit with
    | none =>
      exact Or.inl ⟨_, .start s c x hc hv hp, by simp [upd, hc], fun d hd => by simp [upd, hd]⟩
    | some l =>
      right
      have := hi.permit l x hp
      refine ⟨l, ?_, this⟩
      rintro rfl
      rw [hc] at this
      simp at this

/-- **C20** At most one execution runs per cell at any time. (Not per key: see
`C20_two_executions_one_key`.) -/
theorem C20_one_execution_per_cell (keep : Bool) (k0 : K) (s : State K V E) (hr : Reachable keep k0 s)
    (c d : Caller) (x : Nat) (hc : s.phase c = some (.running x)) (hd : s.phase d = some (.running x)) :
    c = d := by
  have hi := (reachable_all hr).1
  have h1 := (hi.running c x hc).2.1
  have h2 := (hi.running d x hd).2.1
  rw [h1] at h2; simpa using h2

/-! Concrete runs. -/

section Example

private def s0 : State Nat Nat Nat := init 0

/-- Concrete: caller 0 leads, caller 1 joins and gets its value. -/
example : ∃ s : State Nat Nat Nat, Reachable false 0 s ∧
    s.log = [.returned 1 42 .joiner, .returned 0 42 .leader, .ended 0, .executed 0 7 42,
      .arrived 1 7, .arrived 0 7] := by
  refine ⟨_, .step (.step (.step (.step (.step (.step (.step .init
    (.claimVacant _ 0 7 rfl rfl)) (.start _ 0 0 rfl rfl rfl)) (.claimOccupied _ 1 7 0 rfl rfl))
    (.compute _ 0 0 42 rfl)) (.cleanupDone _ 0 0 (.ok 42) rfl rfl)) (.publish _ 0 0 42 rfl (Or.inr rfl)))
    (.join _ 1 0 42 0 rfl rfl), rfl⟩

/-- Deduplication is not exclusive per key: after a cancelled leader, the caller taking over the
old cell and a newcomer with a new cell both execute for the same key. -/
theorem C20_two_executions_one_key : ∃ (s : State Nat Nat Nat) (c d x y : Nat), Reachable false 0 s ∧
    c ≠ d ∧ s.phase c = some (.running x) ∧ s.phase d = some (.running y) ∧
    (s.cells x).key = (s.cells y).key := by
  have hr := Reachable.step (Reachable.step (.step (.step (.step (.step (.step .init
    (.claimVacant s0 0 7 rfl rfl)) (.start _ 0 0 rfl rfl rfl)) (.claimOccupied _ 1 7 0 rfl rfl))
    (.cancelRunning _ 0 0 rfl)) (.claimVacant _ 2 7 rfl rfl)) (.start _ 1 0 rfl rfl rfl))
    (Step.start (keep := false) _ 2 1 rfl rfl rfl)
  exact ⟨_, 1, 2, 0, 1, hr, by decide, rfl, rfl, rfl⟩

end Example

end Verif.InFlight
