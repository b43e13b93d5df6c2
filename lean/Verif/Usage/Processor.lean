import Mathlib.Logic.Relation

/-!
# Usage reporting: operations are processed once, by many at a time

Batches of reports are built at the same time: by the requests that fill the buffer and by the interval
that empties it. What an operation is reported as is kept in a cache that they share. Each call looks
whether the cache has the operation and, if it has, gets it in a second step; the cache can drop entries
at any time between.
-/

namespace Verif.Usage.Processor

/-- Where a call of `process` is. Models `OperationProcessor::process`
(lib/hive-console-sdk/src/agent/utils.rs:814-830): before `contains_key`, before `get`, before
`transform`, or at the end, with an answer, or with a panic of `expect`. -/
inductive Pc (A : Type) where
  | start
  | hit
  | miss
  | done (a : Except String A)
  | panicked

/-- The calls, with the text of the operation they are for, and the cache. Models
`OperationProcessor` (utils.rs:793-811). -/
structure St (A : Type) where
  calls : Nat → String × Pc A
  cache : String → Option A

/-- Call `i` goes on. -/
def set {A : Type} (st : St A) (i : Nat) (pc : Pc A) : St A :=
  { st with calls := fun j => if j = i then ((st.calls i).1, pc) else st.calls j }

/-- `cache.insert`. -/
def put {A : Type} (st : St A) (q : String) (a : A) : St A :=
  { st with cache := fun r => if r = q then some a else st.cache r }

/-- The cache drops an entry. -/
def drop {A : Type} (st : St A) (q : String) : St A :=
  { st with cache := fun r => if r = q then none else st.cache r }

/-- One step (utils.rs:819-829). `t` is `transform` with the schema; all calls have the same schema, as
each supergraph has its own agent (bin/router/src/schema_state.rs:268-280). A cache of moka drops entries
when there are more than it can hold, on whatever thread; here it drops any entry at any time. -/
inductive Step {A : Type} (t : String → Except String A) : St A → St A → Prop
  | found {st i q} : st.calls i = (q, .start) → (st.cache q).isSome = true → Step t st (set st i .hit)
  | absent {st i q} : st.calls i = (q, .start) → st.cache q = none → Step t st (set st i .miss)
  | got {st i q a} : st.calls i = (q, .hit) → st.cache q = some a → Step t st (set st i (.done (.ok a)))
  | lost {st i q} : st.calls i = (q, .hit) → st.cache q = none → Step t st (set st i .panicked)
  | stored {st i q a} : st.calls i = (q, .miss) → t q = .ok a →
      Step t st (put (set st i (.done (.ok a))) q a)
  | failed {st i q e} : st.calls i = (q, .miss) → t q = .error e → Step t st (set st i (.done (.error e)))
  | drops {st q} : Step t st (drop st q)

/-- The same without the cache dropping an entry that a call has looked for and not got. -/
inductive Careful {A : Type} (t : String → Except String A) : St A → St A → Prop
  | step {st st'} : Step t st st' → (∀ q, st' = drop st q → ∀ i, st.calls i ≠ (q, .hit)) →
      Careful t st st'

/-- Calls that have not begun, and an empty cache. -/
def start {A : Type} (qs : Nat → String) : St A :=
  { calls := fun i => (qs i, .start), cache := fun _ => none }

/-! ## Answers -/

theorem cache_right {A : Type} {t : String → Except String A} {qs : Nat → String} {st : St A}
    (h : Relation.ReflTransGen (Step t) (start qs) st) :
    (∀ q a, st.cache q = some a → t q = .ok a) ∧
    ∀ i, (st.calls i).1 = qs i ∧ ∀ a, (st.calls i).2 = .done a → t (qs i) = a := by
  induction h with
  | refl => exact ⟨fun q a h => (by cases h), fun i => ⟨rfl, fun a h => (by cases h)⟩⟩
  | tail _ hs ih =>
    obtain ⟨h1, h2⟩ := ih
    have key : ∀ (st : St A) i pc, (∀ j, (st.calls j).1 = qs j ∧ ∀ a, (st.calls j).2 = .done a → t (qs j) = a) →
        (∀ a, pc = .done a → t (qs i) = a) →
        ∀ j, ((set st i pc).calls j).1 = qs j ∧ ∀ a, ((set st i pc).calls j).2 = .done a → t (qs j) = a := by
      intro st i pc h hpc j
      by_cases hj : j = i
      · subst hj
        simpa [set] using ⟨(h j).1, hpc⟩
      · simpa [set, hj] using h j
    cases hs with
    | found _ _ => exact ⟨h1, key _ _ _ h2 (fun a h => by cases h)⟩
    | absent _ _ => exact ⟨h1, key _ _ _ h2 (fun a h => by cases h)⟩
    | @got i q a hc hq =>
      refine ⟨h1, key _ _ _ h2 (fun b hb => ?_)⟩
      cases hb
      have : q = qs i := by rw [← (h2 i).1, hc]
      rw [← this]
      exact h1 q a hq
    | lost _ _ => exact ⟨h1, key _ _ _ h2 (fun a h => by cases h)⟩
    | @stored i q a hc ht =>
      have hq : q = qs i := by rw [← (h2 i).1, hc]
      refine ⟨fun r b hr => ?_, key _ _ _ h2 (fun b hb => ?_)⟩
      · by_cases hrq : r = q
        · simp only [put, hrq, if_true, Option.some.injEq] at hr
          rw [hrq, ← hr]
          exact ht
        · simp only [put, hrq, if_false] at hr
          exact h1 r b hr
      · cases hb
        rw [← hq]
        exact ht
    | @failed i q e hc ht =>
      refine ⟨h1, key _ _ _ h2 (fun b hb => ?_)⟩
      cases hb
      have : q = qs i := by rw [← (h2 i).1, hc]
      rw [← this]
      exact ht
    | @drops q =>
      refine ⟨fun r b hr => h1 r b ?_, h2⟩
      by_cases hrq : r = q
      · simp [drop, hrq] at hr
      · simpa [drop, hrq] using hr

/-- However many calls run at a time and whatever the cache drops: every answer is what the operation is
reported as. -/
theorem C110_answers {A : Type} {t : String → Except String A} {qs : Nat → String} {st : St A}
    (h : Relation.ReflTransGen (Step t) (start qs) st) (i : Nat) (a : Except String A)
    (ha : (st.calls i).2 = .done a) : a = t (qs i) :=
  (((cache_right h).2 i).2 a ha).symm

/-- Building a report does not crash as long as the cache drops no entry between the two steps of a call.
What is missing: it can (`C110_panics_refuted`). -/
theorem C110_panics_partial {A : Type} {t : String → Except String A} {qs : Nat → String} {st : St A}
    (h : Relation.ReflTransGen (Careful t) (start qs) st) (i : Nat) :
    (st.calls i).2 ≠ .panicked := by
  have key : (∀ j, ((st.calls j).2 = .panicked → False)) ∧
      ∀ j q, st.calls j = (q, .hit) → (st.cache q).isSome = true := by
    induction h with
    | refl => exact ⟨fun j h => (by cases h), fun j q h => (by cases h)⟩
    | tail _ hs ih =>
      obtain ⟨h1, h2⟩ := ih
      obtain ⟨hs, hc⟩ := hs
      have k1 : ∀ (st : St A) i pc, (∀ j, ((st.calls j).2 = .panicked → False)) → (pc = .panicked → False) →
          ∀ j, (((set st i pc).calls j).2 = .panicked → False) := by
        intro st i pc h hpc j
        by_cases hj : j = i
        · subst hj; simpa [set] using hpc
        · simpa [set, hj] using h j
      have k2 : ∀ (st : St A) i pc, (∀ j q, st.calls j = (q, .hit) → (st.cache q).isSome = true) →
          (pc = .hit → (st.cache (st.calls i).1).isSome = true) →
          ∀ j q, (set st i pc).calls j = (q, .hit) → (st.cache q).isSome = true := by
        intro st i pc h hpc j q hq
        by_cases hj : j = i
        · subst hj
          simp only [set, if_true, Prod.mk.injEq] at hq
          obtain ⟨rfl, hq⟩ := hq
          exact hpc hq
        · simp only [set, hj, if_false] at hq
          exact h j q hq
      cases hs with
      | found hc' hq => exact ⟨k1 _ _ _ h1 (fun h => (by cases h)), k2 _ _ _ h2 (fun _ => by rw [hc']; exact hq)⟩
      | absent _ _ => exact ⟨k1 _ _ _ h1 (fun h => (by cases h)), k2 _ _ _ h2 (fun h => by cases h)⟩
      | got _ _ => exact ⟨k1 _ _ _ h1 (fun h => (by cases h)), k2 _ _ _ h2 (fun h => by cases h)⟩
      | @lost i q hq hn =>
        have := h2 i q hq
        rw [hn] at this
        cases this
      | @stored i q a _ _ =>
        refine ⟨k1 _ _ _ h1 (fun h => (by cases h)), fun j r hr => ?_⟩
        have := k2 _ i (.done (.ok a)) h2 (fun h => by cases h) j r hr
        by_cases hrq : r = q
        · simp [put, hrq]
        · simpa [put, hrq, set] using this
      | failed _ _ => exact ⟨k1 _ _ _ h1 (fun h => (by cases h)), k2 _ _ _ h2 (fun h => by cases h)⟩
      | @drops q =>
        refine ⟨h1, fun j r hr => ?_⟩
        have hne : r ≠ q := by
          rintro rfl
          exact hc r rfl j hr
        simpa [drop, hne] using h2 j r hr
  exact key.1 i

/-- Building a report can crash: a call finds an operation in the cache, the cache drops it, and the call
expects to get it. -/
theorem C110_panics_refuted : ∃ (t : String → Except String Nat) (qs : Nat → String) (st : St Nat) (i : Nat),
    Relation.ReflTransGen (Step t) (start qs) st ∧ (st.calls i).2 = .panicked := by
  let t : String → Except String Nat := fun _ => .ok 0
  let qs : Nat → String := fun _ => "{ me }"
  let s0 : St Nat := start qs
  let s1 := set s0 0 .miss
  let s2 := put (set s1 0 (.done (.ok 0))) "{ me }" 0
  let s3 := set s2 1 .hit
  let s4 := drop s3 "{ me }"
  let s5 := set s4 1 .panicked
  refine ⟨t, qs, s5, 1, ?_, rfl⟩
  have h1 : Step t s0 s1 := .absent (q := "{ me }") rfl rfl
  have h2 : Step t s1 s2 := .stored (q := "{ me }") rfl rfl
  have h3 : Step t s2 s3 := .found (q := "{ me }") rfl rfl
  have h4 : Step t s3 s4 := .drops
  have h5 : Step t s4 s5 := .lost (q := "{ me }") rfl rfl
  exact (((Relation.ReflTransGen.single h1).tail h2).tail h3 |>.tail h4).tail h5

/-- `C110_answers`, `C110_panics_partial`: two calls, the second of which finds what the first has
stored. -/
example : ∃ st : St Nat, Relation.ReflTransGen (Careful (fun _ => .ok 0)) (start (fun _ => "{ me }")) st ∧
    (st.calls 1).2 = .done (.ok 0) := by
  let t : String → Except String Nat := fun _ => .ok 0
  let s0 : St Nat := start (fun _ => "{ me }")
  let s1 := set s0 0 .miss
  let s2 := put (set s1 0 (.done (.ok 0))) "{ me }" 0
  let s3 := set s2 1 .hit
  let s4 := set s3 1 (.done (.ok 0))
  have hne : ∀ (st : St Nat) i pc, (st.calls i).2 ≠ pc → ∀ q, set st i pc ≠ drop st q := by
    intro st i pc h q he
    have := congrArg (fun x => (x.calls i).2) he
    simp only [set, drop, if_true] at this
    exact h this.symm
  have h1 : Careful t s0 s1 :=
    .step (.absent (q := "{ me }") rfl rfl) (fun q h => absurd h (hne s0 0 .miss (fun h => by cases h) q))
  have h2 : Careful t s1 s2 := .step (.stored (q := "{ me }") rfl rfl) (fun q h => by
    have := congrArg (fun x => (x.calls 0).2) h
    simp only [s2, s1, put, set, drop, if_true] at this
    cases this)
  have h3 : Careful t s2 s3 :=
    .step (.found (q := "{ me }") rfl rfl) (fun q h => absurd h (hne s2 1 .hit (fun h => by cases h) q))
  have h4 : Careful t s3 s4 :=
    .step (.got (q := "{ me }") rfl rfl) (fun q h => absurd h (hne s3 1 (.done (.ok 0)) (fun h => by cases h) q))
  exact ⟨s4, ((Relation.ReflTransGen.single h1).tail h2).tail h3 |>.tail h4, rfl⟩

end Verif.Usage.Processor
