import Verif.Overrides.Model
import Verif.Keys.Props

/-!
# Progressive overrides: C36
-/

namespace Verif.Overrides

open Verif.Keys

/-! ## Specification -/

/-- The label is active for a request. -/
def Active (c : Context) : Label → Prop
  | .custom n => n ∈ c.flags
  | .percentage p => c.dice < p

/-- A field defined in two subgraphs, overridden in `from_` by `to`. -/
structure OverridesIn (f : Field) (from_ to : String) (l : Option Label) : Prop where
  ne : from_ ≠ to
  joins : f.joins = [{ graph := from_ }, { graph := to, overrideFrom := some from_, label := l }] ∨
    f.joins = [{ graph := to, overrideFrom := some from_, label := l }, { graph := from_ }]

/-! ## Theorems -/

theorem checkLabel_true {c : Context} {l : Label} : checkLabel c true l = true ↔ Active c l := by
  cases l <;> simp [checkLabel, Active, Context.inRange]

theorem checkLabel_false {c : Context} {l : Label} : checkLabel c false l = true ↔ ¬ Active c l := by
  cases l <;> simp [checkLabel, Active, Context.inRange]

/-- **C36** (partial: for fields whose type is not a union) A field overridden with a label is
resolved in the overriding subgraph when the label is active for the request, and otherwise in the
overridden one: for every request in exactly one of them. -/
theorem C36_label_partial (f : Field) (from_ to : String) (l : Label) (h : OverridesIn f from_ to (some l))
    (hu : f.isUnion = false) (c : Context) :
    (resolvable f to c = true ↔ Active c l) ∧ (resolvable f from_ c = true ↔ ¬ Active c l) := by
  rw [← checkLabel_false, ← checkLabel_true]
  have h1 := h.ne
  have h2 : to ≠ from_ := fun e => h.ne e.symm
  rcases h.joins with hj | hj <;>
    constructor <;>
    simp [resolvable, fieldMove, hj, overriddenBy, h1, h2, hu, satisfies]

/-- **C36** A field overridden without a label is always resolved in the overriding subgraph. -/
theorem C36_full (f : Field) (from_ to : String) (h : OverridesIn f from_ to none) (c : Context) :
    resolvable f to c = true ∧ resolvable f from_ c = false := by
  have h1 := h.ne
  have h2 : to ≠ from_ := fun e => h.ne e.symm
  rcases h.joins with hj | hj <;>
    constructor <;>
    simp [resolvable, fieldMove, hj, overriddenBy, h1, h2, satisfies] <;>
    split <;> simp_all

/-- **C36** is not met by fields of a union type: the overriding subgraph may resolve them for every
request, also when the label is not active. -/
theorem C36_union (f : Field) (from_ to : String) (l : Label) (h : OverridesIn f from_ to (some l))
    (hu : f.isUnion = true) (c : Context) :
    resolvable f to c = true ∧ (¬ Active c l → resolvable f from_ c = true) := by
  have h1 := h.ne
  have h2 : to ≠ from_ := fun e => h.ne e.symm
  rw [← checkLabel_false]
  rcases h.joins with hj | hj <;>
    constructor <;>
    simp [resolvable, fieldMove, hj, overriddenBy, h1, h2, hu, satisfies]

/-- **C36** An override of 0% is active for no request. -/
theorem C36_zero (c : Context) : ¬ Active c (.percentage 0) := by simp [Active]

/-- **C36** The share of the dice for which an override is active is its percentage: of the
`100 * scale + 1` values, `p`. -/
theorem C36_share (p : Nat) (hp : p ≤ 100 * scale) (fl : List String) :
    (diceRange.filter fun d => checkLabel ⟨fl, d⟩ true (.percentage p)).length = p := by
  have : ∀ n, ((List.range n).filter fun d => checkLabel ⟨fl, d⟩ true (.percentage p)).length = min n p := by
    intro n
    induction n with
    | zero => simp
    | succ n ih =>
      rw [List.range_succ, List.filter_append, List.length_append, ih]
      by_cases h : n < p
      · simp [checkLabel, Context.inRange, h]; omega
      · simp [checkLabel, Context.inRange, h]; omega
  rw [diceRange, this]
  omega

/-- **C36** (partial: for all values of the dice but the last) An override of 100% is active. -/
theorem C36_hundred_partial (c : Context) (h : c.dice ∈ diceRange) (h' : c.dice ≠ 100 * scale) :
    Active c (.percentage (100 * scale)) := by
  simp only [diceRange, List.mem_range] at h
  show c.dice < 100 * scale
  omega

/-- **C36** is not met by the last value of the dice: there an override of 100% is not active. -/
theorem C36_hundred_missed (fl : List String) :
    100 * scale ∈ diceRange ∧ ¬ Active ⟨fl, 100 * scale⟩ (.percentage (100 * scale)) := by
  constructor
  · simp [diceRange]
  · simp [Active]

theorem insertNat_lookup {α : Type} (k k' : Nat) (v : α) (m : List (Nat × α)) :
    (insertNat k v m).lookup k' = if k' = k then some v else m.lookup k' := by
  induction m with
  | nil =>
    by_cases h : k' = k
    · simp [insertNat, List.lookup, h]
    · have : (k' == k) = false := by simpa using h
      simp [insertNat, List.lookup, h, this]
  | cons x m ih =>
    obtain ⟨k2, v2⟩ := x
    unfold insertNat
    split
    · by_cases h : k' = k
      · simp [List.lookup, h]
      · have : (k' == k) = false := by simpa using h
        simp [List.lookup, h, this]
    · split
      · rename_i h; subst h
        by_cases h : k' = k
        · simp [List.lookup, h]
        · have : (k' == k) = false := by simpa using h
          simp [List.lookup, h, this]
      · rename_i h1 h2
        by_cases hk : k' = k2
        · subst hk
          have : ¬ k' = k := fun h => h2 h.symm
          simp [List.lookup, this]
        · have : (k' == k2) = false := by simpa using hk
          simp [List.lookup, this, ih]

theorem stable_flags (fields : List Field) (c : Context) (n : String) (h : n ∈ flagsOf fields) :
    lookup n (stable fields c).flags = some (c.flags.contains n) := by
  have : ∀ (ns : List String) (m : List (String × Bool)),
      (n ∈ ns ∨ lookup n m = some (c.flags.contains n)) →
      lookup n (ns.foldl (fun m n => insertKey n (c.flags.contains n) m) m) = some (c.flags.contains n) := by
    intro ns
    induction ns with
    | nil => intro m h; simpa using h
    | cons k ns ih =>
      intro m h
      refine ih _ ?_
      rw [lookup_insertKey]
      by_cases hk : k = n
      · right; simp [hk]
      · rcases h with h | h
        · left; simpa [Ne.symm hk] using h
        · right; simp [hk, h]
  exact this _ _ (.inl h)

theorem stable_percentages (fields : List Field) (c : Context) (p : Nat) (h : p ∈ percentagesOf fields) :
    (stable fields c).percentages.lookup p = some (decide (c.dice < p)) := by
  have : ∀ (ns : List Nat) (m : List (Nat × Bool)),
      (p ∈ ns ∨ m.lookup p = some (decide (c.dice < p))) →
      (ns.foldl (fun m n => insertNat n (decide (c.dice < n)) m) m).lookup p = some (decide (c.dice < p)) := by
    intro ns
    induction ns with
    | nil => intro m h; simpa using h
    | cons k ns ih =>
      intro m h
      refine ih _ ?_
      rw [insertNat_lookup]
      by_cases hk : p = k
      · right; simp [hk]
      · rcases h with h | h
        · left; simpa [hk] using h
        · right; simp [hk, h]
  exact this _ _ (.inl h)

/-- **C36** Requests with the same key of overrides agree on where each field can be resolved: a plan
made for one is right for the other. -/
theorem C36_shared_plan (fields : List Field) (c d : Context) (h : stable fields c = stable fields d)
    (f : Field) (hf : f ∈ fields) (g : String) : resolvable f g c = resolvable f g d := by
  have label : ∀ l ∈ labelsOf fields, ∀ b, checkLabel c b l = checkLabel d b l := by
    intro l hl b
    cases l with
    | custom n =>
      have hn : n ∈ flagsOf fields := List.mem_filterMap.2 ⟨_, hl, rfl⟩
      have h1 := stable_flags fields c n hn
      rw [h, stable_flags fields d n hn] at h1
      simp only [Option.some.injEq] at h1
      simp only [checkLabel, h1]
    | percentage p =>
      have hn : p ∈ percentagesOf fields := List.mem_filterMap.2 ⟨_, hl, rfl⟩
      have h1 := stable_percentages fields c p hn
      rw [h, stable_percentages fields d p hn] at h1
      simp only [Option.some.injEq] at h1
      simp only [checkLabel, Context.inRange, h1]
  have mem : ∀ j ∈ f.joins, ∀ l, j.label = some l → l ∈ labelsOf fields := by
    intro j hj l hl
    exact List.mem_flatMap.2 ⟨f, hf, List.mem_filterMap.2 ⟨j, hj, hl⟩⟩
  unfold resolvable fieldMove
  cases hj : f.joins.find? (·.graph == g) with
  | none => rfl
  | some j =>
    simp only [satisfies]
    cases ho : overriddenBy f.joins g with
    | none =>
      simp only
      by_cases hu : f.isUnion
      · simp [hu]
      · simp only [hu, Bool.false_eq_true, if_false]
        cases hl : j.label with
        | none => rfl
        | some l => exact label l (mem j (List.mem_of_find?_eq_some hj) l hl) true
    | some x =>
      obtain ⟨t, l⟩ := x
      obtain ⟨j', hj', he⟩ := List.exists_of_findSome?_eq_some ho
      cases l with
      | none => rfl
      | some l =>
        split at he
        · simp at he
          exact label l (mem j' hj' l he.2) false
        · simp at he

theorem evalLoop_spec : ∀ (es : List (String × Outcome)) (active r : List String),
    evalLoop es active = some r → ∀ l, l ∈ r ↔ l ∈ active ∨ (l, .bool true) ∈ es := by
  intro es
  induction es with
  | nil => intro active r h l; simp [evalLoop] at h; simp [h]
  | cons e es ih =>
    intro active r h l
    obtain ⟨k, o⟩ := e
    unfold evalLoop at h
    by_cases hk : active.contains k
    · rw [if_pos hk] at h
      rw [ih _ _ h]
      simp only [List.mem_cons, Prod.mk.injEq]
      constructor
      · rintro (h | h)
        · exact .inl h
        · exact .inr (.inr h)
      · rintro (h | ⟨rfl, _⟩ | h)
        · exact .inl h
        · exact .inl (by simpa using hk)
        · exact .inr h
    · rw [if_neg hk] at h
      match o, h with
      | .bool true, h =>
        rw [ih _ _ h]
        simp only [List.mem_cons, Prod.mk.injEq]
        constructor
        · rintro ((rfl | h) | h)
          · exact .inr (.inl (by simp))
          · exact .inl h
          · exact .inr (.inr h)
        · rintro (h | ⟨rfl, _⟩ | h)
          · exact .inl (.inr h)
          · exact .inl (.inl rfl)
          · exact .inr h
      | .bool false, h =>
        rw [ih _ _ h]
        simp
      | .other, h => simp at h
      | .fails, h => simp at h

/-- **C36** A label is active for a request iff the configuration says `true`, its expression
evaluates to true, or it was activated for the request before; if the labels cannot be determined the
request fails. -/
theorem C36_active_labels (config : List (String × ConfigValue)) (resolved : Option (List String))
    (r : List String) (h : evaluate (.ofConfig config) resolved = some r) (l : String) :
    l ∈ r ↔ l ∈ resolved.getD [] ∨ (l, .bool true) ∈ config ∨ (l, .expression (.bool true)) ∈ config := by
  rw [evaluate] at h
  rw [evalLoop_spec _ _ _ h, List.mem_append, or_assoc]
  refine or_congr Iff.rfl (or_congr ?_ ?_)
  · simp only [Evaluator.ofConfig, List.mem_filterMap]
    constructor
    · rintro ⟨⟨k, v⟩, hm, he⟩
      split at he
      · rename_i h; simp at he h; rw [← he]; rw [h.1, h.2] at hm; exact hm
      · simp at he
    · intro hm
      exact ⟨_, hm, rfl⟩
  · simp only [Evaluator.ofConfig, List.mem_filterMap]
    constructor
    · rintro ⟨⟨k, v⟩, hm, he⟩
      split at he
      · rename_i h; simp at he h; rw [← he.1, ← he.2]; rw [h.1, h.2] at hm; exact hm
      · simp at he
    · intro hm
      exact ⟨_, hm, rfl⟩

/-- **C36** A request for which a label cannot be determined is not executed: if the expression of a
label fails or does not give a boolean, then unless the label is active anyhow there is no set of
active labels. -/
theorem C36_undetermined (config : List (String × ConfigValue)) (resolved : Option (List String))
    (l : String) (o : Outcome) (ho : o = .other ∨ o = .fails) (h : (l, .expression o) ∈ config)
    (h1 : l ∉ resolved.getD []) (h2 : (l, .bool true) ∉ config)
    (h3 : (l, .expression (.bool true)) ∉ config) : evaluate (.ofConfig config) resolved = none := by
  cases he : evaluate (.ofConfig config) resolved with
  | none => rfl
  | some r =>
    exfalso
    have hl : l ∉ r := by
      rw [C36_active_labels config resolved r he]
      simp [h1, h2, h3]
    have hm : (l, o) ∈ (Evaluator.ofConfig config).expressions :=
      List.mem_filterMap.2 ⟨_, h, rfl⟩
    rw [evaluate] at he
    revert hm he
    generalize (Evaluator.ofConfig config).expressions = es
    generalize resolved.getD [] ++ (Evaluator.ofConfig config).static = active
    intro he hm
    induction es generalizing active with
    | nil => simp at hm
    | cons e es ih =>
      obtain ⟨k, q⟩ := e
      have hact : l ∉ active := fun hc => hl ((evalLoop_spec _ _ _ he l).2 (.inl hc))
      unfold evalLoop at he
      by_cases hk : active.contains k
      · rw [if_pos hk] at he
        rcases List.mem_cons.1 hm with hm | hm
        · simp only [Prod.mk.injEq] at hm
          exact hact (by rw [hm.1]; simpa using hk)
        · exact ih _ he hm
      · rw [if_neg hk] at he
        rcases List.mem_cons.1 hm with hm' | hm'
        · simp only [Prod.mk.injEq] at hm'
          obtain ⟨rfl, rfl⟩ := hm'
          rcases ho with rfl | rfl <;> simp at he
        · match q, he with
          | .bool true, he => exact ih _ he hm'
          | .bool false, he => exact ih _ he hm'
          | .other, he => simp at he
          | .fails, he => simp at he

/-! ## Concrete cases -/

namespace Ex

def f : Field := { joins := [{ graph := "old" }, { graph := "new", overrideFrom := some "old", label := some (.custom "beta") }] }
def g : Field := { joins := [{ graph := "new", overrideFrom := some "old", label := some (.percentage (25 * scale)) }, { graph := "old" }] }

example : OverridesIn f "old" "new" (some (.custom "beta")) := ⟨by decide, .inl rfl⟩
example : OverridesIn g "old" "new" (some (.percentage (25 * scale))) := ⟨by decide, .inr rfl⟩
example : OverridesIn { f with isUnion := true } "old" "new" (some (.custom "beta")) := ⟨by decide, .inl rfl⟩

example : resolvable f "new" ⟨["beta"], 7⟩ = true ∧ resolvable f "old" ⟨["beta"], 7⟩ = false ∧
    resolvable f "old" ⟨[], 7⟩ = true ∧ resolvable g "new" ⟨[], 25 * scale - 1⟩ = true ∧
    resolvable g "new" ⟨[], 25 * scale⟩ = false := by decide

/-- Different dice, and flags the supergraph does not mention, may share a plan. -/
example : stable [f, g] ⟨["beta", "x"], 3⟩ = stable [f, g] ⟨["beta"], 25 * scale - 1⟩ := by rfl

example : evaluate (.ofConfig [("a", .bool true), ("b", .bool false), ("c", .expression (.bool true))])
    (some ["d"]) = some ["c", "d", "a"] := by decide

example : evaluate (.ofConfig [("a", .expression .other), ("c", .expression (.bool true))]) none = none :=
  C36_undetermined _ _ "a" .other (.inl rfl) (by simp) (by simp) (by simp) (by simp)

end Ex

end Verif.Overrides
