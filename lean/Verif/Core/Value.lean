/-
Response values and key lookup, shared by the execution-side models.

Models /repo/bin/router/src/executor/response/value.rs.
-/
namespace Verif

/-- A response value.

Models `enum Value` in /repo/bin/router/src/executor/response/value.rs:19-29.
Simplifications: an `f64` is represented by its bit pattern (a `Nat`), `i64`/`u64` by
unbounded `Int`/`Nat`, borrowed strings by `String`. Object keys are compared as `String`s;
Lean orders strings by code points, which is the same order as Rust's byte order on UTF-8. -/
inductive Value where
  | null
  | f64 (bits : Nat)
  | i64 (i : Int)
  | u64 (n : Nat)
  | bool (b : Bool)
  | str (s : String)
  | raw (s : String)
  | arr (vs : List Value)
  | obj (fs : List (String × Value))
  deriving Inhabited

/-- The fields of a response object (`Vec<(&str, Value)>`, value.rs:28). -/
abbrev Fields := List (String × Value)

/-- Induction over values where arrays and objects give the hypothesis for their members. -/
@[elab_as_elim]
theorem Value.ind {P : Value → Prop}
    (null : P .null) (f64 : ∀ b, P (.f64 b)) (i64 : ∀ i, P (.i64 i)) (u64 : ∀ n, P (.u64 n))
    (bool : ∀ b, P (.bool b)) (str : ∀ s, P (.str s)) (raw : ∀ s, P (.raw s))
    (arr : ∀ vs, (∀ v ∈ vs, P v) → P (.arr vs))
    (obj : ∀ fs : Fields, (∀ kv ∈ fs, P kv.2) → P (.obj fs)) (v : Value) : P v := by
  refine Value.rec (motive_1 := P) (motive_2 := fun vs => ∀ v ∈ vs, P v)
    (motive_3 := fun fs => ∀ kv ∈ fs, P kv.2) (motive_4 := fun kv => P kv.2)
    null f64 i64 u64 bool str raw (fun vs h => arr vs h) (fun fs h => obj fs h)
    ?_ ?_ ?_ ?_ ?_ v
  · simp
  · intro h t ih1 ih2 v hv
    cases hv with
    | head => exact ih1
    | tail _ h => exact ih2 v h
  · simp
  · intro h t ih1 ih2 v hv
    cases hv with
    | head => exact ih1
    | tail _ h => exact ih2 v h
  · intro _ _ h; exact h

/-! ### Sorted objects -/

/-- Keys strictly increasing: the representation invariant of response objects.
value.rs:182 and value.rs:365 sort the keys of each object when it is read. -/
def SortedKeys {α : Type} (fs : List (String × α)) : Prop :=
  fs.Pairwise (fun a b => a.1 < b.1)

/-- Deep well-formedness: every object inside the value has strictly increasing keys. -/
inductive Value.WF : Value → Prop
  | null : WF .null
  | f64 (b) : WF (.f64 b)
  | i64 (i) : WF (.i64 i)
  | u64 (n) : WF (.u64 n)
  | bool (b) : WF (.bool b)
  | str (s) : WF (.str s)
  | raw (s) : WF (.raw s)
  | arr {vs} : (∀ v ∈ vs, WF v) → WF (.arr vs)
  | obj {fs : Fields} : SortedKeys fs → (∀ kv ∈ fs, WF kv.2) → WF (.obj fs)

/-- The specification of key lookup: the value of the first entry with that key. -/
def lookup {α : Type} (k : String) : List (String × α) → Option α
  | [] => none
  | (k', v) :: rest => if k' = k then some v else lookup k rest

/-! ### Binary search, as in Rust's standard library -/

/-- The loop of `slice::binary_search_by` (Rust 1.97 `core::slice`):
`while size > 1 { half = size/2; mid = base+half; base = if f(mid) == Greater {base} else {mid};
size -= half }`. `f i` is the comparison of the `i`-th element with the target. -/
def bsLoop (f : Nat → Ordering) (base size : Nat) : Nat :=
  if _h : 1 < size then
    let half := size / 2
    let mid := base + half
    bsLoop f (if f mid = .gt then base else mid) (size - half)
  else base
termination_by size
decreasing_by omega

/-- `slice::binary_search_by`: `some i` for `Ok(i)`, `none` for `Err(_)`. -/
def binarySearch (len : Nat) (f : Nat → Ordering) : Option Nat :=
  if len = 0 then none
  else
    let base := bsLoop f 0 len
    if f base = .eq then some base else none

/-- The comparison of the `i`-th key with the target. The loop only asks for `i < fs.length`. -/
def keyCmp {α : Type} (fs : List (String × α)) (k : String) (i : Nat) : Ordering :=
  match fs[i]? with
  | some kv => compare kv.1 k
  | none => .gt

/-- `obj.binary_search_by_key(&key, |(k, _)| k)` (value.rs:61, 118, 131 and all other key
lookups of the executor). -/
def findKey {α : Type} (fs : List (String × α)) (k : String) : Option Nat :=
  binarySearch fs.length (keyCmp fs k)

/-- `binary_search_by_key(..).ok().map(|i| &obj[i].1)`. -/
def getKey {α : Type} (fs : List (String × α)) (k : String) : Option α :=
  (findKey fs k).bind fun i => (fs[i]?).map (·.2)

/-! ### Facts about string comparison -/

theorem str_lt_trans {a b c : String} (h₁ : a < b) (h₂ : b < c) : a < c := String.lt_trans h₁ h₂
theorem str_lt_irrefl (a : String) : ¬ a < a := String.lt_irrefl a

theorem str_compare_lt {a b : String} : compare a b = .lt ↔ a < b := by
  simp only [compare, String.compare, compareOfLessAndEq]
  split
  · simp_all
  · split <;> simp_all

theorem str_compare_eq {a b : String} : compare a b = .eq ↔ a = b := by
  exact Std.compare_eq_iff_eq

theorem str_compare_gt {a b : String} : compare a b = .gt ↔ b < a := by
  rw [← str_compare_lt]
  exact Std.OrientedCmp.gt_iff_lt

theorem str_lt_or_eq_or_gt (a b : String) : a < b ∨ a = b ∨ b < a := by
  rcases h : compare a b with _ | _ | _
  · exact Or.inl (str_compare_lt.1 h)
  · exact Or.inr (Or.inl (str_compare_eq.1 h))
  · exact Or.inr (Or.inr (str_compare_gt.1 h))

theorem str_lt_asymm {a b : String} (h : a < b) : ¬ b < a :=
  fun h' => str_lt_irrefl _ (str_lt_trans h h')

theorem str_lt_ne {a b : String} (h : a < b) : a ≠ b := by
  rintro rfl; exact str_lt_irrefl _ h

/-! ### Facts about `lookup` -/

theorem lookup_eq_none {α : Type} {k : String} {fs : List (String × α)} :
    lookup k fs = none ↔ ∀ kv ∈ fs, kv.1 ≠ k := by
  induction fs with
  | nil => simp [lookup]
  | cons kv rest ih =>
    obtain ⟨k', v⟩ := kv
    by_cases h : k' = k <;> simp [lookup, h, ih]

theorem lookup_mem {α : Type} {k : String} {v : α} {fs : List (String × α)}
    (h : lookup k fs = some v) : (k, v) ∈ fs := by
  induction fs with
  | nil => simp [lookup] at h
  | cons kv rest ih =>
    obtain ⟨k', v'⟩ := kv
    by_cases hk : k' = k
    · simp [lookup, hk] at h; simp [hk, h]
    · simp [lookup, hk] at h; simp [ih h]

theorem lookup_of_mem {α : Type} {k : String} {v : α} {fs : List (String × α)}
    (hs : SortedKeys fs) (h : (k, v) ∈ fs) : lookup k fs = some v := by
  induction fs with
  | nil => simp at h
  | cons kv rest ih =>
    obtain ⟨k', v'⟩ := kv
    simp only [SortedKeys, List.pairwise_cons] at hs
    rcases List.mem_cons.1 h with h | h
    · simp at h; simp [lookup, h.1, h.2]
    · have := hs.1 _ h
      have hne : k' ≠ k := str_lt_ne this
      simp [lookup, hne, ih hs.2 h]

/-- In a sorted list a key below the head is absent. -/
theorem lookup_none_of_lt {α : Type} {k : String} {fs : List (String × α)}
    (h : ∀ kv ∈ fs, k < kv.1) : lookup k fs = none :=
  lookup_eq_none.2 fun kv hkv => (str_lt_ne (h kv hkv)).symm

/-! ### Correctness of the binary search -/

/-- Loop invariant: if the target index lies in `[base, base+size)`, and `f` is `Less` before it
and `Greater` after it, the loop ends on it. -/
theorem bsLoop_spec (f : Nat → Ordering) (t : Nat) :
    ∀ (size base : Nat), base ≤ t → t < base + size →
      (∀ i, base ≤ i → i < t → f i ≠ .gt) → f t ≠ .gt →
      (∀ i, t < i → i < base + size → f i = .gt) →
      bsLoop f base size = t := by
  intro size
  induction size using Nat.strongRecOn with
  | _ size ih =>
    intro base hb ht hlt heq hgt
    unfold bsLoop
    by_cases hs : 1 < size
    · simp only [hs, dite_true]
      by_cases hf : f (base + size / 2) = .gt
      · simp only [hf, if_true]
        have htm : t < base + size / 2 := by
          rcases Nat.lt_or_ge t (base + size / 2) with h | h
          · exact h
          · rcases Nat.eq_or_lt_of_le h with h | h
            · exact absurd (h ▸ hf) heq
            · exact absurd hf (hlt _ (by omega) h)
        exact ih _ (by omega) base hb (by omega) hlt heq (fun i h1 h2 => hgt i h1 (by omega))
      · simp only [hf, if_false]
        have htm : base + size / 2 ≤ t := by
          rcases Nat.lt_or_ge t (base + size / 2) with h | h
          · exact absurd (hgt _ h (by omega)) hf
          · exact h
        exact ih _ (by omega) _ htm (by omega) (fun i h1 h2 => hlt i (by omega) h2) heq
          (fun i h1 h2 => hgt i h1 (by omega))
    · simp only [hs, dite_false]
      omega

theorem bsLoop_lt (f : Nat → Ordering) :
    ∀ (size base : Nat), 0 < size → bsLoop f base size < base + size := by
  intro size
  induction size using Nat.strongRecOn with
  | _ size ih =>
    intro base hs0
    unfold bsLoop
    by_cases hs : 1 < size
    · simp only [hs, dite_true]
      split
      · have := ih (size - size / 2) (by omega) base (by omega)
        omega
      · have := ih (size - size / 2) (by omega) (base + size / 2) (by omega)
        omega
    · simp only [hs, dite_false]
      omega

theorem SortedKeys.get_lt {α : Type} {fs : List (String × α)} (hs : SortedKeys fs)
    {i j : Nat} (hij : i < j) (hj : j < fs.length) :
    (fs[i]'(by omega)).1 < (fs[j]).1 :=
  List.pairwise_iff_getElem.1 hs i j (by omega) hj hij

theorem findKey_some_of_mem {α : Type} {fs : List (String × α)} (hs : SortedKeys fs) {t : Nat}
    (ht : t < fs.length) : findKey fs (fs[t]).1 = some t := by
  have hlen : fs.length ≠ 0 := by omega
  have hloop : bsLoop (keyCmp fs (fs[t]).1) 0 fs.length = t := by
    apply bsLoop_spec
    · omega
    · omega
    · intro i _ hi
      have : i < fs.length := by omega
      have hlt := hs.get_lt hi ht
      simp only [keyCmp, List.getElem?_eq_getElem this]
      rw [str_compare_lt.2 hlt]; decide
    · simp only [keyCmp, List.getElem?_eq_getElem ht]
      rw [str_compare_eq.2 rfl]; decide
    · intro i h1 h2
      have : i < fs.length := by omega
      have hlt := hs.get_lt h1 this
      simp only [keyCmp, List.getElem?_eq_getElem this]
      exact str_compare_gt.2 hlt
  unfold findKey binarySearch
  simp only [hlen, if_false]
  rw [hloop]
  simp [keyCmp, List.getElem?_eq_getElem ht]

theorem findKey_sound {α : Type} {fs : List (String × α)} {k : String} {i : Nat}
    (h : findKey fs k = some i) : ∃ v, fs[i]? = some (k, v) := by
  unfold findKey binarySearch at h
  by_cases hl : fs.length = 0
  · simp [hl] at h
  · simp only [hl, if_false] at h
    by_cases hc : keyCmp fs k (bsLoop (keyCmp fs k) 0 fs.length) = .eq
    · simp only [hc, if_true, Option.some.injEq] at h
      rw [h] at hc
      unfold keyCmp at hc
      rcases hkv : fs[i]? with _ | kv
      · rw [hkv] at hc; simp at hc
      · rw [hkv] at hc
        exact ⟨kv.2, by rw [← str_compare_eq.1 hc]⟩
    · simp [hc] at h

/-- On sorted objects the binary search computes the specification `lookup`. -/
theorem getKey_eq_lookup {α : Type} {fs : List (String × α)} (hs : SortedKeys fs) (k : String) :
    getKey fs k = lookup k fs := by
  unfold getKey
  rcases h : lookup k fs with _ | v
  · rcases hf : findKey fs k with _ | i
    · rfl
    · obtain ⟨v, hv⟩ := findKey_sound hf
      have := lookup_eq_none.1 h (k, v) (List.mem_of_getElem? hv)
      simp at this
  · have hm := lookup_mem h
    obtain ⟨t, ht, hget⟩ := List.getElem_of_mem hm
    have := findKey_some_of_mem hs ht
    rw [hget] at this
    simp only at this
    rw [this]
    simp [List.getElem?_eq_getElem ht, hget]

end Verif
