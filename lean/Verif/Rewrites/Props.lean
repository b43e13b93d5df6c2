import Verif.Rewrites.Lemmas
/-
C04: response rewrites.
-/
namespace Verif.Rewrites

/-- **C04, value setter.** Setting a value keeps the response well formed (so every key can still
be found by binary search, C03), puts the new value at every addressed position and leaves every
position apart from the addressed ones as it was. -/
theorem C04_setter (sat : Sat) (s : String) (path : List Seg) (v : Value) (hw : v.WF) :
    (setValue sat s path v).WF ∧
    (∀ p, Addr sat path v p → at? p (setValue sat s path v) = some (.str s)) ∧
    (∀ q, (∀ p, Addr sat path v p → ¬ p <+: q ∧ ¬ q <+: p) →
      at? q (setValue sat s path v) = at? q v) :=
  ⟨setValue_wf v path hw, fun _ h => setValue_addr h, fun q h => setValue_frame v path q h⟩

/-- Non-vacuity: an interface object whose `__typename` inside a list is set. -/
example : Addr (fun t c => t == c) [.key "xs", .typenameEquals ["A"], .key "__typename"]
    (.obj [("xs", .arr [.obj [("__typename", .str "B")], .obj [("__typename", .str "A")]])])
    [.key "xs", .idx 1, .key "__typename"] :=
  .key rfl (.arr rfl (.type (by decide) (.key rfl (.here _))))

/-- **C04, key renamer, refuted.** Renaming an internal alias back to its field can leave an object
in which present keys are no longer found: the entry is renamed in place and the object is not
sorted again. Here after renaming, both `id` and the renamed `val` are present but the executor's
lookup misses them. -/
theorem C04_rename_hides_keys :
    ∃ (fs gs : Fields), (Value.obj fs).WF ∧
      rename (fun _ _ => true) "val" [.key "_internal_qp_alias_0"] (.obj fs) = some (.obj gs) ∧
      lookup "id" gs = some (.u64 7) ∧ getKey gs "id" = none ∧
      lookup "val" gs = some (.u64 1) ∧ getKey gs "val" = none := by
  refine ⟨[("__typename", .str "T"), ("_internal_qp_alias_0", .u64 1), ("id", .u64 7)],
    [("__typename", .str "T"), ("val", .u64 1), ("id", .u64 7)], ?_, ?_, ?_, ?_, ?_, ?_⟩
  · exact .obj (by simp [SortedKeys]) (by simp; exact ⟨.str _, .u64 _, .u64 _⟩)
  · simp [rename, renameFirst]
  · simp [lookup]
  · have h1 : compare "val" "id" = Ordering.gt := by decide
    have h2 : compare "__typename" "id" = Ordering.lt := by decide
    simp [getKey, findKey, binarySearch, bsLoop, keyCmp, h1, h2]
  · simp [lookup]
  · have h1 : compare "id" "val" = Ordering.lt := by decide
    simp [getKey, findKey, binarySearch, bsLoop, keyCmp, h1]

/-- **C04, key renamer, partial.** If in each object where the key is renamed the new key sorts to
the same place, the result is well formed again, so all keys remain findable. Missing: the case in
which the new key belongs elsewhere, where the property fails (`C04_rename_hides_keys`). -/
theorem C04_rename_partial (sat : Sat) (new old : String) (path : List Seg) (v v' : Value)
    (hw : v.WF) (hl : lastKey path = some old) (hr : rename sat new path v = some v')
    (hp : ∀ p fs, AddrObj sat path v p fs → KeepsPlace old new fs) : v'.WF :=
  rename_wf v path v' old hw hr hl hp

/-- Non-vacuity for `C04_rename_partial`. -/
example : KeepsPlace "_internal_qp_alias_0" "_val"
    [("__typename", .str "T"), ("_internal_qp_alias_0", .u64 1), ("id", .u64 7)] := by
  simp [KeepsPlace]

/-- **C04, key renamer, contents.** Whatever the order, the rename does not panic on a path that
ends in a key, and each addressed object is replaced, at its position, by one with the same entries
except that the entry of the old key is now under the new key. -/
theorem C04_rename_contents (sat : Sat) (new old : String) (path : List Seg) (v : Value)
    (hl : lastKey path = some old) (hne : old ≠ new) :
    ∃ v', rename sat new path v = some v' ∧
      ∀ p fs, AddrObj sat path v p fs → (∀ kv ∈ fs, kv.1 ≠ new) →
        ∃ gs, at? p v' = some (.obj gs) ∧ lookup new gs = lookup old fs ∧
          ∀ k, k ≠ old → k ≠ new → lookup k gs = lookup k fs := by
  obtain ⟨v', hv⟩ := Option.isSome_iff_exists.1
    (rename_isSome (sat := sat) (new := new) v path (by simp [hl]))
  refine ⟨v', hv, fun p fs ha hn => ?_⟩
  have := rename_addr ha hv hl
  simp only [hne, if_false] at this
  exact ⟨_, this, renameFirst_lookup_new hn, fun k h1 h2 => renameFirst_lookup_other h1 h2⟩

/-- Non-vacuity for `C04_rename_contents`. -/
example : AddrObj (fun t c => t == c) [.typenameEquals ["A"], .key "_internal_qp_alias_0"]
    (.arr [.obj [("__typename", .str "A"), ("_internal_qp_alias_0", .u64 1)]]) [.idx 0]
    [("__typename", .str "A"), ("_internal_qp_alias_0", .u64 1)] :=
  .arr rfl (.type (by decide) .here)

/-- A rename path that does not end in a key makes the code panic (index out of bounds at
rewrites.rs:55) as soon as the type test succeeds. -/
theorem C04_rename_panics_without_key :
    rename (fun _ _ => true) "x" [.typenameEquals ["A"]] (.obj []) = none := by
  simp [rename, typeTest, lookup]

end Verif.Rewrites
