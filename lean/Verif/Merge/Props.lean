import Verif.Merge.Lemmas
/-
C01, C02, C03: merging subgraph responses.
-/
namespace Verif

/-! ## C01 -/

/-- **C01.** Merging two well formed responses gives a well formed response which is, key by key
and position by position, the merge described by the specification `Merged`. -/
theorem C01_merge_meets_spec (t s : Value) (ht : t.WF) (hs : s.WF) :
    Merged t s (deepMerge t s) ∧ (deepMerge t s).WF := by
  refine ⟨?_, deepMerge_wf s t ht hs⟩
  induction s using Value.ind generalizing t with
  | null => rw [deepMerge_null]; exact .null t
  | f64 b => cases t <;> simp only [deepMerge] <;> exact .replace (by simp) (by simp) (by simp)
  | i64 b => cases t <;> simp only [deepMerge] <;> exact .replace (by simp) (by simp) (by simp)
  | u64 b => cases t <;> simp only [deepMerge] <;> exact .replace (by simp) (by simp) (by simp)
  | bool b => cases t <;> simp only [deepMerge] <;> exact .replace (by simp) (by simp) (by simp)
  | str b => cases t <;> simp only [deepMerge] <;> exact .replace (by simp) (by simp) (by simp)
  | raw b => cases t <;> simp only [deepMerge] <;> exact .replace (by simp) (by simp) (by simp)
  | arr ss ih =>
    cases t with
    | arr ts =>
      simp only [deepMerge]
      refine .arr (mergeZip_length ts ss) ?_ ?_
      · intro i h1 h2 h3
        have := mergeZip_getElem? ts ss i
        rw [List.getElem?_eq_getElem h1, List.getElem?_eq_getElem h2,
          List.getElem?_eq_getElem h3] at this
        rw [Option.some.inj this]
        exact ih _ (List.getElem_mem h2) _ (WF.arr_mem ht _ (List.getElem_mem h1))
          (WF.arr_mem hs _ (List.getElem_mem h2))
      · intro i hi
        rw [mergeZip_getElem?, List.getElem?_eq_none hi]
        cases ts[i]? <;> rfl
    | _ => simp only [deepMerge]; exact .replace (by simp) (by simp) (by simp)
  | obj ss ih =>
    cases t with
    | obj ts =>
      have h1 := WF.obj_sorted ht
      have h2 := WF.obj_sorted hs
      simp only [deepMerge]
      refine .obj (mergeObjects_sorted _ _ h1 h2) ?_ ?_ ?_ ?_
      · intro k hk; rw [mergeObjects_lookup _ _ _ h1 h2, hk, mergeEntry_none_right]
      · intro k hk; rw [mergeObjects_lookup _ _ _ h1 h2, hk, mergeEntry_none_left]
      · intro k ha hb
        rw [mergeObjects_lookup _ _ _ h1 h2]
        obtain ⟨a, ha⟩ := Option.isSome_iff_exists.1 ha
        obtain ⟨b, hb⟩ := Option.isSome_iff_exists.1 hb
        simp [ha, hb, mergeEntry]
      · intro k a b c ha hb hc
        rw [mergeObjects_lookup _ _ _ h1 h2, ha, hb] at hc
        simp only [mergeEntry, Option.some.injEq] at hc
        subst hc
        exact ih _ (lookup_mem hb) a (WF.lookup ht ha) (WF.lookup hs hb)
    | _ => simp only [deepMerge]; exact .replace (by simp) (by simp) (by simp)

/-- **C01**, the specification leaves no freedom: it determines the merged response, so the
theorem above pins `deep_merge` down completely on well formed responses. -/
theorem C01_spec_deterministic (t s r r' : Value) (h : Merged t s r) (h' : Merged t s r') :
    r = r' := by
  induction h generalizing r' with
  | null t =>
    cases h' with
    | null => rfl
    | replace h => exact absurd rfl h
  | @obj t s r hsort h1 h2 h3 _ ih =>
    cases h' with
    | @obj _ _ r' hsort' h1' h2' h3' h4' =>
      congr 1
      refine sorted_ext hsort hsort' fun k => ?_
      rcases ht : lookup k t with _ | a
      · rw [h2 k ht, h2' k ht]
      · rcases hs : lookup k s with _ | b
        · rw [h1 k hs, h1' k hs]
        · obtain ⟨c, hc⟩ := Option.isSome_iff_exists.1 (h3 k (by simp [ht]) (by simp [hs]))
          obtain ⟨c', hc'⟩ := Option.isSome_iff_exists.1 (h3' k (by simp [ht]) (by simp [hs]))
          rw [hc, hc', ih k a b c ht hs hc c' (h4' k a b c' ht hs hc')]
    | replace _ h => exact absurd ⟨rfl, rfl⟩ (h _ _)
  | @arr t s r hl _ hk ih =>
    cases h' with
    | @arr _ _ r' hl' h1' hk' =>
      congr 1
      apply List.ext_getElem?
      intro i
      rcases Nat.lt_or_ge i s.length with hs | hs
      · rcases Nat.lt_or_ge i t.length with ht | ht
        · rw [List.getElem?_eq_getElem (hl ▸ ht), List.getElem?_eq_getElem (hl' ▸ ht)]
          rw [ih i ht hs (hl ▸ ht) _ (h1' i ht hs (hl' ▸ ht))]
        · rw [List.getElem?_eq_none (hl ▸ ht), List.getElem?_eq_none (hl' ▸ ht)]
      · rw [hk i hs, hk' i hs]
    | replace _ _ h => exact absurd ⟨rfl, rfl⟩ (h _ _)
  | @replace t s hn ho ha =>
    cases h' with
    | null => exact absurd rfl hn
    | obj => exact absurd ⟨rfl, rfl⟩ (ho _ _)
    | arr => exact absurd ⟨rfl, rfl⟩ (ha _ _)
    | replace => rfl

/-- Non-vacuity for C01: nested objects and lists that are well formed, with a shared key, keys on
one side only, a null that must not erase, and their merge. -/
example :
    let t := Value.obj [("a", .obj [("x", .u64 1)]), ("c", .arr [.null, .str "p"])]
    let s := Value.obj [("a", .obj [("x", .null), ("y", .u64 2)]), ("b", .bool true),
      ("c", .arr [.u64 7])]
    t.WF ∧ s.WF ∧ deepMerge t s = .obj [("a", .obj [("x", .u64 1), ("y", .u64 2)]),
      ("b", .bool true), ("c", .arr [.u64 7, .str "p"])] := by
  refine ⟨?_, ?_, ?_⟩
  · exact .obj (by simp [SortedKeys])
      (by simp; exact ⟨.obj (by simp [SortedKeys]) (by simp; exact .u64 1),
        .arr (by simp; exact ⟨.null, .str _⟩)⟩)
  · exact .obj (by simp [SortedKeys])
      (by simp; exact ⟨.obj (by simp [SortedKeys]) (by simp; exact ⟨.null, .u64 _⟩),
        .bool _, .arr (by simp; exact .u64 _)⟩)
  · have e2 : compare "c" "b" = Ordering.gt := by decide
    simp [deepMerge, mergeObjects, e2]

/-! ## C02 -/

/-- **C02**, two responses: if they agree, they may arrive in either order. -/
theorem C02_merge_swap (t a b : Value) (ht : t.WF) (ha : a.WF) (hb : b.WF) (h : Agree a b) :
    deepMerge (deepMerge t a) b = deepMerge (deepMerge t b) a :=
  deepMerge_exchange h t ht ha hb

/-- **C02.** Any number of pairwise agreeing responses may arrive in any order. -/
theorem C02_merge_any_order (t : Value) (rs rs' : List Value) (ht : t.WF)
    (hwf : ∀ r ∈ rs, r.WF) (hagree : rs.Pairwise Agree) (hperm : rs.Perm rs') :
    mergeAll t rs = mergeAll t rs' := by
  induction hperm generalizing t with
  | nil => rfl
  | cons x _ ih =>
    exact ih (deepMerge t x) (deepMerge_wf _ _ ht (hwf x (List.mem_cons_self ..)))
      (fun r hr => hwf r (List.mem_cons_of_mem _ hr)) (List.pairwise_cons.1 hagree).2
  | swap x y l =>
    have hy := hwf y (List.mem_cons_self ..)
    have hx := hwf x (List.mem_cons_of_mem _ (List.mem_cons_self ..))
    have hyx : Agree y x := (List.pairwise_cons.1 hagree).1 x (List.mem_cons_self ..)
    show mergeAll (deepMerge (deepMerge t y) x) l = mergeAll (deepMerge (deepMerge t x) y) l
    rw [C02_merge_swap t y x ht hy hx hyx]
  | trans h1 h2 ih1 ih2 =>
    rw [ih1 t ht hwf hagree]
    exact ih2 t ht (fun r hr => hwf r (h1.mem_iff.2 hr))
      ((h1.pairwise_iff (fun hab => hab.symm)).1 hagree)

/-- Without agreement the order does matter, so the hypothesis is needed. -/
theorem C02_disagreement_is_order_dependent :
    mergeAll .null [.u64 1, .u64 2] ≠ mergeAll .null [.u64 2, .u64 1] := by
  simp [mergeAll, deepMerge]

/-- Non-vacuity for C02: two different agreeing well formed responses sharing a key. -/
example : Agree (.obj [("a", .u64 1), ("b", .null)]) (.obj [("a", .u64 1), ("c", .str "x")]) := by
  refine .obj fun k x y hx hy => ?_
  simp only [lookup] at hx hy
  split at hx
  · rename_i h; subst h; simp at hx hy; subst hx hy; exact .u64 1
  · split at hx
    · simp at hx; subst hx; exact .nullL _
    · simp at hx

/-! ## C03 -/

/-- **C03.** In a sorted response object the binary search used by the executor finds a key exactly
if it is there, and then yields the value stored under it. -/
theorem C03_lookup_exact (fs : Fields) (hs : SortedKeys fs) (k : String) :
    (∀ v, getKey fs k = some v ↔ (k, v) ∈ fs) ∧ (getKey fs k = none ↔ ∀ kv ∈ fs, kv.1 ≠ k) := by
  rw [getKey_eq_lookup hs]
  exact ⟨fun v => ⟨lookup_mem, lookup_of_mem hs⟩, lookup_eq_none⟩

example : SortedKeys [("__typename", Value.str "T"), ("a", .null), ("id", .u64 1)] := by
  simp [SortedKeys]

/-- **C03**, where sortedness comes from: the JSON reader turns any JSON document whose objects
have no repeated keys into a well formed value ... -/
theorem C03_reader_wf (j : Value) (h : NoDupKeys j) : (readJson j).WF := by
  induction j using Value.ind with
  | arr vs ih =>
    cases h with
    | arr h =>
      rw [readJson_arr]
      refine .arr fun v hv => ?_
      obtain ⟨w, hw, rfl⟩ := List.mem_map.1 hv
      exact ih w hw (h w hw)
  | obj fs ih =>
    cases h with
    | obj hn h =>
      rw [readJson_obj]
      refine .obj (sortFields_sorted ?_) fun kv hkv => ?_
      · simpa [List.map_map, Function.comp_def] using hn
      · obtain ⟨w, hw, rfl⟩ := List.mem_map.1 ((sortFields_perm _).mem_iff.1 hkv)
        exact ih w hw (h w hw)
  | _ => simp only [readJson]; constructor

/-- ... with the same keys and values: looking a key up in the value read gives what the JSON
document has under that key. -/
theorem C03_reader_lookup (fs : Fields) (h : NoDupKeys (.obj fs)) (k : String) :
    ∃ gs, readJson (.obj fs) = .obj gs ∧ getKey gs k = (lookup k fs).map readJson := by
  refine ⟨_, readJson_obj fs, ?_⟩
  cases h with
  | obj hn h =>
    have hn' : ((fs.map fun kv => (kv.1, readJson kv.2)).map (·.1)).Nodup := by
      simpa [List.map_map, Function.comp_def] using hn
    rw [getKey_eq_lookup (sortFields_sorted hn'), lookup_perm hn' (sortFields_perm _),
      lookup_map]

example : NoDupKeys (.obj [("id", .u64 1), ("a", .arr [.obj [("z", .null), ("b", .null)]])]) :=
  .obj (by decide) (by
    simp
    exact ⟨.u64 1, .arr (by simp; exact .obj (by decide) (by simp; exact .null))⟩)

end Verif
