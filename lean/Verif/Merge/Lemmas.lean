import Verif.Merge.Model
import Verif.Merge.Spec
/-
Helper lemmas about `deepMerge`.
-/
namespace Verif

@[simp] theorem deepMerge_null (t : Value) : deepMerge t .null = t := by
  cases t <;> simp [deepMerge]

@[simp] theorem mergeZip_nil_right (t : List Value) : mergeZip t [] = t := by
  cases t <;> simp [mergeZip]

@[simp] theorem mergeZip_nil_left (s : List Value) : mergeZip [] s = [] := by
  cases s <;> simp [mergeZip]

@[simp] theorem mergeZip_cons (t s : Value) (ts ss : List Value) :
    mergeZip (t :: ts) (s :: ss) = deepMerge t s :: mergeZip ts ss := by
  rw [mergeZip]

@[simp] theorem mergeObjects_nil_right (t : Fields) : mergeObjects t [] = t := by
  cases t <;> simp [mergeObjects]

@[simp] theorem mergeObjects_nil_left (s : Fields) : mergeObjects [] s = s := by
  cases s <;> simp [mergeObjects]

theorem mergeZip_length (t s : List Value) : (mergeZip t s).length = t.length := by
  induction t generalizing s with
  | nil => simp
  | cons a t ih => cases s <;> simp [ih]

theorem mergeZip_getElem? (t s : List Value) (i : Nat) :
    (mergeZip t s)[i]? = match t[i]?, s[i]? with
      | some a, some b => some (deepMerge a b)
      | a, _ => a := by
  induction t generalizing s i with
  | nil => simp
  | cons a t ih =>
    cases s with
    | nil => cases h : (a :: t)[i]? <;> simp [h]
    | cons b s =>
      cases i with
      | zero => simp
      | succ i => simpa using ih s i

/-- All keys above `k`. -/
def KeysAbove {α : Type} (k : String) (fs : List (String × α)) : Prop := ∀ kv ∈ fs, k < kv.1

theorem mergeObjects_keysAbove {k : String} :
    ∀ (t s : Fields), KeysAbove k t → KeysAbove k s → KeysAbove k (mergeObjects t s)
  | [], s, _, hs => by simpa
  | t :: ts, [], ht, _ => by simpa
  | (tk, tv) :: t, (sk, sv) :: s, ht, hs => by
    rw [mergeObjects]
    have h1 : k < tk := ht _ (List.mem_cons_self ..)
    have h2 : k < sk := hs _ (List.mem_cons_self ..)
    have ht' : KeysAbove k t := fun kv h => ht kv (List.mem_cons_of_mem _ h)
    have hs' : KeysAbove k s := fun kv h => hs kv (List.mem_cons_of_mem _ h)
    split
    · intro kv hkv
      rcases List.mem_cons.1 hkv with h | h
      · simpa [h]
      · exact mergeObjects_keysAbove t ((sk, sv) :: s) ht' hs kv h
    · intro kv hkv
      rcases List.mem_cons.1 hkv with h | h
      · simpa [h]
      · exact mergeObjects_keysAbove ((tk, tv) :: t) s ht hs' kv h
    · intro kv hkv
      rcases List.mem_cons.1 hkv with h | h
      · simpa [h]
      · exact mergeObjects_keysAbove t s ht' hs' kv h
termination_by t s => t.length + s.length

theorem SortedKeys.tail {α : Type} {a : String × α} {l : List (String × α)}
    (h : SortedKeys (a :: l)) : SortedKeys l := (List.pairwise_cons.1 h).2

theorem SortedKeys.head {α : Type} {a : String × α} {l : List (String × α)}
    (h : SortedKeys (a :: l)) : KeysAbove a.1 l := (List.pairwise_cons.1 h).1

theorem SortedKeys.cons {α : Type} {a : String × α} {l : List (String × α)}
    (h : KeysAbove a.1 l) (hs : SortedKeys l) : SortedKeys (a :: l) :=
  List.pairwise_cons.2 ⟨h, hs⟩

theorem KeysAbove.trans {α : Type} {k k' : String} {l : List (String × α)}
    (h : k < k') (hl : KeysAbove k' l) : KeysAbove k l :=
  fun kv hkv => str_lt_trans h (hl kv hkv)

theorem KeysAbove.cons {α : Type} {k : String} {a : String × α} {l : List (String × α)}
    (h : k < a.1) (hl : KeysAbove k l) : KeysAbove k (a :: l) := by
  intro kv hkv
  rcases List.mem_cons.1 hkv with h' | h'
  · simpa [h']
  · exact hl kv h'

theorem mergeObjects_sorted :
    ∀ (t s : Fields), SortedKeys t → SortedKeys s → SortedKeys (mergeObjects t s)
  | [], s, _, hs => by simpa
  | t :: ts, [], ht, _ => by simpa
  | (tk, tv) :: t, (sk, sv) :: s, ht, hs => by
    rw [mergeObjects]
    split
    · rename_i hc
      have hlt := str_compare_lt.1 hc
      exact .cons (mergeObjects_keysAbove _ _ ht.head (.cons hlt (hs.head.trans hlt)))
        (mergeObjects_sorted t ((sk, sv) :: s) ht.tail hs)
    · rename_i hc
      have hlt := str_compare_gt.1 hc
      exact .cons (mergeObjects_keysAbove _ _ (.cons hlt (ht.head.trans hlt)) hs.head)
        (mergeObjects_sorted ((tk, tv) :: t) s ht hs.tail)
    · rename_i hc
      have heq := str_compare_eq.1 hc
      subst heq
      exact .cons (mergeObjects_keysAbove _ _ ht.head hs.head)
        (mergeObjects_sorted t s ht.tail hs.tail)
termination_by t s => t.length + s.length

/-- How an entry of the merged object arises. -/
def mergeEntry : Option Value → Option Value → Option Value
  | some a, some b => some (deepMerge a b)
  | some a, none => some a
  | none, b => b

@[simp] theorem mergeEntry_none_right (a : Option Value) : mergeEntry a none = a := by
  cases a <;> rfl

@[simp] theorem mergeEntry_none_left (a : Option Value) : mergeEntry none a = a := rfl

theorem mergeObjects_lookup (k : String) :
    ∀ (t s : Fields), SortedKeys t → SortedKeys s →
      lookup k (mergeObjects t s) = mergeEntry (lookup k t) (lookup k s)
  | [], s, _, hs => by simp [lookup]
  | t :: ts, [], ht, _ => by simp [lookup]
  | (tk, tv) :: t, (sk, sv) :: s, ht, hs => by
    rw [mergeObjects]
    split
    · rename_i hc
      have hlt := str_compare_lt.1 hc
      have ih := mergeObjects_lookup k t ((sk, sv) :: s) ht.tail hs
      by_cases hk : tk = k
      · subst hk
        have : lookup tk ((sk, sv) :: s) = none :=
          lookup_none_of_lt (KeysAbove.cons hlt (hs.head.trans hlt))
        rw [this]; simp [lookup]
      · simp only [lookup, hk, if_false, ih]
    · rename_i hc
      have hlt := str_compare_gt.1 hc
      have ih := mergeObjects_lookup k ((tk, tv) :: t) s ht hs.tail
      by_cases hk : sk = k
      · subst hk
        have : lookup sk ((tk, tv) :: t) = none :=
          lookup_none_of_lt (KeysAbove.cons hlt (ht.head.trans hlt))
        rw [this]; simp [lookup]
      · simp only [lookup, hk, if_false] at ih ⊢
        exact ih
    · rename_i hc
      have heq := str_compare_eq.1 hc
      subst heq
      have ih := mergeObjects_lookup k t s ht.tail hs.tail
      by_cases hk : tk = k
      · simp [lookup, hk, mergeEntry]
      · simp only [lookup, hk, if_false, ih]
termination_by t s => t.length + s.length

/-- Sorted lists with the same lookups are equal. -/
theorem sorted_ext {α : Type} : ∀ {t s : List (String × α)}, SortedKeys t → SortedKeys s →
    (∀ k, lookup k t = lookup k s) → t = s
  | [], [], _, _, _ => rfl
  | [], (k, v) :: s, _, _, h => by have := h k; simp [lookup] at this
  | (k, v) :: t, [], _, _, h => by have := h k; simp [lookup] at this
  | (tk, tv) :: t, (sk, sv) :: s, ht, hs, h => by
    have hk : tk = sk := by
      rcases str_lt_or_eq_or_gt tk sk with hlt | heq | hgt
      · have := h tk
        rw [lookup_none_of_lt (fs := (sk, sv) :: s) (KeysAbove.cons hlt (hs.head.trans hlt))] at this
        simp [lookup] at this
      · exact heq
      · have := h sk
        rw [lookup_none_of_lt (fs := (tk, tv) :: t) (KeysAbove.cons hgt (ht.head.trans hgt))] at this
        simp [lookup] at this
    subst hk
    have hv : tv = sv := by simpa [lookup] using h tk
    subst hv
    have : t = s := sorted_ext ht.tail hs.tail fun k => by
      by_cases hk : tk = k
      · subst hk
        rw [lookup_none_of_lt ht.head, lookup_none_of_lt hs.head]
      · simpa [lookup, hk] using h k
    rw [this]

/-! ### Well-formedness and size facts -/

theorem WF.obj_sorted {fs : Fields} (h : Value.WF (.obj fs)) : SortedKeys fs := by
  cases h; assumption

theorem WF.obj_mem {fs : Fields} (h : Value.WF (.obj fs)) : ∀ kv ∈ fs, Value.WF kv.2 := by
  cases h; assumption

theorem WF.arr_mem {vs : List Value} (h : Value.WF (.arr vs)) : ∀ v ∈ vs, Value.WF v := by
  cases h; assumption

theorem WF.lookup {fs : Fields} (h : Value.WF (.obj fs)) {k : String} {v : Value}
    (hk : lookup k fs = some v) : Value.WF v := WF.obj_mem h _ (lookup_mem hk)

theorem deepMerge_wf (s : Value) : ∀ t, t.WF → s.WF → (deepMerge t s).WF := by
  induction s using Value.ind with
  | null => intro t ht _; simpa
  | f64 b => intro t _ hs; cases t <;> simpa [deepMerge]
  | i64 b => intro t _ hs; cases t <;> simpa [deepMerge]
  | u64 b => intro t _ hs; cases t <;> simpa [deepMerge]
  | bool b => intro t _ hs; cases t <;> simpa [deepMerge]
  | str b => intro t _ hs; cases t <;> simpa [deepMerge]
  | raw b => intro t _ hs; cases t <;> simpa [deepMerge]
  | arr ss ih =>
    intro t ht hs
    cases t with
    | arr ts =>
      simp only [deepMerge]
      refine .arr fun v hv => ?_
      obtain ⟨i, hi⟩ := List.mem_iff_getElem?.1 hv
      rw [mergeZip_getElem?] at hi
      rcases h1 : ts[i]? with _ | a
      · simp [h1] at hi
      · have ha := WF.arr_mem ht a (List.mem_of_getElem? h1)
        rcases h2 : ss[i]? with _ | b
        · simp [h1, h2] at hi; exact hi ▸ ha
        · simp [h1, h2] at hi
          have hb := List.mem_of_getElem? h2
          exact hi ▸ ih b hb a ha (WF.arr_mem hs b hb)
    | _ => simpa [deepMerge]
  | obj ss ih =>
    intro t ht hs
    cases t with
    | obj ts =>
      simp only [deepMerge]
      have hsort := mergeObjects_sorted ts ss (WF.obj_sorted ht) (WF.obj_sorted hs)
      refine .obj hsort fun kv hkv => ?_
      have hl := lookup_of_mem hsort (k := kv.1) (v := kv.2) hkv
      rw [mergeObjects_lookup _ _ _ (WF.obj_sorted ht) (WF.obj_sorted hs)] at hl
      rcases h1 : Verif.lookup kv.1 ts with _ | a <;> rcases h2 : Verif.lookup kv.1 ss with _ | b
      · simp [h1, h2] at hl
      · simp [h1, h2] at hl; exact hl ▸ WF.lookup hs h2
      · simp [h1, h2] at hl; exact hl ▸ WF.lookup ht h1
      · simp [h1, h2, mergeEntry] at hl
        exact hl ▸ ih _ (lookup_mem h2) a (WF.lookup ht h1) (WF.lookup hs h2)
    | _ => simpa [deepMerge]

theorem Agree.symm {a b : Value} (h : Agree a b) : Agree b a := by
  induction h with
  | nullL b => exact .nullR b
  | nullR b => exact .nullL b
  | arr hl _ ih => exact .arr hl.symm fun i ha hb => ih i hb ha
  | obj _ ih => exact .obj fun k x y hx hy => ih k y x hy hx
  | _ => constructor

@[simp] theorem deepMerge_null_left (s : Value) : deepMerge .null s = s := by
  cases s <;> simp [deepMerge]

/-- Two agreeing responses can be swapped. -/
theorem deepMerge_exchange {a b : Value} (h : Agree a b) : ∀ t, t.WF → a.WF → b.WF →
    deepMerge (deepMerge t a) b = deepMerge (deepMerge t b) a := by
  induction h with
  | nullL b => intro t _ _ _; simp
  | nullR b => intro t _ _ _; simp
  | @arr a b hl _ ih =>
    intro t ht ha hb
    have key : ∀ ts : List Value, (∀ v ∈ ts, v.WF) →
        mergeZip (mergeZip ts a) b = mergeZip (mergeZip ts b) a := by
      intro ts hts
      apply List.ext_getElem?
      intro i
      simp only [mergeZip_getElem?]
      rcases h1 : ts[i]? with _ | x
      · simp
      · rcases h2 : a[i]? with _ | y
        · have : b[i]? = none := by simp at h2 ⊢; omega
          simp [this]
        · have hi : i < a.length := by
            rcases Nat.lt_or_ge i a.length with h | h
            · exact h
            · simp [List.getElem?_eq_none h] at h2
          have hib : i < b.length := by omega
          have h3 : b[i]? = some b[i] := List.getElem?_eq_getElem hib
          have h2' : a[i]? = some a[i] := List.getElem?_eq_getElem hi
          rw [h2'] at h2
          obtain rfl := Option.some.inj h2
          simp only [h3]
          rw [ih i hi hib x (hts x (List.mem_of_getElem? h1)) (WF.arr_mem ha _ (List.getElem_mem hi))
            (WF.arr_mem hb _ (List.getElem_mem hib))]
    have comm : mergeZip a b = mergeZip b a := by
      apply List.ext_getElem?
      intro i
      simp only [mergeZip_getElem?]
      rcases Nat.lt_or_ge i a.length with hi | hi
      · have hib : i < b.length := by omega
        have := ih i hi hib .null .null (WF.arr_mem ha _ (List.getElem_mem hi))
            (WF.arr_mem hb _ (List.getElem_mem hib))
        simp at this
        simp [List.getElem?_eq_getElem hi, List.getElem?_eq_getElem hib, this]
      · simp [List.getElem?_eq_none hi, List.getElem?_eq_none (hl ▸ hi)]
    cases t with
    | arr ts => simp only [deepMerge]; rw [key ts (WF.arr_mem ht)]
    | _ => simp only [deepMerge]; rw [comm]
  | @obj a b _ ih =>
    intro t ht ha hb
    have sa := WF.obj_sorted ha
    have sb := WF.obj_sorted hb
    have key : ∀ ts : Fields, Value.WF (.obj ts) →
        mergeObjects (mergeObjects ts a) b = mergeObjects (mergeObjects ts b) a := by
      intro ts hts
      have st := WF.obj_sorted hts
      have sta := mergeObjects_sorted _ _ st sa
      have stb := mergeObjects_sorted _ _ st sb
      refine sorted_ext (mergeObjects_sorted _ _ sta sb) (mergeObjects_sorted _ _ stb sa) ?_
      intro k
      rw [mergeObjects_lookup _ _ _ sta sb, mergeObjects_lookup _ _ _ stb sa,
        mergeObjects_lookup _ _ _ st sa, mergeObjects_lookup _ _ _ st sb]
      rcases h1 : lookup k ts with _ | x <;> rcases h2 : lookup k a with _ | y <;>
        rcases h3 : lookup k b with _ | z <;> simp only [mergeEntry]
      · have := ih k y z h2 h3 .null .null (WF.lookup ha h2) (WF.lookup hb h3)
        simpa using this
      · rw [ih k y z h2 h3 x (WF.lookup hts h1) (WF.lookup ha h2) (WF.lookup hb h3)]
    have comm : mergeObjects a b = mergeObjects b a := by
      have := key [] (.obj (by simp [SortedKeys]) (by simp))
      simpa using this
    cases t with
    | obj ts => simp only [deepMerge]; rw [key ts ht]
    | _ => simp only [deepMerge]; rw [comm]
  | _ => intro t _ _ _; rfl

/-! ### The JSON reader -/

theorem readJsonList_eq (vs : List Value) : readJsonList vs = vs.map readJson := by
  induction vs with
  | nil => rfl
  | cons v vs ih => simp [readJsonList, ih]

theorem readJsonFields_eq (fs : Fields) :
    readJsonFields fs = fs.map fun kv => (kv.1, readJson kv.2) := by
  induction fs with
  | nil => rfl
  | cons v vs ih => simp [readJsonFields, ih]

theorem readJson_arr (vs : List Value) : readJson (.arr vs) = .arr (vs.map readJson) := by
  rw [readJson, readJsonList_eq]

theorem readJson_obj (fs : Fields) :
    readJson (.obj fs) = .obj (sortFields (fs.map fun kv => (kv.1, readJson kv.2))) := by
  rw [readJson, readJsonFields_eq]

theorem insertField_perm (kv : String × Value) (fs : Fields) :
    (insertField kv fs).Perm (kv :: fs) := by
  induction fs with
  | nil => exact .refl _
  | cons x xs ih =>
    simp only [insertField]
    split
    · exact .refl _
    · exact (List.Perm.cons x ih).trans (.swap ..)

theorem sortFields_perm (fs : Fields) : (sortFields fs).Perm fs := by
  induction fs with
  | nil => exact .refl _
  | cons x xs ih => exact (insertField_perm x _).trans (.cons x ih)

theorem insertField_sorted {kv : String × Value} {fs : Fields} (hs : SortedKeys fs)
    (hn : ∀ x ∈ fs, x.1 ≠ kv.1) : SortedKeys (insertField kv fs) := by
  induction fs with
  | nil => simp [insertField, SortedKeys]
  | cons x xs ih =>
    simp only [insertField]
    have hne := hn x (List.mem_cons_self ..)
    split
    · rename_i hle
      have hlt : kv.1 < x.1 := by
        rcases str_lt_or_eq_or_gt kv.1 x.1 with h | h | h
        · exact h
        · exact absurd h.symm hne
        · exact absurd hle (by simpa using h)
      exact .cons (.cons hlt (hs.head.trans hlt)) hs
    · rename_i hle
      have hlt : x.1 < kv.1 := by simpa using hle
      refine .cons ?_ (ih hs.tail fun y hy => hn y (List.mem_cons_of_mem _ hy))
      intro y hy
      rcases List.mem_cons.1 ((insertField_perm kv xs).mem_iff.1 hy) with h | h
      · rw [h]; exact hlt
      · exact hs.head y h

theorem sortFields_sorted {fs : Fields} (hn : (fs.map (·.1)).Nodup) :
    SortedKeys (sortFields fs) := by
  induction fs with
  | nil => simp [sortFields, SortedKeys]
  | cons x xs ih =>
    simp only [List.map_cons, List.nodup_cons] at hn
    refine insertField_sorted (ih hn.2) fun y hy => ?_
    have := (sortFields_perm xs).mem_iff.1 hy
    intro h
    exact hn.1 (List.mem_map.2 ⟨y, this, h⟩)

theorem lookup_of_mem_nodup {α : Type} {k : String} {v : α} {fs : List (String × α)}
    (hn : (fs.map (·.1)).Nodup) (h : (k, v) ∈ fs) : lookup k fs = some v := by
  induction fs with
  | nil => simp at h
  | cons x xs ih =>
    obtain ⟨k', v'⟩ := x
    simp only [List.map_cons, List.nodup_cons] at hn
    rcases List.mem_cons.1 h with h | h
    · simp at h; simp [lookup, h.1, h.2]
    · have : k' ≠ k := fun hk => hn.1 (List.mem_map.2 ⟨_, h, hk.symm⟩)
      simp [lookup, this, ih hn.2 h]

theorem lookup_perm {α : Type} {k : String} {fs gs : List (String × α)}
    (hn : (fs.map (·.1)).Nodup) (h : gs.Perm fs) : lookup k gs = lookup k fs := by
  have hg : (gs.map (·.1)).Nodup := (h.map _).nodup_iff.2 hn
  rcases hf : lookup k fs with _ | v
  · exact lookup_eq_none.2 fun kv hkv => lookup_eq_none.1 hf kv (h.mem_iff.1 hkv)
  · exact lookup_of_mem_nodup hg (h.mem_iff.2 (lookup_mem hf))

theorem lookup_map {α β : Type} (f : α → β) (k : String) (fs : List (String × α)) :
    lookup k (fs.map fun kv => (kv.1, f kv.2)) = (lookup k fs).map f := by
  induction fs with
  | nil => rfl
  | cons x xs ih =>
    by_cases h : x.1 = k <;> simp [lookup, h, ih]

theorem mergeAll_wf {rs : List Value} (hrs : ∀ r ∈ rs, r.WF) : ∀ t, t.WF → (mergeAll t rs).WF := by
  induction rs with
  | nil => intro t ht; exact ht
  | cons r rs ih =>
    intro t ht
    exact ih (fun x hx => hrs x (List.mem_cons_of_mem _ hx)) _
      (deepMerge_wf _ _ ht (hrs r (List.mem_cons_self ..)))

end Verif
