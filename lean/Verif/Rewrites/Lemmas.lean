import Verif.Rewrites.Spec
import Verif.Merge.Lemmas
namespace Verif.Rewrites

variable {sat : Sat} {s new : String}

theorem setList_eq (path : List Seg) (vs : List Value) :
    setList sat s path vs = vs.map (setValue sat s path) := by
  induction vs with
  | nil => simp [setList]
  | cons v vs ih => simp [setList, ih]

theorem setIn_keys (k : String) (rest : List Seg) (fs : Fields) :
    (setIn sat s k rest fs).map (·.1) = fs.map (·.1) := by
  induction fs with
  | nil => simp [setIn]
  | cons x xs ih =>
    obtain ⟨k', v⟩ := x
    rw [setIn]
    split <;> simp [ih]

theorem setIn_lookup (k : String) (rest : List Seg) (fs : Fields) (k' : String) :
    lookup k' (setIn sat s k rest fs) =
      if k' = k then (lookup k fs).map (setValue sat s rest) else lookup k' fs := by
  induction fs with
  | nil => simp [setIn, lookup]
  | cons x xs ih =>
    obtain ⟨kx, v⟩ := x
    rw [setIn]
    by_cases h1 : kx = k
    · subst h1
      by_cases h2 : kx = k'
      · subst h2; simp [lookup]
      · have : ¬ k' = kx := fun h => h2 h.symm
        simp [lookup, h2, this]
    · by_cases h2 : kx = k'
      · subst h2; simp [lookup, h1]
      · simp only [h1, if_false, lookup, h2, ih]

theorem setIn_mem {k : String} {rest : List Seg} {fs : Fields} {kv : String × Value}
    (h : kv ∈ setIn sat s k rest fs) :
    kv ∈ fs ∨ ∃ v, (k, v) ∈ fs ∧ kv = (k, setValue sat s rest v) := by
  induction fs with
  | nil => simp [setIn] at h
  | cons x xs ih =>
    obtain ⟨kx, v⟩ := x
    rw [setIn] at h
    by_cases h1 : kx = k
    · simp only [h1, if_true] at h
      rcases List.mem_cons.1 h with h | h
      · exact Or.inr ⟨v, by simp [h1], h⟩
      · exact Or.inl (List.mem_cons_of_mem _ h)
    · simp only [h1, if_false] at h
      rcases List.mem_cons.1 h with h | h
      · exact Or.inl (h ▸ List.mem_cons_self ..)
      · rcases ih h with h | ⟨v', hv, he⟩
        · exact Or.inl (List.mem_cons_of_mem _ h)
        · exact Or.inr ⟨v', List.mem_cons_of_mem _ hv, he⟩

theorem sortedKeys_of_map {α β : Type} {fs : List (String × α)} {gs : List (String × β)}
    (h : gs.map (·.1) = fs.map (·.1)) (hs : SortedKeys fs) : SortedKeys gs := by
  have h1 : (fs.map (·.1)).Pairwise (· < ·) := List.pairwise_map.2 hs
  rw [← h] at h1
  exact List.pairwise_map.1 h1

theorem setValue_wf (v : Value) : ∀ path, v.WF → (setValue sat s path v).WF := by
  induction v using Value.ind with
  | arr vs ih =>
    intro path h
    cases path with
    | nil => rw [setValue]; exact .str s
    | cons seg rest =>
      rw [setValue, setList_eq]
      refine .arr fun v hv => ?_
      obtain ⟨w, hw, rfl⟩ := List.mem_map.1 hv
      exact ih w hw _ (WF.arr_mem h w hw)
  | obj fs ih =>
    intro path h
    induction path with
    | nil => rw [setValue]; exact .str s
    | cons seg rest ihp =>
      cases seg with
      | typenameEquals conds =>
        rw [setValue]
        split
        · exact ihp
        · exact h
      | key k =>
        rw [setValue]
        refine .obj (sortedKeys_of_map (setIn_keys k rest fs) (WF.obj_sorted h)) fun kv hkv => ?_
        rcases setIn_mem hkv with hm | ⟨v, hv, rfl⟩
        · exact WF.obj_mem h kv hm
        · exact ih _ hv rest (WF.obj_mem h _ hv)
  | _ =>
    intro path h
    cases path with
    | nil => rw [setValue]; exact .str s
    | cons seg rest => cases seg <;> simpa [setValue] using h

theorem setValue_addr {path : List Seg} {v : Value} {p : List Step} (h : Addr sat path v p) :
    at? p (setValue sat s path v) = some (.str s) := by
  induction h with
  | here v => simp [setValue, at?]
  | @arr seg rest vs i v p hi _ ih =>
    rw [setValue, setList_eq]
    simp [at?, hi, ih]
  | @type conds rest fs p ht _ ih =>
    rw [setValue]; simp [ht, ih]
  | @key k rest fs v p hl _ ih =>
    rw [setValue]
    simp [at?, setIn_lookup, hl, ih]

/-- Neither position is inside the other. -/
def Apart (p q : List Step) : Prop := ¬ p <+: q ∧ ¬ q <+: p

theorem Apart.cons {x : Step} {p q : List Step} (h : Apart (x :: p) (x :: q)) : Apart p q :=
  ⟨fun hp => h.1 (List.cons_prefix_cons.2 ⟨rfl, hp⟩), fun hp => h.2 (List.cons_prefix_cons.2 ⟨rfl, hp⟩)⟩

theorem not_apart_nil_right (p : List Step) : ¬ Apart p [] := fun h => h.2 (List.nil_prefix)

theorem at_setIn_ne {k k' : String} {rest : List Seg} {fs : Fields} {q : List Step}
    (h : k' ≠ k) : at? (.key k' :: q) (.obj (setIn sat s k rest fs)) =
      at? (.key k' :: q) (.obj fs) := by
  simp [at?, setIn_lookup, h]

theorem setIn_id {k : String} {rest : List Seg} {fs : Fields}
    (h : ∀ v, lookup k fs = some v → setValue sat s rest v = v) : setIn sat s k rest fs = fs := by
  induction fs with
  | nil => simp [setIn]
  | cons x xs ih =>
    obtain ⟨kx, v⟩ := x
    rw [setIn]
    by_cases h1 : kx = k
    · simp [h1, h v (by simp [lookup, h1])]
    · simp only [h1, if_false]
      rw [ih fun v hv => h v (by simp [lookup, h1, hv])]

/-- A rewrite that addresses nothing changes nothing. -/
theorem setValue_noaddr (v : Value) : ∀ path, (∀ p, ¬ Addr sat path v p) →
    setValue sat s path v = v := by
  induction v using Value.ind with
  | arr vs ih =>
    intro path h
    cases path with
    | nil => exact absurd (.here _) (h [])
    | cons seg rest =>
      rw [setValue, setList_eq]
      congr 1
      conv => rhs; rw [← List.map_id vs]
      refine List.map_congr_left fun v hv => ?_
      obtain ⟨i, hi⟩ := List.mem_iff_getElem?.1 hv
      exact ih v hv _ fun p hp => h _ (.arr hi hp)
  | obj fs ih =>
    intro path h
    induction path with
    | nil => exact absurd (.here _) (h [])
    | cons seg rest ihp =>
      cases seg with
      | typenameEquals conds =>
        rw [setValue]
        split
        · rename_i ht
          exact ihp fun p hp => h p (.type ht hp)
        · rfl
      | key k =>
        rw [setValue]
        rw [setIn_id fun v hv => ih _ (lookup_mem hv) _ fun p hp => h _ (.key hv hp)]
  | _ =>
    intro path h
    cases path with
    | nil => exact absurd (.here _) (h [])
    | cons seg rest => cases seg <;> simp [setValue]

/-- Positions apart from all addressed ones are unchanged. -/
theorem setValue_frame (v : Value) : ∀ (path : List Seg) (q : List Step),
    (∀ p, Addr sat path v p → Apart p q) → at? q (setValue sat s path v) = at? q v := by
  induction v using Value.ind with
  | arr vs ih =>
    intro path q h
    cases q with
    | nil => rw [setValue_noaddr _ _ fun p hp => not_apart_nil_right p (h p hp)]
    | cons st q =>
      cases path with
      | nil => exact absurd List.nil_prefix (h [] (.here _)).1
      | cons seg rest =>
        rw [setValue, setList_eq]
        cases st with
        | key k => simp [at?]
        | idx i =>
          rcases hi : vs[i]? with _ | v
          · simp [at?, hi]
          · simp only [at?, List.getElem?_map, hi, Option.map_some]
            exact ih v (List.mem_of_getElem? hi) _ _ fun p hp => (h _ (.arr hi hp)).cons
  | obj fs ih =>
    intro path q h
    induction path with
    | nil => exact absurd List.nil_prefix (h [] (.here _)).1
    | cons seg rest ihp =>
      cases q with
      | nil => rw [setValue_noaddr _ _ fun p hp => not_apart_nil_right p (h p hp)]
      | cons st q =>
        cases seg with
        | typenameEquals conds =>
          rw [setValue]
          split
          · rename_i ht
            exact ihp fun p hp => h p (.type ht hp)
          · rfl
        | key k =>
          rw [setValue]
          cases st with
          | idx i => simp [at?]
          | key k' =>
            by_cases hk : k' = k
            · subst hk
              rcases hl : lookup k' fs with _ | v
              · simp [at?, setIn_lookup, hl]
              · simp only [at?, setIn_lookup, hl, if_true, Option.map_some]
                exact ih _ (lookup_mem hl) _ _ fun p hp => (h _ (.key hl hp)).cons
            · exact at_setIn_ne hk
  | _ =>
    intro path q h
    cases path with
    | nil => exact absurd List.nil_prefix (h [] (.here _)).1
    | cons seg rest => cases seg <;> simp [setValue]

/-! ### The key renamer -/

theorem renameList_some {path : List Seg} {vs ws : List Value}
    (h : renameList sat new path vs = some ws) :
    ws.length = vs.length ∧ ∀ (i : Nat) v, vs[i]? = some v → ∃ w, ws[i]? = some w ∧ rename sat new path v = some w := by
  induction vs generalizing ws with
  | nil => simp [renameList] at h; subst h; simp
  | cons v vs ih =>
    rw [renameList] at h
    rcases h1 : rename sat new path v with _ | v' <;> rcases h2 : renameList sat new path vs with _ | vs' <;>
      simp [h1, h2] at h
    subst h
    obtain ⟨hl, hi⟩ := ih h2
    refine ⟨by simp [hl], ?_⟩
    intro i w hw
    cases i with
    | zero => simp at hw; subst hw; exact ⟨v', by simp, h1⟩
    | succ i => simpa using hi i w (by simpa using hw)

theorem renameList_isSome {path : List Seg} {vs : List Value}
    (h : ∀ v ∈ vs, (rename sat new path v).isSome) : (renameList sat new path vs).isSome := by
  induction vs with
  | nil => simp [renameList]
  | cons v vs ih =>
    rw [renameList]
    obtain ⟨v', hv⟩ := Option.isSome_iff_exists.1 (h v (List.mem_cons_self ..))
    obtain ⟨vs', hvs⟩ := Option.isSome_iff_exists.1 (ih fun w hw => h w (List.mem_cons_of_mem _ hw))
    simp [hv, hvs]

theorem renameIn_some {k : String} {rest : List Seg} {fs gs : Fields}
    (h : renameIn sat new k rest fs = some gs) :
    gs.map (·.1) = fs.map (·.1) ∧
    (∀ k', k' ≠ k → lookup k' gs = lookup k' fs) ∧
    (lookup k fs = none → gs = fs) ∧
    (∀ v, lookup k fs = some v → ∃ w, rename sat new rest v = some w ∧ lookup k gs = some w) ∧
    (∀ kv ∈ gs, kv ∈ fs ∨ ∃ v, (k, v) ∈ fs ∧ lookup k fs = some v ∧ rename sat new rest v = some kv.2) := by
  induction fs generalizing gs with
  | nil => rw [renameIn] at h; simp at h; subst h; simp [lookup]
  | cons x xs ih =>
    obtain ⟨kx, v⟩ := x
    rw [renameIn] at h
    by_cases h1 : kx = k
    · simp only [h1, if_true] at h
      obtain ⟨w, hw, rfl⟩ := Option.map_eq_some_iff.1 h
      subst h1
      refine ⟨by simp, ?_, ?_, ?_, ?_⟩
      · intro k' hk; simp [lookup, Ne.symm hk]
      · intro h; simp [lookup] at h
      · intro v' hv; simp [lookup] at hv; subst hv; exact ⟨w, hw, by simp [lookup]⟩
      · intro kv hkv
        rcases List.mem_cons.1 hkv with h | h
        · exact Or.inr ⟨v, by simp, by simp [lookup], by rw [h]; exact hw⟩
        · exact Or.inl (List.mem_cons_of_mem _ h)
    · simp only [h1, if_false] at h
      obtain ⟨gs', hgs, rfl⟩ := Option.map_eq_some_iff.1 h
      obtain ⟨i1, i2, i3, i4, i5⟩ := ih hgs
      refine ⟨by simp [i1], ?_, ?_, ?_, ?_⟩
      · intro k' hk
        by_cases h2 : kx = k'
        · simp [lookup, h2]
        · simp [lookup, h2, i2 k' hk]
      · intro h; simp only [lookup, h1, if_false] at h; rw [i3 h]
      · intro v' hv; simp only [lookup, h1, if_false] at hv ⊢; exact i4 v' hv
      · intro kv hkv
        rcases List.mem_cons.1 hkv with h | h
        · exact Or.inl (h ▸ List.mem_cons_self ..)
        · rcases i5 kv h with h | ⟨v', a, b, c⟩
          · exact Or.inl (List.mem_cons_of_mem _ h)
          · exact Or.inr ⟨v', List.mem_cons_of_mem _ a, by simp [lookup, h1, b], c⟩

theorem renameIn_isSome {k : String} {rest : List Seg} {fs : Fields}
    (h : ∀ kv ∈ fs, (rename sat new rest kv.2).isSome) : (renameIn sat new k rest fs).isSome := by
  induction fs with
  | nil => simp [renameIn]
  | cons x xs ih =>
    obtain ⟨kx, v⟩ := x
    rw [renameIn]
    split
    · simpa using h _ (List.mem_cons_self ..)
    · simpa using ih fun kv hkv => h kv (List.mem_cons_of_mem _ hkv)

theorem renameFirst_lookup_other {k k' : String} {fs : Fields} (h1 : k' ≠ k) (h2 : k' ≠ new) :
    lookup k' (renameFirst k new fs) = lookup k' fs := by
  induction fs with
  | nil => rfl
  | cons x xs ih =>
    obtain ⟨kx, v⟩ := x
    rw [renameFirst]
    by_cases hk : kx = k
    · subst hk; simp [lookup, Ne.symm h1, Ne.symm h2]
    · simp only [hk, if_false, lookup, ih]

theorem renameFirst_lookup_new {k : String} {fs : Fields} (h : ∀ kv ∈ fs, kv.1 ≠ new) :
    lookup new (renameFirst k new fs) = lookup k fs := by
  induction fs with
  | nil => rfl
  | cons x xs ih =>
    obtain ⟨kx, v⟩ := x
    rw [renameFirst]
    have := h _ (List.mem_cons_self ..)
    by_cases hk : kx = k
    · subst hk; simp [lookup]
    · simp only at this
      simp only [hk, if_false, lookup, this]
      exact ih fun kv hkv => h kv (List.mem_cons_of_mem _ hkv)

theorem renameFirst_mem {k : String} {fs : Fields} {kv : String × Value}
    (h : kv ∈ renameFirst k new fs) : kv ∈ fs ∨ (kv.1 = new ∧ (k, kv.2) ∈ fs) := by
  induction fs with
  | nil => simp [renameFirst] at h
  | cons x xs ih =>
    obtain ⟨kx, v⟩ := x
    rw [renameFirst] at h
    by_cases hk : kx = k
    · subst hk
      simp only [if_true] at h
      rcases List.mem_cons.1 h with h | h
      · exact Or.inr (by simp [h])
      · exact Or.inl (List.mem_cons_of_mem _ h)
    · simp only [hk, if_false] at h
      rcases List.mem_cons.1 h with h | h
      · exact Or.inl (h ▸ List.mem_cons_self ..)
      · rcases ih h with h | ⟨h1, h2⟩
        · exact Or.inl (List.mem_cons_of_mem _ h)
        · exact Or.inr ⟨h1, List.mem_cons_of_mem _ h2⟩

theorem renameFirst_sorted {k : String} {fs : Fields} (hs : SortedKeys fs)
    (hk : KeepsPlace k new fs) : SortedKeys (renameFirst k new fs) := by
  induction fs with
  | nil => exact hs
  | cons x xs ih =>
    obtain ⟨kx, v⟩ := x
    rw [renameFirst]
    have hx := hs.head
    by_cases h : kx = k
    · subst h
      simp only [if_true]
      refine .cons (fun kv hkv => ?_) hs.tail
      have h1 := hx kv hkv
      have := hk kv (List.mem_cons_of_mem _ hkv) (str_lt_ne h1).symm
      rcases str_lt_or_eq_or_gt new kv.1 with h | h | h
      · exact h
      · exact absurd h.symm this.1
      · exact absurd (this.2.2 h) (str_lt_asymm h1)
    · simp only [h, if_false]
      refine .cons (fun kv hkv => ?_) (ih hs.tail fun kv hkv => hk kv (List.mem_cons_of_mem _ hkv))
      rcases renameFirst_mem hkv with hm | ⟨he, hm⟩
      · exact hx kv hm
      · rw [he]
        have h1 : kx < k := hx _ hm
        exact (hk (kx, v) (List.mem_cons_self ..) h).2.1 h1

theorem rename_isSome (v : Value) : ∀ path, (lastKey path).isSome →
    (rename sat new path v).isSome := by
  induction v using Value.ind with
  | arr vs ih =>
    intro path h
    cases path with
    | nil => simp [lastKey] at h
    | cons seg rest =>
      rw [rename]
      · simpa using renameList_isSome fun v hv => ih v hv _ h
      · simp
  | obj fs ih =>
    intro path h
    induction path with
    | nil => simp [lastKey] at h
    | cons seg rest ihp =>
      cases seg with
      | typenameEquals conds =>
        rw [rename]
        split
        · refine ihp ?_
          cases rest with
          | nil => simp [lastKey] at h
          | cons a b => simpa [lastKey] using h
        · rfl
      | key k =>
        rw [rename]
        cases rest with
        | nil => simp only [List.isEmpty_nil, if_true]; split <;> rfl
        | cons a b =>
          simp only [List.isEmpty_cons, Bool.false_eq_true, if_false, Option.isSome_map]
          exact renameIn_isSome fun kv hkv => ih kv hkv _ (by simpa [lastKey] using h)
  | _ =>
    intro path h
    cases path with
    | nil => simp [lastKey] at h
    | cons seg rest => cases seg <;> simp [rename]

theorem rename_wf (v : Value) : ∀ path v' old, v.WF → rename sat new path v = some v' →
    lastKey path = some old → (∀ p fs, AddrObj sat path v p fs → KeepsPlace old new fs) → v'.WF := by
  induction v using Value.ind with
  | arr vs ih =>
    intro path v' old hw hr hl hp
    cases path with
    | nil => simp [lastKey] at hl
    | cons seg rest =>
      rw [rename] at hr
      · obtain ⟨ws, h1, rfl⟩ := Option.map_eq_some_iff.1 hr
        obtain ⟨hlen, hi⟩ := renameList_some h1
        refine .arr fun w hwm => ?_
        obtain ⟨i, hiw⟩ := List.mem_iff_getElem?.1 hwm
        have hlt : i < vs.length := by
          rw [← hlen]
          exact (List.getElem?_eq_some_iff.1 hiw).1
        have hv := List.getElem?_eq_getElem hlt
        obtain ⟨w', e1, e2⟩ := hi i _ hv
        rw [hiw] at e1
        obtain rfl := Option.some.inj e1
        exact ih _ (List.getElem_mem hlt) _ _ _ (WF.arr_mem hw _ (List.getElem_mem hlt)) e2 hl
          fun p fs ha => hp _ fs (.arr hv ha)
      · simp
  | obj fs ih =>
    intro path v' old hw hr hl hp
    induction path with
    | nil => simp [lastKey] at hl
    | cons seg rest ihp =>
      cases seg with
      | typenameEquals conds =>
        rw [rename] at hr
        split at hr
        · rename_i ht
          refine ihp hr ?_ fun p fs ha => hp p fs (.type ht ha)
          cases rest with
          | nil => simp [lastKey] at hl
          | cons a b => simpa [lastKey] using hl
        · simp at hr; subst hr; exact hw
      | key k =>
        rw [rename] at hr
        cases rest with
        | nil =>
          simp only [List.isEmpty_nil, if_true] at hr
          simp [lastKey] at hl
          subst hl
          split at hr
          · simp at hr; subst hr
            refine .obj (renameFirst_sorted (WF.obj_sorted hw) (hp [] fs .here)) fun kv hkv => ?_
            rcases renameFirst_mem hkv with h | ⟨_, h⟩
            · exact WF.obj_mem hw kv h
            · exact WF.obj_mem hw (k, kv.2) h
          · simp at hr; subst hr; exact hw
        | cons a b =>
          simp only [List.isEmpty_cons, Bool.false_eq_true, if_false] at hr
          obtain ⟨gs, h1, rfl⟩ := Option.map_eq_some_iff.1 hr
          obtain ⟨i1, i2, i3, i4, i5⟩ := renameIn_some h1
          refine .obj (sortedKeys_of_map i1 (WF.obj_sorted hw)) fun kv hkv => ?_
          rcases i5 kv hkv with h | ⟨v, hm, hlk, hrn⟩
          · exact WF.obj_mem hw kv h
          · exact ih _ hm _ _ _ (WF.obj_mem hw _ hm) hrn (by simpa [lastKey] using hl)
              fun p fs ha => hp _ fs (.key (by simp) hlk ha)
  | _ =>
    intro path v' old hw hr hl hp
    cases path with
    | nil => simp [lastKey] at hl
    | cons seg rest => cases seg <;> (simp [rename] at hr; subst hr; exact hw)

/-- The renamed object appears, with the renamed key, at the addressed position. -/
theorem rename_addr {path : List Seg} {v v' : Value} {p : List Step} {fs : Fields} {old : String}
    (h : AddrObj sat path v p fs) : rename sat new path v = some v' → lastKey path = some old →
    at? p v' = some (.obj (if old = new then fs else renameFirst old new fs)) := by
  induction h generalizing v' with
  | @here k fs =>
    intro hr hl
    simp [lastKey] at hl; subst hl
    rw [rename] at hr
    simp only [List.isEmpty_nil, if_true] at hr
    split at hr
    · simp at hr; subst hr; rename_i h; simp [at?, h]
    · simp at hr; subst hr; rename_i h; simp at h; simp [at?, h]
  | @arr path vs i v p fs hi _ ih =>
    intro hr hl
    cases path with
    | nil => simp [lastKey] at hl
    | cons seg rest =>
      rw [rename] at hr
      · obtain ⟨ws, h1, rfl⟩ := Option.map_eq_some_iff.1 hr
        obtain ⟨w, e1, e2⟩ := (renameList_some h1).2 i v hi
        simp only [at?, e1]
        exact ih e2 hl
      · simp
  | @type conds rest gs p fs ht _ ih =>
    intro hr hl
    rw [rename] at hr
    simp only [ht, if_true] at hr
    refine ih hr ?_
    cases rest with
    | nil => simp [lastKey] at hl
    | cons a b => simpa [lastKey] using hl
  | @key k rest gs v p fs hne hlk _ ih =>
    intro hr hl
    rw [rename] at hr
    cases rest with
    | nil => exact absurd rfl hne
    | cons a b =>
      simp only [List.isEmpty_cons, Bool.false_eq_true, if_false] at hr
      obtain ⟨gs', h1, rfl⟩ := Option.map_eq_some_iff.1 hr
      obtain ⟨i1, i2, i3, i4, i5⟩ := renameIn_some h1
      obtain ⟨w, e1, e2⟩ := i4 v hlk
      simp only [at?, e2]
      exact ih e1 (by simpa [lastKey] using hl)

end Verif.Rewrites
