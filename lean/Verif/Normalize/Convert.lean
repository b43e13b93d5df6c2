import Verif.Normalize.Merge
/-!
# Normalization: the planner's tree selects the same paths
-/
namespace Verif.Normalize

variable {S : Schema} {σ : Name → Bool} {frs : List Frag}

/-! ## Conditions -/

/-- One step of `conditionVar`. -/
def condStep (dn : Name) (acc : Option Name) (d : Dir) : Option Name :=
  if d.name == dn then (match variableIf d.args with
    | some v => some v
    | none => acc) else acc

theorem condFold_absent {dn : Name} : ∀ {ds : List Dir} {acc : Option Name},
    (∀ d ∈ ds, d.name ≠ dn) → ds.foldl (condStep dn) acc = acc
  | [], _, _ => rfl
  | d :: r, acc, h => by
    have hd : (d.name == dn) = false := by simpa using h d (by simp)
    rw [List.foldl_cons]
    have : condStep dn acc d = acc := by unfold condStep; rw [hd]; rfl
    rw [this]
    exact condFold_absent fun d hd => h d (by simp [hd])

theorem conditionVar_iff {dn v : Name} (hn : dn = "skip" ∨ dn = "include") : ∀ {ds : List Dir},
    DirsOk ds → (conditionVar dn ds = some v ↔ ∃ d ∈ ds, d.name = dn ∧ d.args = [("if", .var v)])
  | [], _ => by simp [conditionVar]
  | d :: r, h => by
    have hr : DirsOk r := ⟨(List.nodup_cons.1 h.1).2, fun d hd => h.2 d (by simp [hd])⟩
    have hc : ∀ ds, conditionVar dn ds = ds.foldl (condStep dn) none := fun _ => rfl
    rw [hc, List.foldl_cons]
    by_cases hd : d.name = dn
    · have habs : ∀ e ∈ r, e.name ≠ dn := by
        intro e he hen
        exact (List.nodup_cons.1 h.1).1 (List.mem_map.2 ⟨e, he, hen.trans hd.symm⟩)
      rw [condFold_absent habs]
      have hd' : (d.name == dn) = true := by simpa using hd
      have hargs := h.2 d (by simp) (by rw [hd]; exact hn)
      unfold condStep
      rw [hd']
      simp only [if_true]
      constructor
      · intro hv
        refine ⟨d, by simp, hd, ?_⟩
        rcases hargs with ⟨b, hb⟩ | ⟨w, hw⟩
        · rw [hb] at hv
          cases hv
        · rw [hw] at hv ⊢
          cases hv
          rfl
      · rintro ⟨e, he, hen, hea⟩
        rcases List.mem_cons.1 he with rfl | he
        · rw [hea]; rfl
        · exact absurd hen (habs e he)
    · have hd' : (d.name == dn) = false := by simpa using hd
      have : condStep dn none d = none := by unfold condStep; rw [hd']; rfl
      rw [this, ← hc, conditionVar_iff hn hr]
      constructor
      · rintro ⟨e, he, hh⟩; exact ⟨e, by simp [he], hh⟩
      · rintro ⟨e, he, hen, hea⟩
        rcases List.mem_cons.1 he with rfl | he
        · exact absurd hen hd
        · exact ⟨e, he, hen, hea⟩

theorem isTrue_var {v : Name} : IsTrue σ [("if", .var v)] ↔ σ v = true := by
  unfold IsTrue
  rw [lookup_one]
  simp

theorem isTrue_bool {b : Bool} : IsTrue σ [("if", .bool b)] ↔ b = true := by
  unfold IsTrue
  rw [lookup_one]
  simp

/-- On directives that passed `should_keep`, what is left of the conditions is the variables. -/
theorem included_iff {ds : List Dir} (h : Live ds) :
    Included σ ds ↔ (∀ v, conditionVar "skip" ds = some v → σ v = false) ∧
      (∀ v, conditionVar "include" ds = some v → σ v = true) := by
  obtain ⟨hok, hk⟩ := h
  unfold shouldKeep at hk
  simp only [Bool.and_eq_true, Bool.not_eq_true', beq_eq_false_iff_ne, ne_eq] at hk
  rw [extract_of_mem hok (.inl rfl), extract_of_mem hok (.inr rfl)] at hk
  unfold Included
  refine and_congr ?_ ?_
  · constructor
    · intro hs v hv
      obtain ⟨d, hd, hn, ha⟩ := (conditionVar_iff (.inl rfl) hok).1 hv
      have := hs d hd hn
      rw [ha, isTrue_var] at this
      simpa using this
    · intro hs d hd hn ht
      rcases hok.2 d hd (.inl hn) with ⟨b, hb⟩ | ⟨v, hv⟩
      · rw [hb, isTrue_bool] at ht
        subst ht
        exact hk.1 ⟨d, hd, hn, hb⟩
      · rw [hv, isTrue_var] at ht
        rw [hs v ((conditionVar_iff (.inl rfl) hok).2 ⟨d, hd, hn, hv⟩)] at ht
        cases ht
  · constructor
    · intro hs v hv
      obtain ⟨d, hd, hn, ha⟩ := (conditionVar_iff (.inr rfl) hok).1 hv
      have := hs d hd hn
      rwa [ha, isTrue_var] at this
    · intro hs d hd hn
      rcases hok.2 d hd (.inr hn) with ⟨b, hb⟩ | ⟨v, hv⟩
      · rw [hb, isTrue_bool]
        cases b with
        | true => rfl
        | false => exact absurd ⟨d, hd, hn, hb⟩ hk.2
      · rw [hv, isTrue_var]
        exact hs v ((conditionVar_iff (.inr rfl) hok).2 ⟨d, hd, hn, hv⟩)

/-! ## Arguments -/

theorem lookup_insertKey {a : Name × Val} {x : Name} : ∀ {m : Args}, (∀ b ∈ m, b.1 ≠ a.1) →
    (insertKey (fun x : Name × Val => x.1) a m).lookup x =
      if x = a.1 then some a.2 else m.lookup x
  | [], _ => by
    obtain ⟨k, v⟩ := a
    simp only [insertKey, List.lookup_cons, List.lookup_nil]
    by_cases h : x = k
    · simp [h]
    · have : (x == k) = false := by simpa using h
      simp [h, this]
  | b :: m, h => by
    have hb := h b (by simp)
    have ih := lookup_insertKey (a := a) (x := x) (m := m) fun c hc => h c (by simp [hc])
    simp only [insertKey]
    split
    · obtain ⟨k, v⟩ := a
      rw [List.lookup_cons]
      by_cases hx : x = k
      · simp [hx]
      · have : (x == k) = false := by simpa using hx
        simp [hx, this]
    · rw [List.lookup_cons, List.lookup_cons, ih]
      by_cases hx : x = b.1
      · have : ¬ x = a.1 := by rw [hx]; exact hb
        simp [hx, hb]
      · have : (x == b.1) = false := by simpa using hx
        rw [this]

theorem lookup_filter {y x : Name} (h : x ≠ y) : ∀ {m : Args},
    (m.filter (fun z => z.1 != y)).lookup x = m.lookup x
  | [] => rfl
  | b :: m => by
    rw [List.filter_cons]
    split
    · rw [List.lookup_cons, List.lookup_cons, lookup_filter h (m := m)]
    · rename_i hb
      have hb : b.1 = y := by simpa using hb
      have : (x == b.1) = false := by rw [hb]; simpa using h
      rw [List.lookup_cons, this, lookup_filter h (m := m)]

theorem lookup_insertArg {m : Args} {a : Name × Val} {x : Name} :
    (insertArg m a).lookup x = if x = a.1 then some a.2 else m.lookup x := by
  unfold insertArg
  rw [lookup_insertKey (by
    intro b hb
    simpa using (List.mem_filter.1 hb).2)]
  split
  · rfl
  · rename_i h
    exact lookup_filter h

theorem lookup_absent {x : Name} : ∀ {m : Args}, x ∉ m.map (·.1) → m.lookup x = none
  | [], _ => rfl
  | b :: m, h => by
    simp only [List.map_cons, List.mem_cons, not_or] at h
    have : (x == b.1) = false := by simpa using h.1
    rw [List.lookup_cons, this, lookup_absent h.2]

theorem lookup_argFold {x : Name} : ∀ {args m : Args}, ArgsOk args →
    (args.foldl insertArg m).lookup x = (args.lookup x).or (m.lookup x)
  | [], m, _ => by simp
  | a :: r, m, h => by
    obtain ⟨h1, h2⟩ := List.nodup_cons.1 h
    rw [List.foldl_cons, lookup_argFold h2, lookup_insertArg, List.lookup_cons]
    by_cases hx : x = a.1
    · subst hx
      rw [lookup_absent h1]
      simp
    · have : (x == a.1) = false := by simpa using hx
      rw [this, if_neg hx]

theorem labelOf_argMap {a : Option Name} {n : Name} {args : Args} (h : ArgsOk args) :
    labelOf a n (argMap args) = labelOf a n args := by
  unfold labelOf argMap
  congr 1
  funext x
  rw [lookup_argFold h]
  simp

/-! ## The tree -/

theorem convert_cons {x : Sel} {r : List Sel} {items : List Item}
    (h : convert (x :: r) = .ok items) :
    ∃ y t, convert1 x = .ok y ∧ convert r = .ok t ∧ items = y :: t := by
  unfold convert at h
  obtain ⟨y, h1, h2⟩ := bind_ok h
  obtain ⟨t, h3, h4⟩ := bind_ok h2
  cases h4
  exact ⟨y, t, h1, h3, rfl⟩

theorem convert_mem : ∀ {s : List Sel} {items : List Item}, convert s = .ok items →
    (∀ x ∈ s, ∃ y ∈ items, convert1 x = .ok y) ∧ (∀ y ∈ items, ∃ x ∈ s, convert1 x = .ok y)
  | [], items, h => by
    unfold convert at h
    cases h
    simp
  | x :: r, items, h => by
    obtain ⟨y, t, h1, h2, rfl⟩ := convert_cons h
    obtain ⟨h3, h4⟩ := convert_mem h2
    constructor
    · intro z hz
      rcases List.mem_cons.1 hz with rfl | hz
      · exact ⟨y, by simp, h1⟩
      · obtain ⟨w, hw, hc⟩ := h3 z hz
        exact ⟨w, by simp [hw], hc⟩
    · intro z hz
      rcases List.mem_cons.1 hz with rfl | hz
      · exact ⟨x, by simp, h1⟩
      · obtain ⟨w, hw, hc⟩ := h4 z hz
        exact ⟨w, by simp [hw], hc⟩

theorem convert_field {a n args ds sub} {y : Item}
    (h : convert1 (.field a n args ds sub) = .ok y) :
    ∃ t, convert sub = .ok t ∧ y = .field a n (argMap args) (conditionVar "skip" ds)
      (conditionVar "include" ds) false t := by
  unfold convert1 at h
  obtain ⟨t, h1, h2⟩ := bind_ok h
  cases h2
  exact ⟨t, h1, rfl⟩

theorem convert_frag {c ds sub} {y : Item} (h : convert1 (.frag c ds sub) = .ok y) :
    ∃ C t, c = some C ∧ convert sub = .ok t ∧ y = .frag C (conditionVar "skip" ds)
      (conditionVar "include" ds) t := by
  unfold convert1 at h
  cases c with
  | none => cases h
  | some C =>
    simp only at h
    obtain ⟨t, h1, h2⟩ := bind_ok h
    cases h2
    exact ⟨C, t, rfl, h1, rfl⟩

theorem convert_picks_mp {s : List Sel} {p : Path} (hp : Picks S σ [] s p) :
    ∀ {items : List Item}, convert s = .ok items → AllOk Live s → PicksI S σ items p := by
  induction hp with
  | here => intro items _ _; exact .here _
  | field hm hi _ ih =>
    intro items hc hs
    obtain ⟨y, hy, h1⟩ := (convert_mem hc).1 _ hm
    obtain ⟨t, h2, rfl⟩ := convert_field h1
    obtain ⟨ha, hl, hsub⟩ := selOk_field.1 (hs _ hm)
    rw [← labelOf_argMap ha]
    obtain ⟨h3, h4⟩ := (included_iff hl).1 hi
    exact .field hy h3 h4 (ih h2 hsub)
  | frag hm hi hap _ ih =>
    intro items hc hs
    obtain ⟨y, hy, h1⟩ := (convert_mem hc).1 _ hm
    obtain ⟨C, t, rfl, h2, rfl⟩ := convert_frag h1
    obtain ⟨hl, hsub⟩ := selOk_frag.1 (hs _ hm)
    obtain ⟨h3, h4⟩ := (included_iff hl).1 hi
    exact .frag hy h3 h4 hap (ih h2 hsub)
  | spread _ _ hf _ _ _ => cases hf

theorem convert_picks_mpr {items : List Item} {p : Path} (hp : PicksI S σ items p) :
    ∀ {s : List Sel}, convert s = .ok items → AllOk Live s → Picks S σ [] s p := by
  induction hp with
  | here => intro s _ _; exact .here _
  | field hm h1 h2 _ ih =>
    intro s hc hs
    obtain ⟨x, hx, hcx⟩ := (convert_mem hc).2 _ hm
    cases x with
    | field a n args ds sub =>
      obtain ⟨t, h3, h4⟩ := convert_field hcx
      cases h4
      obtain ⟨ha, hl, hsub⟩ := selOk_field.1 (hs _ hx)
      rw [labelOf_argMap ha]
      exact .field hx ((included_iff hl).2 ⟨h1, h2⟩) (ih h3 hsub)
    | frag c ds sub =>
      obtain ⟨C, t, _, _, h4⟩ := convert_frag hcx
      cases h4
    | spread n ds =>
      unfold convert1 at hcx
      cases hcx
  | frag hm h1 h2 hap _ ih =>
    intro s hc hs
    obtain ⟨x, hx, hcx⟩ := (convert_mem hc).2 _ hm
    cases x with
    | field a n args ds sub =>
      obtain ⟨t, h3, h4⟩ := convert_field hcx
      cases h4
    | frag c ds sub =>
      obtain ⟨C, t, rfl, h3, h4⟩ := convert_frag hcx
      cases h4
      obtain ⟨hl, hsub⟩ := selOk_frag.1 (hs _ hx)
      exact .frag hx ((included_iff hl).2 ⟨h1, h2⟩) hap (ih h3 hsub)
    | spread n ds =>
      unfold convert1 at hcx
      cases hcx

/-! ## The injected type names -/

theorem inject_eq (P : Name) : ∀ (s : List Item), inject S P s = s.map (inject1 S P)
  | [] => by unfold inject; rfl
  | x :: r => by unfold inject; rw [inject_eq P r]; rfl

theorem inject1_field (P : Name) {a n args si ii om sub} :
    ∃ sub', inject1 S P (.field a n args si ii om sub) = .field a n args si ii om sub' ∧
      (sub' = sub ∨ (sub = [] ∧ sub' = [skippedTypename]) ∨ ∃ A, sub' = inject S A sub) := by
  unfold inject1
  split
  · exact ⟨sub, rfl, .inl rfl⟩
  · rename_i A _
    split
    · split
      · rename_i h
        refine ⟨_, rfl, .inr (.inl ⟨by simpa using h, rfl⟩)⟩
      · exact ⟨_, rfl, .inr (.inr ⟨A, rfl⟩)⟩
    · exact ⟨sub, rfl, .inl rfl⟩

theorem picksI_nil {x : Name × Label} {p : Path} : ¬ PicksI S σ [] (x :: p) := by
  intro h
  cases h with
  | field hm => cases hm
  | frag hm => cases hm

theorem picksI_skipped {x : Name × Label} {p : Path} :
    ¬ PicksI S σ [skippedTypename] (x :: p) := by
  intro h
  cases h with
  | field hm =>
    rw [List.mem_singleton] at hm
    cases hm
  | frag hm =>
    rw [List.mem_singleton] at hm
    cases hm

theorem inject_picks_mp {s : List Item} {p : Path} (hp : PicksI S σ s p) :
    ∀ P, PicksI S σ (inject S P s) p := by
  induction hp with
  | here => intro P; exact .here _
  | @field s a n args si ii sub T p hm h1 h2 h3 ih =>
    intro P
    obtain ⟨sub', he, hsub⟩ := inject1_field (S := S) P (a := a) (n := n) (args := args) (si := si)
      (ii := ii) (om := false) (sub := sub)
    have hmem : Item.field a n args si ii false sub' ∈ inject S P s := by
      rw [inject_eq, List.mem_map]
      exact ⟨_, hm, he⟩
    refine .field hmem h1 h2 ?_
    rcases hsub with rfl | ⟨rfl, rfl⟩ | ⟨A, rfl⟩
    · exact h3
    · cases p with
      | nil => exact .here _
      | cons x p => exact absurd h3 picksI_nil
    · exact ih A
  | @frag s c si ii sub T l p hm h1 h2 hap h3 ih =>
    intro P
    have hmem : Item.frag c si ii (inject S c sub) ∈ inject S P s := by
      rw [inject_eq, List.mem_map]
      exact ⟨_, hm, by unfold inject1; rfl⟩
    exact .frag hmem h1 h2 hap (ih c)

theorem inject_picks_mpr {t : List Item} {p : Path} (hp : PicksI S σ t p) :
    ∀ P s, t = inject S P s → PicksI S σ s p := by
  induction hp with
  | here => intro P s _; exact .here _
  | @field t a n args si ii sub T p hm h1 h2 h3 ih =>
    rintro P s rfl
    rw [inject_eq, List.mem_map] at hm
    obtain ⟨x, hx, hxe⟩ := hm
    cases x with
    | field a' n' args' si' ii' om' sub' =>
      obtain ⟨sub'', he, hsub⟩ := inject1_field (S := S) P (a := a') (n := n') (args := args')
        (si := si') (ii := ii') (om := om') (sub := sub')
      rw [he] at hxe
      cases hxe
      refine .field hx h1 h2 ?_
      rcases hsub with rfl | ⟨rfl, rfl⟩ | ⟨A, rfl⟩
      · exact h3
      · cases p with
        | nil => exact .here _
        | cons x p => exact absurd h3 picksI_skipped
      · exact ih A _ rfl
    | frag c si' ii' sub' =>
      unfold inject1 at hxe
      cases hxe
    | spread n =>
      unfold inject1 at hxe
      cases hxe
  | @frag t c si ii sub T l p hm h1 h2 hap h3 ih =>
    rintro P s rfl
    rw [inject_eq, List.mem_map] at hm
    obtain ⟨x, hx, hxe⟩ := hm
    cases x with
    | field a' n' args' si' ii' om' sub' =>
      obtain ⟨sub'', he, hsub⟩ := inject1_field (S := S) P (a := a') (n := n') (args := args')
        (si := si') (ii := ii') (om := om') (sub := sub')
      rw [he] at hxe
      cases hxe
    | frag c' si' ii' sub' =>
      unfold inject1 at hxe
      cases hxe
      exact .frag hx h1 h2 hap (ih _ _ rfl)
    | spread n =>
      unfold inject1 at hxe
      cases hxe

theorem inject_picks {P : Name} {s : List Item} {p : Path} :
    PicksI S σ (inject S P s) p ↔ PicksI S σ s p :=
  ⟨fun h => inject_picks_mpr h P s rfl, fun h => inject_picks_mp h P⟩

end Verif.Normalize
