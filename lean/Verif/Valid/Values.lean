import Verif.Valid.Spreads

/-!
# Values
-/

namespace Verif.Valid

/-- What `ValuesOfCorrectType` finds wrong with what it is told. -/
def badVal (s : Schema) (e : Ctx × Ev) : Bool :=
  match e.2, e.1.input with
  | .null, some t => t.isNonNull
  | .scalar v, some t => badLeaf s t v
  | .enum n, some t => badLeaf s t (.enum n)
  | .obj fs, some t =>
      match s.typeByName t.inner with
      | some (.input _ defs) =>
          defs.any (fun f => f.required && !fs.any (fun p => p.1 = f.name)) ||
            fs.any (fun p => !defs.any (fun f => f.name = p.1))
      | _ => false
  | _, _ => false

theorem valuesOfCorrectType_def (s : Schema) (d : Doc) :
    valuesOfCorrectType s d = (visit s d).any (badVal s) := rfl

mutual
theorem noInput_val (s : Schema) (c : Ctx) (h : c.input = none) (v : Val) :
    ∀ e ∈ visitVal s c v, e.1.input = none := by
  match v with
  | .null => simp [visitVal, h]
  | .bool _ => simp [visitVal, h]
  | .int _ => simp [visitVal, h]
  | .float _ => simp [visitVal, h]
  | .str _ => simp [visitVal, h]
  | .enum _ => simp [visitVal, h]
  | .var _ => simp [visitVal, h]
  | .list vs =>
    intro e he
    rw [visitVal] at he
    rcases List.mem_cons.1 he with h' | h'
    · subst h'; exact h
    · exact noInput_vals s _ (by simp [h, itemType]) vs e h'
  | .obj fs =>
    intro e he
    rw [visitVal] at he
    rcases List.mem_cons.1 he with h' | h'
    · subst h'; exact h
    · exact noInput_obj s c h fs e h'
theorem noInput_vals (s : Schema) (c : Ctx) (h : c.input = none) (vs : List Val) :
    ∀ e ∈ visitVals s c vs, e.1.input = none := by
  match vs with
  | [] => simp [visitVals]
  | v :: vs =>
    intro e he
    rw [visitVals] at he
    rcases List.mem_append.1 he with h' | h'
    · exact noInput_val s c h v e h'
    · exact noInput_vals s c h vs e h'
theorem noInput_obj (s : Schema) (c : Ctx) (h : c.input = none) (fs : List (Name × Val)) :
    ∀ e ∈ visitObj s c fs, e.1.input = none := by
  match fs with
  | [] => simp [visitObj]
  | f :: fs =>
    intro e he
    rw [visitObj] at he
    rcases List.mem_append.1 he with h' | h'
    · exact noInput_pair s c h f e h'
    · exact noInput_obj s c h fs e h'
theorem noInput_pair (s : Schema) (c : Ctx) (h : c.input = none) (f : Name × Val) :
    ∀ e ∈ visitPair s c f, e.1.input = none := by
  match f with
  | (n, v) =>
    intro e he
    rw [visitPair] at he
    exact noInput_val s _ (by simp [h]) v e he
end

theorem badVal_none (s : Schema) (e : Ctx × Ev) (h : e.1.input = none) : badVal s e = false := by
  obtain ⟨c, e⟩ := e
  cases e <;> simp_all [badVal]

theorem scalarFits_iff (n : Name) (v : Val) (hv : v.single) :
    (!scalarFits n v && !customScalar n) = false ↔
      (n ≠ "Int" → ScalarTakes n v) ∧ (n = "Int" → ∃ i, v = .int i) := by
  unfold ScalarTakes customScalar
  by_cases h1 : n = "Int"
  · subst h1
    cases v <;> simp [Val.single] at hv <;> simp [scalarFits]
  · by_cases h2 : n = "Float"
    · subst h2; cases v <;> simp [Val.single] at hv <;> simp [scalarFits]
    · by_cases h3 : n = "String"
      · subst h3; cases v <;> simp [Val.single] at hv <;> simp [scalarFits]
      · by_cases h4 : n = "Boolean"
        · subst h4; cases v <;> simp [Val.single] at hv <;> simp [scalarFits]
        · by_cases h5 : n = "ID"
          · subst h5; cases v <;> simp [Val.single] at hv <;> simp [scalarFits]
          · simp [h1, h2, h3, h4, h5]

/-- What is reported of a single literal. -/
theorem badLeaf_iff (s : Schema) (t : Ty) (v : Val) (hv : v.single) :
    badLeaf s t v = false ↔ Loosely s t v := by
  have hw : Wraps t t.inner := (wraps_iff _ _).2 rfl
  constructor
  · intro h
    unfold badLeaf at h
    cases ht : s.typeByName t.inner with
    | none => exact .unknown hw ht hv
    | some d =>
      rw [ht] at h
      cases d with
      | scalar m =>
        obtain ⟨h1, h2⟩ := (scalarFits_iff m v hv).1 h
        exact .scalar hw ht hv h1 h2
      | enum m xs =>
        cases v <;> simp at h
        exact .enum hw ht h
      | object => simp at h
      | interface => simp at h
      | union => simp at h
      | input => simp at h
  · intro h
    unfold badLeaf
    cases h with
    | var => simp [Val.single] at hv
    | null => simp [Val.single] at hv
    | items => simp [Val.single] at hv
    | unseen => simp [Val.single] at hv
    | obj => simp [Val.single] at hv
    | other => simp [Val.single] at hv
    | unknown h1 h2 _ => rw [(wraps_iff _ _).1 h1, h2]
    | scalar h1 h2 h3 h4 h5 =>
      rw [(wraps_iff _ _).1 h1, h2]
      exact (scalarFits_iff _ v hv).2 ⟨h4, h5⟩
    | enum h1 h2 h3 =>
      rw [(wraps_iff _ _).1 h1, h2]
      simpa using h3

theorem objFits_iff (defs : List InputDef) (fs : List (Name × Val)) :
    (defs.any (fun f => f.required && !fs.any (fun p => p.1 = f.name)) ||
      fs.any (fun p => !defs.any (fun f => f.name = p.1))) = false ↔ ObjFits defs fs := by
  rw [Bool.or_eq_false_iff]
  have h1 := missingArgs_iff fs defs
  unfold missingArgs at h1
  rw [h1]
  unfold ObjFits
  rw [and_comm]
  refine and_congr ?_ Iff.rfl
  rw [List.any_eq_false]
  simp

mutual
theorem loosely_val (s : Schema) (c : Ctx) (t : Ty) (h : c.input = some t) (v : Val) :
    (visitVal s c v).any (badVal s) = false ↔ Loosely s t v := by
  match v with
  | .null =>
    simp only [visitVal, List.any_cons, List.any_nil, Bool.or_false, badVal, h]
    constructor
    · intro h; exact .null (by rintro u rfl; simp [Ty.isNonNull] at h)
    · intro h
      cases h with
      | null h => cases t <;> simp [Ty.isNonNull]; exact h _ rfl
      | unknown _ _ h => simp [Val.single] at h
      | scalar _ _ h => simp [Val.single] at h
  | .bool b =>
    simp only [visitVal, List.any_cons, List.any_nil, Bool.or_false, badVal, h]
    exact badLeaf_iff s t _ trivial
  | .int b =>
    simp only [visitVal, List.any_cons, List.any_nil, Bool.or_false, badVal, h]
    exact badLeaf_iff s t _ trivial
  | .float b =>
    simp only [visitVal, List.any_cons, List.any_nil, Bool.or_false, badVal, h]
    exact badLeaf_iff s t _ trivial
  | .str b =>
    simp only [visitVal, List.any_cons, List.any_nil, Bool.or_false, badVal, h]
    exact badLeaf_iff s t _ trivial
  | .enum b =>
    simp only [visitVal, List.any_cons, List.any_nil, Bool.or_false, badVal, h]
    exact badLeaf_iff s t _ trivial
  | .var n =>
    have h0 : badVal s (c, .var n) = false := rfl
    simp only [visitVal, List.any_cons, List.any_nil, Bool.or_false, h0]
    exact ⟨fun _ => .var, fun _ => trivial⟩
  | .list vs =>
    rw [visitVal, List.any_cons]
    have h0 : badVal s (c, .list vs) = false := rfl
    rw [h0, Bool.false_or]
    by_cases hl : ∃ u, t = .list u
    · obtain ⟨u, rfl⟩ := hl
      rw [loosely_vals s { c with input := itemType c.input, dflt := false } u (by simp [h, itemType]) vs]
      constructor
      · exact fun h => .items h
      · intro h
        cases h with
        | items h => exact h
        | unseen h => exact absurd rfl (h u)
        | unknown _ _ h => simp [Val.single] at h
        | scalar _ _ h => simp [Val.single] at h
    · have hn : itemType c.input = none := by
        rw [h]
        cases t <;> simp [itemType]
        exact hl ⟨_, rfl⟩
      constructor
      · intro _; exact .unseen (fun u hu => hl ⟨u, hu⟩)
      · intro _
        rw [List.any_eq_false]
        intro e he
        rw [badVal_none s e (noInput_vals s _ hn vs e he)]
        simp
  | .obj fs =>
    rw [visitVal, List.any_cons, Bool.or_eq_false_iff]
    have hw : Wraps t t.inner := (wraps_iff _ _).2 rfl
    have hu : ∀ {n}, Wraps t n → t.inner = n := fun h => (wraps_iff _ _).1 h
    by_cases hi : ∃ m defs, s.typeByName t.inner = some (.input m defs)
    · obtain ⟨m, defs, hi⟩ := hi
      rw [loosely_obj s c t h m defs hi fs]
      have h0 : badVal s (c, .obj fs) = false ↔ ObjFits defs fs := by
        rw [← objFits_iff]
        simp only [badVal, h, hi]
      rw [h0]
      constructor
      · rintro ⟨h1, h2⟩; exact .obj hw hi h1 h2
      · intro h
        cases h with
        | @obj _ n2 m2 defs2 _ h1 h2 h3 h4 =>
          rw [← hu h1, hi] at h2
          cases h2
          exact ⟨h3, h4⟩
        | other h1 h2 => rw [← hu h1] at h2; exact absurd hi (h2 _ _)
        | unknown _ _ h => simp [Val.single] at h
        | scalar _ _ h => simp [Val.single] at h
    · have h0 : badVal s (c, .obj fs) = false := by
        simp only [badVal, h]
        split
        · rename_i h'; exact absurd ⟨_, _, h'⟩ hi
        · rfl
      constructor
      · intro _; exact .other hw (fun m defs h => hi ⟨m, defs, h⟩)
      · intro _
        refine ⟨h0, ?_⟩
        rw [List.any_eq_false]
        intro e he
        rw [badVal_none s e (noDefs_obj s c t h (fun m defs h => hi ⟨m, defs, h⟩) fs e he)]
        simp
theorem loosely_vals (s : Schema) (c : Ctx) (t : Ty) (h : c.input = some t) (vs : List Val) :
    (visitVals s c vs).any (badVal s) = false ↔ ∀ x ∈ vs, Loosely s t x := by
  match vs with
  | [] => simp [visitVals]
  | v :: vs =>
    rw [visitVals, List.any_append, Bool.or_eq_false_iff, loosely_val s c t h v,
      loosely_vals s c t h vs]
    simp
theorem loosely_obj (s : Schema) (c : Ctx) (t : Ty) (h : c.input = some t) (m : Name)
    (defs : List InputDef) (hi : s.typeByName t.inner = some (.input m defs)) (fs : List (Name × Val)) :
    (visitObj s c fs).any (badVal s) = false ↔
      ∀ p ∈ fs, ∀ b, defs.find? (fun f => f.name = p.1) = some b → Loosely s b.ty p.2 := by
  match fs with
  | [] => simp [visitObj]
  | f :: fs =>
    rw [visitObj, List.any_append, Bool.or_eq_false_iff, loosely_pair s c t h m defs hi f,
      loosely_obj s c t h m defs hi fs]
    simp only [List.mem_cons, forall_eq_or_imp]
theorem loosely_pair (s : Schema) (c : Ctx) (t : Ty) (h : c.input = some t) (m : Name)
    (defs : List InputDef) (hi : s.typeByName t.inner = some (.input m defs)) (f : Name × Val) :
    (visitPair s c f).any (badVal s) = false ↔
      ∀ b, defs.find? (fun b => b.name = f.1) = some b → Loosely s b.ty f.2 := by
  match f with
  | (n, v) =>
    rw [visitPair]
    have hb : (c.input.bind (fun t => s.typeByName t.inner)).bind (·.inputByName n) =
        defs.find? (fun b => b.name = n) := by
      simp [h, hi, TypeDef.inputByName]
    rw [hb]
    cases hf : defs.find? (fun b => b.name = n) with
    | none =>
      simp only [reduceCtorEq, false_implies, implies_true, iff_true]
      rw [List.any_eq_false]
      intro e he
      rw [badVal_none s e (noInput_val s _ rfl v e he)]
      simp
    | some b =>
      rw [loosely_val s _ b.ty rfl v]
      simp only [Option.some.injEq, forall_eq']
theorem noDefs_obj (s : Schema) (c : Ctx) (t : Ty) (h : c.input = some t)
    (hi : ∀ m defs, s.typeByName t.inner ≠ some (.input m defs)) (fs : List (Name × Val)) :
    ∀ e ∈ visitObj s c fs, e.1.input = none := by
  match fs with
  | [] => simp [visitObj]
  | (n, v) :: fs =>
    intro e he
    rw [visitObj] at he
    rcases List.mem_append.1 he with h' | h'
    · rw [visitPair] at h'
      have hb : (c.input.bind (fun t => s.typeByName t.inner)).bind (·.inputByName n) = none := by
        simp only [h, Option.bind_some]
        cases ht : s.typeByName t.inner with
        | none => rfl
        | some d =>
          cases d <;> simp [TypeDef.inputByName]
          exact absurd ht (hi _ _)
      exact noInput_val s _ (by simp [hb]) v e h'
    · exact noDefs_obj s c t h hi fs e h'
end

/-! ## Where values stand -/

/-- A rule on values accepts a document if it accepts the value of every argument and the default of
every variable. -/
theorem any_values (s : Schema) (d : Doc) (g : Ctx × Ev → Bool) (G : Option Ty → Bool → Val → Prop)
    (hg : ∀ e, e.2.isVal = false → g e = false)
    (hG : ∀ c v, (visitVal s c v).any g = false ↔ G c.input c.dflt v) :
    (visit s d).any g = false ↔
      (∀ defs args, Given s d defs args → ∀ a ∈ args,
        G ((defs.bind (fun ds => ds.find? (fun b => b.name = a.1))).map (·.ty))
          ((defs.bind (fun ds => ds.find? (fun b => b.name = a.1))).bind (·.default_)).isSome a.2) ∧
      (∀ o ∈ ops d, ∀ v ∈ o.vars, ∀ x, v.default_ = some x → G (some v.ty) false x) := by
  have hall : ∀ c v, (∀ e ∈ visitVal s c v, g e = false) ↔ G c.input c.dflt v := by
    intro c v
    rw [← hG, List.any_eq_false]
    simp
  have hargs : ∀ c o (args : Args), (∀ e ∈ visitArgs s c o args, g e = false) ↔ ∀ a ∈ args,
      G ((o.bind (fun ds => ds.find? (fun b => b.name = a.1))).map (·.ty))
        ((o.bind (fun ds => ds.find? (fun b => b.name = a.1))).bind (·.default_)).isSome a.2 := by
    intro c o args
    constructor
    · intro h a ha
      exact (hall (argCtx c o a.1) a.2).1 (fun e he => h e ((mem_visitArgs _ _ _ _ _).2 ⟨a, ha, Or.inr he⟩))
    · intro h e he
      obtain ⟨a, ha, he | he⟩ := (mem_visitArgs _ _ _ _ _).1 he
      · subst he; exact hg _ rfl
      · exact (hall (argCtx c o a.1) a.2).2 (h a ha) e he
  have hdirs : ∀ c ds, (∀ x ∈ ds, ∀ a ∈ x.args,
      G ((((s.dirByName x.name).map (·.args)).bind (fun ds => ds.find? (fun b => b.name = a.1))).map (·.ty))
        ((((s.dirByName x.name).map (·.args)).bind (fun ds => ds.find? (fun b => b.name = a.1))).bind
          (·.default_)).isSome a.2) ↔ ∀ e ∈ visitDirs s c ds, g e = false := by
    intro c ds
    constructor
    · intro h e he
      obtain ⟨x, hx, he | he | he⟩ := (mem_visitDirs _ _ _ _).1 he
      · subst he; exact hg _ rfl
      · subst he; exact hg _ rfl
      · exact (hargs _ _ _).2 (h x hx) e he
    · intro h x hx
      exact (hargs c _ _).1 (fun e he => h e ((mem_visitDirs _ _ _ _).2 ⟨x, hx, Or.inr (Or.inr he)⟩))
  rw [any_visit s d g (fun c => hg _ rfl) (fun c => hg _ rfl)]
  constructor
  · intro h
    constructor
    · intro defs args hgv
      cases hgv with
      | @field q al n args ds sub hs =>
        obtain ⟨x, hx, c, hc, rfl⟩ := (selects_iff s d _ _).1 hs
        exact (hargs (inField c n) _ _).1 (fun e he => h x hx e ((mem_visitDef s x e).2
          (Or.inr (Or.inr (Or.inr (Or.inr (Or.inl ⟨c, _, hc, by
            simp only [own, List.mem_cons, List.mem_append]
            exact Or.inr (Or.inl (Or.inl (Or.inl he)))⟩)))))))
      | @dir l ds z hc hz =>
        rcases (carries_iff d l ds).1 hc with ⟨x, hx, _, rfl⟩ | ⟨x, hx, y, hy, _, rfl⟩
        · exact (hdirs (x.ctx s) _).2 (fun e he => h x hx e ((mem_visitDef s x e).2 (Or.inr (Or.inl he)))) z hz
        · obtain ⟨c, hc⟩ := (defAt_inside (s := s)).2 hy
          have hown : ∀ e ∈ own s c y, g e = false := fun e he => h x hx e ((mem_visitDef s x e).2
            (Or.inr (Or.inr (Or.inr (Or.inr (Or.inl ⟨c, y, hc, he⟩))))))
          cases y with
          | field al n args ds sub =>
            exact (hdirs (inField c n) _).2 (fun e he => hown e (by
              simp only [own, List.mem_cons, List.mem_append]
              exact Or.inr (Or.inl (Or.inl (Or.inr he))))) z hz
          | spread n ds =>
            exact (hdirs c _).2 (fun e he => hown e (List.mem_cons_of_mem _ he)) z hz
          | inline cond ds sub =>
            exact (hdirs (inCond c cond) _).2 (fun e he => hown e (by
              simp only [own, List.mem_cons, List.mem_append]
              exact Or.inr (Or.inl he))) z hz
    · intro o ho v hv x hx
      have := (mem_ops d o).1 ho
      exact (hall { (Def.op o).ctx s with input := some v.ty, dflt := false } x).1 (fun e he =>
        h _ this e ((mem_visitDef s _ e).2 (Or.inr (Or.inr (Or.inl ((mem_visitVars _ _ _ _).2
          ⟨v, hv, Or.inr ⟨x, hx, he⟩⟩))))))
  · rintro ⟨h1, h2⟩ x hx e he
    have hsel : ∀ c y, DefAt s x c y → ∀ z ∈ selDirs y, Given s d ((s.dirByName z.name).map (·.args)) z.args :=
      fun c y hy z hz => .dir ((carries_iff d _ _).2 (Or.inr ⟨x, hx, y, defAt_inside.1 ⟨c, hy⟩, rfl, rfl⟩)) hz
    rcases (mem_visitDef s x e).1 he with he | he | he | he | ⟨c, y, hy, he⟩ | ⟨he, _⟩
    · subst he; exact hg _ (by cases x <;> rfl)
    · exact (hdirs _ _).1 (fun z hz => h1 _ _ (.dir ((carries_iff d _ _).2 (Or.inl ⟨x, hx, rfl, rfl⟩)) hz)) e he
    · obtain ⟨v, hv, he | ⟨z, hz, he⟩⟩ := (mem_visitVars _ _ _ _).1 he
      · subst he; exact hg _ rfl
      · cases x with
        | op o => exact (hall _ _).2 (h2 o ((mem_ops d o).2 hx) v hv z hz) e he
        | frag f => cases hv
    · subst he; exact hg _ rfl
    · have hs := hsel c y hy
      cases y with
      | field al n args ds sub =>
        simp only [own, List.mem_cons, List.mem_append, List.not_mem_nil, or_false] at he
        rcases he with he | ((he | he) | he) | he
        · subst he; exact hg _ rfl
        · exact (hargs _ _ _).2 (h1 _ _ (.field ((selects_iff s d _ _).2 ⟨x, hx, c, hy, rfl⟩))) e he
        · exact (hdirs _ _).1 (fun z hz => h1 _ _ (hs z hz)) e he
        · subst he; exact hg _ rfl
        · subst he; exact hg _ rfl
      | spread n ds =>
        rcases List.mem_cons.1 he with he | he
        · subst he; exact hg _ rfl
        · exact (hdirs _ _).1 (fun z hz => h1 _ _ (hs z hz)) e he
      | inline cond ds sub =>
        simp only [own, List.mem_cons, List.mem_append, List.not_mem_nil, or_false] at he
        rcases he with he | he | he
        · subst he; exact hg _ rfl
        · exact (hdirs _ _).1 (fun z hz => h1 _ _ (hs z hz)) e he
        · subst he; exact hg _ rfl
    · subst he; exact hg _ rfl

theorem valuesOfCorrectType_iff (s : Schema) (d : Doc) :
    valuesOfCorrectType s d = false ↔ ∀ t v, Expected s d t v → Loosely s t v := by
  rw [valuesOfCorrectType_def, any_values s d (badVal s) (fun o _ v => ∀ t, o = some t → Loosely s t v)]
  · constructor
    · rintro ⟨h1, h2⟩ t v he
      cases he with
      | @arg defs args a b hg ha hb => exact h1 _ _ hg a ha b.ty (by simp [hb])
      | @default_ o w x ho hw hx => exact h2 o ho w hw v hx w.ty rfl
    · intro h
      refine ⟨fun defs args hg a ha t ht => ?_, fun o ho v hv x hx t ht => ?_⟩
      · cases defs with
        | none => simp at ht
        | some defs =>
          cases hb : defs.find? (fun b => b.name = a.1) with
          | none => simp [hb] at ht
          | some b =>
            simp only [Option.bind_some, hb, Option.map_some, Option.some.injEq] at ht
            subst ht
            exact h _ _ (.arg hg ha hb)
      · cases ht
        exact h _ _ (.default_ ho hv hx)
  · rintro ⟨c, e⟩ he
    cases e <;> simp [Ev.isVal] at he <;> rfl
  · intro c v
    cases hc : c.input with
    | none =>
      simp only [reduceCtorEq, false_implies, implies_true, iff_true]
      rw [List.any_eq_false]
      intro e he
      rw [badVal_none s e (noInput_val s c hc v e he)]
      simp
    | some t =>
      rw [loosely_val s c t hc v]
      simp

/-! ## Fields of object literals -/

/-- What `UniqueInputFieldNames` finds wrong with what it is told. -/
def dupFields (e : Ctx × Ev) : Bool :=
  match e.2 with
  | .obj fs =>
      (fs.foldl (fun (st : List Name × Bool) p =>
        if st.1.contains p.1 then (st.1, true) else (st.1 ++ [p.1], st.2)) ([], false)).2
  | _ => false

theorem seen_fold (fs : List (Name × Val)) (seen : List Name) (b : Bool) :
    (fs.foldl (fun (st : List Name × Bool) p =>
        if st.1.contains p.1 then (st.1, true) else (st.1 ++ [p.1], st.2)) (seen, b)).2 = false ↔
      b = false ∧ (fs.map (·.1)).Nodup ∧ ∀ p ∈ fs, p.1 ∉ seen := by
  induction fs generalizing seen b with
  | nil => simp
  | cons p ps ih =>
    rw [List.foldl_cons]
    by_cases h : seen.contains p.1 = true
    · simp only [h, if_true]
      rw [ih]
      have : p.1 ∈ seen := by simpa using h
      constructor
      · rintro ⟨h, _⟩; cases h
      · rintro ⟨_, _, h⟩; exact absurd this (h p (by simp))
    · simp only [h, if_false]
      rw [ih]
      have hn : p.1 ∉ seen := by simpa using h
      rw [List.map_cons, List.nodup_cons]
      constructor
      · rintro ⟨h1, h2, h3⟩
        refine ⟨h1, ⟨fun hm => ?_, h2⟩, fun q hq => ?_⟩
        · obtain ⟨q, hq, he⟩ := List.mem_map.1 hm
          exact h3 q hq (by simp [he])
        · rcases List.mem_cons.1 hq with rfl | hq
          · exact hn
          · intro hm; exact h3 q hq (by simp [hm])
      · rintro ⟨h1, ⟨h2, h3⟩, h4⟩
        refine ⟨h1, h3, fun q hq hm => ?_⟩
        rcases List.mem_append.1 hm with hm | hm
        · exact h4 q (List.mem_cons_of_mem _ hq) hm
        · exact h2 (List.mem_map.2 ⟨q, hq, List.mem_singleton.1 hm⟩)

/-- Every object literal in the value has fields with different names. -/
def NoDup (v : Val) : Prop := ∀ fs, Part (.obj fs) v → (fs.map (·.1)).Nodup

mutual
theorem noDup_val (s : Schema) (c : Ctx) (v : Val) :
    (visitVal s c v).any dupFields = false ↔ NoDup v := by
  match v with
  | .null => simp [visitVal, dupFields, NoDup]; intro fs h; cases h
  | .bool _ => simp [visitVal, dupFields, NoDup]; intro fs h; cases h
  | .int _ => simp [visitVal, dupFields, NoDup]; intro fs h; cases h
  | .float _ => simp [visitVal, dupFields, NoDup]; intro fs h; cases h
  | .str _ => simp [visitVal, dupFields, NoDup]; intro fs h; cases h
  | .enum _ => simp [visitVal, dupFields, NoDup]; intro fs h; cases h
  | .var _ => simp [visitVal, dupFields, NoDup]; intro fs h; cases h
  | .list vs =>
    rw [visitVal, List.any_cons]
    have h0 : dupFields (c, .list vs) = false := rfl
    rw [h0, Bool.false_or, noDup_vals s _ vs]
    constructor
    · intro h fs hp
      cases hp with
      | item hx hp => exact h _ hx fs hp
    · intro h x hx fs hp
      exact h fs (.item hx hp)
  | .obj gs =>
    rw [visitVal, List.any_cons, Bool.or_eq_false_iff, noDup_obj s c gs]
    have h0 : dupFields (c, .obj gs) = false ↔ (gs.map (·.1)).Nodup := by
      show (gs.foldl _ ([], false)).2 = false ↔ _
      rw [seen_fold]
      simp
    rw [h0]
    constructor
    · rintro ⟨h1, h2⟩ fs hp
      cases hp with
      | self => exact h1
      | pair hx hp => exact h2 _ hx fs hp
    · intro h
      exact ⟨h gs .self, fun p hp fs hq => h fs (.pair hp hq)⟩
theorem noDup_vals (s : Schema) (c : Ctx) (vs : List Val) :
    (visitVals s c vs).any dupFields = false ↔ ∀ x ∈ vs, NoDup x := by
  match vs with
  | [] => simp [visitVals]
  | v :: vs =>
    rw [visitVals, List.any_append, Bool.or_eq_false_iff, noDup_val s c v, noDup_vals s c vs]
    simp
theorem noDup_obj (s : Schema) (c : Ctx) (fs : List (Name × Val)) :
    (visitObj s c fs).any dupFields = false ↔ ∀ p ∈ fs, NoDup p.2 := by
  match fs with
  | [] => simp [visitObj]
  | f :: fs =>
    rw [visitObj, List.any_append, Bool.or_eq_false_iff, noDup_pair s c f, noDup_obj s c fs]
    simp only [List.mem_cons, forall_eq_or_imp]
theorem noDup_pair (s : Schema) (c : Ctx) (f : Name × Val) :
    (visitPair s c f).any dupFields = false ↔ NoDup f.2 := by
  match f with
  | (n, v) =>
    rw [visitPair]
    exact noDup_val s _ v
end

theorem uniqueInputFieldNames_iff (s : Schema) (d : Doc) :
    uniqueInputFieldNames s d = false ↔ ObjectsGood s d := by
  have : uniqueInputFieldNames s d = (visit s d).any dupFields := rfl
  rw [this, any_values s d dupFields (fun _ _ v => NoDup v)]
  · constructor
    · rintro ⟨h1, h2⟩ v hv
      cases hv with
      | arg hg ha => exact h1 _ _ hg _ ha
      | default_ ho hw hx => exact h2 _ ho _ hw _ hx
    · intro h
      exact ⟨fun defs args hg a ha => h _ (.arg hg ha), fun o ho v hv x hx => h _ (.default_ ho hv hx)⟩
  · rintro ⟨c, e⟩ he
    cases e <;> simp [Ev.isVal] at he <;> rfl
  · intro c v
    exact noDup_val s c v

/-! ## Strict and loose -/

theorem loosely_wrap (s : Schema) {t u : Ty} {v : Val} (hn : v ≠ .null) (hl : (∃ vs, v = .list vs) → ∀ w, u ≠ .list w)
    (hw : ∀ n, Wraps t n → Wraps u n) (h : Loosely s t v) : Loosely s u v := by
  cases h with
  | var => exact .var
  | null h => exact absurd rfl hn
  | items _ => exact .unseen (hl ⟨_, rfl⟩)
  | unseen _ => exact .unseen (hl ⟨_, rfl⟩)
  | unknown h1 h2 h3 => exact .unknown (hw _ h1) h2 h3
  | scalar h1 h2 h3 h4 h5 => exact .scalar (hw _ h1) h2 h3 h4 h5
  | enum h1 h2 h3 => exact .enum (hw _ h1) h2 h3
  | obj h1 h2 h3 h4 => exact .obj (hw _ h1) h2 h3 h4
  | other h1 h2 => exact .other (hw _ h1) h2

theorem fits_loosely (s : Schema) {t : Ty} {v : Val} (h : Fits s t v) : Loosely s t v := by
  induction h with
  | var => exact .var
  | null h => exact .null h
  | @nonNull t v hn _ ih => exact loosely_wrap s hn (fun _ w => by simp) (fun n h => .nonNull h) ih
  | items _ ih => exact .items ih
  | @single t v h1 h2 _ ih =>
    exact loosely_wrap s h2 (fun ⟨vs, h⟩ => absurd h (h1 vs)) (fun n h => .list h) ih
  | @unknown n v h =>
    cases v with
    | null => exact .null (by simp)
    | var => exact .var
    | list => exact .unseen (by simp)
    | obj => exact .other (.named n) (by simp [h])
    | _ => exact .unknown (.named n) h trivial
  | @scalar n m v h1 h2 =>
    have hs : v.single → Loosely s (.named n) v := fun hv => .scalar (.named n) h1 hv (fun _ => h2) (by
      rintro rfl
      simp only [ScalarTakes, if_true] at h2
      obtain ⟨i, rfl, _⟩ := h2
      exact ⟨i, rfl⟩)
    cases v with
    | null => exact .null (by simp)
    | var => exact .var
    | list => exact .unseen (by simp)
    | obj => exact .other (.named n) (by simp [h1])
    | _ => exact hs trivial
  | enum h1 h2 => exact .enum (.named _) h1 h2
  | obj h1 h2 _ ih => exact .obj (.named _) h1 h2 ih

theorem fits_wrap (s : Schema) {t : Ty} {n : Name} {v : Val} (h1 : v ≠ .null) (h2 : ∀ vs, v ≠ .list vs)
    (hw : Wraps t n) (h : Fits s (.named n) v) : Fits s t v := by
  induction hw with
  | named => exact h
  | list _ ih => exact .single h2 h1 (ih h)
  | nonNull _ ih => exact .nonNull h1 (ih h)

theorem single_ne {v : Val} (h : v.single) : v ≠ .null ∧ ∀ vs, v ≠ .list vs := by
  cases v <;> simp [Val.single] at h <;> simp

theorem loosely_fits (s : Schema) (d : Doc) (hp : Plain s d) {t : Ty} {v : Val} (h : Loosely s t v) :
    Place s d t v → Fits s t v := by
  induction h with
  | var => intro _; exact .var
  | null h => intro _; exact .null h
  | items _ ih => intro hpl; exact .items (fun x hx => ih x hx (.item hpl hx))
  | @unseen t vs h =>
    intro hpl
    obtain ⟨u, hu⟩ := (hp _ _ hpl).1 vs rfl
    exact absurd hu (h u)
  | unknown h1 h2 h3 =>
    intro _
    exact fits_wrap s (single_ne h3).1 (single_ne h3).2 h1 (.unknown h2)
  | @scalar t n m v h1 h2 h3 h4 h5 =>
    intro hpl
    refine fits_wrap s (single_ne h3).1 (single_ne h3).2 h1 (.scalar h2 ?_)
    by_cases hm : m = "Int"
    · obtain ⟨i, rfl⟩ := h5 hm
      have := (hp _ _ hpl).2.2 i rfl
      subst hm
      simp only [ScalarTakes, if_true]
      exact ⟨i, rfl, this⟩
    · exact h4 hm
  | enum h1 h2 h3 =>
    intro _
    exact fits_wrap s (by simp) (by simp) h1 (.enum h2 h3)
  | obj h1 h2 h3 _ ih =>
    intro hpl
    exact fits_wrap s (by simp) (by simp) h1 (.obj h2 h3 (fun p hp b hb => ih p hp b hb (.pair hpl h1 h2 hp hb)))
  | @other t n fs h1 h2 =>
    intro hpl
    obtain ⟨n', m, defs, hw, ht⟩ := (hp _ _ hpl).2.1 fs rfl
    have : n' = n := ((wraps_iff _ _).1 hw).symm.trans ((wraps_iff _ _).1 h1)
    subst this
    exact absurd ht (h2 _ _)

end Verif.Valid
