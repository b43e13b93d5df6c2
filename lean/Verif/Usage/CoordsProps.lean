import Verif.Usage.CoordsNested

/-!
# Usage reporting: the parts of the schema that a report names (C109)
-/

namespace Verif.Usage.Coords

open Verif.Valid

theorem reports_walk {s : Schema} {d : Doc} {us : List Used} (h : Reports s d us) :
    (walk s d).error = false ∧ ∃ order, (∀ n, n ∈ order ↔ n ∈ (walk s d).used) ∧
      us = finish s order (walk s d) := by
  obtain ⟨order, ho, h⟩ := h
  unfold report at h
  split at h
  · cases h
  · unfold collect at h
    split at h
    · cases h
    · rename_i he
      cases h
      exact ⟨by simpa using he, order, ho, rfl⟩

/-- What the visitor tells of was dealt with before anything failed. -/
theorem reports_step {s : Schema} {d : Doc} {us : List Used} (h : Reports s d us)
    {e : Option FieldDef × Ctx × Ev} (he : e ∈ track [] (visit s d)) :
    ∃ st, st.error = false ∧ (step s st e).error = false ∧ Le (step s st e) (walk s d) ∧
      ∀ u ∈ (step s st e).coords, u ∈ us := by
  obtain ⟨h1, order, _, rfl⟩ := reports_walk h
  obtain ⟨st, _, h3, h4⟩ := fold_mem s he Acc.new
  have h5 := h4.error h1
  exact ⟨st, h3.error h5, h5, h4, fun u hu => le_finish s order _ u (h4.coords u hu)⟩

theorem reports_event {s : Schema} {d : Doc} {us : List Used} (h : Reports s d us)
    {e : Ctx × Ev} (he : e ∈ visit s d) :
    ∃ f st, st.error = false ∧ (step s st (f, e)).error = false ∧ Le (step s st (f, e)) (walk s d) ∧
      ∀ u ∈ (step s st (f, e)).coords, u ∈ us := by
  obtain ⟨f, hf⟩ := track_mem he []
  obtain ⟨st, h⟩ := reports_step h hf
  exact ⟨f, st, h⟩

theorem visit_of_def {s : Schema} {d : Doc} {x : Def} (hx : x ∈ d) {e : Ctx × Ev}
    (he : e ∈ visitDef s x) : e ∈ visit s d :=
  List.mem_cons_of_mem _ (List.mem_append_left _ (List.mem_flatMap.2 ⟨x, hx, he⟩))

theorem selects_at {s : Schema} {d : Doc} {q : Option TypeDef} {y : Sel} (h : Selects s d q y) :
    ∃ x ∈ d, ∃ c, DefAt s x c y ∧ c.parent = q := by
  obtain ⟨x, hx, h⟩ := h
  obtain ⟨c, h1, h2⟩ := (defAt_on s x q y).2 h
  exact ⟨x, hx, c, h1, h2⟩

theorem own_visit {s : Schema} {d : Doc} {x : Def} (hx : x ∈ d) {c : Ctx} {y : Sel}
    (h : DefAt s x c y) {e : Ctx × Ev} (he : e ∈ own s c y) : e ∈ visit s d :=
  visit_of_def hx ((mem_visitDef s x e).2 (Or.inr (Or.inr (Or.inr (Or.inr (Or.inl ⟨c, y, h, he⟩))))))

/-! ## Fields -/

/-- Every field that the operation or one of its fragments selects on a type is in the report, and if it
is an enum, so are all values it can have. -/
theorem C109_fields {s : Schema} {d : Doc} {us : List Used} (h : Reports s d us)
    {p : TypeDef} {al n args ds sub} (hs : Selects s d (some p) (.field al n args ds sub)) :
    (Coord.member p.name n, false) ∈ us ∧
    ∀ f e vs, p.fieldByName n = some f → s.typeByName f.ty.inner = some (.enum e vs) →
      ∀ v ∈ vs, (Coord.member e v, false) ∈ us := by
  obtain ⟨x, hx, c, hc, hp⟩ := selects_at hs
  obtain ⟨f, st, he, _, _, hu⟩ := reports_event h (own_visit hx hc (e := (inField c n, .field al n args ds sub))
    (by simp [own]))
  have hp' : (inField c n).parent = some p := hp
  have hst : step s st (f, inField c n, .field al n args ds sub) = st.add (fieldCoords s p n) := by
    simp [step, he, hp']
  rw [hst] at hu
  refine ⟨hu _ (List.mem_append_left _ (by simp [fieldCoords])), ?_⟩
  intro f e vs hf ht v hv
  refine hu _ (List.mem_append_left _ ?_)
  simp [fieldCoords, hf, ht, hv]

/-! ## Arguments -/

theorem fieldByName_name {t : TypeDef} {n : Name} {f : FieldDef} (h : t.fieldByName n = some f) :
    f.name = n := by
  cases t <;> simp only [TypeDef.fieldByName, reduceCtorEq] at h <;> simpa using List.find?_some h

/-- Every argument that is given to a field is in the report; if it is given a value in the document, the
report says that it has one. -/
theorem C109_args {s : Schema} {d : Doc} {us : List Used} (h : Reports s d us)
    {p : TypeDef} {al n args ds sub f} (hs : Selects s d (some p) (.field al n args ds sub))
    (hf : p.fieldByName n = some f) {a : Name × Val} (ha : a ∈ args) :
    (Coord.arg p.name n a.1, false) ∈ us ∧
    (a.2 ≠ .null → (∀ v, a.2 ≠ .var v) → (Coord.arg p.name n a.1, true) ∈ us) := by
  obtain ⟨x, hx, c, hc, hp⟩ := selects_at hs
  have hev : (c.parent.bind (·.fieldByName n), argCtx (inField c n) (fieldArgs c.parent n) a.1, Ev.arg a) ∈
      track [] (visit s d) := by
    refine track_visit_of_mem hx (track_args_def hc _ ?_)
    exact (mem_visitArgs _ _ _ _ _).2 ⟨a, ha, Or.inl rfl⟩
  obtain ⟨st, he, _, _, hu⟩ := reports_step h hev
  have hpar : (argCtx (inField c n) (fieldArgs c.parent n) a.1).parent = some p := hp
  have hst : step s st (c.parent.bind (·.fieldByName n),
      argCtx (inField c n) (fieldArgs c.parent n) a.1, Ev.arg a) = argStep s st p f a := by
    simp only [step, hpar]
    simp [he, hp, hf]
  rw [hst] at hu
  have hn := fieldByName_name hf
  constructor
  · refine hu _ (List.mem_append_right _ ?_)
    rw [hn]
    exact mark_mem _ _
  · intro h1 h2
    have hg : st.given a.2 = true := by
      cases hv : a.2 <;> simp [Acc.given] <;> simp [hv] at h1 h2
    refine hu _ (List.mem_append_right _ ?_)
    rw [hn, if_pos hg]
    exact count_mark_mem _ _

/-! ## Types of variables -/

/-- Everything that is in the type of a variable is in the report: the scalars, the values of the enums
and the fields of the input objects, at any depth, also where input objects are in each other. -/
theorem C109_variables {s : Schema} {d : Doc} {us : List Used} (h : Reports s d us) {o : Op}
    {v : VarDef} {n : Name} (ho : o ∈ ops d) (hv : v ∈ o.vars) (hn : Within s v.ty.inner n) :
    Tells s us n := by
  obtain ⟨x, hx, hxo⟩ := List.mem_filterMap.1 ho
  have hx' : x = .op o := by
    cases x <;> simp [Def.op?] at hxo
    rw [hxo]
  subst hx'
  have hev : (({ (startCtx (rootOf s o.kind)) with input := some v.ty, dflt := false } : Ctx), Ev.varDef v) ∈
      visit s d := by
    refine visit_of_def hx ?_
    rw [visitDef]
    refine List.mem_cons_of_mem _ (List.mem_append_left _ (List.mem_append_right _ ?_))
    exact List.mem_flatMap.2 ⟨v, hv, List.mem_cons_self⟩
  obtain ⟨f, st, he, _, hle, _⟩ := reports_event h hev
  have hu : v.ty.inner ∈ (walk s d).used := by
    refine hle.used _ ?_
    simp [step, he, Acc.add]
  obtain ⟨_, order, ho, rfl⟩ := reports_walk h
  exact finish_covers s order _ (full_walk s d) ((ho _).2 hu) hn

/-! ## Input objects -/

/-- The visitor comes to values where they stand, with the type that is expected there. -/
theorem carries_visit {s : Schema} {d : Doc} {l : Loc} {ds : List Dir} (h : Carries d l ds) :
    ∃ c, ∀ e ∈ visitDirs s c ds, e ∈ visit s d := by
  have hop : ∀ o ∈ ops d, ∃ c, ∀ e ∈ visitDirs s c o.dirs, e ∈ visit s d := by
    intro o ho
    obtain ⟨x, hx, hxo⟩ := List.mem_filterMap.1 ho
    have hx' : x = .op o := by
      cases x <;> simp [Def.op?] at hxo
      rw [hxo]
    subst hx'
    exact ⟨_, fun e he => visit_of_def hx ((mem_visitDef s _ e).2 (Or.inr (Or.inl he)))⟩
  cases h with
  | query ho _ => exact hop _ ho
  | mutation ho _ => exact hop _ ho
  | subscription ho _ => exact hop _ ho
  | fragment hf =>
    obtain ⟨x, hx, hxo⟩ := List.mem_filterMap.1 hf
    rename_i f
    have hx' : x = .frag f := by
      cases x <;> simp [Def.frag?] at hxo
      rw [hxo]
    subst hx'
    exact ⟨_, fun e he => visit_of_def hx ((mem_visitDef s _ e).2 (Or.inr (Or.inl he)))⟩
  | @field x al n args ds sub hx hi =>
    obtain ⟨c, hc⟩ := (defAt_inside (s := s)).2 hi
    exact ⟨inField c n, fun e he => own_visit hx hc (by simp only [own]; simp [he])⟩
  | spread hx hi =>
    obtain ⟨c, hc⟩ := (defAt_inside (s := s)).2 hi
    exact ⟨c, fun e he => own_visit hx hc (by simp only [own]; simp [he])⟩
  | @inline x cond ds sub hx hi =>
    obtain ⟨c, hc⟩ := (defAt_inside (s := s)).2 hi
    exact ⟨inCond c cond, fun e he => own_visit hx hc (by simp only [own]; simp [he])⟩

theorem given_visit {s : Schema} {d : Doc} {defs : Option (List InputDef)} {args : Args}
    (h : Given s d defs args) : ∃ c, ∀ e ∈ visitArgs s c defs args, e ∈ visit s d := by
  cases h with
  | field hs =>
    obtain ⟨x, hx, c, hc, rfl⟩ := selects_at hs
    rename_i al n ds sub
    refine ⟨inField c n, fun e he => own_visit hx hc ?_⟩
    simp only [own]
    exact List.mem_cons_of_mem _ (List.mem_append_left _ (List.mem_append_left _
      (List.mem_append_left _ he)))
  | dir hc hx =>
    obtain ⟨c, h⟩ := carries_visit (s := s) hc
    exact ⟨c, fun e he => h e ((mem_visitDirs _ _ _ _).2 ⟨_, hx, Or.inr (Or.inr he)⟩)⟩

theorem visitVals_of_mem {s : Schema} {c : Ctx} {vs : List Val} {v : Val} (hv : v ∈ vs)
    {e : Ctx × Ev} (he : e ∈ visitVal s c v) : e ∈ visitVals s c vs := by
  induction vs with
  | nil => cases hv
  | cons x xs ih =>
    rw [visitVals]
    rcases List.mem_cons.1 hv with rfl | hv
    · exact List.mem_append_left _ he
    · exact List.mem_append_right _ (ih hv)

theorem visitObj_of_mem {s : Schema} {c : Ctx} {fs : List (Name × Val)} {p : Name × Val} (hp : p ∈ fs)
    {e : Ctx × Ev} (he : e ∈ visitPair s c p) : e ∈ visitObj s c fs := by
  induction fs with
  | nil => cases hp
  | cons x xs ih =>
    rw [visitObj]
    rcases List.mem_cons.1 hp with rfl | hp
    · exact List.mem_append_left _ he
    · exact List.mem_append_right _ (ih hp)

theorem wraps_inner {t : Ty} {n : Name} (h : Wraps t n) : t.inner = n := by
  induction h with
  | named => rfl
  | list _ ih => exact ih
  | nonNull _ ih => exact ih

theorem place_visit {s : Schema} {d : Doc} {t : Ty} {v : Val} (h : Place s d t v) :
    ∃ c, c.input = some t ∧ ∀ e ∈ visitVal s c v, e ∈ visit s d := by
  induction h with
  | top he =>
    cases he with
    | @arg defs args a b hg ha hb =>
      obtain ⟨c, h⟩ := given_visit hg
      refine ⟨argCtx c (some defs) a.1, by simp [argCtx, hb], fun e he => h e ?_⟩
      exact (mem_visitArgs _ _ _ _ _).2 ⟨a, ha, Or.inr he⟩
    | @default_ o v x ho hv hx =>
      obtain ⟨y, hy, hyo⟩ := List.mem_filterMap.1 ho
      have hy' : y = .op o := by
        cases y <;> simp [Def.op?] at hyo
        rw [hyo]
      subst hy'
      refine ⟨{ (startCtx (rootOf s o.kind)) with input := some v.ty, dflt := false }, rfl,
        fun e he => visit_of_def hy ?_⟩
      rw [visitDef]
      refine List.mem_cons_of_mem _ (List.mem_append_left _ (List.mem_append_right _ ?_))
      exact List.mem_flatMap.2 ⟨v, hv, List.mem_cons_of_mem _ (by rw [hx]; exact he)⟩
  | @item t vs x _ hx ih =>
    obtain ⟨c, hc, h⟩ := ih
    refine ⟨{ c with input := itemType c.input, dflt := false }, by simp [hc, itemType], fun e he => h e ?_⟩
    rw [visitVal]
    exact List.mem_cons_of_mem _ (visitVals_of_mem hx he)
  | @pair t n m defs fs p b _ hw ht hp hb ih =>
    obtain ⟨c, hc, h⟩ := ih
    have hi : (c.input.bind (fun t => s.typeByName t.inner)).bind (·.inputByName p.1) = some b := by
      simp [hc, wraps_inner hw, ht, TypeDef.inputByName, hb]
    refine ⟨{ c with
        input := ((c.input.bind (fun t => s.typeByName t.inner)).bind (·.inputByName p.1)).map (·.ty),
        dflt := (((c.input.bind (fun t => s.typeByName t.inner)).bind (·.inputByName p.1)).bind
          (·.default_)).isSome }, by simp [hi], fun e he => h e ?_⟩
    rw [visitVal]
    refine List.mem_cons_of_mem _ (visitObj_of_mem hp ?_)
    obtain ⟨k, w⟩ := p
    rw [visitPair]
    exact he

theorem objs_mem (s : Schema) (m : Name) (defs : List InputDef) {fs : List (Name × Val)}
    {p : Name × Val} (hp : p ∈ fs) {b : InputDef} (hb : defs.find? (fun b => b.name = p.1) = some b)
    (st : Acc) :
    (Coord.member m b.name, false) ∈ (fs.foldl (objStep s m defs) st).coords ∧
    (p.2 ≠ .null → (∀ v, p.2 ≠ .var v) →
      (Coord.member m b.name, true) ∈ (fs.foldl (objStep s m defs) st).coords) := by
  induction fs generalizing st with
  | nil => cases hp
  | cons q fs ih =>
    rw [List.foldl_cons]
    rcases List.mem_cons.1 hp with rfl | hp
    · have hle := le_foldl (objStep s m defs) (le_objStep s m defs) fs (objStep s m defs st p)
      have h1 : objStep s m defs st p = pairStep s
          (((st.add [(.member m b.name, false)]).add
            (if st.given p.2 then [(.member m b.name, true)] else [])).mark (.member m b.name))
          b.ty.inner p.2 := by
        simp only [objStep, hb]
      constructor
      · refine hle.coords _ ?_
        rw [h1]
        exact (le_pairStep s _ _ _).coords _ (mark_mem _ _)
      · intro hn hv
        have hg : st.given p.2 = true := by
          cases hv' : p.2 <;> simp [Acc.given] <;> simp [hv'] at hn hv
        refine hle.coords _ ?_
        rw [h1]
        refine (le_pairStep s _ _ _).coords _ ((le_mark _ _).coords _ ?_)
        rw [if_pos hg]
        exact List.mem_append_left _ (by simp)
    · exact ih hp _

/-- Every field that is given in an input object, where the visitor knows that this input object is
expected, is in the report; if it is given a value, the report says so. What is missing: inside a list
that cannot be null the visitor does not know what is expected (`C109_lists_refuted`). -/
theorem C109_inputs_partial {s : Schema} {d : Doc} {us : List Used} (h : Reports s d us)
    {t : Ty} {n m : Name} {defs : List InputDef} {fs : List (Name × Val)} (hp : Place s d t (.obj fs))
    (hw : Wraps t n) (ht : s.typeByName n = some (.input m defs)) {p : Name × Val} (hf : p ∈ fs)
    {b : InputDef} (hb : defs.find? (fun b => b.name = p.1) = some b) :
    (Coord.member m p.1, false) ∈ us ∧
    (p.2 ≠ .null → (∀ v, p.2 ≠ .var v) → (Coord.member m p.1, true) ∈ us) := by
  obtain ⟨c, hc, hv⟩ := place_visit hp
  obtain ⟨f, st, _, _, _, hu⟩ := reports_event h (hv (c, .obj fs) (by rw [visitVal]; exact List.mem_cons_self))
  have hst : step s st (f, c, .obj fs) = fs.foldl (objStep s m defs) st := by
    simp [step, hc, wraps_inner hw, ht]
  rw [hst] at hu
  have hbn : b.name = p.1 := by simpa using List.find?_some hb
  obtain ⟨h1, h2⟩ := objs_mem s m defs hf hb st
  rw [hbn] at h1 h2
  exact ⟨hu _ h1, fun a b => hu _ (h2 a b)⟩

/-! ## Literals -/

theorem uses_scalar {s : Schema} {t : Name} {v : Val} {c : Coord} (h : Uses s t v c) :
    (∃ x, v = .enum x ∧ c = .member t x) ∨
    (v.single ∧ (∀ x, v ≠ .enum x) ∧ (c, false) ∈ scalarCoord s t) := by
  cases h with
  | enum x => exact Or.inl ⟨x, rfl, rfl⟩
  | builtin h1 h2 h3 =>
    refine Or.inr ⟨h1, h2, ?_⟩
    have : Coords.builtin t = true := by simpa [Coords.builtin, or_assoc] using h3
    simp [scalarCoord, this]
  | scalar h1 h2 h3 =>
    refine Or.inr ⟨h1, h2, ?_⟩
    unfold scalarCoord
    split
    · simp
    · simp [h3]

theorem uses_arg {s : Schema} {t : Name} {v : Val} {c : Coord} (h : Uses s t v c) :
    (c, false) ∈ argCoords s t v := by
  rcases uses_scalar h with ⟨x, rfl, rfl⟩ | ⟨h1, h2, h3⟩
  · simp [argCoords]
  · cases v with
    | enum x => exact absurd rfl (h2 x)
    | null => cases h1
    | var _ => cases h1
    | list _ => cases h1
    | obj _ => cases h1
    | _ => exact h3

theorem uses_item {s : Schema} {t : Name} {v : Val} {c : Coord} (h : Uses s t v c) :
    (c, false) ∈ itemCoords s t v := by
  rcases uses_scalar h with ⟨x, rfl, rfl⟩ | ⟨h1, h2, h3⟩
  · simp [itemCoords]
  · cases v with
    | enum x => exact absurd rfl (h2 x)
    | null => cases h1
    | var _ => cases h1
    | list _ => cases h1
    | obj _ => cases h1
    | _ => exact h3

theorem uses_pair {s : Schema} {t : Name} {v : Val} {c : Coord} (h : Uses s t v c) (st : Acc) :
    (c, false) ∈ (pairStep s st t v).coords := by
  rcases uses_scalar h with ⟨x, rfl, rfl⟩ | ⟨h1, h2, h3⟩
  · simp [pairStep, Acc.add]
  · cases v with
    | enum x => exact absurd rfl (h2 x)
    | null => cases h1
    | var _ => cases h1
    | list _ => cases h1
    | obj _ => cases h1
    | _ => exact List.mem_append_left _ h3

mutual
theorem default_enum (s : Schema) (x t : Name) (t' : Name) (v : Val) (h : Inner s t (.enum x) t' v) :
    (Coord.member t x, false) ∈ defaultCoords s t' v := by
  match v with
  | .enum y => cases h; simp [defaultCoords]
  | .list vs =>
    cases h with
    | item hx h => rw [defaultCoords]; exact default_enums s x t t' vs _ hx h
  | .obj fs =>
    cases h with
    | pair hx ht hb h => rw [defaultCoords]; exact default_fields s x t t' fs _ _ hx ht hb h
  | .null => cases h
  | .bool _ => cases h
  | .int _ => cases h
  | .float _ => cases h
  | .str _ => cases h
  | .var _ => cases h
theorem default_enums (s : Schema) (x t : Name) (t' : Name) (vs : List Val) (w : Val) (hw : w ∈ vs)
    (h : Inner s t (.enum x) t' w) : (Coord.member t x, false) ∈ defaultItems s t' vs := by
  match vs with
  | [] => cases hw
  | v :: vs =>
    rw [defaultItems]
    by_cases hv : w ∈ vs
    · exact List.mem_append_right _ (default_enums s x t t' vs w hv h)
    · rcases List.mem_cons.1 hw with e | hw
      · exact List.mem_append_left _ (default_enum s x t t' v (e ▸ h))
      · exact absurd hw hv
theorem default_fields (s : Schema) (x t : Name) (t' : Name) (fs : List (Name × Val)) (n : Name) (w : Val)
    (hw : (n, w) ∈ fs) {m : Name} {defs : List InputDef} {b : InputDef}
    (ht : s.typeByName t' = some (.input m defs)) (hb : defs.find? (fun b => b.name = n) = some b)
    (h : Inner s t (.enum x) b.ty.inner w) : (Coord.member t x, false) ∈ defaultFields s t' fs := by
  match fs with
  | [] => cases hw
  | f :: fs =>
    rw [defaultFields]
    by_cases hv : (n, w) ∈ fs
    · exact List.mem_append_right _ (default_fields s x t t' fs n w hv ht hb h)
    · rcases List.mem_cons.1 hw with e | hw
      · exact List.mem_append_left _ (default_pair s x t t' f n w e ht hb h)
      · exact absurd hw hv
theorem default_pair (s : Schema) (x t : Name) (t' : Name) (f : Name × Val) (n : Name) (w : Val)
    (hw : (n, w) = f) {m : Name} {defs : List InputDef} {b : InputDef}
    (ht : s.typeByName t' = some (.input m defs)) (hb : defs.find? (fun b => b.name = n) = some b)
    (h : Inner s t (.enum x) b.ty.inner w) : (Coord.member t x, false) ∈ defaultPair s t' f := by
  match f with
  | (k, v) =>
    obtain ⟨h1, h2⟩ := Prod.mk.inj hw
    rw [defaultPair, ← h1]
    simp only [ht, Option.bind_some, TypeDef.inputByName, hb]
    exact List.mem_cons_of_mem _ (List.mem_cons_of_mem _ (default_enum s x t b.ty.inner v (h2 ▸ h)))
end

/-- Every enum value and scalar that is written in the document is in the report: as an argument of a field,
in a list or in an input object where the visitor knows what is expected, and, for enum values, anywhere in
the default of a variable. What is missing is the same as for `C109_inputs_partial`. -/
theorem C109_values_partial {s : Schema} {d : Doc} {us : List Used} (h : Reports s d us) :
    (∀ p al n args ds sub f a b c, Selects s d (some p) (.field al n args ds sub) →
      p.fieldByName n = some f → a ∈ args → f.args.find? (fun b => b.name = a.1) = some b →
      Uses s b.ty.inner a.2 c → (c, false) ∈ us) ∧
    (∀ t vs v c, Place s d t (.list vs) → s.typeByName t.inner ≠ none → v ∈ vs → Uses s t.inner v c →
      (c, false) ∈ us) ∧
    (∀ t n m defs fs p b c, Place s d t (.obj fs) → Wraps t n → s.typeByName n = some (.input m defs) →
      p ∈ fs → defs.find? (fun b => b.name = p.1) = some b → Uses s b.ty.inner p.2 c → (c, false) ∈ us) ∧
    (∀ o v w t x, o ∈ ops d → v ∈ o.vars → v.default_ = some w → Inner s t (.enum x) v.ty.inner w →
      (Coord.member t x, false) ∈ us) := by
  refine ⟨?_, ?_, ?_, ?_⟩
  · intro p al n args ds sub f a b c hs hf ha hb hu
    obtain ⟨x, hx, c', hc, hp⟩ := selects_at hs
    have hev : (c'.parent.bind (·.fieldByName n), argCtx (inField c' n) (fieldArgs c'.parent n) a.1, Ev.arg a) ∈
        track [] (visit s d) := by
      refine track_visit_of_mem hx (track_args_def hc _ ?_)
      exact (mem_visitArgs _ _ _ _ _).2 ⟨a, ha, Or.inl rfl⟩
    obtain ⟨st, he, _, _, hus⟩ := reports_step h hev
    have hpar : (argCtx (inField c' n) (fieldArgs c'.parent n) a.1).parent = some p := hp
    have hst : step s st (c'.parent.bind (·.fieldByName n),
        argCtx (inField c' n) (fieldArgs c'.parent n) a.1, Ev.arg a) = argStep s st p f a := by
      simp only [step, hpar]
      simp [he, hp, hf]
    rw [hst] at hus
    have hn := fieldByName_name hf
    refine hus _ (List.mem_append_left _ ?_)
    rw [hn, hf]
    simp only [Option.bind_some, hb]
    exact uses_arg hu
  · intro t vs v c hp ht hv hu
    obtain ⟨c', hc, hvis⟩ := place_visit hp
    obtain ⟨f, st, he, _, _, hus⟩ := reports_event h
      (hvis (c', .list vs) (by rw [visitVal]; exact List.mem_cons_self))
    cases htt : s.typeByName t.inner with
    | none => exact absurd htt ht
    | some ty =>
      have hst : step s st (f, c', .list vs) = st.add (vs.flatMap (itemCoords s ty.name)) := by
        simp [step, he, hc, htt]
      rw [hst] at hus
      refine hus _ (List.mem_append_left _ (List.mem_flatMap.2 ⟨v, hv, ?_⟩))
      rw [typeByName_name htt]
      exact uses_item hu
  · intro t n m defs fs p b c hp hw ht hf hb hu
    obtain ⟨c', hc, hvis⟩ := place_visit hp
    obtain ⟨f, st, _, _, _, hus⟩ := reports_event h
      (hvis (c', .obj fs) (by rw [visitVal]; exact List.mem_cons_self))
    have hst : step s st (f, c', .obj fs) = fs.foldl (objStep s m defs) st := by
      simp [step, hc, wraps_inner hw, ht]
    rw [hst] at hus
    refine hus _ ?_
    clear * - hf hb hu
    induction fs generalizing st with
    | nil => cases hf
    | cons q fs ih =>
      rw [List.foldl_cons]
      rcases List.mem_cons.1 hf with rfl | hf
      · refine (le_foldl (objStep s m defs) (le_objStep s m defs) fs _).coords _ ?_
        simp only [objStep, hb]
        exact uses_pair hu _
      · exact ih hf _
  · intro o v w t x ho hv hw hi
    obtain ⟨y, hy, hyo⟩ := List.mem_filterMap.1 ho
    have hy' : y = .op o := by
      cases y <;> simp [Def.op?] at hyo
      rw [hyo]
    subst hy'
    have hev : (({ (startCtx (rootOf s o.kind)) with input := some v.ty, dflt := false } : Ctx), Ev.varDef v) ∈
        visit s d := by
      refine visit_of_def hy ?_
      rw [visitDef]
      refine List.mem_cons_of_mem _ (List.mem_append_left _ (List.mem_append_right _ ?_))
      exact List.mem_flatMap.2 ⟨v, hv, List.mem_cons_self⟩
    obtain ⟨f, st, he, _, _, hus⟩ := reports_event h hev
    refine hus _ ?_
    simp only [step, he, hw]
    exact List.mem_append_left _ (default_enum s x t _ w hi)

/-! ## Whether there is a report -/

theorem parent_args {s : Schema} {c : Ctx} {defs : Option (List InputDef)} {args : Args} {e : Ctx × Ev}
    (he : e ∈ visitArgs s c defs args) : e.2.isVal = true ∨ e.1.parent = c.parent := by
  obtain ⟨a, _, h | h⟩ := (mem_visitArgs _ _ _ _ _).1 he
  · subst h; exact Or.inr rfl
  · exact Or.inl (visitVal_isVal _ _ _ _ h)

theorem parent_dirs {s : Schema} {c : Ctx} {ds : List Dir} {e : Ctx × Ev}
    (he : e ∈ visitDirs s c ds) : e.2.isVal = true ∨ e.1.parent = c.parent := by
  obtain ⟨x, _, h | h | h⟩ := (mem_visitDirs _ _ _ _).1 he
  · subst h; exact Or.inr rfl
  · subst h; exact Or.inr rfl
  · exact parent_args h

theorem bad_val {e : Ctx × Ev} (h : e.2.isVal = true) : bad e = false := by
  obtain ⟨c, ev⟩ := e
  cases ev <;> simp [Ev.isVal] at h <;> rfl

theorem bad_parent {e : Ctx × Ev} (h : e.1.parent ≠ none) : bad e = false := by
  obtain ⟨c, ev⟩ := e
  cases hp : c.parent with
  | none => exact absurd hp h
  | some p => cases ev <;> simp [bad, hp]

/-- There is a report for every operation that asks for neither `__schema` nor `__type` at the top and
selects on types of the schema only, if no directive of the operation or of a fragment has arguments. What
is missing: such directives (`C109_directive_refuted`) and operations that ask for other fields besides
`__schema` (`C109_introspection_refuted`). -/
theorem C109_reported_partial {s : Schema} {d : Doc} (hi : introspects d = false)
    (hs : ∀ q y, Selects s d q y → q ≠ none) (hd : ∀ x ∈ d, ∀ y ∈ x.dirs, y.args = []) :
    ∃ us, Reports s d us := by
  have he : (walk s d).error = false := by
    rw [walk_error]
    intro e he
    by_cases h1 : e.2 = .doc
    · simp [bad, h1]
    by_cases h2 : e.2 = .leaveDoc
    · simp [bad, h2]
    obtain ⟨x, hx, he⟩ := (mem_visit s d e h1 h2).1 he
    rcases (mem_visitDef s x e).1 he with h | h | h | h | ⟨c, y, hc, h⟩ | ⟨h, _⟩
    · subst h; cases x <;> rfl
    · obtain ⟨y, hy, h | h | h⟩ := (mem_visitDirs _ _ _ _).1 h
      · subst h; rfl
      · subst h; rfl
      · rw [hd x hx y hy] at h
        simp [visitArgs] at h
    · obtain ⟨v, _, h⟩ := List.mem_flatMap.1 h
      rcases List.mem_cons.1 h with h | h
      · subst h; rfl
      · cases hv : v.default_ with
        | none => rw [hv] at h; cases h
        | some w => rw [hv] at h; exact bad_val (visitVal_isVal _ _ _ _ h)
    · subst h; rfl
    · have hq : c.parent ≠ none := by
        refine hs c.parent y ⟨x, hx, ?_⟩
        exact (defAt_on s x _ y).1 ⟨c, hc, rfl⟩
      have hpar : ∀ c' : Ctx, c'.parent = c.parent → (e.2.isVal = true ∨ e.1.parent = c'.parent) →
          bad e = false := by
        intro c' hc' h
        rcases h with h | h
        · exact bad_val h
        · exact bad_parent (by rw [h, hc']; exact hq)
      cases y with
      | field al n args ds sub =>
        simp only [own, List.mem_cons, List.mem_append, List.not_mem_nil, or_false] at h
        rcases h with h | ((h | h) | h) | h
        · subst h; exact bad_parent hq
        · exact hpar (inField c n) rfl (parent_args h)
        · exact hpar (inField c n) rfl (parent_dirs h)
        · subst h; rfl
        · subst h; rfl
      | spread n ds =>
        simp only [own, List.mem_cons] at h
        rcases h with h | h
        · subst h; rfl
        · exact hpar c rfl (parent_dirs h)
      | inline cond ds sub =>
        simp only [own, List.mem_cons, List.mem_append, List.not_mem_nil, or_false] at h
        rcases h with h | h | h
        · subst h; rfl
        · exact hpar (inCond c cond) (by cases cond <;> rfl) (parent_dirs h)
        · subst h; rfl
    · subst h; rfl
  exact ⟨finish s (walk s d).used (walk s d), (walk s d).used, fun _ => Iff.rfl,
    by simp [report, hi, collect, he]⟩

end Verif.Usage.Coords
