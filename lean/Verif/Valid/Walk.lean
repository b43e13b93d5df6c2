import Verif.Valid.Spec

/-!
# What the visitor tells, and where
-/

namespace Verif.Valid

/-- The selection `x` occurs in the selection set, and the visitor comes to it with the context
`c'`. -/
inductive AtC (s : Schema) : Ctx → List Sel → Ctx → Sel → Prop
  | here {c ss x} : x ∈ ss → AtC s c ss c x
  | field {c c' : Ctx} {ss : List Sel} {x al n args ds sub} :
      Sel.field al n args ds sub ∈ ss → AtC s (inSet s (inField c n)) sub c' x → AtC s c ss c' x
  | inline {c c' : Ctx} {ss : List Sel} {x cond ds sub} :
      Sel.inline cond ds sub ∈ ss → AtC s (inSet s (inCond c cond)) sub c' x → AtC s c ss c' x

/-- What is told at a selection, but for what is inside its selection set. -/
def own (s : Schema) (c : Ctx) : Sel → Told
  | .field al n args ds sub =>
      (inField c n, .field al n args ds sub) ::
        (visitArgs s (inField c n) (fieldArgs c.parent n) args ++
          visitDirs s (inField c n) ds ++
          [(inSet s (inField c n), .sels sub)] ++ [(inField c n, .leaveField)])
  | .spread n ds => (c, .spread n ds) :: visitDirs s c ds
  | .inline cond ds sub =>
      (inCond c cond, .inline cond ds) ::
        (visitDirs s (inCond c cond) ds ++ [(inSet s (inCond c cond), .sels sub)])

theorem visitSels_of_mem {s : Schema} {c : Ctx} {ss : List Sel} {x : Sel} {e : Ctx × Ev}
    (hx : x ∈ ss) (he : e ∈ visitSel s c x) : e ∈ visitSels s c ss := by
  induction ss with
  | nil => cases hx
  | cons y ys ih =>
    rw [visitSels]
    rcases List.mem_cons.1 hx with h | h
    · subst h; exact List.mem_append.2 (Or.inl he)
    · exact List.mem_append.2 (Or.inr (ih h))

theorem own_sub {s : Schema} {c : Ctx} {x : Sel} {e : Ctx × Ev} (he : e ∈ own s c x) :
    e ∈ visitSel s c x := by
  cases x with
  | field al n args ds sub =>
    rw [visitSel]
    simp only [own, List.mem_cons, List.mem_append, List.not_mem_nil, or_false] at he ⊢
    rcases he with h | ((h | h) | h) | h <;> simp [h]
  | spread n ds => rw [visitSel]; exact he
  | inline cond ds sub =>
    rw [visitSel]
    simp only [own, List.mem_cons, List.mem_append, List.not_mem_nil, or_false] at he ⊢
    rcases he with h | h | h <;> simp [h]

mutual
theorem visitSel_own (s : Schema) (c : Ctx) (x : Sel) (e : Ctx × Ev) (he : e ∈ visitSel s c x) :
    ∃ c' y, AtC s c [x] c' y ∧ e ∈ own s c' y := by
  match x with
  | .field al n args ds sub =>
    rw [visitSel] at he
    simp only [List.mem_cons, List.mem_append, List.not_mem_nil, or_false] at he
    rcases he with h | ((h | h) | h | h) | h
    · exact ⟨c, .field al n args ds sub, .here (by simp), by simp [own, h]⟩
    · exact ⟨c, .field al n args ds sub, .here (by simp), by simp [own, h]⟩
    · exact ⟨c, .field al n args ds sub, .here (by simp), by simp [own, h]⟩
    · exact ⟨c, .field al n args ds sub, .here (by simp), by simp [own, h]⟩
    · obtain ⟨c', y, h1, h2⟩ := visitSels_own s _ sub e h
      exact ⟨c', y, .field (List.mem_singleton.2 rfl) h1, h2⟩
    · exact ⟨c, .field al n args ds sub, .here (by simp), by simp [own, h]⟩
  | .spread n ds =>
    rw [visitSel] at he
    exact ⟨c, .spread n ds, .here (by simp), by simpa [own] using he⟩
  | .inline cond ds sub =>
    rw [visitSel] at he
    simp only [List.mem_cons, List.mem_append] at he
    rcases he with h | h | h | h
    · exact ⟨c, .inline cond ds sub, .here (by simp), by simp [own, h]⟩
    · exact ⟨c, .inline cond ds sub, .here (by simp), by simp [own, h]⟩
    · exact ⟨c, .inline cond ds sub, .here (by simp), by simp [own, h]⟩
    · obtain ⟨c', y, h1, h2⟩ := visitSels_own s _ sub e h
      exact ⟨c', y, .inline (List.mem_singleton.2 rfl) h1, h2⟩
theorem visitSels_own (s : Schema) (c : Ctx) (ss : List Sel) (e : Ctx × Ev)
    (he : e ∈ visitSels s c ss) : ∃ c' y, AtC s c ss c' y ∧ e ∈ own s c' y := by
  match ss with
  | [] => simp [visitSels] at he
  | x :: xs =>
    rw [visitSels] at he
    rcases List.mem_append.1 he with h | h
    · obtain ⟨c', y, h1, h2⟩ := visitSel_own s c x e h
      refine ⟨c', y, ?_, h2⟩
      cases h1 with
      | here h => exact .here (by simp at h; simp [h])
      | field h h' => exact .field (List.mem_cons.2 (Or.inl (List.mem_singleton.1 h))) h'
      | inline h h' => exact .inline (List.mem_cons.2 (Or.inl (List.mem_singleton.1 h))) h'
    · obtain ⟨c', y, h1, h2⟩ := visitSels_own s c xs e h
      refine ⟨c', y, ?_, h2⟩
      cases h1 with
      | here h => exact .here (List.mem_cons_of_mem _ h)
      | field h h' => exact .field (List.mem_cons_of_mem _ h) h'
      | inline h h' => exact .inline (List.mem_cons_of_mem _ h) h'
end

/-- What is told in a selection set is what is told at the selections in it. -/
theorem mem_visitSels (s : Schema) (c : Ctx) (ss : List Sel) (e : Ctx × Ev) :
    e ∈ visitSels s c ss ↔ ∃ c' x, AtC s c ss c' x ∧ e ∈ own s c' x := by
  constructor
  · exact visitSels_own s c ss e
  · rintro ⟨c', x, h, he⟩
    induction h with
    | here hx => exact visitSels_of_mem hx (own_sub he)
    | field hx _ ih =>
      refine visitSels_of_mem hx ?_
      rw [visitSel]
      simp [ih he]
    | inline hx _ ih =>
      refine visitSels_of_mem hx ?_
      rw [visitSel]
      simp [ih he]

/-- Where the visitor comes to a selection it is inside the selection set, and the other way round. -/
theorem inside_iff (s : Schema) (c : Ctx) (ss : List Sel) (x : Sel) :
    Inside x ss ↔ ∃ c', AtC s c ss c' x := by
  constructor
  · intro h
    induction h generalizing c with
    | here h => exact ⟨c, .here h⟩
    | field h _ ih => obtain ⟨c', h'⟩ := ih (inSet s (inField c _)); exact ⟨c', .field h h'⟩
    | inline h _ ih => obtain ⟨c', h'⟩ := ih (inSet s (inCond c _)); exact ⟨c', .inline h h'⟩
  · rintro ⟨c', h⟩
    induction h with
    | here h => exact .here h
    | field h _ ih => exact .field h ih
    | inline h _ ih => exact .inline h ih

/-! ## Values, arguments and directives tell of nothing but themselves -/

/-- What is told of a value. -/
def Ev.isVal : Ev → Bool
  | .null => true
  | .scalar _ => true
  | .enum _ => true
  | .var _ => true
  | .list _ => true
  | .obj _ => true
  | _ => false

mutual
theorem visitVal_isVal (s : Schema) (c : Ctx) (v : Val) : ∀ e ∈ visitVal s c v, e.2.isVal = true := by
  match v with
  | .null => simp [visitVal, Ev.isVal]
  | .bool _ => simp [visitVal, Ev.isVal]
  | .int _ => simp [visitVal, Ev.isVal]
  | .float _ => simp [visitVal, Ev.isVal]
  | .str _ => simp [visitVal, Ev.isVal]
  | .enum _ => simp [visitVal, Ev.isVal]
  | .var _ => simp [visitVal, Ev.isVal]
  | .list vs =>
    intro e he
    rw [visitVal] at he
    rcases List.mem_cons.1 he with h | h
    · subst h; rfl
    · exact visitVals_isVal s _ vs e h
  | .obj fs =>
    intro e he
    rw [visitVal] at he
    rcases List.mem_cons.1 he with h | h
    · subst h; rfl
    · exact visitObj_isVal s _ fs e h
theorem visitVals_isVal (s : Schema) (c : Ctx) (vs : List Val) :
    ∀ e ∈ visitVals s c vs, e.2.isVal = true := by
  match vs with
  | [] => simp [visitVals]
  | v :: vs =>
    intro e he
    rw [visitVals] at he
    rcases List.mem_append.1 he with h | h
    · exact visitVal_isVal s c v e h
    · exact visitVals_isVal s c vs e h
theorem visitObj_isVal (s : Schema) (c : Ctx) (fs : List (Name × Val)) :
    ∀ e ∈ visitObj s c fs, e.2.isVal = true := by
  match fs with
  | [] => simp [visitObj]
  | f :: fs =>
    intro e he
    rw [visitObj] at he
    rcases List.mem_append.1 he with h | h
    · exact visitPair_isVal s c f e h
    · exact visitObj_isVal s c fs e h
theorem visitPair_isVal (s : Schema) (c : Ctx) (f : Name × Val) :
    ∀ e ∈ visitPair s c f, e.2.isVal = true := by
  match f with
  | (n, v) =>
    intro e he
    rw [visitPair] at he
    exact visitVal_isVal s _ v e he
end

/-- What is told of arguments. -/
theorem mem_visitArgs (s : Schema) (c : Ctx) (defs : Option (List InputDef)) (args : Args)
    (e : Ctx × Ev) :
    e ∈ visitArgs s c defs args ↔
      ∃ a ∈ args, e = (argCtx c defs a.1, .arg a) ∨ e ∈ visitVal s (argCtx c defs a.1) a.2 := by
  simp [visitArgs, List.mem_flatMap]

/-- What is told of directives. -/
theorem mem_visitDirs (s : Schema) (c : Ctx) (ds : List Dir) (e : Ctx × Ev) :
    e ∈ visitDirs s c ds ↔
      ∃ d ∈ ds, e = (c, .dir d) ∨ e = (c, .leaveDir) ∨
        e ∈ visitArgs s c ((s.dirByName d.name).map (·.args)) d.args := by
  simp only [visitDirs, List.mem_flatMap, List.mem_cons, List.mem_append, List.cons_append,
    List.not_mem_nil, or_false]
  constructor
  · rintro ⟨d, hd, h | h | h⟩
    · exact ⟨d, hd, Or.inl h⟩
    · exact ⟨d, hd, Or.inr (Or.inr h)⟩
    · exact ⟨d, hd, Or.inr (Or.inl h)⟩
  · rintro ⟨d, hd, h | h | h⟩
    · exact ⟨d, hd, Or.inl h⟩
    · exact ⟨d, hd, Or.inr (Or.inr h)⟩
    · exact ⟨d, hd, Or.inr (Or.inl h)⟩

/-- An argument of directives is told of as one. -/
theorem arg_visitDirs (s : Schema) (c : Ctx) (ds : List Dir) (a : Name × Val) :
    (∃ c', (c', Ev.arg a) ∈ visitDirs s c ds) ↔ a ∈ dirArgs ds := by
  constructor
  · rintro ⟨c', h⟩
    obtain ⟨d, hd, h | h | h⟩ := (mem_visitDirs s c ds _).1 h
    · exact absurd h (by simp)
    · exact absurd h (by simp)
    · obtain ⟨b, hb, h | h⟩ := (mem_visitArgs _ _ _ _ _).1 h
      · have : a = b := by simpa using (Prod.mk.inj h).2
        subst this
        exact List.mem_flatMap.2 ⟨d, hd, hb⟩
      · have := visitVal_isVal _ _ _ _ h; simp [Ev.isVal] at this
  · intro h
    obtain ⟨d, hd, ha⟩ := List.mem_flatMap.1 h
    exact ⟨_, (mem_visitDirs s c ds _).2 ⟨d, hd, Or.inr (Or.inr
      ((mem_visitArgs _ _ _ _ _).2 ⟨a, ha, Or.inl rfl⟩))⟩⟩

theorem spread_visitArgs (s : Schema) (c c' : Ctx) (defs : Option (List InputDef)) (args : Args)
    (n : Name) (es : List Dir) : (c', Ev.spread n es) ∉ visitArgs s c defs args := by
  intro h
  obtain ⟨b, _, h | h⟩ := (mem_visitArgs _ _ _ _ _).1 h
  · simp at h
  · have := visitVal_isVal _ _ _ _ h; simp [Ev.isVal] at this

theorem spread_visitDirs (s : Schema) (c c' : Ctx) (ds : List Dir) (n : Name) (es : List Dir) :
    (c', Ev.spread n es) ∉ visitDirs s c ds := by
  intro h
  obtain ⟨d, _, h | h | h⟩ := (mem_visitDirs s c ds _).1 h
  · simp at h
  · simp at h
  · exact spread_visitArgs _ _ _ _ _ _ _ h

/-- A spread is told of where it is. -/
theorem spread_own (s : Schema) (c c' : Ctx) (x : Sel) (n : Name) (es : List Dir) :
    (c', Ev.spread n es) ∈ own s c x ↔ c' = c ∧ x = .spread n es := by
  cases x with
  | field al m args ds sub =>
    simp [own, spread_visitArgs, spread_visitDirs]
  | spread m ds =>
    simp [own, spread_visitDirs]
    rintro rfl; exact ⟨fun h => ⟨h.1.symm, h.2.symm⟩, fun h => ⟨h.1.symm, h.2.symm⟩⟩
  | inline cond ds sub =>
    simp [own, spread_visitDirs]

/-- An argument is told of where it is. -/
theorem arg_own (s : Schema) (c : Ctx) (x : Sel) (a : Name × Val) :
    (∃ c', (c', Ev.arg a) ∈ own s c x) ↔ a ∈ selArgs x := by
  cases x with
  | field al m args ds sub =>
    simp only [own, selArgs, List.mem_cons, List.mem_append, List.not_mem_nil, or_false]
    constructor
    · rintro ⟨c', h | ((h | h) | h) | h⟩
      · simp at h
      · obtain ⟨b, hb, h | h⟩ := (mem_visitArgs _ _ _ _ _).1 h
        · have : a = b := by simpa using (Prod.mk.inj h).2
          subst this; exact Or.inl hb
        · have := visitVal_isVal _ _ _ _ h; simp [Ev.isVal] at this
      · exact Or.inr ((arg_visitDirs s _ ds a).1 ⟨c', h⟩)
      · simp at h
      · simp at h
    · rintro (h | h)
      · exact ⟨_, Or.inr (Or.inl (Or.inl (Or.inl ((mem_visitArgs _ _ _ _ _).2 ⟨a, h, Or.inl rfl⟩))))⟩
      · obtain ⟨c', h'⟩ := (arg_visitDirs s (inField c m) ds a).2 h
        exact ⟨c', Or.inr (Or.inl (Or.inl (Or.inr h')))⟩
  | spread m ds =>
    simp only [own, selArgs, List.mem_cons]
    constructor
    · rintro ⟨c', h | h⟩
      · simp at h
      · exact (arg_visitDirs s _ ds a).1 ⟨c', h⟩
    · intro h
      obtain ⟨c', h'⟩ := (arg_visitDirs s c ds a).2 h
      exact ⟨c', Or.inr h'⟩
  | inline cond ds sub =>
    simp only [own, selArgs, List.mem_cons, List.mem_append, List.not_mem_nil, or_false]
    constructor
    · rintro ⟨c', h | h | h⟩
      · simp at h
      · exact (arg_visitDirs s _ ds a).1 ⟨c', h⟩
      · simp at h
    · intro h
      obtain ⟨c', h'⟩ := (arg_visitDirs s (inCond c cond) ds a).2 h
      exact ⟨c', Or.inr (Or.inl h')⟩

/-- The spreads that are told of in a selection set are those in it. -/
theorem spread_visitSels (s : Schema) (c : Ctx) (ss : List Sel) (n : Name) :
    (∃ c' es, (c', Ev.spread n es) ∈ visitSels s c ss) ↔ SpreadIn ss n := by
  constructor
  · rintro ⟨c', es, h⟩
    obtain ⟨c2, x, h1, h2⟩ := (mem_visitSels s c ss _).1 h
    obtain ⟨_, rfl⟩ := (spread_own s c2 c' x n es).1 h2
    exact ⟨es, (inside_iff s c ss _).2 ⟨c2, h1⟩⟩
  · rintro ⟨ds, h⟩
    obtain ⟨c2, h1⟩ := (inside_iff s c ss _).1 h
    exact ⟨c2, ds, (mem_visitSels s c ss _).2 ⟨c2, _, h1, (spread_own s c2 c2 _ n ds).2 ⟨rfl, rfl⟩⟩⟩

/-- The arguments that are told of in a selection set are those in it. -/
theorem arg_visitSels (s : Schema) (c : Ctx) (ss : List Sel) (a : Name × Val) :
    (∃ c', (c', Ev.arg a) ∈ visitSels s c ss) ↔ ∃ x, Inside x ss ∧ a ∈ selArgs x := by
  constructor
  · rintro ⟨c', h⟩
    obtain ⟨c2, x, h1, h2⟩ := (mem_visitSels s c ss _).1 h
    exact ⟨x, (inside_iff s c ss _).2 ⟨c2, h1⟩, (arg_own s c2 x a).1 ⟨c', h2⟩⟩
  · rintro ⟨x, h, ha⟩
    obtain ⟨c2, h1⟩ := (inside_iff s c ss _).1 h
    obtain ⟨c', h2⟩ := (arg_own s c2 x a).2 ha
    exact ⟨c', (mem_visitSels s c ss _).2 ⟨c2, x, h1, h2⟩⟩

/-! ## Definitions are told of one after the other -/

/-- What opens a definition, or opens or closes the document. -/
def Ev.outer : Ev → Bool
  | .doc => true
  | .leaveDoc => true
  | .op _ => true
  | .frag _ => true
  | .leaveFrag => true
  | _ => false

theorem inner_visitVal {s : Schema} {c : Ctx} {v : Val} : ∀ e ∈ visitVal s c v, e.2.outer = false := by
  intro e he
  have := visitVal_isVal s c v e he
  obtain ⟨_, ev⟩ := e
  cases ev <;> simp_all [Ev.isVal, Ev.outer]

theorem inner_visitArgs {s : Schema} {c : Ctx} {defs : Option (List InputDef)} {args : Args} :
    ∀ e ∈ visitArgs s c defs args, e.2.outer = false := by
  intro e he
  obtain ⟨b, _, h | h⟩ := (mem_visitArgs _ _ _ _ _).1 he
  · subst h; rfl
  · exact inner_visitVal e h

theorem inner_visitDirs {s : Schema} {c : Ctx} {ds : List Dir} :
    ∀ e ∈ visitDirs s c ds, e.2.outer = false := by
  intro e he
  obtain ⟨d, _, h | h | h⟩ := (mem_visitDirs s c ds _).1 he
  · subst h; rfl
  · subst h; rfl
  · exact inner_visitArgs e h

theorem inner_visitSels {s : Schema} {c : Ctx} {ss : List Sel} :
    ∀ e ∈ visitSels s c ss, e.2.outer = false := by
  intro e he
  obtain ⟨c2, x, _, h⟩ := (mem_visitSels s c ss _).1 he
  cases x with
  | field al m args ds sub =>
    simp only [own, List.mem_cons, List.mem_append, List.not_mem_nil, or_false] at h
    rcases h with h | ((h | h) | h) | h
    · subst h; rfl
    · exact inner_visitArgs e h
    · exact inner_visitDirs e h
    · subst h; rfl
    · subst h; rfl
  | spread m ds =>
    simp only [own, List.mem_cons] at h
    rcases h with h | h
    · subst h; rfl
    · exact inner_visitDirs e h
  | inline cond ds sub =>
    simp only [own, List.mem_cons, List.mem_append, List.not_mem_nil, or_false] at h
    rcases h with h | h | h
    · subst h; rfl
    · exact inner_visitDirs e h
    · subst h; rfl

theorem inner_visitSet {s : Schema} {c : Ctx} {ss : List Sel} :
    ∀ e ∈ visitSet s c ss, e.2.outer = false := by
  intro e he
  rcases List.mem_cons.1 he with h | h
  · subst h; rfl
  · exact inner_visitSels e h

theorem inner_visitVars {s : Schema} {c : Ctx} {vs : List VarDef} :
    ∀ e ∈ visitVars s c vs, e.2.outer = false := by
  intro e he
  obtain ⟨v, _, h⟩ := List.mem_flatMap.1 he
  rcases List.mem_cons.1 h with h | h
  · subst h; rfl
  · cases hd : v.default_ with
    | none => simp [hd] at h
    | some x => simp only [hd] at h; exact inner_visitVal e h

/-- The variable definitions that are told of. -/
theorem varDef_visitVars (s : Schema) (c : Ctx) (vs : List VarDef) (v : VarDef) :
    (∃ c', (c', Ev.varDef v) ∈ visitVars s c vs) ↔ v ∈ vs := by
  constructor
  · rintro ⟨c', h⟩
    obtain ⟨w, hw, h⟩ := List.mem_flatMap.1 h
    rcases List.mem_cons.1 h with h | h
    · have : v = w := by simpa using (Prod.mk.inj h).2
      subst this; exact hw
    · cases hd : w.default_ with
      | none => simp [hd] at h
      | some x =>
        simp only [hd] at h
        have := visitVal_isVal _ _ _ _ h; simp [Ev.isVal] at this
  · intro h
    exact ⟨_, List.mem_flatMap.2 ⟨v, h, List.mem_cons.2 (Or.inl rfl)⟩⟩

end Verif.Valid
