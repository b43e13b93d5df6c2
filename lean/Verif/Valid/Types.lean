import Verif.Valid.TypeSpec
import Verif.Valid.Rules
import Verif.Valid.Vars

/-!
# Where the visitor is, and on which type
-/

namespace Verif.Valid

/-- The context a definition is entered with. -/
def Def.ctx (s : Schema) : Def → Ctx
  | .op o => startCtx (rootOf s o.kind)
  | .frag f => startCtx (some f.cond)

theorem ctx_cur (s : Schema) (x : Def) : (x.ctx s).cur s = x.on s := by
  cases x with
  | op o =>
    obtain ⟨k, n, vs, ds, ss⟩ := o
    cases k with
    | query => rfl
    | mutation => simp only [Def.ctx, Def.on, rootOf]; cases s.mutation <;> rfl
    | subscription => simp only [Def.ctx, Def.on, rootOf]; cases s.subscription <;> rfl
  | frag f => rfl

theorem cur_inField (s : Schema) (c : Ctx) (n : Name) :
    (inField c n).cur s = typeOfField s c.parent n := by
  unfold Ctx.cur inField fieldTy typeOfField
  cases c.parent with
  | none => rfl
  | some p => cases h : p.fieldByName n <;> simp [h]

/-- In a selection set the visitor has the type in scope that the selections are on. -/
theorem at_on (s : Schema) {c c' : Ctx} {ss : List Sel} {x : Sel} (h : AtC s c ss c' x)
    (hc : c.parent = c.cur s) : c'.parent = c'.cur s ∧ On s c.parent ss c'.parent x := by
  induction h with
  | here hx => exact ⟨hc, .here hx⟩
  | @field c c' ss x al n args ds sub hx _ ih =>
    obtain ⟨h1, h2⟩ := ih rfl
    refine ⟨h1, .field hx ?_⟩
    have : (inSet s (inField c n)).parent = typeOfField s c.parent n := cur_inField s c n
    rw [this] at h2
    exact h2
  | @inline c c' ss x cond ds sub hx _ ih =>
    obtain ⟨h1, h2⟩ := ih rfl
    refine ⟨h1, ?_⟩
    cases cond with
    | none =>
      have : (inSet s (inCond c none)).parent = c.parent := hc.symm
      rw [this] at h2
      exact .plain hx h2
    | some t => exact .cond hx h2

theorem on_at (s : Schema) {p q : Option TypeDef} {ss : List Sel} {x : Sel} (h : On s p ss q x) :
    ∀ c : Ctx, c.parent = c.cur s → c.parent = p → ∃ c', AtC s c ss c' x ∧ c'.parent = q := by
  induction h with
  | here hx => intro c _ hp; exact ⟨c, .here hx, hp⟩
  | @field p q ss x al n args ds sub hx _ ih =>
    intro c _ hp
    obtain ⟨c', h1, h2⟩ := ih (inSet s (inField c n)) rfl (by
      have : (inSet s (inField c n)).parent = typeOfField s c.parent n := cur_inField s c n
      rw [this, hp])
    exact ⟨c', .field hx h1, h2⟩
  | @cond p q ss x t ds sub hx _ ih =>
    intro c _ hp
    obtain ⟨c', h1, h2⟩ := ih (inSet s (inCond c (some t))) rfl rfl
    exact ⟨c', .inline hx h1, h2⟩
  | @plain p q ss x ds sub hx _ ih =>
    intro c hc hp
    obtain ⟨c', h1, h2⟩ := ih (inSet s (inCond c none)) rfl (by rw [← hp]; exact hc.symm)
    exact ⟨c', .inline hx h1, h2⟩

/-- Where the visitor comes to a selection in a definition. -/
def DefAt (s : Schema) (x : Def) (c : Ctx) (y : Sel) : Prop := AtC s (inSet s (x.ctx s)) x.sels c y

theorem defAt_on (s : Schema) (x : Def) (q : Option TypeDef) (y : Sel) :
    (∃ c, DefAt s x c y ∧ c.parent = q) ↔ On s (x.on s) x.sels q y := by
  constructor
  · rintro ⟨c, h, rfl⟩
    have := (at_on s h rfl).2
    rwa [show (inSet s (x.ctx s)).parent = x.on s from ctx_cur s x] at this
  · intro h
    exact on_at s h _ rfl (ctx_cur s x)

theorem defAt_cur {s : Schema} {x : Def} {c : Ctx} {y : Sel} (h : DefAt s x c y) : c.parent = c.cur s :=
  (at_on s h rfl).1

theorem defAt_inside {s : Schema} {x : Def} {y : Sel} : (∃ c, DefAt s x c y) ↔ Inside y x.sels :=
  (inside_iff s _ _ _).symm

/-! ## What is told in a definition -/

/-- The directives of a definition. -/
def Def.dirs : Def → List Dir
  | .op o => o.dirs
  | .frag f => f.dirs

/-- The variables of a definition. -/
def Def.vars : Def → List VarDef
  | .op o => o.vars
  | .frag _ => []

/-- What is told on entering a definition. -/
def Def.enter : Def → Ev
  | .op o => .op o
  | .frag f => .frag f

theorem mem_visitDef (s : Schema) (x : Def) (e : Ctx × Ev) : e ∈ visitDef s x ↔
    e = (x.ctx s, x.enter) ∨ e ∈ visitDirs s (x.ctx s) x.dirs ∨ e ∈ visitVars s (x.ctx s) x.vars ∨
    e = (inSet s (x.ctx s), .sels x.sels) ∨ (∃ c y, DefAt s x c y ∧ e ∈ own s c y) ∨
    (e = (x.ctx s, .leaveFrag) ∧ ∃ f, x = .frag f) := by
  cases x with
  | op o =>
    simp only [visitDef, visitSet, List.mem_cons, List.mem_append, mem_visitSels, Def.ctx, Def.enter,
      Def.dirs, Def.vars, Def.sels, DefAt, reduceCtorEq, exists_false, and_false, or_false]
    constructor
    · rintro (h | (h | h) | h | h) <;> simp [h]
    · rintro (h | h | h | h | h) <;> simp [h]
  | frag f =>
    have hv : visitVars s (startCtx (some f.cond)) [] = [] := rfl
    simp only [visitDef, visitSet, List.mem_cons, List.mem_append, mem_visitSels, Def.ctx, Def.enter,
      Def.dirs, Def.vars, Def.sels, DefAt, List.not_mem_nil, or_false, hv, false_or]
    constructor
    · rintro (h | (h | h | h) | h) <;> simp [h]
    · rintro (h | h | h | h | ⟨h, _⟩) <;> simp [h]

theorem not_mem_visitVal (s : Schema) {c c' : Ctx} {v : Val} {e : Ev} (he : e.isVal = false) :
    (c', e) ∉ visitVal s c v := by
  intro h
  have := visitVal_isVal _ _ _ _ h
  simp [he] at this

/-- Told of neither in values nor in arguments nor in directives. -/
def Ev.own : Ev → Bool
  | .arg _ => false
  | .dir _ => false
  | .leaveDir => false
  | .varDef _ => false
  | e => !e.isVal

theorem own_notVal {e : Ev} (h : e.own = true) : e.isVal = false := by
  cases e <;> simp_all [Ev.own, Ev.isVal]

theorem not_mem_visitArgs {s : Schema} {c c' : Ctx} {defs : Option (List InputDef)} {args : Args}
    {e : Ev} (he : e.own = true) : (c', e) ∉ visitArgs s c defs args := by
  intro h
  obtain ⟨b, _, h | h⟩ := (mem_visitArgs _ _ _ _ _).1 h
  · have := congrArg Prod.snd h; simp only at this; subst this; simp [Ev.own] at he
  · exact not_mem_visitVal s (own_notVal he) h

theorem not_mem_visitDirs {s : Schema} {c c' : Ctx} {ds : List Dir} {e : Ev} (he : e.own = true) :
    (c', e) ∉ visitDirs s c ds := by
  intro h
  obtain ⟨b, _, h | h | h⟩ := (mem_visitDirs s c ds _).1 h
  · have := congrArg Prod.snd h; simp only at this; subst this; simp [Ev.own] at he
  · have := congrArg Prod.snd h; simp only at this; subst this; simp [Ev.own] at he
  · exact not_mem_visitArgs he h

theorem mem_visitVars (s : Schema) (c : Ctx) (vs : List VarDef) (e : Ctx × Ev) :
    e ∈ visitVars s c vs ↔ ∃ v ∈ vs, e = ({ c with input := some v.ty, dflt := false }, .varDef v) ∨
      ∃ y, v.default_ = some y ∧ e ∈ visitVal s { c with input := some v.ty, dflt := false } y := by
  unfold visitVars
  rw [List.mem_flatMap]
  constructor
  · rintro ⟨v, hv, h⟩
    refine ⟨v, hv, ?_⟩
    rcases List.mem_cons.1 h with h | h
    · exact Or.inl h
    · cases hd : v.default_ with
      | none => simp [hd] at h
      | some y => simp only [hd] at h; exact Or.inr ⟨y, rfl, h⟩
  · rintro ⟨v, hv, h | ⟨y, hd, h⟩⟩
    · exact ⟨v, hv, List.mem_cons.2 (Or.inl h)⟩
    · refine ⟨v, hv, List.mem_cons.2 (Or.inr ?_)⟩
      rw [hd]
      exact h

theorem not_mem_visitVars {s : Schema} {c c' : Ctx} {vs : List VarDef} {e : Ev} (he : e.own = true) :
    (c', e) ∉ visitVars s c vs := by
  intro h
  obtain ⟨v, _, h | ⟨y, _, h⟩⟩ := (mem_visitVars s c vs _).1 h
  · have := congrArg Prod.snd h; simp only at this; subst this; simp [Ev.own] at he
  · exact not_mem_visitVal s (own_notVal he) h

/-- A field is told of where the visitor comes to it. -/
theorem field_visitDef (s : Schema) (x : Def) (c' : Ctx) (al : Option Name) (n : Name) (args : Args)
    (ds : List Dir) (sub : List Sel) :
    (c', Ev.field al n args ds sub) ∈ visitDef s x ↔
      ∃ c, DefAt s x c (.field al n args ds sub) ∧ c' = inField c n := by
  have ho : (Ev.field al n args ds sub).own = true := rfl
  rw [mem_visitDef]
  simp only [not_mem_visitDirs ho, not_mem_visitVars ho, false_or, Prod.mk.injEq, reduceCtorEq,
    and_false, false_and, or_false]
  constructor
  · rintro (⟨_, h⟩ | ⟨c, y, h1, h2⟩)
    · cases x <;> simp [Def.enter] at h
    · refine ⟨c, ?_⟩
      cases y with
      | field al2 n2 args2 ds2 sub2 =>
        simp [own, not_mem_visitArgs ho, not_mem_visitDirs ho] at h2
        obtain ⟨hc, rfl, rfl, rfl, rfl, rfl⟩ := h2
        exact ⟨h1, hc⟩
      | spread n2 ds2 => simp [own, not_mem_visitDirs ho] at h2
      | inline c2 ds2 sub2 => simp [own, not_mem_visitDirs ho] at h2
  · rintro ⟨c, h1, rfl⟩
    exact Or.inr ⟨c, _, h1, by simp [own]⟩

/-- An inline fragment is told of where the visitor comes to it. -/
theorem inline_visitDef (s : Schema) (x : Def) (c' : Ctx) (cond : Option Name) (ds : List Dir) :
    (c', Ev.inline cond ds) ∈ visitDef s x ↔
      ∃ c sub, DefAt s x c (.inline cond ds sub) ∧ c' = inCond c cond := by
  have ho : (Ev.inline cond ds).own = true := rfl
  rw [mem_visitDef]
  simp only [not_mem_visitDirs ho, not_mem_visitVars ho, false_or, Prod.mk.injEq, reduceCtorEq,
    and_false, false_and, or_false]
  constructor
  · rintro (⟨_, h⟩ | ⟨c, y, h1, h2⟩)
    · cases x <;> simp [Def.enter] at h
    · refine ⟨c, ?_⟩
      cases y with
      | field al2 n2 args2 ds2 sub2 => simp [own, not_mem_visitArgs ho, not_mem_visitDirs ho] at h2
      | spread n2 ds2 => simp [own, not_mem_visitDirs ho] at h2
      | inline c2 ds2 sub2 =>
        simp [own, not_mem_visitDirs ho] at h2
        obtain ⟨hc, rfl, rfl⟩ := h2
        exact ⟨_, h1, hc⟩
  · rintro ⟨c, sub, h1, rfl⟩
    exact Or.inr ⟨c, _, h1, by simp [own]⟩

/-- A spread is told of where the visitor comes to it. -/
theorem spreadAt_visitDef (s : Schema) (x : Def) (c : Ctx) (n : Name) (ds : List Dir) :
    (c, Ev.spread n ds) ∈ visitDef s x ↔ DefAt s x c (.spread n ds) := by
  have ho : (Ev.spread n ds).own = true := rfl
  rw [mem_visitDef]
  simp only [not_mem_visitDirs ho, not_mem_visitVars ho, false_or, Prod.mk.injEq, reduceCtorEq,
    and_false, false_and, or_false]
  constructor
  · rintro (⟨_, h⟩ | ⟨c2, y, h1, h2⟩)
    · cases x <;> simp [Def.enter] at h
    · obtain ⟨rfl, rfl⟩ := (spread_own s c2 c y n ds).1 h2
      exact h1
  · intro h1
    exact Or.inr ⟨c, _, h1, by simp [own]⟩

theorem op_visitDef (s : Schema) (x : Def) (o : Op) :
    (∃ c, (c, Ev.op o) ∈ visitDef s x) ↔ x = .op o := by
  have ho : (Ev.op o).own = true := rfl
  simp only [mem_visitDef, not_mem_visitDirs ho, not_mem_visitVars ho, false_or, Prod.mk.injEq,
    reduceCtorEq, and_false, false_and, or_false]
  constructor
  · rintro ⟨c, ⟨_, h⟩ | ⟨c2, y, h1, h2⟩⟩
    · cases x <;> simp [Def.enter] at h; rw [h]
    · cases y <;> simp [own, not_mem_visitArgs ho, not_mem_visitDirs ho] at h2
  · rintro rfl
    exact ⟨_, Or.inl ⟨rfl, rfl⟩⟩

theorem frag_visitDef (s : Schema) (x : Def) (f : Frag) :
    (∃ c, (c, Ev.frag f) ∈ visitDef s x) ↔ x = .frag f := by
  have ho : (Ev.frag f).own = true := rfl
  simp only [mem_visitDef, not_mem_visitDirs ho, not_mem_visitVars ho, false_or, Prod.mk.injEq,
    reduceCtorEq, and_false, false_and, or_false]
  constructor
  · rintro ⟨c, ⟨_, h⟩ | ⟨c2, y, h1, h2⟩⟩
    · cases x <;> simp [Def.enter] at h; rw [h]
    · cases y <;> simp [own, not_mem_visitArgs ho, not_mem_visitDirs ho] at h2
  · rintro rfl
    exact ⟨_, Or.inl ⟨rfl, rfl⟩⟩

/-- The directives that a selection has. -/
def selDirs : Sel → List Dir
  | .field _ _ _ ds _ => ds
  | .spread _ ds => ds
  | .inline _ ds _ => ds

/-- A directive is told of where it stands. -/
theorem dir_visitDef (s : Schema) (x : Def) (e : Dir) :
    (∃ c, (c, Ev.dir e) ∈ visitDef s x) ↔ e ∈ x.dirs ∨ ∃ y, Inside y x.sels ∧ e ∈ selDirs y := by
  have hargs : ∀ c c' defs args, (c', Ev.dir e) ∉ visitArgs s c defs args := by
    intro c c' defs args h
    obtain ⟨b, _, h | h⟩ := (mem_visitArgs _ _ _ _ _).1 h
    · simp at h
    · exact not_mem_visitVal s rfl h
  have hdirs : ∀ c ds, (∃ c', (c', Ev.dir e) ∈ visitDirs s c ds) ↔ e ∈ ds := by
    intro c ds
    constructor
    · rintro ⟨c', h⟩
      obtain ⟨b, hb, h | h | h⟩ := (mem_visitDirs s c ds _).1 h
      · have := congrArg Prod.snd h; simp at this; rw [this]; exact hb
      · simp at h
      · exact absurd h (hargs _ _ _ _)
    · intro h
      exact ⟨c, (mem_visitDirs s c ds _).2 ⟨e, h, Or.inl rfl⟩⟩
  have hvars : ∀ c c' vs, (c', Ev.dir e) ∉ visitVars s c vs := by
    intro c c' vs h
    obtain ⟨v, _, h | ⟨y, _, h⟩⟩ := (mem_visitVars s c vs _).1 h
    · simp at h
    · exact not_mem_visitVal s rfl h
  have hown : ∀ c y, (∃ c', (c', Ev.dir e) ∈ own s c y) ↔ e ∈ selDirs y := by
    intro c y
    cases y with
    | field al n args ds sub =>
      rw [selDirs, ← hdirs (inField c n) ds]
      simp [own, hargs]
    | spread n ds => rw [selDirs, ← hdirs c ds]; simp [own]
    | inline cond ds sub => rw [selDirs, ← hdirs (inCond c cond) ds]; simp [own]
  constructor
  · rintro ⟨c, h⟩
    rcases (mem_visitDef s x _).1 h with h | h | h | h | ⟨c2, y, h1, h2⟩ | ⟨h, _⟩
    · cases x <;> simp [Def.enter] at h
    · exact Or.inl ((hdirs _ _).1 ⟨c, h⟩)
    · exact absurd h (hvars _ _ _)
    · simp at h
    · exact Or.inr ⟨y, defAt_inside.1 ⟨c2, h1⟩, (hown _ _).1 ⟨c, h2⟩⟩
    · simp at h
  · rintro (h | ⟨y, h1, h2⟩)
    · obtain ⟨c, h⟩ := (hdirs (x.ctx s) _).2 h
      exact ⟨c, (mem_visitDef s x _).2 (Or.inr (Or.inl h))⟩
    · obtain ⟨c2, h1⟩ := (defAt_inside (s := s)).2 h1
      obtain ⟨c, h⟩ := (hown c2 y).2 h2
      exact ⟨c, (mem_visitDef s x _).2 (Or.inr (Or.inr (Or.inr (Or.inr (Or.inl ⟨c2, y, h1, h⟩)))))⟩

/-- A rule that looks at what is told one by one accepts a document if it accepts all of it. -/
theorem any_visit (s : Schema) (d : Doc) (g : Ctx × Ev → Bool)
    (h1 : ∀ c, g (c, .doc) = false) (h2 : ∀ c, g (c, .leaveDoc) = false) :
    (visit s d).any g = false ↔ ∀ x ∈ d, ∀ e ∈ visitDef s x, g e = false := by
  rw [List.any_eq_false]
  constructor
  · intro h x hx e he
    have : e.2 ≠ .doc ∧ e.2 ≠ .leaveDoc := by
      rw [mem_visitDef] at he
      obtain ⟨c, ev⟩ := e
      constructor <;> rintro rfl
      · have ho : (Ev.doc).own = true := rfl
        simp only [not_mem_visitDirs ho, not_mem_visitVars ho, false_or, Prod.mk.injEq, reduceCtorEq,
          and_false, false_and, or_false] at he
        rcases he with ⟨_, he⟩ | ⟨c2, y, _, h2⟩
        · cases x <;> simp [Def.enter] at he
        · cases y <;> simp [own, not_mem_visitArgs ho, not_mem_visitDirs ho] at h2
      · have ho : (Ev.leaveDoc).own = true := rfl
        simp only [not_mem_visitDirs ho, not_mem_visitVars ho, false_or, Prod.mk.injEq, reduceCtorEq,
          and_false, false_and, or_false] at he
        rcases he with ⟨_, he⟩ | ⟨c2, y, _, h2⟩
        · cases x <;> simp [Def.enter] at he
        · cases y <;> simp [own, not_mem_visitArgs ho, not_mem_visitDirs ho] at h2
    simpa using h e ((mem_visit s d e this.1 this.2).2 ⟨x, hx, he⟩)
  · intro h e he
    rw [Bool.not_eq_true]
    by_cases hd : e.2 = .doc
    · obtain ⟨c, ev⟩ := e; simp only at hd; subst hd; exact h1 c
    · by_cases hl : e.2 = .leaveDoc
      · obtain ⟨c, ev⟩ := e; simp only at hl; subst hl; exact h2 c
      · obtain ⟨x, hx, hm⟩ := (mem_visit s d e hd hl).1 he
        exact h x hx e hm

end Verif.Valid
