import Verif.Valid.Fields

/-!
# Rules that remember: directives at their places, and the names of arguments
-/

namespace Verif.Valid

/-! ## A rule that goes through a selection set -/

theorem atC_cons (s : Schema) (c c' : Ctx) (x y : Sel) (xs : List Sel) :
    AtC s c (x :: xs) c' y ↔ AtC s c [x] c' y ∨ AtC s c xs c' y := by
  constructor
  · intro h
    cases h with
    | here h =>
      rcases List.mem_cons.1 h with h | h
      · exact Or.inl (.here (List.mem_singleton.2 h))
      · exact Or.inr (.here h)
    | field h h' =>
      rcases List.mem_cons.1 h with h | h
      · exact Or.inl (.field (List.mem_singleton.2 h) h')
      · exact Or.inr (.field h h')
    | inline h h' =>
      rcases List.mem_cons.1 h with h | h
      · exact Or.inl (.inline (List.mem_singleton.2 h) h')
      · exact Or.inr (.inline h h')
  · rintro (h | h)
    · cases h with
      | here h => exact .here (List.mem_cons.2 (Or.inl (List.mem_singleton.1 h)))
      | field h h' => exact .field (List.mem_cons.2 (Or.inl (List.mem_singleton.1 h))) h'
      | inline h h' => exact .inline (List.mem_cons.2 (Or.inl (List.mem_singleton.1 h))) h'
    · cases h with
      | here h => exact .here (List.mem_cons_of_mem _ h)
      | field h h' => exact .field (List.mem_cons_of_mem _ h) h'
      | inline h h' => exact .inline (List.mem_cons_of_mem _ h) h'

theorem atC_field (s : Schema) (c c' : Ctx) (y : Sel) (al n args ds sub) :
    AtC s c [.field al n args ds sub] c' y ↔
      (c' = c ∧ y = .field al n args ds sub) ∨ AtC s (inSet s (inField c n)) sub c' y := by
  constructor
  · intro h
    cases h with
    | here h => exact Or.inl ⟨rfl, List.mem_singleton.1 h⟩
    | field h h' =>
      have := List.mem_singleton.1 h
      injection this with h1 h2 h3 h4 h5
      subst h2; subst h5
      exact Or.inr h'
    | inline h h' => exact absurd (List.mem_singleton.1 h) (by simp)
  · rintro (⟨rfl, rfl⟩ | h)
    · exact .here (by simp)
    · exact .field (List.mem_singleton.2 rfl) h

theorem atC_inline (s : Schema) (c c' : Ctx) (y : Sel) (cond ds sub) :
    AtC s c [.inline cond ds sub] c' y ↔
      (c' = c ∧ y = .inline cond ds sub) ∨ AtC s (inSet s (inCond c cond)) sub c' y := by
  constructor
  · intro h
    cases h with
    | here h => exact Or.inl ⟨rfl, List.mem_singleton.1 h⟩
    | inline h h' =>
      have := List.mem_singleton.1 h
      injection this with h1 h2 h3
      subst h1; subst h3
      exact Or.inr h'
    | field h h' => exact absurd (List.mem_singleton.1 h) (by simp)
  · rintro (⟨rfl, rfl⟩ | h)
    · exact .here (by simp)
    · exact .inline (List.mem_singleton.2 rfl) h

theorem atC_spread (s : Schema) (c c' : Ctx) (y : Sel) (n ds) :
    AtC s c [.spread n ds] c' y ↔ c' = c ∧ y = .spread n ds := by
  constructor
  · intro h
    cases h with
    | here h => exact ⟨rfl, List.mem_singleton.1 h⟩
    | inline h h' => exact absurd (List.mem_singleton.1 h) (by simp)
    | field h h' => exact absurd (List.mem_singleton.1 h) (by simp)
  · rintro ⟨rfl, rfl⟩
    exact .here (by simp)

/-- What is told of a selection before its selection set. -/
def before (s : Schema) (c : Ctx) : Sel → Told
  | .field al n args ds sub =>
      (inField c n, .field al n args ds sub) ::
        (visitArgs s (inField c n) (fieldArgs c.parent n) args ++
          visitDirs s (inField c n) ds ++ [(inSet s (inField c n), .sels sub)])
  | .spread n ds => (c, .spread n ds) :: visitDirs s c ds
  | .inline cond ds sub =>
      (inCond c cond, .inline cond ds) ::
        (visitDirs s (inCond c cond) ds ++ [(inSet s (inCond c cond), .sels sub)])

theorem visitSel_field (s : Schema) (c : Ctx) (al n args ds sub) :
    visitSel s c (.field al n args ds sub) = before s c (.field al n args ds sub) ++
      (visitSels s (inSet s (inField c n)) sub ++ [(inField c n, .leaveField)]) := by
  rw [visitSel]; simp [before]

theorem visitSel_inline (s : Schema) (c : Ctx) (cond ds sub) :
    visitSel s c (.inline cond ds sub) = before s c (.inline cond ds sub) ++
      visitSels s (inSet s (inCond c cond)) sub := by
  rw [visitSel]; simp [before]

theorem visitSel_spread (s : Schema) (c : Ctx) (n ds) :
    visitSel s c (.spread n ds) = before s c (.spread n ds) := by
  rw [visitSel]; simp [before]

section
variable {σ : Type} (s : Schema) (step : σ → Ctx × Ev → σ) (bad : σ → Bool) (P : Ctx → Sel → Prop)

mutual
theorem fold_sel
    (hl : ∀ st c, bad (step st (c, .leaveField)) = bad st) (c : Ctx) (x : Sel) (st : σ)
    (h : ∀ c' y, AtC s c [x] c' y → ∀ st, bad ((before s c' y).foldl step st) = false ↔
      bad st = false ∧ P c' y) :
    bad ((visitSel s c x).foldl step st) = false ↔
      bad st = false ∧ ∀ c' y, AtC s c [x] c' y → P c' y := by
  match x with
  | .field al n args ds sub =>
    have h0 := h c (.field al n args ds sub) (.here (by simp)) st
    rw [visitSel_field, List.foldl_append, List.foldl_append]
    rw [List.foldl_cons, List.foldl_nil, hl, fold_sels hl _ sub _ (fun c' y hy =>
      h c' y ((atC_field s c c' y al n args ds sub).2 (Or.inr hy))), h0]
    constructor
    · rintro ⟨⟨hb, hp⟩, hs⟩
      refine ⟨hb, fun c' y hy => ?_⟩
      rcases (atC_field s c c' y al n args ds sub).1 hy with ⟨rfl, rfl⟩ | hy
      · exact hp
      · exact hs c' y hy
    · rintro ⟨hb, hs⟩
      exact ⟨⟨hb, hs _ _ (.here (by simp))⟩, fun c' y hy =>
        hs c' y ((atC_field s c c' y al n args ds sub).2 (Or.inr hy))⟩
  | .spread n ds =>
    rw [visitSel_spread, h c (.spread n ds) (.here (by simp)) st]
    constructor
    · rintro ⟨hb, hp⟩
      refine ⟨hb, fun c' y hy => ?_⟩
      obtain ⟨rfl, rfl⟩ := (atC_spread s c c' y n ds).1 hy
      exact hp
    · rintro ⟨hb, hs⟩
      exact ⟨hb, hs _ _ (.here (by simp))⟩
  | .inline cond ds sub =>
    have h0 := h c (.inline cond ds sub) (.here (by simp)) st
    rw [visitSel_inline, List.foldl_append]
    rw [fold_sels hl _ sub _ (fun c' y hy =>
      h c' y ((atC_inline s c c' y cond ds sub).2 (Or.inr hy))), h0]
    constructor
    · rintro ⟨⟨hb, hp⟩, hs⟩
      refine ⟨hb, fun c' y hy => ?_⟩
      rcases (atC_inline s c c' y cond ds sub).1 hy with ⟨rfl, rfl⟩ | hy
      · exact hp
      · exact hs c' y hy
    · rintro ⟨hb, hs⟩
      exact ⟨⟨hb, hs _ _ (.here (by simp))⟩, fun c' y hy =>
        hs c' y ((atC_inline s c c' y cond ds sub).2 (Or.inr hy))⟩
theorem fold_sels
    (hl : ∀ st c, bad (step st (c, .leaveField)) = bad st) (c : Ctx) (ss : List Sel) (st : σ)
    (h : ∀ c' y, AtC s c ss c' y → ∀ st, bad ((before s c' y).foldl step st) = false ↔
      bad st = false ∧ P c' y) :
    bad ((visitSels s c ss).foldl step st) = false ↔
      bad st = false ∧ ∀ c' y, AtC s c ss c' y → P c' y := by
  match ss with
  | [] =>
    rw [visitSels]
    simp only [List.foldl_nil]
    refine ⟨fun hb => ⟨hb, fun c' y hy => ?_⟩, fun h => h.1⟩
    cases hy with
    | here h => cases h
    | field h _ => cases h
    | inline h _ => cases h
  | x :: xs =>
    rw [visitSels, List.foldl_append, fold_sels hl c xs _ (fun c' y hy =>
      h c' y ((atC_cons s c c' x y xs).2 (Or.inr hy))), fold_sel hl c x st (fun c' y hy =>
      h c' y ((atC_cons s c c' x y xs).2 (Or.inl hy)))]
    constructor
    · rintro ⟨⟨hb, h1⟩, h2⟩
      refine ⟨hb, fun c' y hy => ?_⟩
      rcases (atC_cons s c c' x y xs).1 hy with hy | hy
      · exact h1 c' y hy
      · exact h2 c' y hy
    · rintro ⟨hb, h1⟩
      exact ⟨⟨hb, fun c' y hy => h1 c' y ((atC_cons s c c' x y xs).2 (Or.inl hy))⟩, fun c' y hy =>
        h1 c' y ((atC_cons s c c' x y xs).2 (Or.inr hy))⟩
end
end

/-- What is told of a definition before its selection set. -/
def Def.before (s : Schema) (x : Def) : Told :=
  (x.ctx s, x.enter) :: (visitDirs s (x.ctx s) x.dirs ++ visitVars s (x.ctx s) x.vars ++
    [(inSet s (x.ctx s), .sels x.sels)])

/-- What is told of a definition after its selection set. -/
def Def.after (s : Schema) : Def → Told
  | .op _ => []
  | .frag f => [(startCtx (some f.cond), .leaveFrag)]

theorem visitDef_parts (s : Schema) (x : Def) :
    visitDef s x = x.before s ++ (visitSels s (inSet s (x.ctx s)) x.sels ++ x.after s) := by
  cases x with
  | op o => simp [visitDef, Def.before, Def.after, Def.ctx, Def.enter, Def.dirs, Def.vars, Def.sels, visitSet]
  | frag f =>
    have hv : visitVars s (startCtx (some f.cond)) [] = [] := rfl
    simp [visitDef, Def.before, Def.after, Def.ctx, Def.enter, Def.dirs, Def.vars, Def.sels, visitSet, hv]

/-- A rule that remembers accepts a document if it accepts every definition and every selection. -/
theorem fold_visit {σ : Type} (s : Schema) (step : σ → Ctx × Ev → σ) (bad : σ → Bool)
    (P : Ctx → Sel → Prop) (D : Def → Prop) (d : Doc) (st : σ)
    (h1 : ∀ st c, bad (step st (c, .doc)) = bad st)
    (h2 : ∀ st c, bad (step st (c, .leaveDoc)) = bad st)
    (h3 : ∀ st c, bad (step st (c, .leaveField)) = bad st)
    (h4 : ∀ st c, bad (step st (c, .leaveFrag)) = bad st)
    (hd : ∀ x ∈ d, ∀ st, bad ((x.before s).foldl step st) = false ↔ bad st = false ∧ D x)
    (hs : ∀ x ∈ d, ∀ c y, DefAt s x c y → ∀ st, bad ((before s c y).foldl step st) = false ↔
      bad st = false ∧ P c y) :
    bad ((visit s d).foldl step st) = false ↔
      bad st = false ∧ (∀ x ∈ d, D x) ∧ ∀ x ∈ d, ∀ c y, DefAt s x c y → P c y := by
  have ha : ∀ (x : Def) st, bad ((x.after s).foldl step st) = bad st := by
    intro x st
    cases x with
    | op o => rfl
    | frag f => exact h4 _ _
  have key : ∀ (d' : Doc), (∀ x ∈ d', x ∈ d) → ∀ st,
      bad ((d'.flatMap (visitDef s)).foldl step st) = false ↔
      bad st = false ∧ (∀ x ∈ d', D x) ∧ ∀ x ∈ d', ∀ c y, DefAt s x c y → P c y := by
    intro d'
    induction d' with
    | nil => intro _ st; simp
    | cons x xs ih =>
      intro hm st
      have hx := hm x (by simp)
      rw [List.flatMap_cons, List.foldl_append, ih (fun y hy => hm y (List.mem_cons_of_mem _ hy)),
        visitDef_parts, List.foldl_append, List.foldl_append, ha,
        fold_sels s step bad P h3 _ _ _ (hs x hx), hd x hx]
      simp only [List.mem_cons, forall_eq_or_imp]
      constructor
      · rintro ⟨⟨⟨hb, hD⟩, hP⟩, hD2, hP2⟩
        exact ⟨hb, ⟨hD, hD2⟩, hP, hP2⟩
      · rintro ⟨hb, ⟨hD, hD2⟩, hP, hP2⟩
        exact ⟨⟨⟨hb, hD⟩, hP⟩, hD2, hP2⟩
  unfold visit
  rw [List.foldl_cons, List.foldl_append, List.foldl_cons, List.foldl_nil, h2, key d (fun _ h => h), h1]

/-! ## The places of directives -/

theorem foldl_id {α σ : Type} (step : σ → α → σ) (l : List α) (st : σ)
    (h : ∀ st, ∀ e ∈ l, step st e = st) : l.foldl step st = st := by
  induction l generalizing st with
  | nil => rfl
  | cons x xs ih =>
    rw [List.foldl_cons, h st x (by simp)]
    exact ih st (fun st e he => h st e (List.mem_cons_of_mem _ he))

theorem knownDirs_val (s : Schema) (st : KnownDirs) (e : Ctx × Ev) (h : e.2.isVal = true) :
    knownDirsStep s st e = st := by
  obtain ⟨c, e⟩ := e
  cases e <;> simp [Ev.isVal] at h <;> rfl

theorem knownDirs_args (s : Schema) (c : Ctx) (defs : Option (List InputDef)) (args : Args)
    (st : KnownDirs) : (visitArgs s c defs args).foldl (knownDirsStep s) st = st := by
  refine foldl_id _ _ _ (fun st e he => ?_)
  obtain ⟨a, _, h | h⟩ := (mem_visitArgs _ _ _ _ _).1 he
  · subst h; rfl
  · exact knownDirs_val s st e (visitVal_isVal _ _ _ _ h)

theorem knownDirs_vars (s : Schema) (c : Ctx) (vs : List VarDef) (st : KnownDirs) :
    (visitVars s c vs).foldl (knownDirsStep s) st = st := by
  refine foldl_id _ _ _ (fun st e he => ?_)
  obtain ⟨v, _, h | ⟨y, _, h⟩⟩ := (mem_visitVars _ _ _ _).1 he
  · subst h; rfl
  · exact knownDirs_val s st e (visitVal_isVal _ _ _ _ h)

/-- The directive is known and allowed at the place. -/
def DirAt (s : Schema) (l : Loc) (x : Dir) : Prop :=
  ∃ def_, s.dirByName x.name = some def_ ∧ l ∈ def_.locations

theorem knownDirs_dirs (s : Schema) (c : Ctx) (ds : List Dir) (l : Loc) (st : KnownDirs)
    (hl : st.recent = some l) :
    ((visitDirs s c ds).foldl (knownDirsStep s) st).bad = false ↔
      st.bad = false ∧ ∀ x ∈ ds, DirAt s l x := by
  induction ds generalizing st with
  | nil => simp [visitDirs]
  | cons x xs ih =>
    have hc : visitDirs s c (x :: xs) = ((c, .dir x) ::
        visitArgs s c ((s.dirByName x.name).map (·.args)) x.args ++ [(c, .leaveDir)]) ++
        visitDirs s c xs := by simp [visitDirs]
    simp only [hc, List.foldl_append, List.foldl_cons, List.foldl_nil, knownDirs_args]
    have h1 : ∀ st, knownDirsStep s st (c, .leaveDir) = st := fun _ => rfl
    rw [h1]
    have hr : (knownDirsStep s st (c, .dir x)).recent = some l := by
      simp only [knownDirsStep]
      cases s.dirByName x.name with
      | none => exact hl
      | some def_ =>
        simp only [hl]
        split <;> simp [hl]
    rw [ih _ hr]
    have hb : (knownDirsStep s st (c, .dir x)).bad = false ↔ st.bad = false ∧ DirAt s l x := by
      simp only [knownDirsStep, DirAt]
      cases s.dirByName x.name with
      | none => simp
      | some def_ =>
        simp only [hl, Option.some.injEq]
        by_cases hm : l ∈ def_.locations
        · simp [hm]
        · simp [hm]
    rw [hb]
    simp only [List.mem_cons, forall_eq_or_imp, and_assoc]

theorem knownDirs_sels (s : Schema) (c : Ctx) (ss : List Sel) (st : KnownDirs) :
    knownDirsStep s st (c, .sels ss) = st := rfl

theorem knownDirectives_iff (s : Schema) (d : Doc) :
    knownDirectives s d = false ↔ ∀ l ds, Carries d l ds → ∀ x ∈ ds, DirAt s l x := by
  unfold knownDirectives
  rw [fold_visit s (knownDirsStep s) (·.bad) (fun _ y => ∀ x ∈ selDirs y, DirAt s (selLoc y) x)
    (fun x => ∀ e ∈ x.dirs, DirAt s x.loc e) d {} (fun _ _ => rfl) (fun _ _ => rfl) (fun _ _ => rfl)
    (fun _ _ => rfl)]
  · constructor
    · rintro ⟨_, h1, h2⟩ l ds hc
      rcases (carries_iff d l ds).1 hc with ⟨x, hx, rfl, rfl⟩ | ⟨x, hx, y, hy, rfl, rfl⟩
      · exact h1 x hx
      · obtain ⟨c, hc⟩ := (defAt_inside (s := s)).2 hy
        exact h2 x hx c y hc
    · intro h
      refine ⟨rfl, fun x hx => ?_, fun x hx c y hy => ?_⟩
      · exact h _ _ ((carries_iff d _ _).2 (Or.inl ⟨x, hx, rfl, rfl⟩))
      · exact h _ _ ((carries_iff d _ _).2 (Or.inr ⟨x, hx, y, defAt_inside.1 ⟨c, hy⟩, rfl, rfl⟩))
  · intro x _ st
    rw [Def.before, List.foldl_cons, List.foldl_append, List.foldl_append, knownDirs_vars,
      List.foldl_cons, List.foldl_nil, knownDirs_sels]
    cases x with
    | op o => exact knownDirs_dirs s _ _ _ _ rfl
    | frag f => exact knownDirs_dirs s _ _ _ _ rfl
  · intro x _ c y _ st
    cases y with
    | field al n args ds sub =>
      rw [before, List.foldl_cons, List.foldl_append, List.foldl_append, knownDirs_args,
        List.foldl_cons, List.foldl_nil, knownDirs_sels]
      exact knownDirs_dirs s _ _ _ _ rfl
    | spread n ds =>
      rw [before, List.foldl_cons]
      exact knownDirs_dirs s _ _ _ _ rfl
    | inline cond ds sub =>
      rw [before, List.foldl_cons, List.foldl_append, List.foldl_cons, List.foldl_nil, knownDirs_sels]
      exact knownDirs_dirs s _ _ _ _ rfl

/-! ## The names of arguments -/

theorem knownArgs_val (s : Schema) (st : KnownArgs) (e : Ctx × Ev) (h : e.2.isVal = true) :
    knownArgsStep s st e = st := by
  obtain ⟨c, e⟩ := e
  cases e <;> simp [Ev.isVal] at h <;> rfl

theorem knownArgs_vars (s : Schema) (c : Ctx) (vs : List VarDef) (st : KnownArgs) :
    (visitVars s c vs).foldl (knownArgsStep s) st = st := by
  refine foldl_id _ _ _ (fun st e he => ?_)
  obtain ⟨v, _, h | ⟨y, _, h⟩⟩ := (mem_visitVars _ _ _ _).1 he
  · subst h; rfl
  · exact knownArgs_val s st e (visitVal_isVal _ _ _ _ h)

theorem knownArgs_args (s : Schema) (c : Ctx) (o : Option (List InputDef)) (args : Args)
    (defs : List InputDef) (st : KnownArgs) (hk : args ≠ [] → st.known = some defs) :
    ((visitArgs s c o args).foldl (knownArgsStep s) st).bad = false ↔
      st.bad = false ∧ ∀ a ∈ args, ∃ b ∈ defs, b.name = a.1 := by
  induction args generalizing st with
  | nil => simp [visitArgs]
  | cons a as ih =>
    have hk' := hk (by simp)
    have hc : visitArgs s c o (a :: as) = ((argCtx c o a.1, .arg a) :: visitVal s (argCtx c o a.1) a.2) ++
        visitArgs s c o as := by simp [visitArgs]
    have hv : ∀ st, (visitVal s (argCtx c o a.1) a.2).foldl (knownArgsStep s) st = st := fun st =>
      foldl_id _ _ _ (fun st e he => knownArgs_val s st e (visitVal_isVal _ _ _ _ he))
    rw [hc, List.foldl_append, List.foldl_cons, hv]
    have hs : knownArgsStep s st (argCtx c o a.1, .arg a) =
        if defs.any (fun b => b.name = a.1) then st else { st with bad := true } := by
      simp only [knownArgsStep, hk']
    rw [hs]
    by_cases hm : defs.any (fun b => b.name = a.1) = true
    · rw [if_pos hm, ih st (fun _ => hk')]
      have : ∃ b ∈ defs, b.name = a.1 := by simpa using hm
      simp only [List.mem_cons, forall_eq_or_imp]
      exact ⟨fun h => ⟨h.1, this, h.2⟩, fun h => ⟨h.1, h.2.2⟩⟩
    · rw [if_neg hm, ih { st with bad := true } (fun _ => hk')]
      have : ¬ ∃ b ∈ defs, b.name = a.1 := by simpa using hm
      simp only [List.mem_cons, forall_eq_or_imp]
      exact ⟨fun h => by simp at h, fun h => absurd h.2.1 this⟩

/-- Every argument of the directive is defined. -/
def DirArgsKnown (s : Schema) (x : Dir) : Prop :=
  ∀ a ∈ x.args, ∃ def_, s.dirByName x.name = some def_ ∧ ∃ b ∈ def_.args, b.name = a.1

theorem knownArgs_dirs (s : Schema) (c : Ctx) (ds : List Dir) (st : KnownArgs)
    (hd : ∀ x ∈ ds, x.args ≠ [] → s.dirByName x.name ≠ none) :
    ((visitDirs s c ds).foldl (knownArgsStep s) st).bad = false ↔
      st.bad = false ∧ ∀ x ∈ ds, DirArgsKnown s x := by
  induction ds generalizing st with
  | nil => simp [visitDirs]
  | cons x xs ih =>
    have hc : visitDirs s c (x :: xs) = ((c, .dir x) ::
        visitArgs s c ((s.dirByName x.name).map (·.args)) x.args ++ [(c, .leaveDir)]) ++
        visitDirs s c xs := by simp [visitDirs]
    simp only [hc, List.foldl_append, List.foldl_cons, List.foldl_nil]
    rw [ih _ (fun y hy => hd y (List.mem_cons_of_mem _ hy))]
    have h1 : ∀ st, (knownArgsStep s st (c, .leaveDir)).bad = st.bad := fun _ => rfl
    rw [h1]
    have hb : ((visitArgs s c ((s.dirByName x.name).map (·.args)) x.args).foldl (knownArgsStep s)
        (knownArgsStep s st (c, .dir x))).bad = false ↔ st.bad = false ∧ DirArgsKnown s x := by
      have hb' : (knownArgsStep s st (c, .dir x)).bad = st.bad := by
        simp only [knownArgsStep]; cases s.dirByName x.name <;> rfl
      have hx := hd x (by simp)
      unfold DirArgsKnown
      cases hn : s.dirByName x.name with
      | none =>
        have he : x.args = [] := Decidable.byContradiction (fun h => hx h hn)
        rw [he]
        simp [visitArgs, hb']
      | some def_ =>
        rw [knownArgs_args s c _ _ def_.args _ (fun _ => by simp only [knownArgsStep, hn]), hb']
        simp
    rw [hb]
    simp only [List.mem_cons, forall_eq_or_imp, and_assoc]

/-- Every argument of the field is defined, and so is every one of the directives. -/
def SelArgsKnown (s : Schema) (c : Ctx) : Sel → Prop
  | .field _ n args ds _ =>
      (∀ a ∈ args, ∃ f, c.parent.bind (·.fieldByName n) = some f ∧ ∃ b ∈ f.args, b.name = a.1) ∧
        ∀ x ∈ ds, DirArgsKnown s x
  | .spread _ ds => ∀ x ∈ ds, DirArgsKnown s x
  | .inline _ ds _ => ∀ x ∈ ds, DirArgsKnown s x

theorem knownArgumentNames_iff (s : Schema) (d : Doc)
    (hf : ∀ q al n args ds sub, Selects s d q (.field al n args ds sub) → args ≠ [] →
      q.bind (·.fieldByName n) ≠ none)
    (hdir : ∀ l ds, Carries d l ds → ∀ x ∈ ds, x.args ≠ [] → s.dirByName x.name ≠ none) :
    knownArgumentNames s d = false ↔ ∀ defs args, Given s d (some defs) args →
      ∀ a ∈ args, ∃ b ∈ defs, b.name = a.1 := by
  have hdd : ∀ x ∈ d, ∀ e ∈ x.dirs, e.args ≠ [] → s.dirByName e.name ≠ none := fun x hx =>
    hdir _ _ ((carries_iff d _ _).2 (Or.inl ⟨x, hx, rfl, rfl⟩))
  have hds : ∀ x ∈ d, ∀ c y, DefAt s x c y → ∀ e ∈ selDirs y, e.args ≠ [] →
      s.dirByName e.name ≠ none := fun x hx c y hy =>
    hdir _ _ ((carries_iff d _ _).2 (Or.inr ⟨x, hx, y, defAt_inside.1 ⟨c, hy⟩, rfl, rfl⟩))
  unfold knownArgumentNames
  rw [fold_visit s (knownArgsStep s) (·.bad) (SelArgsKnown s)
    (fun x => ∀ e ∈ x.dirs, DirArgsKnown s e) d {} (fun _ _ => rfl) (fun _ _ => rfl) (fun _ _ => rfl)
    (fun _ _ => rfl)]
  · constructor
    · rintro ⟨_, h1, h2⟩ defs args hg
      generalize ho : some defs = o at hg
      cases hg with
      | @field q al n args ds sub hs =>
        obtain ⟨x, hx, c, hc, hp⟩ := (selects_iff s d _ _).1 hs
        have := (h2 x hx c _ hc).1
        intro a ha
        obtain ⟨f, hf, b, hb, hn⟩ := this a ha
        rw [hp] at hf
        rw [hf] at ho
        simp at ho
        subst ho
        exact ⟨b, hb, hn⟩
      | @dir l ds e hc he =>
        have : DirArgsKnown s e := by
          rcases (carries_iff d l ds).1 hc with ⟨x, hx, _, rfl⟩ | ⟨x, hx, y, hy, _, rfl⟩
          · exact h1 x hx e he
          · obtain ⟨c, hc⟩ := (defAt_inside (s := s)).2 hy
            have := h2 x hx c y hc
            cases y with
            | field => exact this.2 e he
            | spread => exact this e he
            | inline => exact this e he
        intro a ha
        obtain ⟨def_, hd, b, hb, hn⟩ := this a ha
        rw [hd] at ho
        simp at ho
        subst ho
        exact ⟨b, hb, hn⟩
    · intro h
      have hdirs : ∀ l ds, Carries d l ds → ∀ x ∈ ds, DirArgsKnown s x := by
        intro l ds hc x hx a ha
        cases hn : s.dirByName x.name with
        | none => exact absurd hn (hdir l ds hc x hx (by intro h; rw [h] at ha; cases ha))
        | some def_ =>
          obtain ⟨b, hb, hba⟩ := h def_.args x.args (by have := Given.dir (s := s) hc hx; simpa [hn] using this) a ha
          exact ⟨def_, rfl, b, hb, hba⟩
      refine ⟨rfl, fun x hx => hdirs _ _ ((carries_iff d _ _).2 (Or.inl ⟨x, hx, rfl, rfl⟩)),
        fun x hx c y hy => ?_⟩
      have h3 : ∀ e ∈ selDirs y, DirArgsKnown s e :=
        hdirs _ _ ((carries_iff d _ _).2 (Or.inr ⟨x, hx, y, defAt_inside.1 ⟨c, hy⟩, rfl, rfl⟩))
      cases y with
      | field al n args ds sub =>
        refine ⟨fun a ha => ?_, h3⟩
        have hs : Selects s d c.parent (.field al n args ds sub) :=
          (selects_iff s d _ _).2 ⟨x, hx, c, hy, rfl⟩
        cases hq : c.parent.bind (·.fieldByName n) with
        | none => exact absurd hq (hf _ _ _ _ _ _ hs (by intro h; rw [h] at ha; cases ha))
        | some f =>
          obtain ⟨b, hb, hba⟩ := h f.args args (by
            have := Given.field (s := s) hs; rw [hq] at this; exact this) a ha
          exact ⟨f, rfl, b, hb, hba⟩
      | spread => exact h3
      | inline => exact h3
  · intro x hx st
    rw [Def.before, List.foldl_cons, List.foldl_append, List.foldl_append, knownArgs_vars,
      List.foldl_cons, List.foldl_nil]
    have h1 : ∀ st c ss, knownArgsStep s st (c, .sels ss) = st := fun _ _ _ => rfl
    rw [h1, knownArgs_dirs s _ _ _ (hdd x hx)]
    cases x <;> rfl
  · intro x hx c y hy st
    have h1 : ∀ st c ss, knownArgsStep s st (c, .sels ss) = st := fun _ _ _ => rfl
    have h2 := hds x hx c y hy
    cases y with
    | field al n args ds sub =>
      rw [before, List.foldl_cons, List.foldl_append, List.foldl_append, 
        List.foldl_cons, List.foldl_nil, h1, knownArgs_dirs s _ ds _ h2, SelArgsKnown, ← and_assoc]
      refine and_congr ?_ Iff.rfl
      have hb' : (knownArgsStep s st (inField c n, .field al n args ds sub)).bad = st.bad := by
        simp only [knownArgsStep]; cases fieldArgs (inField c n).parent n <;> rfl
      have hs : Selects s d c.parent (.field al n args ds sub) :=
        (selects_iff s d _ _).2 ⟨x, hx, c, hy, rfl⟩
      cases hq : c.parent.bind (·.fieldByName n) with
      | none =>
        have he : args = [] := Decidable.byContradiction (fun h => hf _ _ _ _ _ _ hs h hq)
        subst he
        rw [← hb']
        simp [visitArgs]
      | some f =>
        rw [knownArgs_args s _ _ _ f.args _ (fun _ => by
          simp only [knownArgsStep]
          have : fieldArgs (inField c n).parent n = some f.args := by
            show (c.parent.bind (·.fieldByName n)).map (·.args) = _
            rw [hq]; rfl
          rw [this]), hb']
        simp
    | spread n ds =>
      rw [before, List.foldl_cons, knownArgs_dirs s _ ds _ h2]
      exact Iff.rfl
    | inline cond ds sub =>
      rw [before, List.foldl_cons, List.foldl_append, List.foldl_cons, List.foldl_nil, h1, knownArgs_dirs s _ ds _ h2]
      exact Iff.rfl

end Verif.Valid
