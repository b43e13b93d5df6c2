import Verif.Valid.Cycles

/-!
# Lemmas about the rules on variables
-/

namespace Verif.Valid

mutual
theorem mem_varsOf (w : Name) (v : Val) : w ∈ varsOf v ↔ VarIn w v := by
  match v with
  | .null =>
    constructor <;> intro h
    · simp [varsOf] at h
    · nomatch h
  | .bool _ =>
    constructor <;> intro h
    · simp [varsOf] at h
    · nomatch h
  | .int _ =>
    constructor <;> intro h
    · simp [varsOf] at h
    · nomatch h
  | .float _ =>
    constructor <;> intro h
    · simp [varsOf] at h
    · nomatch h
  | .str _ =>
    constructor <;> intro h
    · simp [varsOf] at h
    · nomatch h
  | .enum _ =>
    constructor <;> intro h
    · simp [varsOf] at h
    · nomatch h
  | .var n =>
    rw [varsOf]
    constructor
    · intro h; simp at h; subst h; exact .self
    · intro h; cases h; simp
  | .list vs =>
    rw [varsOf, mem_varsOfL w vs]
    constructor
    · rintro ⟨x, hx, h⟩; exact .item hx h
    · intro h; cases h with | item hx h => exact ⟨_, hx, h⟩
  | .obj fs =>
    rw [varsOf, mem_varsOfO w fs]
    constructor
    · rintro ⟨x, hx, h⟩; exact .pair hx h
    · intro h; cases h with | pair hx h => exact ⟨_, hx, h⟩
theorem mem_varsOfL (w : Name) (vs : List Val) : w ∈ varsOfL vs ↔ ∃ x ∈ vs, VarIn w x := by
  match vs with
  | [] => simp [varsOfL]
  | v :: vs =>
    rw [varsOfL, List.mem_append, mem_varsOf w v, mem_varsOfL w vs]
    simp
theorem mem_varsOfO (w : Name) (fs : List (Name × Val)) : w ∈ varsOfO fs ↔ ∃ p ∈ fs, VarIn w p.2 := by
  match fs with
  | [] => simp [varsOfO]
  | f :: fs =>
    rw [varsOfO, List.mem_append, mem_varsOfP w f, mem_varsOfO w fs]
    simp
theorem mem_varsOfP (w : Name) (p : Name × Val) : w ∈ varsOfP p ↔ VarIn w p.2 := by
  match p with
  | (n, v) => rw [varsOfP, mem_varsOf w v]
end

/-- The variables used in what is told. -/
def usedEv : Ev → List Name
  | .arg a => varsOf a.2
  | _ => []

/-- The variables defined in what is told. -/
def defEv : Ev → List Name
  | .varDef v => [v.name]
  | _ => []

/-- The scope that a definition is. -/
def Def.scope : Def → Scope
  | .op o => .op o.name
  | .frag f => .frag f.name

/-- More variables for the operation of a scope. -/
def addVars (m : List (Option Name × List Name)) : Scope → List Name → List (Option Name × List Name)
  | .op n, vs => vs.foldl (fun m v => addVar m n v) m
  | .frag _, _ => m

theorem varStep_inner (st : VarSt) (sc : Scope) (hs : st.scope = some sc) (c : Ctx) (e : Ev)
    (he : e.outer = false) :
    varStep st (c, e) =
      { st with
        defined := addVars st.defined sc (defEv e)
        used := st.used ++ (usedEv e).map (fun v => (sc, v))
        spreads := st.spreads ++ (spreadEv e).map (fun v => (sc, v)) } := by
  obtain ⟨scope, defined, used, spreads⟩ := st
  simp only at hs
  subst hs
  cases e <;> first
    | (simp [Ev.outer] at he; done)
    | (cases sc <;> simp [varStep, addVars, defEv, usedEv, spreadEv] <;> done)

theorem varFold_inner (l : Told) (hl : ∀ e ∈ l, e.2.outer = false) (st : VarSt) (sc : Scope)
    (hs : st.scope = some sc) :
    l.foldl varStep st =
      { st with
        defined := addVars st.defined sc (l.flatMap (fun e => defEv e.2))
        used := st.used ++ (l.flatMap (fun e => usedEv e.2)).map (fun v => (sc, v))
        spreads := st.spreads ++ (l.flatMap (fun e => spreadEv e.2)).map (fun v => (sc, v)) } := by
  induction l generalizing st with
  | nil => cases sc <;> simp [addVars]
  | cons e es ih =>
    obtain ⟨c, ev⟩ := e
    rw [List.foldl_cons, varStep_inner st sc hs c ev (hl (c, ev) (by simp)),
      ih (fun x hx => hl x (by simp [hx])) _ (by simp [hs])]
    cases sc <;> simp [addVars, List.flatMap_cons, List.foldl_append]

/-- What is told inside a definition. -/
def innerOf (s : Schema) : Def → Told
  | .op o => visitDirs s (startCtx (rootOf s o.kind)) o.dirs ++
      visitVars s (startCtx (rootOf s o.kind)) o.vars ++ visitSet s (startCtx (rootOf s o.kind)) o.sels
  | .frag f => visitDirs s (startCtx (some f.cond)) f.dirs ++ visitSet s (startCtx (some f.cond)) f.sels

theorem inner_innerOf (s : Schema) (x : Def) : ∀ e ∈ innerOf s x, e.2.outer = false := by
  intro e he
  cases x with
  | op o =>
    simp only [innerOf, List.mem_append] at he
    rcases he with (h | h) | h
    · exact inner_visitDirs e h
    · exact inner_visitVars e h
    · exact inner_visitSet e h
  | frag f =>
    simp only [innerOf, List.mem_append] at he
    rcases he with h | h
    · exact inner_visitDirs e h
    · exact inner_visitSet e h

theorem varFold_def (s : Schema) (x : Def) (st : VarSt) :
    (visitDef s x).foldl varStep st =
      { scope := some x.scope
        defined := addVars (match x with | .op o => insertOp st.defined o.name | .frag _ => st.defined)
          x.scope ((innerOf s x).flatMap (fun e => defEv e.2))
        used := st.used ++ ((innerOf s x).flatMap (fun e => usedEv e.2)).map (fun v => (x.scope, v))
        spreads := st.spreads ++
          ((innerOf s x).flatMap (fun e => spreadEv e.2)).map (fun v => (x.scope, v)) } := by
  cases x with
  | op o =>
    have : visitDef s (.op o) = (startCtx (rootOf s o.kind), .op o) :: innerOf s (.op o) := rfl
    rw [this, List.foldl_cons, varFold_inner _ (inner_innerOf s _) _ (.op o.name) rfl]
    rfl
  | frag f =>
    have : visitDef s (.frag f) =
        (startCtx (some f.cond), .frag f) :: (innerOf s (.frag f) ++ [(startCtx (some f.cond), .leaveFrag)]) := rfl
    rw [this, List.foldl_cons, List.foldl_append,
      varFold_inner _ (inner_innerOf s _) _ (.frag f.name) rfl]
    rfl

/-- The variables that an operation is told to define. -/
theorem defEv_inner (s : Schema) (o : Op) :
    (innerOf s (.op o)).flatMap (fun e => defEv e.2) = o.vars.map (·.name) := by
  have h1 : ∀ (l : Told), (∀ e ∈ l, defEv e.2 = []) → l.flatMap (fun e => defEv e.2) = [] := by
    intro l hl; rw [List.flatMap_eq_nil_iff]; exact hl
  have hval : ∀ c v, ∀ e ∈ visitVal s c v, defEv e.2 = [] := by
    intro c v e he
    have := visitVal_isVal s c v e he
    obtain ⟨_, ev⟩ := e
    cases ev <;> simp_all [Ev.isVal, defEv]
  have hargs : ∀ c defs args, ∀ e ∈ visitArgs s c defs args, defEv e.2 = [] := by
    intro c defs args e he
    obtain ⟨b, _, h | h⟩ := (mem_visitArgs _ _ _ _ _).1 he
    · subst h; rfl
    · exact hval _ _ e h
  have hdirs : ∀ c ds, ∀ e ∈ visitDirs s c ds, defEv e.2 = [] := by
    intro c ds e he
    obtain ⟨d, _, h | h | h⟩ := (mem_visitDirs s c ds _).1 he
    · subst h; rfl
    · subst h; rfl
    · exact hargs _ _ _ e h
  have hsels : ∀ c ss, ∀ e ∈ visitSels s c ss, defEv e.2 = [] := by
    intro c ss e he
    obtain ⟨c2, x, _, h⟩ := (mem_visitSels s c ss _).1 he
    cases x with
    | field al m args ds sub =>
      simp only [own, List.mem_cons, List.mem_append, List.not_mem_nil, or_false] at h
      rcases h with h | ((h | h) | h) | h
      · subst h; rfl
      · exact hargs _ _ _ e h
      · exact hdirs _ _ e h
      · subst h; rfl
      · subst h; rfl
    | spread m ds =>
      simp only [own, List.mem_cons] at h
      rcases h with h | h
      · subst h; rfl
      · exact hdirs _ _ e h
    | inline cond ds sub =>
      simp only [own, List.mem_cons, List.mem_append, List.not_mem_nil, or_false] at h
      rcases h with h | h | h
      · subst h; rfl
      · exact hdirs _ _ e h
      · subst h; rfl
  simp only [innerOf, List.flatMap_append, visitSet, List.flatMap_cons]
  rw [h1 _ (hdirs _ _), h1 _ (hsels _ _)]
  have h2 : ∀ c, defEv (.sels c) = [] := fun _ => rfl
  simp only [h2, List.append_nil, List.nil_append]
  unfold visitVars
  generalize o.vars = vs
  induction vs with
  | nil => rfl
  | cons v vs ih =>
    rw [List.flatMap_cons, List.flatMap_append, ih]
    cases hd : v.default_ with
    | none => simp [defEv]
    | some x =>
      simp only [List.flatMap_cons]
      rw [h1 _ (hval _ _)]
      simp [defEv]

/-- The variables used in what is told inside a definition. -/
theorem used_inner (s : Schema) (x : Def) (w : Name) :
    w ∈ (innerOf s x).flatMap (fun e => usedEv e.2) ↔
      UsedIn (match x with | .op o => o.dirs | .frag f => f.dirs) x.sels w := by
  have hmem : ∀ (l : Told), w ∈ l.flatMap (fun e => usedEv e.2) ↔
      ∃ a, (∃ c, (c, Ev.arg a) ∈ l) ∧ VarIn w a.2 := by
    intro l
    rw [List.mem_flatMap]
    constructor
    · rintro ⟨⟨c, e⟩, he, hn⟩
      cases e <;> simp only [usedEv, List.not_mem_nil] at hn
      exact ⟨_, ⟨c, he⟩, (mem_varsOf _ _).1 hn⟩
    · rintro ⟨a, ⟨c, h⟩, hv⟩
      exact ⟨_, h, (mem_varsOf _ _).2 hv⟩
  have hset : ∀ c ss a, (∃ c', (c', Ev.arg a) ∈ visitSet s c ss) ↔ ∃ x, Inside x ss ∧ a ∈ selArgs x := by
    intro c ss a
    rw [← arg_visitSels s (inSet s c) ss a]
    simp [visitSet]
  have hvars : ∀ c vs a c', (c', Ev.arg a) ∉ visitVars s c vs := by
    intro c vs a c' h
    obtain ⟨v, _, h⟩ := List.mem_flatMap.1 h
    rcases List.mem_cons.1 h with h | h
    · simp at h
    · cases hd : v.default_ with
      | none => simp [hd] at h
      | some x =>
        simp only [hd] at h
        have := visitVal_isVal _ _ _ _ h; simp [Ev.isVal] at this
  have hset' : ∀ c ss, w ∈ (visitSet s c ss).flatMap (fun e => usedEv e.2) ↔
      ∃ x, Inside x ss ∧ ∃ a ∈ selArgs x, VarIn w a.2 := by
    intro c ss
    rw [hmem]
    constructor
    · rintro ⟨a, h, hv⟩
      obtain ⟨x, h1, h2⟩ := (hset c ss a).1 h
      exact ⟨x, h1, a, h2, hv⟩
    · rintro ⟨x, h1, a, h2, hv⟩
      exact ⟨a, (hset c ss a).2 ⟨x, h1, h2⟩, hv⟩
  have hdirs' : ∀ c ds, w ∈ (visitDirs s c ds).flatMap (fun e => usedEv e.2) ↔
      ∃ a ∈ dirArgs ds, VarIn w a.2 := by
    intro c ds
    rw [hmem]
    constructor
    · rintro ⟨a, h, hv⟩; exact ⟨a, (arg_visitDirs s c ds a).1 h, hv⟩
    · rintro ⟨a, h, hv⟩; exact ⟨a, (arg_visitDirs s c ds a).2 h, hv⟩
  cases x with
  | op o =>
    simp only [innerOf, List.flatMap_append, List.mem_append, UsedIn, Def.sels]
    rw [hdirs', hset']
    have : ¬ w ∈ (visitVars s (startCtx (rootOf s o.kind)) o.vars).flatMap (fun e => usedEv e.2) := by
      rw [hmem]
      rintro ⟨a, ⟨c, h⟩, _⟩
      exact hvars _ _ _ _ h
    simp only [this, or_false]
  | frag f =>
    simp only [innerOf, List.flatMap_append, List.mem_append, UsedIn, Def.sels]
    rw [hdirs', hset']

theorem spread_inner (s : Schema) (x : Def) (n : Name) :
    n ∈ (innerOf s x).flatMap (fun e => spreadEv e.2) ↔ SpreadIn x.sels n := by
  rw [← mem_toldSpreads s x n]
  cases x with
  | op o => simp [toldSpreads, visitDef, innerOf, spreadEv]
  | frag f => simp [toldSpreads, visitDef, innerOf, spreadEv]

/-! ## After the walk -/

/-- What the rules on variables remember at the end. -/
def varEnd (s : Schema) (d : Doc) : VarSt := (visit s d).foldl varStep {}

theorem varFold_defs (s : Schema) (d : Doc) (st : VarSt) :
    ((d.flatMap (visitDef s)).foldl varStep st).used = st.used ++
      d.flatMap (fun x => ((innerOf s x).flatMap (fun e => usedEv e.2)).map (fun v => (x.scope, v))) ∧
    ((d.flatMap (visitDef s)).foldl varStep st).spreads = st.spreads ++
      d.flatMap (fun x => ((innerOf s x).flatMap (fun e => spreadEv e.2)).map (fun v => (x.scope, v))) := by
  induction d generalizing st with
  | nil => simp
  | cons x xs ih =>
    rw [List.flatMap_cons, List.foldl_append]
    obtain ⟨h1, h2⟩ := ih ((visitDef s x).foldl varStep st)
    rw [h1, h2, varFold_def]
    simp [List.flatMap_cons]

theorem varEnd_eq (s : Schema) (d : Doc) : varEnd s d = (d.flatMap (visitDef s)).foldl varStep {} := by
  unfold varEnd visit
  rw [List.foldl_cons, List.foldl_append]
  rfl

theorem mem_used (s : Schema) (d : Doc) (sc : Scope) (v : Name) :
    v ∈ at_ (varEnd s d).used sc ↔
      ∃ x ∈ d, x.scope = sc ∧ UsedIn (match x with | .op o => o.dirs | .frag f => f.dirs) x.sels v := by
  rw [varEnd_eq, (varFold_defs s d {}).1]
  simp only [at_, List.nil_append, List.mem_map, List.mem_filter, List.mem_flatMap]
  constructor
  · rintro ⟨e, ⟨⟨x, hx, w, hw, rfl⟩, hsc⟩, rfl⟩
    refine ⟨x, hx, by simpa using hsc, ?_⟩
    exact (used_inner s x w).1 (List.mem_flatMap.2 hw)
  · rintro ⟨x, hx, hsc, h⟩
    exact ⟨(x.scope, v), ⟨⟨x, hx, v, List.mem_flatMap.1 ((used_inner s x v).2 h), rfl⟩, by simpa using hsc⟩, rfl⟩

theorem mem_spreads (s : Schema) (d : Doc) (sc : Scope) (n : Name) :
    n ∈ at_ (varEnd s d).spreads sc ↔ ∃ x ∈ d, x.scope = sc ∧ SpreadIn x.sels n := by
  rw [varEnd_eq, (varFold_defs s d {}).2]
  simp only [at_, List.nil_append, List.mem_map, List.mem_filter, List.mem_flatMap]
  constructor
  · rintro ⟨e, ⟨⟨x, hx, w, hw, rfl⟩, hsc⟩, rfl⟩
    exact ⟨x, hx, by simpa using hsc, (spread_inner s x w).1 (List.mem_flatMap.2 hw)⟩
  · rintro ⟨x, hx, hsc, h⟩
    exact ⟨(x.scope, n), ⟨⟨x, hx, n, List.mem_flatMap.1 ((spread_inner s x n).2 h), rfl⟩, by simpa using hsc⟩, rfl⟩

theorem mem_scopesFrom (st : VarSt) (a b : Scope) :
    b ∈ scopesFrom st a ↔ Way (fun sc => (at_ st.spreads sc).map .frag) a b := by
  unfold scopesFrom
  have := mem_search (fun sc => (at_ st.spreads sc).map Scope.frag)
    (st.spreads.map (fun e => Scope.frag e.2)) (by
      intro x y hy
      obtain ⟨n, hn, rfl⟩ := List.mem_map.1 hy
      obtain ⟨e, he, rfl⟩ := List.mem_map.1 hn
      exact List.mem_map.2 ⟨e, (List.mem_filter.1 he).1, rfl⟩) a b
  rwa [List.length_map] at this

theorem mem_frags (d : Doc) (f : Frag) : f ∈ frags d ↔ Def.frag f ∈ d := by
  unfold frags
  rw [List.mem_filterMap]
  constructor
  · rintro ⟨x, hx, h⟩
    cases x with
    | op o => simp [Def.frag?] at h
    | frag g => simp [Def.frag?] at h; subst h; exact hx
  · intro h; exact ⟨_, h, rfl⟩

theorem mem_ops (d : Doc) (o : Op) : o ∈ ops d ↔ Def.op o ∈ d := by
  unfold ops
  rw [List.mem_filterMap]
  constructor
  · rintro ⟨x, hx, h⟩
    cases x with
    | frag f => simp [Def.op?] at h
    | op g => simp [Def.op?] at h; subst h; exact hx
  · intro h; exact ⟨_, h, rfl⟩

theorem scope_frag {x : Def} {n : Name} (h : x.scope = .frag n) : ∃ f, x = .frag f ∧ f.name = n := by
  cases x with
  | op o => simp [Def.scope] at h
  | frag f => exact ⟨f, rfl, by simpa [Def.scope] using h⟩

theorem scope_op {x : Def} {n : Option Name} (h : x.scope = .op n) : ∃ o, x = .op o ∧ o.name = n := by
  cases x with
  | frag f => simp [Def.scope] at h
  | op o => exact ⟨o, rfl, by simpa [Def.scope] using h⟩

/-- The scopes found from an operation are the operation and the fragments it reaches. -/
theorem scopes_op (s : Schema) (d : Doc) (o : Op) (ho : o ∈ ops d)
    (hu : ∀ p ∈ ops d, p.name = o.name → p = o) (b : Scope) :
    b ∈ scopesFrom (varEnd s d) (.op o.name) ↔
      b = .op o.name ∨ ∃ n, b = .frag n ∧ Reaches d o.sels n := by
  rw [mem_scopesFrom]
  have hstep : ∀ sc y, y ∈ (at_ (varEnd s d).spreads sc).map Scope.frag ↔
      ∃ n, y = .frag n ∧ ∃ x ∈ d, x.scope = sc ∧ SpreadIn x.sels n := by
    intro sc y
    rw [List.mem_map]
    constructor
    · rintro ⟨n, hn, rfl⟩; exact ⟨n, rfl, (mem_spreads s d sc n).1 hn⟩
    · rintro ⟨n, rfl, h⟩; exact ⟨n, (mem_spreads s d sc n).2 h, rfl⟩
  constructor
  · intro h
    -- forward closure
    have gen : ∀ a b, Way (fun sc => (at_ (varEnd s d).spreads sc).map Scope.frag) a b →
        (a = .op o.name ∨ ∃ n, a = .frag n ∧ Reaches d o.sels n) →
        (b = .op o.name ∨ ∃ n, b = .frag n ∧ Reaches d o.sels n) := by
      intro a b hw
      induction hw with
      | refl _ => exact id
      | step h1 _ ih =>
        intro ha
        apply ih
        obtain ⟨n, rfl, x, hx, hsc, hsp⟩ := (hstep _ _).1 h1
        refine Or.inr ⟨n, rfl, ?_⟩
        rcases ha with ha | ⟨m, ha, hr⟩
        · subst ha
          obtain ⟨p, rfl, hp⟩ := scope_op hsc
          have := hu p ((mem_ops d p).2 hx) hp
          subst this
          exact .direct hsp
        · subst ha
          obtain ⟨f, rfl, hf⟩ := scope_frag hsc
          subst hf
          exact reaches_tail hr ((mem_frags d f).2 hx) hsp
    exact gen _ _ h (Or.inl rfl)
  · rintro (h | ⟨n, rfl, hr⟩)
    · subst h; exact .refl _
    · have gen : ∀ (ss : List Sel) n, Reaches d ss n → ∀ sc, (∃ x ∈ d, x.scope = sc ∧ x.sels = ss) →
          Way (fun sc => (at_ (varEnd s d).spreads sc).map Scope.frag) sc (.frag n) := by
        intro ss n hr
        induction hr with
        | direct h =>
          rintro sc ⟨x, hx, h1, h2⟩
          subst h2
          exact .step ((hstep _ _).2 ⟨_, rfl, x, hx, h1, h⟩) (.refl _)
        | through h hf _ ih =>
          rintro sc ⟨x, hx, h1, h2⟩
          subst h2
          exact .step ((hstep _ _).2 ⟨_, rfl, x, hx, h1, h⟩)
            (ih _ ⟨_, (mem_frags d _).1 hf, rfl, rfl⟩)
      exact gen _ _ hr _ ⟨.op o, (mem_ops d o).1 ho, rfl, rfl⟩

/-- What is used in the scopes found from an operation is what the operation uses. -/
theorem used_op (s : Schema) (d : Doc) (o : Op) (ho : o ∈ ops d)
    (hu : ∀ p ∈ ops d, p.name = o.name → p = o) (v : Name) :
    v ∈ (scopesFrom (varEnd s d) (.op o.name)).flatMap (at_ (varEnd s d).used) ↔ Uses d o v := by
  rw [List.mem_flatMap]
  constructor
  · rintro ⟨sc, hsc, hv⟩
    obtain ⟨x, hx, hxs, hus⟩ := (mem_used s d sc v).1 hv
    rcases (scopes_op s d o ho hu sc).1 hsc with h | ⟨n, h, hr⟩
    · subst h
      obtain ⟨p, rfl, hp⟩ := scope_op hxs
      have := hu p ((mem_ops d p).2 hx) hp
      subst this
      exact Or.inl hus
    · subst h
      obtain ⟨f, rfl, hf⟩ := scope_frag hxs
      subst hf
      exact Or.inr ⟨f, (mem_frags d f).2 hx, hr, hus⟩
  · rintro (h | ⟨f, hf, hr, h⟩)
    · exact ⟨.op o.name, (scopes_op s d o ho hu _).2 (Or.inl rfl),
        (mem_used s d _ v).2 ⟨.op o, (mem_ops d o).1 ho, rfl, h⟩⟩
    · exact ⟨.frag f.name, (scopes_op s d o ho hu _).2 (Or.inr ⟨_, rfl, hr⟩),
        (mem_used s d _ v).2 ⟨.frag f, (mem_frags d f).1 hf, rfl, h⟩⟩

/-! ## What is defined -/

theorem addVars_not_mem (m : List (Option Name × List Name)) (n : Option Name) (vs : List Name)
    (h : ∀ e ∈ m, e.1 ≠ n) : addVars m (.op n) vs = m := by
  unfold addVars
  simp only
  induction vs with
  | nil => rfl
  | cons v vs ih =>
    rw [List.foldl_cons]
    have : addVar m n v = m := by
      unfold addVar
      conv_rhs => rw [← List.map_id m]
      apply List.map_congr_left
      intro e he
      simp [h e he]
    rw [this, ih]

theorem addVar_append (m k : List (Option Name × List Name)) (n : Option Name) (v : Name) :
    addVar (m ++ k) n v = addVar m n v ++ addVar k n v := by
  simp [addVar]

theorem addVars_append (m k : List (Option Name × List Name)) (n : Option Name) (vs : List Name) :
    addVars (m ++ k) (.op n) vs = addVars m (.op n) vs ++ addVars k (.op n) vs := by
  unfold addVars
  simp only
  induction vs generalizing m k with
  | nil => rfl
  | cons v vs ih => rw [List.foldl_cons, addVar_append, ih]; rfl

theorem addVars_self (n : Option Name) (ws vs : List Name) :
    addVars [(n, ws)] (.op n) vs = [(n, ws ++ vs)] := by
  unfold addVars
  simp only
  induction vs generalizing ws with
  | nil => simp
  | cons v vs ih =>
    rw [List.foldl_cons]
    have : addVar [(n, ws)] n v = [(n, ws ++ [v])] := by simp [addVar]
    rw [this, ih]
    simp

theorem defined_defs (s : Schema) (d : Doc) (st : VarSt)
    (hn : (st.defined.map (·.1) ++ (ops d).map (·.name)).Nodup) :
    ((d.flatMap (visitDef s)).foldl varStep st).defined =
      st.defined ++ (ops d).map (fun o => (o.name, o.vars.map (·.name))) := by
  induction d generalizing st with
  | nil => simp [ops]
  | cons x xs ih =>
    rw [List.flatMap_cons, List.foldl_append]
    cases x with
    | frag f =>
      have hops : ops (.frag f :: xs) = ops xs := by simp [ops, Def.op?, List.filterMap_cons]
      rw [hops] at hn ⊢
      rw [ih _ (by rw [varFold_def]; simpa [addVars, Def.scope] using hn), varFold_def]
      simp [addVars, Def.scope]
    | op o =>
      have hops : ops (.op o :: xs) = o :: ops xs := by simp [ops, Def.op?, List.filterMap_cons]
      rw [hops] at hn ⊢
      have hno : ∀ e ∈ st.defined, e.1 ≠ o.name := by
        intro e he h
        rw [List.nodup_append] at hn
        exact hn.2.2 e.1 (List.mem_map.2 ⟨e, he, rfl⟩) o.name (by simp) h
      have hdef : ((visitDef s (.op o)).foldl varStep st).defined =
          st.defined ++ [(o.name, o.vars.map (·.name))] := by
        rw [varFold_def]
        simp only [Def.scope]
        have hins : insertOp st.defined o.name = st.defined ++ [(o.name, [])] := by
          unfold insertOp
          rw [List.filter_eq_self.2]
          intro e he
          simpa using hno e he
        rw [hins, addVars_append, addVars_not_mem _ _ _ hno, addVars_self, defEv_inner]
        simp
      rw [ih _ (by rw [hdef]; simpa using hn), hdef]
      simp

theorem varEnd_defined (s : Schema) (d : Doc) (hn : ((ops d).map (·.name)).Nodup) :
    (varEnd s d).defined = (ops d).map (fun o => (o.name, o.vars.map (·.name))) := by
  rw [varEnd_eq, defined_defs s d {} (by simpa using hn)]
  simp

theorem ops_nodup {d : Doc} (h : OperationsNamed d) : ((ops d).map (·.name)).Nodup := by
  obtain ⟨h1, h2⟩ := h
  by_cases hex : ∃ o ∈ ops d, o.name = none
  · obtain ⟨o, ho, hn⟩ := hex
    rw [h2 o ho hn]
    simp
  · have hall : ∀ o ∈ ops d, o.name ≠ none := fun o ho hn => hex ⟨o, ho, hn⟩
    generalize ops d = l at h1 hall
    induction l with
    | nil => simp
    | cons o os ih =>
      have hos := ih (by
        cases hn : o.name with
        | none => exact absurd hn (hall o (by simp))
        | some n => simp [hn] at h1; exact h1.2) (fun p hp => hall p (by simp [hp]))
      rw [List.map_cons, List.nodup_cons]
      refine ⟨?_, hos⟩
      intro hm
      obtain ⟨p, hp, he⟩ := List.mem_map.1 hm
      cases hn : o.name with
      | none => exact hall o (by simp) hn
      | some n =>
        simp [hn] at h1
        rw [hn] at he
        exact h1.1 p hp he

theorem ops_unique {d : Doc} (h : OperationsNamed d) {o p : Op} (ho : o ∈ ops d) (hp : p ∈ ops d)
    (hn : p.name = o.name) : p = o := List.inj_on_of_nodup_map (ops_nodup h) hp ho hn

theorem noUndefinedVariables_iff (s : Schema) (d : Doc) (h : OperationsNamed d) :
    noUndefinedVariables s d = false ↔ ∀ o ∈ ops d, ∀ v, Uses d o v → ∃ w ∈ o.vars, w.name = v := by
  unfold noUndefinedVariables
  simp only
  change ((varEnd s d).defined.any _) = false ↔ _
  rw [varEnd_defined s d (ops_nodup h), List.any_eq_false]
  constructor
  · intro hh o ho v hv
    have h1 := hh (o.name, o.vars.map (·.name)) (List.mem_map.2 ⟨o, ho, rfl⟩)
    rw [Bool.not_eq_true, List.any_eq_false] at h1
    have h2 := h1 v ((used_op s d o ho (fun p hp hn => ops_unique h ho hp hn) v).2 hv)
    simp at h2
    exact h2
  · intro hh e he
    obtain ⟨o, ho, rfl⟩ := List.mem_map.1 he
    rw [Bool.not_eq_true, List.any_eq_false]
    intro v hv
    have := hh o ho v ((used_op s d o ho (fun p hp hn => ops_unique h ho hp hn) v).1 hv)
    simpa using this

theorem noUnusedVariables_iff (s : Schema) (d : Doc) (h : OperationsNamed d) :
    noUnusedVariables s d = false ↔ ∀ o ∈ ops d, ∀ w ∈ o.vars, Uses d o w.name := by
  unfold noUnusedVariables
  simp only
  change ((varEnd s d).defined.any _) = false ↔ _
  rw [varEnd_defined s d (ops_nodup h), List.any_eq_false]
  constructor
  · intro hh o ho w hw
    have h1 := hh (o.name, o.vars.map (·.name)) (List.mem_map.2 ⟨o, ho, rfl⟩)
    rw [Bool.not_eq_true, List.any_eq_false] at h1
    have h2 := h1 w.name (List.mem_map.2 ⟨w, hw, rfl⟩)
    rw [decide_eq_true_eq, Classical.not_not, List.mem_filter] at h2
    exact (used_op s d o ho (fun p hp hn => ops_unique h ho hp hn) _).1 h2.1
  · intro hh e he
    obtain ⟨o, ho, rfl⟩ := List.mem_map.1 he
    rw [Bool.not_eq_true, List.any_eq_false]
    intro v hv
    obtain ⟨w, hw, rfl⟩ := List.mem_map.1 hv
    rw [decide_eq_true_eq, Classical.not_not, List.mem_filter]
    exact ⟨(used_op s d o ho (fun p hp hn => ops_unique h ho hp hn) _).2 (hh o ho w hw),
      by simpa using ⟨w, hw, rfl⟩⟩

/-- The step of `UniqueVariableNames`. -/
def uniqStep (st : List Name × Bool) (e : Ctx × Ev) : List Name × Bool :=
  match e.2 with
  | .op _ => ([], st.2)
  | .varDef v => if v.name ∈ st.1 then (st.1, true) else (st.1 ++ [v.name], st.2)
  | _ => st

/-- The step of `UniqueVariableNames` on a name. -/
def uniqName (st : List Name × Bool) (v : Name) : List Name × Bool :=
  if v ∈ st.1 then (st.1, true) else (st.1 ++ [v], st.2)

theorem uniq_inner (l : Told) (hl : ∀ e ∈ l, e.2.outer = false) (st : List Name × Bool) :
    l.foldl uniqStep st = (l.flatMap (fun e => defEv e.2)).foldl uniqName st := by
  induction l generalizing st with
  | nil => rfl
  | cons e es ih =>
    rw [List.foldl_cons, List.flatMap_cons, List.foldl_append, ih (fun x hx => hl x (by simp [hx]))]
    have h1 := hl e (by simp)
    obtain ⟨c, ev⟩ := e
    cases ev <;> first
      | rfl
      | (simp [Ev.outer] at h1; done)

theorem uniq_names (l : List Name) (seen : List Name) (b : Bool) :
    (l.foldl uniqName (seen, b)).2 = false ↔ b = false ∧ l.Nodup ∧ ∀ v ∈ l, v ∉ seen := by
  induction l generalizing seen b with
  | nil => simp
  | cons v vs ih =>
    rw [List.foldl_cons]
    by_cases h : v ∈ seen
    · rw [uniqName, if_pos h, ih]
      simp [h]
    · rw [uniqName, if_neg h, ih]
      simp only [List.nodup_cons, List.mem_append, List.mem_cons, List.not_mem_nil, or_false]
      constructor
      · rintro ⟨h1, h2, h3⟩
        refine ⟨h1, ⟨fun hv => (h3 v hv) (Or.inr rfl), h2⟩, ?_⟩
        rintro w (rfl | hw)
        · exact h
        · exact fun hs => h3 w hw (Or.inl hs)
      · rintro ⟨h1, ⟨h2, h3⟩, h4⟩
        refine ⟨h1, h3, fun w hw => ?_⟩
        rintro (hs | rfl)
        · exact h4 w (Or.inr hw) hs
        · exact h2 hw

theorem defEv_frag (s : Schema) (f : Frag) :
    (innerOf s (.frag f)).flatMap (fun e => defEv e.2) = [] := by
  have h : innerOf s (.frag f) = visitDirs s (startCtx (some f.cond)) f.dirs ++
    visitSet s (startCtx (some f.cond)) f.sels := rfl
  rw [h, List.flatMap_eq_nil_iff]
  intro e he
  have key : ∀ v, e.2 ≠ .varDef v := by
    rintro v hv
    obtain ⟨c, ev⟩ := e
    simp only at hv
    subst hv
    have hargs : ∀ c' defs args, (c, Ev.varDef v) ∉ visitArgs s c' defs args := by
      intro c' defs args h
      obtain ⟨b, _, h | h⟩ := (mem_visitArgs _ _ _ _ _).1 h
      · simp at h
      · have := visitVal_isVal _ _ _ _ h; simp [Ev.isVal] at this
    have hdirs : ∀ c' ds, (c, Ev.varDef v) ∉ visitDirs s c' ds := by
      intro c' ds h
      obtain ⟨d, _, h | h | h⟩ := (mem_visitDirs s c' ds _).1 h
      · simp at h
      · simp at h
      · exact hargs _ _ _ h
    rcases List.mem_append.1 he with h | h
    · exact hdirs _ _ h
    · rcases List.mem_cons.1 h with h | h
      · simp at h
      · obtain ⟨c2, x, _, h⟩ := (mem_visitSels s _ _ _).1 h
        cases x with
        | field al m args ds sub => simp [own, hargs, hdirs] at h
        | spread m ds => simp [own, hdirs] at h
        | inline cond ds sub => simp [own, hdirs] at h
  obtain ⟨c, ev⟩ := e
  cases ev <;> first
    | rfl
    | exact absurd rfl (key _)

theorem uniq_def (s : Schema) (x : Def) (st : List Name × Bool) :
    ((visitDef s x).foldl uniqStep st).2 = false ↔
      st.2 = false ∧ ∀ o, x = .op o → (o.vars.map (·.name)).Nodup := by
  cases x with
  | op o =>
    have : visitDef s (.op o) = (startCtx (rootOf s o.kind), .op o) :: innerOf s (.op o) := rfl
    rw [this, List.foldl_cons, uniq_inner _ (inner_innerOf s _), defEv_inner]
    have : uniqStep st (startCtx (rootOf s o.kind), .op o) = ([], st.2) := rfl
    rw [this, uniq_names]
    simp
  | frag f =>
    have : visitDef s (.frag f) =
        (startCtx (some f.cond), .frag f) :: (innerOf s (.frag f) ++ [(startCtx (some f.cond), .leaveFrag)]) := rfl
    rw [this, List.foldl_cons, List.foldl_append, uniq_inner _ (inner_innerOf s _), defEv_frag]
    simp [uniqStep]

theorem uniqueVariableNames_iff (s : Schema) (d : Doc) :
    uniqueVariableNames s d = false ↔ ∀ o ∈ ops d, (o.vars.map (·.name)).Nodup := by
  have h0 : uniqueVariableNames s d = ((visit s d).foldl uniqStep ([], false)).2 := rfl
  have h1 : (visit s d).foldl uniqStep ([], false) = (d.flatMap (visitDef s)).foldl uniqStep ([], false) := by
    unfold visit
    rw [List.foldl_cons, List.foldl_append]
    rfl
  have key : ∀ (d : Doc) st, ((d.flatMap (visitDef s)).foldl uniqStep st).2 = false ↔
      st.2 = false ∧ ∀ o, Def.op o ∈ d → (o.vars.map (·.name)).Nodup := by
    intro d
    induction d with
    | nil => simp
    | cons x xs ih =>
      intro st
      rw [List.flatMap_cons, List.foldl_append, ih, uniq_def]
      constructor
      · rintro ⟨⟨h1, h2⟩, h3⟩
        refine ⟨h1, fun o ho => ?_⟩
        rcases List.mem_cons.1 ho with h | h
        · exact h2 o h.symm
        · exact h3 o h
      · rintro ⟨h1, h2⟩
        exact ⟨⟨h1, fun o ho => h2 o (by simp [ho])⟩, fun o ho => h2 o (by simp [ho])⟩
  rw [h0, h1, key]
  simp [mem_ops]

theorem varDef_innerOf (s : Schema) (x : Def) (v : VarDef) :
    (∃ c, (c, Ev.varDef v) ∈ visitDef s x) ↔ ∃ o, x = .op o ∧ v ∈ o.vars := by
  have hargs : ∀ c c' defs args, (c, Ev.varDef v) ∉ visitArgs s c' defs args := by
    intro c c' defs args h
    obtain ⟨b, _, h | h⟩ := (mem_visitArgs _ _ _ _ _).1 h
    · simp at h
    · have := visitVal_isVal _ _ _ _ h; simp [Ev.isVal] at this
  have hdirs : ∀ c c' ds, (c, Ev.varDef v) ∉ visitDirs s c' ds := by
    intro c c' ds h
    obtain ⟨d, _, h | h | h⟩ := (mem_visitDirs s c' ds _).1 h
    · simp at h
    · simp at h
    · exact hargs _ _ _ _ h
  have hset : ∀ c c' ss, (c, Ev.varDef v) ∉ visitSet s c' ss := by
    intro c c' ss h
    rcases List.mem_cons.1 h with h | h
    · simp at h
    · obtain ⟨c2, x, _, h⟩ := (mem_visitSels s _ _ _).1 h
      cases x with
      | field al m args ds sub => simp [own, hargs, hdirs] at h
      | spread m ds => simp [own, hdirs] at h
      | inline cond ds sub => simp [own, hdirs] at h
  cases x with
  | op o =>
    simp only [visitDef, List.mem_cons, List.mem_append, hdirs, hset, false_or, or_false]
    rw [← (show _ ↔ _ from ⟨fun h => ⟨o, rfl, h⟩, fun ⟨p, hp, h⟩ => by cases hp; exact h⟩ : v ∈ o.vars ↔ ∃ p, Def.op o = .op p ∧ v ∈ p.vars),
      ← varDef_visitVars s (startCtx (rootOf s o.kind)) o.vars v]
    simp
  | frag f =>
    simp only [visitDef, List.mem_cons, List.mem_append, hdirs, hset, false_or, or_false, List.not_mem_nil]
    simp

theorem variableTypes_iff (s : Schema) (d : Doc) :
    variableTypes s d = false ↔ ∀ o ∈ ops d, ∀ v ∈ o.vars,
      (∀ t, s.typeByName v.ty.inner = some t → t.isInput = true) ∧
      (s.typeByName v.ty.inner = none → reserved v.ty.inner = true) := by
  unfold variableTypes
  rw [List.any_eq_false]
  have one : ∀ v : VarDef, (¬ (match s.typeByName v.ty.inner with
        | some t => !t.isInput
        | none => !reserved v.ty.inner) = true) ↔
      (∀ t, s.typeByName v.ty.inner = some t → t.isInput = true) ∧
      (s.typeByName v.ty.inner = none → reserved v.ty.inner = true) := by
    intro v
    cases s.typeByName v.ty.inner <;> simp
  constructor
  · intro h o ho v hv
    obtain ⟨c, hc⟩ := (varDef_innerOf s (.op o) v).2 ⟨o, rfl, hv⟩
    exact (one v).1 (h _ ((mem_visit s d _ (by simp) (by simp)).2 ⟨_, (mem_ops d o).1 ho, hc⟩))
  · rintro h ⟨c, e⟩ he
    cases e <;> try simp only [Bool.false_eq_true, not_false_iff]
    rename_i v
    obtain ⟨x, hx, hc⟩ := (mem_visit s d _ (by simp) (by simp)).1 he
    obtain ⟨o, rfl, hv⟩ := (varDef_innerOf s x v).1 ⟨c, hc⟩
    exact (one v).2 (h o ((mem_ops d o).2 hx) v hv)

end Verif.Valid
