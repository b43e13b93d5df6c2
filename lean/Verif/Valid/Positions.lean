import Verif.Valid.Values

/-!
# Where variables are used
-/

namespace Verif.Valid

/-- The event tells of the variable `n` where `t` is expected. -/
def isVarAt (n : Name) (t : Ty) (b : Bool) (e : Ctx × Ev) : Bool :=
  match e.2 with
  | .var m => decide (m = n ∧ e.1.input = some t ∧ e.1.dflt = b)
  | _ => false

theorem isVarAt_none (n : Name) (t : Ty) (b : Bool) (e : Ctx × Ev) (h : e.1.input = none) :
    isVarAt n t b e = false := by
  obtain ⟨c, e⟩ := e
  cases e <;> simp_all [isVarAt]

mutual
theorem seen_val (s : Schema) (n : Name) (t : Ty) (b : Bool) (c : Ctx) (u : Ty) (h : c.input = some u)
    (v : Val) : (visitVal s c v).any (isVarAt n t b) = true ↔ SeenAt s n t b u c.dflt v := by
  match v with
  | .null => simp [visitVal, isVarAt]; intro h; cases h
  | .bool _ => simp [visitVal, isVarAt]; intro h; cases h
  | .int _ => simp [visitVal, isVarAt]; intro h; cases h
  | .float _ => simp [visitVal, isVarAt]; intro h; cases h
  | .str _ => simp [visitVal, isVarAt]; intro h; cases h
  | .enum _ => simp [visitVal, isVarAt]; intro h; cases h
  | .var m =>
    simp only [visitVal, List.any_cons, List.any_nil, Bool.or_false, isVarAt, h, decide_eq_true_eq,
      Option.some.injEq]
    constructor
    · rintro ⟨rfl, rfl, rfl⟩; exact .self
    · intro h; cases h; exact ⟨rfl, rfl, rfl⟩
  | .list vs =>
    rw [visitVal, List.any_cons]
    have h0 : isVarAt n t b (c, .list vs) = false := rfl
    rw [h0, Bool.false_or]
    by_cases hl : ∃ w, u = .list w
    · obtain ⟨w, rfl⟩ := hl
      rw [seen_vals s n t b { c with input := itemType c.input, dflt := false } w (by simp [h, itemType]) vs]
      constructor
      · rintro ⟨x, hx, h⟩; exact .item hx h
      · intro h
        cases h with
        | item hx h => exact ⟨_, hx, h⟩
    · have hn : itemType c.input = none := by
        rw [h]
        cases u <;> simp [itemType]
        exact hl ⟨_, rfl⟩
      constructor
      · intro ha
        obtain ⟨e, he, ht⟩ := List.any_eq_true.1 ha
        rw [isVarAt_none n t b e (noInput_vals s _ hn vs e he)] at ht
        cases ht
      · intro h
        cases h
        exact absurd ⟨_, rfl⟩ hl
  | .obj fs =>
    rw [visitVal, List.any_cons]
    have h0 : isVarAt n t b (c, .obj fs) = false := rfl
    rw [h0, Bool.false_or]
    by_cases hi : ∃ m defs, s.typeByName u.inner = some (.input m defs)
    · obtain ⟨m, defs, hi⟩ := hi
      rw [seen_obj s n t b c u h m defs hi fs]
      constructor
      · rintro ⟨p, hp, f, hf, h⟩
        exact .pair hp ((wraps_iff _ _).2 rfl) hi hf h
      · intro h
        cases h with
        | @pair _ _ m' k' defs' _ p f hp hw ht hf h =>
          rw [← (wraps_iff _ _).1 hw, hi] at ht
          cases ht
          exact ⟨p, hp, f, hf, h⟩
    · constructor
      · intro ha
        obtain ⟨e, he, ht⟩ := List.any_eq_true.1 ha
        rw [isVarAt_none n t b e (noDefs_obj s c u h (fun m defs h => hi ⟨m, defs, h⟩) fs e he)] at ht
        cases ht
      · intro h
        cases h with
        | pair hp hw ht hf h =>
          rw [← (wraps_iff _ _).1 hw] at ht
          exact absurd ⟨_, _, ht⟩ hi
theorem seen_vals (s : Schema) (n : Name) (t : Ty) (b : Bool) (c : Ctx) (u : Ty) (h : c.input = some u)
    (vs : List Val) :
    (visitVals s c vs).any (isVarAt n t b) = true ↔ ∃ x ∈ vs, SeenAt s n t b u c.dflt x := by
  match vs with
  | [] => simp [visitVals]
  | v :: vs =>
    rw [visitVals, List.any_append, Bool.or_eq_true, seen_val s n t b c u h v,
      seen_vals s n t b c u h vs]
    simp
theorem seen_obj (s : Schema) (n : Name) (t : Ty) (b : Bool) (c : Ctx) (u : Ty) (h : c.input = some u)
    (m : Name) (defs : List InputDef) (hi : s.typeByName u.inner = some (.input m defs))
    (fs : List (Name × Val)) :
    (visitObj s c fs).any (isVarAt n t b) = true ↔
      ∃ p ∈ fs, ∃ f, defs.find? (fun f => f.name = p.1) = some f ∧
        SeenAt s n t b f.ty f.default_.isSome p.2 := by
  match fs with
  | [] => simp [visitObj]
  | f :: fs =>
    rw [visitObj, List.any_append, Bool.or_eq_true, seen_pair s n t b c u h m defs hi f,
      seen_obj s n t b c u h m defs hi fs]
    simp only [List.mem_cons, exists_eq_or_imp]
theorem seen_pair (s : Schema) (n : Name) (t : Ty) (b : Bool) (c : Ctx) (u : Ty) (h : c.input = some u)
    (m : Name) (defs : List InputDef) (hi : s.typeByName u.inner = some (.input m defs))
    (f : Name × Val) :
    (visitPair s c f).any (isVarAt n t b) = true ↔
      ∃ g, defs.find? (fun g => g.name = f.1) = some g ∧ SeenAt s n t b g.ty g.default_.isSome f.2 := by
  match f with
  | (k, v) =>
    rw [visitPair]
    have hb : (c.input.bind (fun t => s.typeByName t.inner)).bind (·.inputByName k) =
        defs.find? (fun b => b.name = k) := by
      simp [h, hi, TypeDef.inputByName]
    rw [hb]
    cases hf : defs.find? (fun b => b.name = k) with
    | none =>
      constructor
      · intro ha
        obtain ⟨e, he, ht⟩ := List.any_eq_true.1 ha
        rw [isVarAt_none n t b e (noInput_val s _ rfl v e he)] at ht
        cases ht
      · rintro ⟨g, hg, _⟩; cases hg
    | some g =>
      rw [seen_val s n t b _ g.ty rfl v]
      simp
end

/-- A variable is told of in a definition, with a type, exactly where the rule can see it. -/
theorem var_visitDef (s : Schema) (x : Def) (n : Name) (t : Ty) (b : Bool) :
    (∃ c, (c, Ev.var n) ∈ visitDef s x ∧ c.input = some t ∧ c.dflt = b) ↔
      ∃ u a v, Slot s [x] u a v ∧ SeenAt s n t b u a v := by
  have hany := any_values s [x] (isVarAt n t b)
    (fun o a v => ¬ ∃ u, o = some u ∧ SeenAt s n t b u a v)
    (by rintro ⟨c, e⟩ he; cases e <;> simp [Ev.isVal] at he <;> rfl)
    (by
      intro c v
      cases hc : c.input with
      | none =>
        simp only [reduceCtorEq, false_and, exists_false, not_false_eq_true, iff_true]
        rw [List.any_eq_false]
        intro e he
        rw [isVarAt_none n t b e (noInput_val s c hc v e he)]
        simp
      | some u =>
        have := seen_val s n t b c u hc v
        simp only [Option.some.injEq, exists_eq_left']
        rw [← this, Bool.not_eq_true])
  have hvis : (visit s [x]).any (isVarAt n t b) = true ↔
      ∃ c, (c, Ev.var n) ∈ visitDef s x ∧ c.input = some t ∧ c.dflt = b := by
    have : (visit s [x]).any (isVarAt n t b) = (visitDef s x).any (isVarAt n t b) := by
      have h1 : isVarAt n t b (startCtx none, .doc) = false := rfl
      have h2 : isVarAt n t b (startCtx none, .leaveDoc) = false := rfl
      simp [visit, h1, h2]
    rw [this, List.any_eq_true]
    constructor
    · rintro ⟨⟨c, e⟩, he, h⟩
      cases e <;> simp [isVarAt] at h
      obtain ⟨rfl, h1, h2⟩ := h
      exact ⟨c, he, h1, h2⟩
    · rintro ⟨c, he, h1, h2⟩
      exact ⟨_, he, by simp [isVarAt, h1, h2]⟩
  rw [← hvis]
  constructor
  · intro h
    refine Classical.byContradiction (fun hno => ?_)
    have : (visit s [x]).any (isVarAt n t b) = false := by
      rw [hany]
      refine ⟨fun defs args hg a ha => ?_, fun o ho v hv z hz => ?_⟩
      · rintro ⟨u, hu, hs⟩
        cases defs with
        | none => simp at hu
        | some defs =>
          cases hb : defs.find? (fun b => b.name = a.1) with
          | none => simp [hb] at hu
          | some f =>
            simp only [Option.bind_some, hb, Option.map_some, Option.some.injEq] at hu hs
            subst hu
            exact hno ⟨_, _, _, .arg hg ha hb, hs⟩
      · rintro ⟨u, hu, hs⟩
        cases hu
        exact hno ⟨_, _, _, .default_ ho hv hz, hs⟩
    rw [this] at h
    cases h
  · rintro ⟨u, a, v, hsl, hs⟩
    refine Classical.byContradiction (fun hno => ?_)
    rw [Bool.not_eq_true, hany] at hno
    cases hsl with
    | @arg defs args w f hg ha hb =>
      exact hno.1 _ _ hg w ha ⟨f.ty, by simp [hb], by simpa [hb] using hs⟩
    | default_ ho hv hz => exact hno.2 _ ho _ hv _ hz ⟨_, rfl, hs⟩

/-! ## What the rule remembers -/

/-- The uses of variables in what is told. -/
def useEv (e : Ctx × Ev) : List (Name × Ty × Bool) :=
  match e.2, e.1.input with
  | .var n, some t => [(n, t, e.1.dflt)]
  | _, _ => []

/-- The variables in what is told. -/
def vdefEv : Ev → List VarDef
  | .varDef v => [v]
  | _ => []

theorem posStep_inner (st : PosSt) (sc : Scope) (hs : st.scope = some sc) (c : Ctx) (e : Ev)
    (he : e.outer = false) :
    posStep st (c, e) =
      { st with
        defs := st.defs ++ (vdefEv e).map (fun v => (sc, v))
        uses := st.uses ++ (useEv (c, e)).map (fun v => (sc, v))
        spreads := st.spreads ++ (spreadEv e).map (fun v => (sc, v)) } := by
  obtain ⟨scope, spreads, uses, defs⟩ := st
  simp only at hs
  subst hs
  cases e <;> first
    | (simp [Ev.outer] at he; done)
    | (simp [posStep, vdefEv, useEv, spreadEv]; done)
    | (cases hc : c.input <;> simp [posStep, vdefEv, useEv, spreadEv, hc]; done)

theorem posFold_inner (l : Told) (hl : ∀ e ∈ l, e.2.outer = false) (st : PosSt) (sc : Scope)
    (hs : st.scope = some sc) :
    l.foldl posStep st =
      { st with
        defs := st.defs ++ (l.flatMap (fun e => vdefEv e.2)).map (fun v => (sc, v))
        uses := st.uses ++ (l.flatMap useEv).map (fun v => (sc, v))
        spreads := st.spreads ++ (l.flatMap (fun e => spreadEv e.2)).map (fun v => (sc, v)) } := by
  induction l generalizing st with
  | nil => simp
  | cons e es ih =>
    obtain ⟨c, ev⟩ := e
    rw [List.foldl_cons, posStep_inner st sc hs c ev (hl (c, ev) (by simp)),
      ih (fun x hx => hl x (by simp [hx])) _ (by simp [hs])]
    simp [List.flatMap_cons]

theorem posFold_def (s : Schema) (x : Def) (st : PosSt) :
    (visitDef s x).foldl posStep st =
      { scope := some x.scope
        defs := st.defs ++ ((innerOf s x).flatMap (fun e => vdefEv e.2)).map (fun v => (x.scope, v))
        uses := st.uses ++ ((innerOf s x).flatMap useEv).map (fun v => (x.scope, v))
        spreads := st.spreads ++
          ((innerOf s x).flatMap (fun e => spreadEv e.2)).map (fun v => (x.scope, v)) } := by
  cases x with
  | op o =>
    have : visitDef s (.op o) = (startCtx (rootOf s o.kind), .op o) :: innerOf s (.op o) := rfl
    rw [this, List.foldl_cons, posFold_inner _ (inner_innerOf s _) _ (.op o.name) rfl]
    rfl
  | frag f =>
    have : visitDef s (.frag f) =
        (startCtx (some f.cond), .frag f) :: (innerOf s (.frag f) ++ [(startCtx (some f.cond), .leaveFrag)]) := rfl
    rw [this, List.foldl_cons, List.foldl_append,
      posFold_inner _ (inner_innerOf s _) _ (.frag f.name) rfl]
    rfl

theorem posFold_defs (s : Schema) (d : Doc) (st : PosSt) :
    ((d.flatMap (visitDef s)).foldl posStep st).uses = st.uses ++
      d.flatMap (fun x => ((innerOf s x).flatMap useEv).map (fun v => (x.scope, v))) ∧
    ((d.flatMap (visitDef s)).foldl posStep st).defs = st.defs ++
      d.flatMap (fun x => ((innerOf s x).flatMap (fun e => vdefEv e.2)).map (fun v => (x.scope, v))) ∧
    ((d.flatMap (visitDef s)).foldl posStep st).spreads = st.spreads ++
      d.flatMap (fun x => ((innerOf s x).flatMap (fun e => spreadEv e.2)).map (fun v => (x.scope, v))) := by
  induction d generalizing st with
  | nil => simp
  | cons x xs ih =>
    rw [List.flatMap_cons, List.foldl_append]
    obtain ⟨h1, h2, h3⟩ := ih ((visitDef s x).foldl posStep st)
    rw [h1, h2, h3, posFold_def]
    simp [List.flatMap_cons]

/-- What the rule remembers at the end. -/
def posEnd (s : Schema) (d : Doc) : PosSt := (visit s d).foldl posStep {}

theorem posEnd_eq (s : Schema) (d : Doc) : posEnd s d = (d.flatMap (visitDef s)).foldl posStep {} := by
  unfold posEnd visit
  rw [List.foldl_cons, List.foldl_append]
  rfl

theorem posEnd_spreads (s : Schema) (d : Doc) : (posEnd s d).spreads = (varEnd s d).spreads := by
  rw [posEnd_eq, (posFold_defs s d {}).2.2, varEnd_eq, (varFold_defs s d {}).2]

theorem mem_innerOf (s : Schema) (x : Def) (e : Ctx × Ev) (he : e.2.outer = false) :
    e ∈ innerOf s x ↔ e ∈ visitDef s x := by
  cases x with
  | op o =>
    have : visitDef s (.op o) = (startCtx (rootOf s o.kind), .op o) :: innerOf s (.op o) := rfl
    rw [this, List.mem_cons]
    constructor
    · exact Or.inr
    · rintro (h | h)
      · subst h; simp [Ev.outer] at he
      · exact h
  | frag f =>
    have : visitDef s (.frag f) =
        (startCtx (some f.cond), .frag f) :: (innerOf s (.frag f) ++ [(startCtx (some f.cond), .leaveFrag)]) := rfl
    rw [this, List.mem_cons, List.mem_append, List.mem_singleton]
    constructor
    · exact fun h => Or.inr (Or.inl h)
    · rintro (h | h | h)
      · subst h; simp [Ev.outer] at he
      · exact h
      · subst h; simp [Ev.outer] at he

theorem mem_uses (s : Schema) (d : Doc) (sc : Scope) (n : Name) (t : Ty) (b : Bool) :
    (sc, n, t, b) ∈ (posEnd s d).uses ↔
      ∃ x ∈ d, x.scope = sc ∧ ∃ u a v, Slot s [x] u a v ∧ SeenAt s n t b u a v := by
  rw [posEnd_eq, (posFold_defs s d {}).1, List.nil_append, List.mem_flatMap]
  have key : ∀ x, (n, t, b) ∈ (innerOf s x).flatMap useEv ↔
      ∃ u a v, Slot s [x] u a v ∧ SeenAt s n t b u a v := by
    intro x
    rw [← var_visitDef, List.mem_flatMap]
    constructor
    · rintro ⟨⟨c, e⟩, he, h⟩
      cases e <;> simp [useEv] at h
      cases hc : c.input with
      | none => simp [hc] at h
      | some u =>
        simp [hc] at h
        obtain ⟨rfl, rfl, rfl⟩ := h
        exact ⟨c, (mem_innerOf s x _ rfl).1 he, hc, rfl⟩
    · rintro ⟨c, he, h1, h2⟩
      exact ⟨_, (mem_innerOf s x _ rfl).2 he, by simp [useEv, h1, h2]⟩
  constructor
  · rintro ⟨x, hx, h⟩
    obtain ⟨w, hw, he⟩ := List.mem_map.1 h
    cases he
    exact ⟨x, hx, rfl, (key x).1 hw⟩
  · rintro ⟨x, hx, rfl, h⟩
    exact ⟨x, hx, List.mem_map.2 ⟨_, (key x).2 h, rfl⟩⟩

theorem mem_defs (s : Schema) (d : Doc) (sc : Scope) (v : VarDef) :
    (sc, v) ∈ (posEnd s d).defs ↔ ∃ o ∈ ops d, sc = .op o.name ∧ v ∈ o.vars := by
  rw [posEnd_eq, (posFold_defs s d {}).2.1, List.nil_append, List.mem_flatMap]
  have key : ∀ x, v ∈ (innerOf s x).flatMap (fun e => vdefEv e.2) ↔ ∃ o, x = .op o ∧ v ∈ o.vars := by
    intro x
    rw [← varDef_innerOf s, List.mem_flatMap]
    constructor
    · rintro ⟨⟨c, e⟩, he, h⟩
      cases e <;> simp [vdefEv] at h
      subst h
      exact ⟨c, (mem_innerOf s x _ rfl).1 he⟩
    · rintro ⟨c, he⟩
      exact ⟨_, (mem_innerOf s x _ rfl).2 he, by simp [vdefEv]⟩
  constructor
  · rintro ⟨x, hx, h⟩
    obtain ⟨w, hw, he⟩ := List.mem_map.1 h
    cases he
    obtain ⟨o, rfl, hv⟩ := (key x).1 hw
    exact ⟨o, (mem_ops d o).2 hx, rfl, hv⟩
  · rintro ⟨o, ho, rfl, hv⟩
    exact ⟨.op o, (mem_ops d o).1 ho, List.mem_map.2 ⟨v, (key _).2 ⟨o, rfl, hv⟩, rfl⟩⟩

/-! ## Types that go together -/

theorem isSubtype_iff (s : Schema) (a b : Ty)
    (hb : ∀ t, s.typeByName b.inner = some t → t.isAbstract = false) :
    isSubtype s a b = true ↔ Compatible a b := by
  have hnamed : ∀ n m, (∀ t, s.typeByName m = some t → t.isAbstract = false) → namedSub s n m = false := by
    intro n m h
    unfold namedSub
    cases s.typeByName n with
    | none => rfl
    | some x =>
      cases hm : s.typeByName m with
      | none => rfl
      | some y => simp [h y hm]
  induction a generalizing b with
  | named n =>
    cases b with
    | named m =>
      rw [isSubtype, hnamed n m hb]
      simp
      constructor
      · rintro rfl; exact .named n
      · intro h; cases h; rfl
    | list b => simp only [isSubtype]; exact ⟨(nomatch ·), (nomatch ·)⟩
    | nonNull b => simp only [isSubtype]; exact ⟨(nomatch ·), (nomatch ·)⟩
  | list a ih =>
    cases b with
    | named m => simp only [isSubtype]; exact ⟨(nomatch ·), (nomatch ·)⟩
    | list b =>
      simp only [isSubtype]
      exact (ih b hb).trans ⟨.list, fun h => by cases h; assumption⟩
    | nonNull b => simp only [isSubtype]; exact ⟨(nomatch ·), (nomatch ·)⟩
  | nonNull a ih =>
    cases b with
    | named m =>
      simp only [isSubtype]
      exact (ih _ hb).trans ⟨fun h => .drop h (by simp), fun h => by cases h; assumption⟩
    | list b =>
      simp only [isSubtype]
      exact (ih _ hb).trans ⟨fun h => .drop h (by simp), fun h => by cases h; assumption⟩
    | nonNull b =>
      simp only [isSubtype]
      refine (ih b hb).trans ⟨.nonNull, fun h => ?_⟩
      · cases h with
        | nonNull h => exact h
        | drop _ h => exact absurd rfl (h _)

theorem compatible_drop {a u : Ty} (hu : ∀ w, u ≠ .nonNull w) :
    Compatible (.nonNull a) u ↔ Compatible a u := by
  constructor
  · intro h
    cases h with
    | nonNull _ => exact absurd rfl (hu _)
    | drop h _ => exact h
  · exact fun h => .drop h hu

theorem compatible_both {a u : Ty} :
    Compatible (.nonNull a) (.nonNull u) ↔ Compatible a u := by
  constructor
  · intro h
    cases h with
    | nonNull h => exact h
    | drop _ h => exact absurd rfl (h _)
  · exact .nonNull

theorem compatible_null {a u : Ty} (ha : ∀ w, a ≠ .nonNull w) : ¬ Compatible a (.nonNull u) := by
  intro h
  cases h with
  | nonNull _ => exact ha _ rfl
  | drop _ h => exact h _ rfl

/-- The two types that are compared say what is asked. -/
theorem allowed_iff (v : VarDef) (t : Ty) (b : Bool) (ht : t.Once) :
    Compatible (varType v) (placeType t b) ↔ Allowed v t b := by
  by_cases hn : ∃ a, v.ty = .nonNull a
  · obtain ⟨a, hv⟩ := hn
    have h1 : varType v = .nonNull a := by simp [varType, hv]
    rw [h1]
    cases t with
    | named n => simp [placeType, Allowed, hv]
    | list u => simp [placeType, Allowed, hv]
    | nonNull u =>
      simp only [Allowed, hv]
      cases b with
      | false => simp [placeType]
      | true =>
        simp only [placeType]
        rw [compatible_drop ht.1, compatible_both]
  · have hnn : ∀ w, v.ty ≠ .nonNull w := fun w h => hn ⟨w, h⟩
    have hA : ∀ u, Allowed v (.nonNull u) b ↔
        (b = true ∨ ∃ x, v.default_ = some x ∧ x ≠ .null) ∧ Compatible v.ty u := by
      intro u
      unfold Allowed
      cases hv : v.ty with
      | nonNull a => exact absurd hv (hnn a)
      | named n => rfl
      | list a => rfl
    have hB : ∀ u, (∀ w, u ≠ .nonNull w) → (Allowed v u b ↔ Compatible v.ty u) := by
      intro u hu
      unfold Allowed
      cases u with
      | nonNull a => exact absurd rfl (hu a)
      | named n => cases hv : v.ty <;> simp
      | list a => cases hv : v.ty <;> simp
    by_cases hd : ∃ x, v.default_ = some x ∧ x ≠ .null
    · have h1 : varType v = .nonNull v.ty := by
        obtain ⟨x, hx, hx0⟩ := hd
        unfold varType
        rw [hx]
        cases hv : v.ty with
        | nonNull a => exact absurd hv (hnn a)
        | named n => cases x <;> simp_all
        | list a => cases x <;> simp_all
      rw [h1]
      cases t with
      | named n =>
        rw [hB _ (by simp), show placeType (.named n) b = .named n by simp [placeType],
          compatible_drop (by simp)]
      | list u =>
        rw [hB _ (by simp), show placeType (.list u) b = .list u by simp [placeType],
          compatible_drop (by simp)]
      | nonNull u =>
        rw [hA]
        cases b with
        | false =>
          rw [show placeType (.nonNull u) false = .nonNull u by simp [placeType], compatible_both]
          exact ⟨fun h => ⟨Or.inr hd, h⟩, fun h => h.2⟩
        | true =>
          rw [show placeType (.nonNull u) true = u by simp [placeType], compatible_drop ht.1]
          exact ⟨fun h => ⟨Or.inr hd, h⟩, fun h => h.2⟩
    · have h1 : varType v = v.ty := by
        unfold varType
        cases hx : v.default_ with
        | none => cases hv : v.ty <;> simp
        | some x =>
          have : x = .null := Classical.byContradiction (fun h => hd ⟨x, hx, h⟩)
          subst this
          cases hv : v.ty <;> simp
      rw [h1]
      cases t with
      | named n => rw [hB _ (by simp), show placeType (.named n) b = .named n by simp [placeType]]
      | list u => rw [hB _ (by simp), show placeType (.list u) b = .list u by simp [placeType]]
      | nonNull u =>
        rw [hA]
        cases b with
        | false =>
          rw [show placeType (.nonNull u) false = .nonNull u by simp [placeType]]
          constructor
          · intro h; exact absurd h (compatible_null hnn)
          · rintro ⟨h | h, _⟩
            · cases h
            · exact absurd h hd
        | true =>
          rw [show placeType (.nonNull u) true = u by simp [placeType]]
          exact ⟨fun h => ⟨Or.inl rfl, h⟩, fun h => h.2⟩

/-! ## The places have types of inputs -/

theorem ops_single (x : Def) {o : Op} (h : o ∈ ops [x]) : x = .op o := by
  have := (mem_ops _ o).1 h
  rw [List.mem_singleton] at this
  exact this.symm

theorem inputTy_item {s : Schema} {u : Ty} (h : InputTy s (.list u)) : InputTy s u :=
  ⟨h.1, fun n x hw hx => h.2 n x (.list hw) hx⟩

theorem seen_input {s : Schema} {d : Doc} (hi : InputsGood s d) {n : Name} {t u : Ty} {b a : Bool} {v : Val}
    (h : SeenAt s n t b u a v) (hu : InputTy s u) : InputTy s t := by
  induction h with
  | self => exact hu
  | item _ _ ih => exact ih (inputTy_item hu)
  | pair _ _ ht hf _ ih => exact ih (hi.inputs _ _ _ ht _ (List.mem_of_find?_eq_some hf))

theorem field_mem {s : Schema} {n : Name} {t : TypeDef} (h : s.typeByName n = some t) : t ∈ s.types := by
  exact List.mem_of_find?_eq_some h

theorem on_mem {s : Schema} {p q : Option TypeDef} {ss : List Sel} {x : Sel} (h : On s p ss q x)
    (hp : ∀ t, p = some t → t ∈ s.types) : ∀ t, q = some t → t ∈ s.types := by
  induction h with
  | here _ => exact hp
  | field _ _ ih =>
    apply ih
    intro t ht
    unfold typeOfField at ht
    obtain ⟨f, _, ht⟩ := Option.bind_eq_some_iff.1 ht
    exact field_mem ht
  | cond _ _ ih => exact ih (fun t ht => field_mem ht)
  | plain _ _ ih => exact ih hp

theorem def_on_mem (s : Schema) (x : Def) : ∀ t, x.on s = some t → t ∈ s.types := by
  intro t ht
  cases x with
  | op o =>
    simp only [Def.on] at ht
    cases hk : o.kind with
    | query => rw [hk] at ht; exact field_mem ht
    | mutation =>
      rw [hk] at ht
      obtain ⟨_, _, ht⟩ := Option.bind_eq_some_iff.1 ht
      exact field_mem ht
    | subscription =>
      rw [hk] at ht
      obtain ⟨_, _, ht⟩ := Option.bind_eq_some_iff.1 ht
      exact field_mem ht
  | frag f => exact field_mem ht

theorem given_input {s : Schema} {d e : Doc} (hi : InputsGood s d) {defs : List InputDef} {args : Args}
    (h : Given s e (some defs) args) : ∀ a ∈ defs, InputTy s a.ty := by
  generalize ho : some defs = o at h
  cases h with
  | @field q al n args ds sub hs =>
    intro a ha
    cases q with
    | none => simp at ho
    | some q =>
      simp only [Option.bind_some] at ho
      obtain ⟨f, hf, rfl⟩ := Option.map_eq_some_iff.1 ho.symm
      obtain ⟨x, _, hon⟩ := hs
      exact hi.fields q (on_mem hon (def_on_mem s x) q rfl) _ _ hf a ha
  | dir _ _ =>
    intro a ha
    obtain ⟨f, hf, rfl⟩ := Option.map_eq_some_iff.1 ho.symm
    exact hi.dirs _ _ hf a ha

theorem slot_input {s : Schema} {d : Doc} (hi : InputsGood s d) {x : Def} (hx : x ∈ d) {u : Ty} {a : Bool}
    {v : Val} (h : Slot s [x] u a v) : InputTy s u := by
  cases h with
  | arg hg _ hb => exact given_input hi hg _ (List.mem_of_find?_eq_some hb)
  | default_ ho hv _ =>
    have := ops_single x ho
    subst this
    exact hi.vars _ ((mem_ops d _).2 hx) _ hv

/-- The rule of variables in allowed positions. -/
theorem variablesInAllowedPosition_iff (s : Schema) (d : Doc) (h : OperationsNamed d)
    (hv : ∀ o ∈ ops d, (o.vars.map (·.name)).Nodup) (hi : InputsGood s d) :
    variablesInAllowedPosition s d = false ↔
      ∀ o ∈ ops d, ∀ n t b, UsesAt s d o (SeenAt s) n t b → ∀ v ∈ o.vars, v.name = n → Allowed v t b := by
  have hdefs : ∀ o ∈ ops d, ∀ v, v ∈ (((posEnd s d).defs.filter (fun e => e.1 = .op o.name)).map (·.2)) ↔
      v ∈ o.vars := by
    intro o ho v
    constructor
    · intro hm
      obtain ⟨⟨sc, w⟩, hw, rfl⟩ := List.mem_map.1 hm
      rw [List.mem_filter, decide_eq_true_eq] at hw
      obtain ⟨hw, hsc⟩ := hw
      simp only at hsc
      subst hsc
      obtain ⟨p, hp, hn, hpv⟩ := (mem_defs s d _ w).1 hw
      have : p = o := ops_unique h ho hp (by injection hn.symm)
      subst this
      exact hpv
    · intro hm
      exact List.mem_map.2 ⟨(.op o.name, v), List.mem_filter.2 ⟨(mem_defs s d _ v).2 ⟨o, ho, rfl, hm⟩, by simp⟩, rfl⟩
  have hfind : ∀ o ∈ ops d, ∀ n v, v ∈ o.vars → v.name = n →
      (((posEnd s d).defs.filter (fun e => e.1 = .op o.name)).map (·.2)).find? (fun v => v.name = n) = some v := by
    intro o ho n v hvm hn
    cases hf : (((posEnd s d).defs.filter (fun e => e.1 = .op o.name)).map (·.2)).find? (fun v => v.name = n) with
    | none =>
      rw [List.find?_eq_none] at hf
      exact absurd hn (by simpa using hf v ((hdefs o ho v).2 hvm))
    | some w =>
      have hw := (hdefs o ho w).1 (List.mem_of_find?_eq_some hf)
      have hwn := List.find?_some hf
      simp only [decide_eq_true_eq] at hwn
      rw [List.inj_on_of_nodup_map (hv o ho) hw hvm (hwn.trans hn.symm)]
  have hbad : ∀ o ∈ ops d, ∀ n t b, InputTy s t →
      (badUse s (((posEnd s d).defs.filter (fun e => e.1 = .op o.name)).map (·.2)) (n, t, b) = false ↔
        ∀ v ∈ o.vars, v.name = n → Allowed v t b) := by
    intro o ho n t b hit
    have hsub : ∀ v, isSubtype s (varType v) (placeType t b) = true ↔ Allowed v t b := by
      intro v
      rw [← allowed_iff v t b hit.1]
      apply isSubtype_iff
      intro x hx
      have hin : (placeType t b).inner = t.inner := by
        cases t <;> cases b <;> simp [placeType, Ty.inner]
      rw [hin] at hx
      have := hit.2 t.inner x ((wraps_iff _ _).2 rfl) hx
      cases x <;> simp_all [Composite, TypeDef.isAbstract]
    unfold badUse
    constructor
    · intro hb v hvm hn
      simp only [hfind o ho n v hvm hn, Bool.not_eq_false'] at hb
      exact (hsub v).1 hb
    · intro hall
      cases hf : (((posEnd s d).defs.filter (fun e => e.1 = .op o.name)).map (·.2)).find? (fun v => v.name = n) with
      | none => rfl
      | some w =>
        have hw := (hdefs o ho w).1 (List.mem_of_find?_eq_some hf)
        have hwn := List.find?_some hf
        simp only [decide_eq_true_eq] at hwn
        simp only [Bool.not_eq_false']
        exact (hsub w).2 (hall w hw hwn)
  unfold variablesInAllowedPosition
  simp only
  change (((posEnd s d).defs.map (·.1)).any (fun from_ =>
    (search (fun sc => (at_ (posEnd s d).spreads sc).map .frag) ((posEnd s d).spreads.length + 1) [] from_).any (fun sc =>
      ((posEnd s d).uses.filter (fun e => e.1 = sc)).any (fun u =>
        badUse s (((posEnd s d).defs.filter (fun e => e.1 = from_)).map (·.2)) u.2)))) = false ↔ _
  rw [posEnd_spreads, List.any_eq_false]
  constructor
  · intro hh o ho n t b hu v hvm hn
    have h1 := hh (.op o.name) (List.mem_map.2 ⟨_, (mem_defs s d _ v).2 ⟨o, ho, rfl, hvm⟩, rfl⟩)
    rw [Bool.not_eq_true, List.any_eq_false] at h1
    obtain ⟨x, hx, hxo, u, a, w, hsl, hse⟩ := hu
    have hsc : x.scope ∈ scopesFrom (varEnd s d) (.op o.name) := by
      rw [scopes_op s d o ho (fun p hp hn => ops_unique h ho hp hn)]
      rcases hxo with rfl | ⟨f, rfl, hr⟩
      · exact Or.inl rfl
      · exact Or.inr ⟨_, rfl, hr⟩
    have h2 := h1 _ hsc
    rw [Bool.not_eq_true, List.any_eq_false] at h2
    have h3 := h2 (x.scope, n, t, b) (List.mem_filter.2
      ⟨(mem_uses s d _ n t b).2 ⟨x, hx, rfl, u, a, w, hsl, hse⟩, by simp⟩)
    rw [Bool.not_eq_true] at h3
    exact (hbad o ho n t b (seen_input hi hse (slot_input hi hx hsl))).1 h3 v hvm hn
  · intro hh sc hsc
    obtain ⟨⟨sc', w⟩, hw, rfl⟩ := List.mem_map.1 hsc
    obtain ⟨o, ho, rfl, hwo⟩ := (mem_defs s d _ w).1 hw
    rw [Bool.not_eq_true, List.any_eq_false]
    intro y hy
    rw [Bool.not_eq_true, List.any_eq_false]
    rintro ⟨y', n, t, b⟩ hyu
    rw [List.mem_filter, decide_eq_true_eq] at hyu
    obtain ⟨hyu, rfl⟩ := hyu
    obtain ⟨x, hx, hxs, u, a, z, hsl, hse⟩ := (mem_uses s d _ n t b).1 hyu
    rw [Bool.not_eq_true, hbad o ho n t b (seen_input hi hse (slot_input hi hx hsl))]
    refine hh o ho n t b ⟨x, hx, ?_, u, a, z, hsl, hse⟩
    change y' ∈ scopesFrom (varEnd s d) (.op o.name) at hy
    rcases (scopes_op s d o ho (fun p hp hn => ops_unique h ho hp hn) y').1 hy with rfl | ⟨m, rfl, hr⟩
    · obtain ⟨p, rfl, hp⟩ := scope_op hxs
      exact Or.inl (by rw [ops_unique h ho ((mem_ops d p).2 hx) hp])
    · obtain ⟨f, rfl, rfl⟩ := scope_frag hxs
      exact Or.inr ⟨f, rfl, hr⟩

/-! ## Documents where the rule sees every variable -/

theorem seen_varAt {s : Schema} {n : Name} {t u : Ty} {b a : Bool} {v : Val}
    (h : SeenAt s n t b u a v) : VarAt s n t b u a v := by
  induction h with
  | self => exact .self
  | item hx _ ih => exact .item hx ih
  | pair hp hw ht hf _ ih => exact .pair hp hw ht hf ih

theorem varAt_seen {s : Schema} {d : Doc} (hl : ∀ t vs, Place s d t (.list vs) → ∃ u, t = .list u)
    {n : Name} {t u : Ty} {b a : Bool} {v : Val}
    (h : VarAt s n t b u a v) (hp : Place s d u v) : SeenAt s n t b u a v := by
  induction h with
  | self => exact .self
  | item hx _ ih => exact .item hx (ih (.item hp hx))
  | required hx _ _ =>
    obtain ⟨u, hu⟩ := hl _ _ hp
    cases hu
  | pair hq hw ht hf _ ih => exact .pair hq hw ht hf (ih (.pair hp hw ht hq hf))

theorem given_mono {s : Schema} {d : Doc} {x : Def} (hx : x ∈ d) {defs : Option (List InputDef)} {args : Args}
    (h : Given s [x] defs args) : Given s d defs args := by
  have hop : ∀ o, o ∈ ops [x] → o ∈ ops d := fun o ho => by
    have := ops_single x ho; subst this; exact (mem_ops d _).2 hx
  have hmem : ∀ y, y ∈ [x] → y ∈ d := fun y hy => by rw [List.mem_singleton] at hy; subst hy; exact hx
  cases h with
  | field hs =>
    obtain ⟨y, hy, h⟩ := hs
    exact .field ⟨y, hmem y hy, h⟩
  | @dir l ds y hc hm =>
    refine .dir (?_ : Carries d l ds) hm
    cases hc with
    | query ho hk => exact .query (hop _ ho) hk
    | mutation ho hk => exact .mutation (hop _ ho) hk
    | subscription ho hk => exact .subscription (hop _ ho) hk
    | fragment hf => exact .fragment ((mem_frags d _).2 (hmem _ ((mem_frags _ _).1 hf)))
    | field hy h => exact .field (hmem _ hy) h
    | spread hy h => exact .spread (hmem _ hy) h
    | inline hy h => exact .inline (hmem _ hy) h

theorem slot_expected {s : Schema} {d : Doc} {x : Def} (hx : x ∈ d) {u : Ty} {a : Bool} {v : Val}
    (h : Slot s [x] u a v) : Expected s d u v := by
  cases h with
  | arg hg ha hb => exact .arg (given_mono hx hg) ha hb
  | default_ ho hv hz =>
    have := ops_single x ho
    subst this
    exact .default_ ((mem_ops d _).2 hx) hv hz

theorem usesAt_seen {s : Schema} {d : Doc} (hl : ∀ t vs, Place s d t (.list vs) → ∃ u, t = .list u)
    (o : Op) (n : Name) (t : Ty) (b : Bool) :
    UsesAt s d o (SeenAt s) n t b ↔ UsesAt s d o (VarAt s) n t b := by
  constructor
  · rintro ⟨x, hx, ho, u, a, v, hs, h⟩
    exact ⟨x, hx, ho, u, a, v, hs, seen_varAt h⟩
  · rintro ⟨x, hx, ho, u, a, v, hs, h⟩
    exact ⟨x, hx, ho, u, a, v, hs, varAt_seen hl h (.top (slot_expected hx hs))⟩

end Verif.Valid
