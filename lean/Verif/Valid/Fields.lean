import Verif.Valid.Types
import Verif.Valid.Props

/-!
# Lemmas about the rules on fields, types of fragments, and single events
-/

namespace Verif.Valid

theorem isLeaf_iff (t : TypeDef) : t.isLeaf = true ↔ Leaf t := by
  cases t <;> simp [TypeDef.isLeaf, Leaf]

theorem isComposite_iff (t : TypeDef) : t.isComposite = true ↔ Composite t := by
  cases t <;> simp [TypeDef.isComposite, Composite]

theorem selects_iff (s : Schema) (d : Doc) (q : Option TypeDef) (y : Sel) :
    Selects s d q y ↔ ∃ x ∈ d, ∃ c, DefAt s x c y ∧ c.parent = q := by
  constructor
  · rintro ⟨x, hx, h⟩; exact ⟨x, hx, (defAt_on s x q y).2 h⟩
  · rintro ⟨x, hx, h⟩; exact ⟨x, hx, (defAt_on s x q y).1 h⟩

theorem fieldsOnCorrectType_iff (s : Schema) (d : Doc) :
    fieldsOnCorrectType s d = false ↔
      (∀ o ∈ ops d, o.kind = .subscription → ∀ al args ds sub, Sel.field al "__typename" args ds sub ∉ o.sels) ∧
      ∀ q al n args ds sub, Selects s d (some q) (.field al n args ds sub) →
        q.fieldByName n = none → Reserved n := by
  have hst : ∀ o : Op, (o.kind == .subscription && o.sels.any isTypename) = false ↔
      (o.kind = .subscription → ∀ al args ds sub, Sel.field al "__typename" args ds sub ∉ o.sels) := by
    intro o
    rw [Bool.and_eq_false_iff, List.any_eq_false]
    constructor
    · rintro (h | h) hk al args ds sub hm
      · rw [hk] at h; cases h
      · exact h _ hm (by simp [isTypename])
    · intro h
      by_cases hk : o.kind = .subscription
      · refine Or.inr (fun y hy hi => ?_)
        cases y <;> simp [isTypename] at hi
        subst hi
        exact h hk _ _ _ _ hy
      · exact Or.inl (by simpa using hk)
  have hf : ∀ (p : Option TypeDef) (n : Name), (match p with
        | some p => !reserved n && (p.fieldByName n).isNone
        | none => false) = false ↔ ∀ q, p = some q → q.fieldByName n = none → Reserved n := by
    intro p n
    cases p with
    | none => simp
    | some p =>
      simp only [Bool.and_eq_false_iff, Bool.not_eq_false', Option.some.injEq, forall_eq']
      have : Reserved n ↔ reserved n = true := (reserved_iff n).symm
      rw [this]
      cases p.fieldByName n <;> simp
  unfold fieldsOnCorrectType
  rw [any_visit s d _ (fun _ => rfl) (fun _ => rfl)]
  constructor
  · intro h
    constructor
    · intro o ho
      obtain ⟨c, hc⟩ := (op_visitDef s (.op o) o).2 rfl
      exact (hst o).1 (h _ ((mem_ops d o).1 ho) _ hc)
    · intro q al n args ds sub hs
      obtain ⟨x, hx, c, hc, hp⟩ := (selects_iff s d _ _).1 hs
      have := h x hx _ ((field_visitDef s x (inField c n) al n args ds sub).2 ⟨c, hc, rfl⟩)
      exact (hf (inField c n).parent n).1 this q hp
  · rintro ⟨h1, h2⟩ x hx ⟨c, e⟩ he
    cases e <;> try rfl
    · rename_i o
      have := (op_visitDef s x o).1 ⟨c, he⟩
      subst this
      exact (hst o).2 (h1 o ((mem_ops d o).2 hx))
    · rename_i al n args ds sub
      obtain ⟨c2, hc, rfl⟩ := (field_visitDef s x c al n args ds sub).1 he
      refine (hf (inField c2 n).parent n).2 (fun q hq => ?_)
      exact h2 q al n args ds sub ((selects_iff s d _ _).2 ⟨x, hx, c2, hc, hq⟩)

theorem leafFieldSelections_iff (s : Schema) (d : Doc) :
    leafFieldSelections s d = false ↔
      ∀ q al n args ds sub, Selects s d (some q) (.field al n args ds sub) →
        ∀ f t, q.fieldByName n = some f → s.typeByName f.ty.inner = some t → (Leaf t ↔ sub = []) := by
  have hf : ∀ (t : Option TypeDef) (sub : List Sel), (match t with
        | some t => if t.isLeaf then !sub.isEmpty else sub.isEmpty
        | none => false) = false ↔ ∀ u, t = some u → (Leaf u ↔ sub = []) := by
    intro t sub
    cases t with
    | none => simp
    | some t =>
      simp only [Option.some.injEq, forall_eq', ← isLeaf_iff]
      cases t.isLeaf <;> cases sub <;> simp
  unfold leafFieldSelections
  rw [any_visit s d _ (fun _ => rfl) (fun _ => rfl)]
  constructor
  · intro h q al n args ds sub hs f t hq ht
    obtain ⟨x, hx, c, hc, hp⟩ := (selects_iff s d _ _).1 hs
    have := h x hx _ ((field_visitDef s x (inField c n) al n args ds sub).2 ⟨c, hc, rfl⟩)
    refine (hf ((inField c n).cur s) sub).1 this t ?_
    rw [cur_inField, hp]
    simp [typeOfField, hq, ht]
  · rintro h x hx ⟨c, e⟩ he
    cases e <;> try rfl
    rename_i al n args ds sub
    obtain ⟨c2, hc, rfl⟩ := (field_visitDef s x c al n args ds sub).1 he
    refine (hf ((inField c2 n).cur s) sub).2 (fun t ht => ?_)
    rw [cur_inField] at ht
    unfold typeOfField at ht
    cases hp : c2.parent with
    | none => simp [hp] at ht
    | some q =>
      cases hq : q.fieldByName n with
      | none => simp [hp, hq] at ht
      | some f =>
        simp [hp, hq] at ht
        exact h q al n args ds sub ((selects_iff s d _ _).2 ⟨x, hx, c2, hc, hp⟩) f t hq ht

theorem badCond_iff (s : Schema) (n : Name) : badCond s n = false ↔ ConditionChecked s n := by
  unfold badCond ConditionChecked
  cases s.typeByName n with
  | none =>
    simp only [Bool.not_eq_false']
    exact reserved_iff n
  | some t => simp only [Bool.not_eq_false']; exact isComposite_iff t

theorem fragmentTypes_iff (s : Schema) (d : Doc) :
    fragmentTypes s d = false ↔
      (∀ f ∈ frags d, ConditionChecked s f.cond) ∧
      (∀ x ∈ d, ∀ c ds sub, Inside (.inline (some c) ds sub) x.sels → ConditionChecked s c) := by
  unfold fragmentTypes
  rw [any_visit s d _ (fun _ => rfl) (fun _ => rfl)]
  constructor
  · intro h
    constructor
    · intro f hf
      obtain ⟨c, hc⟩ := (frag_visitDef s (.frag f) f).2 rfl
      exact (badCond_iff s _).1 (h _ ((mem_frags d f).1 hf) _ hc)
    · intro x hx c ds sub hi
      obtain ⟨c2, hc⟩ := (defAt_inside (s := s)).2 hi
      exact (badCond_iff s _).1 (h x hx _ ((inline_visitDef s x _ (some c) ds).2 ⟨c2, sub, hc, rfl⟩))
  · rintro ⟨h1, h2⟩ x hx ⟨c, e⟩ he
    cases e <;> try rfl
    · rename_i f
      have := (frag_visitDef s x f).1 ⟨c, he⟩
      subst this
      exact (badCond_iff s _).2 (h1 f ((mem_frags d f).2 hx))
    · rename_i cond ds
      cases cond with
      | none => rfl
      | some n =>
        obtain ⟨c2, sub, hc, _⟩ := (inline_visitDef s x c (some n) ds).1 he
        exact (badCond_iff s _).2 (h2 x hx n ds sub (defAt_inside.1 ⟨c2, hc⟩))

/-! ## Directives that stand once -/

/-- The places where the directives of a selection stand. -/
def selLoc : Sel → Loc
  | .field _ _ _ _ _ => .field
  | .spread _ _ => .fragmentSpread
  | .inline _ _ _ => .inlineFragment

/-- The place that a definition is. -/
def Def.loc : Def → Loc
  | .op o => o.kind.loc
  | .frag _ => .fragmentDefinition

theorem carries_iff (d : Doc) (l : Loc) (ds : List Dir) :
    Carries d l ds ↔ (∃ x ∈ d, l = x.loc ∧ ds = x.dirs) ∨
      ∃ x ∈ d, ∃ y, Inside y x.sels ∧ l = selLoc y ∧ ds = selDirs y := by
  constructor
  · intro h
    cases h with
    | query ho hk => exact Or.inl ⟨_, (mem_ops d _).1 ho, by simp [Def.loc, hk, OpKind.loc], rfl⟩
    | mutation ho hk => exact Or.inl ⟨_, (mem_ops d _).1 ho, by simp [Def.loc, hk, OpKind.loc], rfl⟩
    | subscription ho hk => exact Or.inl ⟨_, (mem_ops d _).1 ho, by simp [Def.loc, hk, OpKind.loc], rfl⟩
    | fragment hf => exact Or.inl ⟨_, (mem_frags d _).1 hf, rfl, rfl⟩
    | field hx h => exact Or.inr ⟨_, hx, _, h, rfl, rfl⟩
    | spread hx h => exact Or.inr ⟨_, hx, _, h, rfl, rfl⟩
    | inline hx h => exact Or.inr ⟨_, hx, _, h, rfl, rfl⟩
  · rintro (⟨x, hx, rfl, rfl⟩ | ⟨x, hx, y, h, rfl, rfl⟩)
    · cases x with
      | op o =>
        have ho := (mem_ops d o).2 hx
        simp only [Def.loc, Def.dirs]
        cases hk : o.kind with
        | query => exact .query ho hk
        | mutation => exact .mutation ho hk
        | subscription => exact .subscription ho hk
      | frag f => exact .fragment ((mem_frags d f).2 hx)
    · cases y with
      | field => exact .field hx h
      | spread => exact .spread hx h
      | inline => exact .inline hx h

/-- The step of `check_duplicate_directive`. -/
def dupStep (s : Schema) (st : List Name × Bool) (x : Dir) : List Name × Bool :=
  match s.dirByName x.name with
  | none => st
  | some def_ =>
      if def_.repeatable then st
      else if st.1.contains x.name then (st.1, true)
      else (st.1 ++ [x.name], st.2)

theorem dup_fold (s : Schema) (ds : List Dir) (seen : List Name) (b : Bool) :
    (ds.foldl (dupStep s) (seen, b)).2 = false ↔ b = false ∧
      ∀ n def_, s.dirByName n = some def_ → def_.repeatable = false →
        (ds.map (·.name)).count n ≤ 1 ∧ (n ∈ seen → n ∉ ds.map (·.name)) := by
  induction ds generalizing seen b with
  | nil => simp
  | cons x xs ih =>
    rw [List.foldl_cons, dupStep]
    cases hd : s.dirByName x.name with
    | none =>
      simp only
      rw [ih]
      refine and_congr Iff.rfl (forall_congr' fun n => forall_congr' fun def_ => forall_congr' fun hn =>
        forall_congr' fun _ => ?_)
      have hne : x.name ≠ n := by rintro rfl; simp [hd] at hn
      rw [List.map_cons, List.count_cons_of_ne hne, List.mem_cons]
      simp [Ne.symm hne]
    | some def1 =>
      simp only
      by_cases hr : def1.repeatable = true
      · rw [if_pos hr, ih]
        refine and_congr Iff.rfl (forall_congr' fun n => forall_congr' fun def_ => forall_congr' fun hn =>
          forall_congr' fun hr2 => ?_)
        have hne : x.name ≠ n := by
          rintro rfl
          rw [hd] at hn; cases hn; simp [hr] at hr2
        rw [List.map_cons, List.count_cons_of_ne hne, List.mem_cons]
        simp [Ne.symm hne]
      · rw [if_neg hr]
        by_cases hs : seen.contains x.name = true
        · rw [if_pos hs, ih]
          have hs' : x.name ∈ seen := by simpa using hs
          constructor
          · rintro ⟨h, _⟩; cases h
          · rintro ⟨_, h⟩
            exact absurd (by simp) ((h x.name def1 hd (by simpa using hr)).2 hs')
        · rw [if_neg hs, ih]
          have hs' : x.name ∉ seen := by simpa using hs
          constructor
          · rintro ⟨hb, h⟩
            refine ⟨hb, fun n def_ hn hr2 => ?_⟩
            obtain ⟨h1, h2⟩ := h n def_ hn hr2
            by_cases hne : x.name = n
            · subst hne
              have h3 := h2 (by simp)
              refine ⟨?_, fun h => absurd h hs'⟩
              rw [List.map_cons, List.count_cons_self, List.count_eq_zero.2 h3]; exact Nat.le_refl _
            · rw [List.map_cons, List.count_cons_of_ne hne, List.mem_cons]
              refine ⟨h1, fun hm => ?_⟩
              rintro (h | h)
              · exact hne h.symm
              · exact h2 (by simp [hm]) h
          · rintro ⟨hb, h⟩
            refine ⟨hb, fun n def_ hn hr2 => ?_⟩
            obtain ⟨h1, h2⟩ := h n def_ hn hr2
            by_cases hne : x.name = n
            · subst hne
              rw [List.map_cons, List.count_cons_self] at h1
              have h3 : (xs.map (·.name)).count x.name = 0 := by omega
              exact ⟨by omega, fun _ => List.count_eq_zero.1 h3⟩
            · rw [List.map_cons, List.count_cons_of_ne hne] at h1
              refine ⟨h1, fun hm hx => ?_⟩
              rcases List.mem_append.1 hm with hm | hm
              · exact h2 hm (by simp only [List.map_cons, List.mem_cons]; exact Or.inr hx)
              · exact hne (List.mem_singleton.1 hm).symm

theorem dupDirs_iff (s : Schema) (ds : List Dir) :
    dupDirs s ds = false ↔ ∀ n def_, s.dirByName n = some def_ → def_.repeatable = false →
      (ds.map (·.name)).count n ≤ 1 := by
  have : dupDirs s ds = (ds.foldl (dupStep s) ([], false)).2 := rfl
  rw [this, dup_fold]
  simp

theorem uniqueDirectives_iff (s : Schema) (d : Doc) :
    uniqueDirectives s d = false ↔ ∀ l ds, Carries d l ds → ∀ n def_, s.dirByName n = some def_ →
      def_.repeatable = false → (ds.map (·.name)).count n ≤ 1 := by
  unfold uniqueDirectives
  rw [any_visit s d _ (fun _ => rfl) (fun _ => rfl)]
  constructor
  · intro h l ds hc
    rw [← dupDirs_iff]
    rcases (carries_iff d l ds).1 hc with ⟨x, hx, _, rfl⟩ | ⟨x, hx, y, hy, _, rfl⟩
    · cases x with
      | op o => obtain ⟨c, hc⟩ := (op_visitDef s (.op o) o).2 rfl; exact h _ hx _ hc
      | frag f => obtain ⟨c, hc⟩ := (frag_visitDef s (.frag f) f).2 rfl; exact h _ hx _ hc
    · obtain ⟨c, hc⟩ := (defAt_inside (s := s)).2 hy
      cases y with
      | field al n args ds sub => exact h x hx _ ((field_visitDef s x _ al n args ds sub).2 ⟨c, hc, rfl⟩)
      | spread n ds => exact h x hx _ ((spreadAt_visitDef s x c n ds).2 hc)
      | inline cond ds sub => exact h x hx _ ((inline_visitDef s x _ cond ds).2 ⟨c, sub, hc, rfl⟩)
  · rintro h x hx ⟨c, e⟩ he
    have hy : ∀ y, Inside y x.sels → dupDirs s (selDirs y) = false := fun y hy =>
      (dupDirs_iff s _).2 (h _ _ ((carries_iff d _ _).2 (Or.inr ⟨x, hx, y, hy, rfl, rfl⟩)))
    have hx' : dupDirs s x.dirs = false :=
      (dupDirs_iff s _).2 (h _ _ ((carries_iff d _ _).2 (Or.inl ⟨x, hx, rfl, rfl⟩)))
    cases e <;> try rfl
    · rename_i o
      have := (op_visitDef s x o).1 ⟨c, he⟩
      subst this
      exact hx'
    · rename_i f
      have := (frag_visitDef s x f).1 ⟨c, he⟩
      subst this
      exact hx'
    · rename_i al n args ds sub
      obtain ⟨c2, hc, _⟩ := (field_visitDef s x c al n args ds sub).1 he
      exact hy _ (defAt_inside.1 ⟨c2, hc⟩)
    · rename_i n ds
      exact hy _ (defAt_inside.1 ⟨c, (spreadAt_visitDef s x c n ds).1 he⟩)
    · rename_i cond ds
      obtain ⟨c2, sub, hc, _⟩ := (inline_visitDef s x c cond ds).1 he
      exact hy _ (defAt_inside.1 ⟨c2, hc⟩)

/-! ## Arguments that stand once, and that must be given -/

theorem countUp_nodup (args : Args) :
    (args.foldl (fun m a => countUp m a.1) []).any (fun e => decide (e.2 > 1)) = false ↔
      (args.map (·.1)).Nodup := by
  have : args.foldl (fun m a => countUp m a.1) [] = (args.map (·.1)).foldl countUp [] := by
    rw [List.foldl_map]
  rw [this]
  exact count_any _

theorem dir_carries (s : Schema) (d : Doc) (e : Dir) :
    (∃ x ∈ d, ∃ c, (c, Ev.dir e) ∈ visitDef s x) ↔ ∃ l ds, Carries d l ds ∧ e ∈ ds := by
  constructor
  · rintro ⟨x, hx, h⟩
    rcases (dir_visitDef s x e).1 h with h | ⟨y, hy, h⟩
    · exact ⟨_, _, (carries_iff d _ _).2 (Or.inl ⟨x, hx, rfl, rfl⟩), h⟩
    · exact ⟨_, _, (carries_iff d _ _).2 (Or.inr ⟨x, hx, y, hy, rfl, rfl⟩), h⟩
  · rintro ⟨l, ds, hc, he⟩
    rcases (carries_iff d l ds).1 hc with ⟨x, hx, _, rfl⟩ | ⟨x, hx, y, hy, _, rfl⟩
    · exact ⟨x, hx, (dir_visitDef s x e).2 (Or.inl he)⟩
    · exact ⟨x, hx, (dir_visitDef s x e).2 (Or.inr ⟨y, hy, he⟩)⟩

theorem uniqueArgumentNames_iff (s : Schema) (d : Doc) :
    uniqueArgumentNames s d = false ↔ ∀ defs args, Given s d defs args → (args.map (·.1)).Nodup := by
  unfold uniqueArgumentNames
  rw [any_visit s d _ (fun _ => rfl) (fun _ => rfl)]
  constructor
  · intro h defs args hg
    rw [← countUp_nodup]
    cases hg with
    | @field q al n args ds sub hs =>
      obtain ⟨x, hx, c, hc, hp⟩ := (selects_iff s d _ _).1 hs
      exact h x hx _ ((field_visitDef s x _ al n args ds sub).2 ⟨c, hc, rfl⟩)
    | @dir l ds e hc he =>
      obtain ⟨x, hx, c, hm⟩ := (dir_carries s d e).2 ⟨l, ds, hc, he⟩
      exact h x hx _ hm
  · rintro h x hx ⟨c, e⟩ he
    cases e <;> try rfl
    · rename_i e
      obtain ⟨l, ds, hc, hm⟩ := (dir_carries s d e).1 ⟨x, hx, c, he⟩
      exact (countUp_nodup _).2 (h _ _ (.dir hc hm))
    · rename_i al n args ds sub
      obtain ⟨c2, hc, _⟩ := (field_visitDef s x c al n args ds sub).1 he
      exact (countUp_nodup _).2 (h _ _ (.field ((selects_iff s d _ _).2 ⟨x, hx, c2, hc, rfl⟩)))

theorem missingArgs_iff (args : Args) (defs : List InputDef) :
    missingArgs args defs = false ↔
      ∀ b ∈ defs, (∃ t, b.ty = .nonNull t) → b.default_ = none → ∃ a ∈ args, a.1 = b.name := by
  unfold missingArgs
  rw [List.any_eq_false]
  refine forall_congr' fun b => forall_congr' fun _ => ?_
  have h1 : b.ty.isNonNull = true ↔ ∃ t, b.ty = .nonNull t := by
    cases b.ty <;> simp [Ty.isNonNull]
  have h2 : b.default_.isNone = true ↔ b.default_ = none := by simp
  have h3 : args.any (fun a => decide (a.1 = b.name)) = true ↔ ∃ a ∈ args, a.1 = b.name := by simp
  rw [← h1, ← h2, ← h3, InputDef.required]
  cases b.ty.isNonNull <;> cases b.default_.isNone <;>
    cases args.any (fun a => decide (a.1 = b.name)) <;> simp

theorem providedRequiredArguments_iff (s : Schema) (d : Doc) :
    providedRequiredArguments s d = false ↔ ∀ defs args, Given s d (some defs) args →
      ∀ b ∈ defs, (∃ t, b.ty = .nonNull t) → b.default_ = none → ∃ a ∈ args, a.1 = b.name := by
  have hm : ∀ (o : Option (List InputDef)) (args : Args), (match o with
      | some defs => missingArgs args defs
      | none => false) = false ↔ ∀ defs, o = some defs →
        ∀ b ∈ defs, (∃ t, b.ty = .nonNull t) → b.default_ = none → ∃ a ∈ args, a.1 = b.name := by
    intro o args
    cases o with
    | none => simp
    | some defs => simp only [missingArgs_iff, Option.some.injEq, forall_eq']
  have hd : ∀ (o : Option DirDef) (args : Args), (match o with
      | some def_ => missingArgs args def_.args
      | none => false) = (match o.map (·.args) with
      | some defs => missingArgs args defs
      | none => false) := by
    intro o args; cases o <;> rfl
  unfold providedRequiredArguments
  rw [any_visit s d _ (fun _ => rfl) (fun _ => rfl)]
  constructor
  · intro h defs args hg
    generalize ho : some defs = o at hg
    cases hg with
    | @field q al n args ds sub hs =>
      obtain ⟨x, hx, c, hc, hp⟩ := (selects_iff s d _ _).1 hs
      have := h x hx _ ((field_visitDef s x _ al n args ds sub).2 ⟨c, hc, rfl⟩)
      exact (hm _ args).1 this defs (by rw [ho, ← hp]; rfl)
    | @dir l ds e hc he =>
      obtain ⟨x, hx, c, hmem⟩ := (dir_carries s d e).2 ⟨l, ds, hc, he⟩
      have := h x hx _ hmem
      exact (hm _ e.args).1 ((hd _ _).symm.trans this) defs ho.symm
  · rintro h x hx ⟨c, e⟩ he
    cases e <;> try rfl
    · rename_i e
      obtain ⟨l, ds, hc, hmem⟩ := (dir_carries s d e).1 ⟨x, hx, c, he⟩
      refine (hd _ _).trans ((hm _ e.args).2 fun defs ho => ?_)
      exact h defs e.args (by rw [← ho]; exact .dir hc hmem)
    · rename_i al n args ds sub
      obtain ⟨c2, hc, rfl⟩ := (field_visitDef s x c al n args ds sub).1 he
      refine (hm _ args).2 fun defs ho => ?_
      exact h defs args (by
        rw [← ho]; exact .field ((selects_iff s d _ _).2 ⟨x, hx, c2, hc, rfl⟩))

end Verif.Valid
