import Verif.Client.Spec
import Verif.Client.Intro

namespace Verif.Client

/-! ## The walk -/

theorem listLoop_eq {α : Type} (f : α → Option α) :
    ∀ (xs before result : List α) (changed : Bool),
      (changed = false → result = []) →
      listLoop f before result changed xs =
        if changed || xs.any (fun x => (f x).isSome) then
          some ((if changed then result else before) ++ xs.map (fun x => (f x).getD x))
        else none
  | [], before, result, changed, _ => by cases changed <;> simp [listLoop]
  | x :: xs, before, result, changed, h => by
    unfold listLoop
    cases hf : f x with
    | none =>
      simp only
      rw [listLoop_eq f xs]
      · cases changed <;> simp [hf]
      · intro hc; subst hc; simp [h rfl]
    | some y =>
      simp only
      rw [listLoop_eq f xs]
      · cases changed <;> simp [hf]
        exact h rfl
      · intro hc; cases hc

theorem transformList_eq {α : Type} (f : α → Option α) (xs : List α) :
    transformList f xs =
      if xs.any (fun x => (f x).isSome) then some (xs.map (fun x => (f x).getD x)) else none := by
  rw [transformList, listLoop_eq f xs [] [] false (fun _ => rfl)]
  simp

theorem map_getD_of_none {α : Type} (f : α → Option α) (xs : List α)
    (h : ¬ xs.any (fun x => (f x).isSome)) : xs.map (fun x => (f x).getD x) = xs := by
  induction xs with
  | nil => rfl
  | cons x xs ih =>
    simp only [List.any_cons, Bool.or_eq_true, not_or] at h
    rw [List.map_cons, ih h.2]
    cases hf : f x with
    | none => rfl
    | some y => simp [hf] at h

theorem transformList_getD {α : Type} (f : α → Option α) (xs : List α) :
    (transformList f xs).getD xs = xs.map (fun x => (f x).getD x) := by
  rw [transformList_eq]
  split
  · rfl
  · next h => rw [map_getD_of_none f xs h]; rfl

theorem docLoop_eq (h : Hooks) :
    ∀ (ds out : List Def) (changed : Bool),
      docLoop h out changed ds =
        if changed || ds.any (fun d => (transformDef h d).isSome) then
          some (out ++ ds.map (fun d => (transformDef h d).getD d))
        else none
  | [], out, changed => by cases changed <;> simp [docLoop]
  | d :: ds, out, changed => by
    unfold docLoop
    cases hf : transformDef h d with
    | none => simp only; rw [docLoop_eq h ds]; simp [hf]
    | some y => simp only; rw [docLoop_eq h ds]; simp [hf]

theorem transformDoc_eq (h : Hooks) (d : Doc) :
    transformDoc h d =
      if d.any (fun d => (transformDef h d).isSome) then
        some (d.map (fun d => (transformDef h d).getD d))
      else none := by
  rw [transformDoc, docLoop_eq]; simp

/-! ## Marks -/

theorem marked_iff (dirs : List Dir) : marked dirs = true ↔ Hidden dirs := by
  simp [marked, Hidden]

theorem marked_eq (dirs : List Dir) : (!marked dirs) = decide (¬ Hidden dirs) := by
  rw [Bool.eq_iff_iff]; simp [← marked_iff]

theorem stripsDir (n : String) : directivesToStrip.contains n = true ↔ n ∈ federationDirectives := by
  rw [List.contains_iff_mem]
  simp only [directivesToStrip, federationDirectives, List.mem_cons, List.not_mem_nil, or_false]
  grind

theorem stripsDef (n : String) : definitionsToStrip.contains n = true ↔ n ∈ federationTypes := by
  rw [List.contains_iff_mem]
  simp only [definitionsToStrip, federationTypes, List.mem_cons, List.not_mem_nil, or_false]
  grind

theorem stripDirs_eq (dirs : List Dir) : stripDirs dirs = some (seenDirs dirs) := by
  unfold stripDirs seenDirs
  congr 1
  apply List.filter_congr
  intro d _
  rw [Bool.eq_iff_iff]
  simp [← stripsDir]

theorem keepDirs_eq (dirs : List Dir) : keepDirs dirs = none := by
  rw [keepDirs, transformList_eq]; simp

/-! ## One definition -/

theorem filter_marked_inVal (vs : List InVal) :
    vs.filter (fun v => !marked v.dirs) = vs.filter (fun v => ¬ Hidden v.dirs) :=
  List.filter_congr (fun v _ => marked_eq v.dirs)

theorem stripInputs_getD (vs : List InVal) :
    (transformList (transformInVal stripDirs) vs).getD vs =
      vs.map (fun v => { v with dirs := seenDirs v.dirs }) := by
  rw [transformList_getD]
  apply List.map_congr_left
  intro v _
  simp [transformInVal, stripDirs_eq]

theorem pruneField_eq (f : Fld) :
    transformField keepDirs pruneInputs f =
      some { f with args := f.args.filter (fun v => ¬ Hidden v.dirs) } := by
  simp [transformField, keepDirs_eq, pruneInputs, marked_eq]

theorem stripField_eq (f : Fld) :
    transformField stripDirs (transformList (transformInVal stripDirs)) f =
      some { f with args := f.args.map (fun v => { v with dirs := seenDirs v.dirs }),
                    dirs := seenDirs f.dirs } := by
  simp [transformField, stripDirs_eq, stripInputs_getD]

theorem stripFields_getD (fs : List Fld) :
    (stripHooks.fields fs).getD fs =
      fs.map (fun f => { f with args := f.args.map (fun v => { v with dirs := seenDirs v.dirs }),
                                dirs := seenDirs f.dirs }) := by
  show (transformList _ fs).getD fs = _
  rw [transformList_getD]
  apply List.map_congr_left
  intro f _
  rw [stripField_eq]; rfl

/-- A type with fields keeps those that are for clients, if it has one or has none at all. -/
theorem pruneFields_getD (fs : List Fld) (h : fs ≠ [] → ∃ f ∈ fs, ¬ Hidden f.dirs) :
    (pruneHooks.fields fs).getD fs =
      (fs.filter (fun f => ¬ Hidden f.dirs)).map
        (fun f => { f with args := f.args.filter (fun v => ¬ Hidden v.dirs) }) := by
  show (transformList _ _).getD fs = _
  rw [transformList_eq]
  have hf : fs.filter (fun f => !marked f.dirs) = fs.filter (fun f => ¬ Hidden f.dirs) :=
    List.filter_congr (fun f _ => marked_eq f.dirs)
  rw [hf]
  by_cases hn : fs = []
  · subst hn; rfl
  · obtain ⟨f, hm, hd⟩ := h hn
    rw [if_pos]
    · simp only [Option.getD_some]
      apply List.map_congr_left
      intro g _
      rw [pruneField_eq]; rfl
    · rw [List.any_eq_true]
      exact ⟨f, List.mem_filter.2 ⟨hm, by simpa using hd⟩, by rw [pruneField_eq]; rfl⟩

/-- What the two walks make of one definition. -/
def pruned (d : Def) : Def := (transformDef pruneHooks d).getD d

def stripped (d : Def) : Def := (transformDef stripHooks d).getD d

theorem pruneObj_getD (o : Obj) (h : o.fields ≠ [] → ∃ f ∈ o.fields, ¬ Hidden f.dirs) :
    (transformObj pruneHooks o).getD o =
      { o with fields := ((o.fields.filter (fun f => ¬ Hidden f.dirs)).map
                 (fun f => { f with args := f.args.filter (fun v => ¬ Hidden v.dirs) })) } := by
  rw [← pruneFields_getD o.fields h]
  unfold transformObj
  have : pruneHooks.dirs o.dirs = none := keepDirs_eq _
  simp only [this]
  cases pruneHooks.fields o.fields <;> rfl

theorem stripObj_getD (o : Obj) :
    (transformObj stripHooks o).getD o =
      { o with dirs := seenDirs o.dirs,
               fields := o.fields.map (fun f =>
                 { f with args := f.args.map (fun v => { v with dirs := seenDirs v.dirs }),
                          dirs := seenDirs f.dirs }) } := by
  rw [← stripFields_getD o.fields]
  unfold transformObj
  have : stripHooks.dirs o.dirs = some (seenDirs o.dirs) := stripDirs_eq _
  simp only [this]
  rfl

theorem seenFields_eq (fs : List Fld) :
    ((fs.filter (fun f => ¬ Hidden f.dirs)).map
      (fun f => { f with args := f.args.filter (fun v => ¬ Hidden v.dirs) })).map
        (fun f => { f with args := f.args.map (fun v => { v with dirs := seenDirs v.dirs }),
                           dirs := seenDirs f.dirs }) = seenFields fs := by
  rw [List.map_map]; rfl

theorem map_getD_type {α β : Type} (o : Option α) (a : α) (f : α → β) :
    (o.map f).getD (f a) = f (o.getD a) := by cases o <;> rfl

theorem stripEnum_getD (e : Enum_) :
    (transformEnum stripDirs e).getD e =
      { e with dirs := seenDirs e.dirs,
               values := e.values.map (fun v => { v with dirs := seenDirs v.dirs }) } := by
  unfold transformEnum
  simp only [stripDirs_eq]
  have : (transformList (transformEnumVal stripDirs) e.values).getD e.values =
      e.values.map (fun v => { v with dirs := seenDirs v.dirs }) := by
    rw [transformList_getD]
    apply List.map_congr_left
    intro v _
    simp [transformEnumVal, stripDirs_eq]
  rw [this]; rfl

theorem stripInput_getD (i : Input) :
    (transformInput stripDirs (transformList (transformInVal stripDirs)) i).getD i =
      { i with dirs := seenDirs i.dirs,
               fields := i.fields.map (fun v => { v with dirs := seenDirs v.dirs }) } := by
  unfold transformInput
  simp only [stripDirs_eq, stripInputs_getD]
  rfl

theorem pruned_name (t : TypeDef) : ∃ t', pruned (.type t) = .type t' ∧ t'.name = t.name := by
  refine ⟨(transformType pruneHooks t).getD t, map_getD_type _ t Def.type, ?_⟩
  cases t with
  | scalar t => simp only [transformType]; rw [map_getD_type]; unfold transformScalar; split <;> rfl
  | object t => simp only [transformType]; rw [map_getD_type]; unfold transformObj; simp only; split <;> rfl
  | interface t => simp only [transformType]; rw [map_getD_type]; unfold transformObj; simp only; split <;> rfl
  | union t => simp only [transformType]; rw [map_getD_type]; unfold transformUnion; split <;> rfl
  | enum t => rfl
  | input t => rfl

theorem stripped_pruned_type (t : TypeDef) (h : t.fields ≠ [] → ∃ f ∈ t.fields, ¬ Hidden f.dirs) :
    stripped (pruned (.type t)) = .type (seenType t) := by
  have e1 : pruned (.type t) = .type ((transformType pruneHooks t).getD t) := map_getD_type _ t Def.type
  have e2 : ∀ u, stripped (.type u) = .type ((transformType stripHooks u).getD u) :=
    fun u => map_getD_type _ u Def.type
  rw [e1, e2]
  congr 1
  cases t with
  | scalar t =>
    have : transformScalar pruneHooks t = none := by
      unfold transformScalar
      have : pruneHooks.dirs t.dirs = none := keepDirs_eq _
      rw [this]
    simp only [transformType, this, Option.map_none, Option.getD_none]
    rw [map_getD_type]
    unfold transformScalar
    have : stripHooks.dirs t.dirs = some (seenDirs t.dirs) := stripDirs_eq _
    rw [this]; rfl
  | union t =>
    have : transformUnion pruneHooks t = none := by
      unfold transformUnion
      have : pruneHooks.dirs t.dirs = none := keepDirs_eq _
      rw [this]
    simp only [transformType, this, Option.map_none, Option.getD_none]
    rw [map_getD_type]
    unfold transformUnion
    have : stripHooks.dirs t.dirs = some (seenDirs t.dirs) := stripDirs_eq _
    rw [this]; rfl
  | object t =>
    simp only [transformType]
    rw [map_getD_type, map_getD_type, pruneObj_getD t h, stripObj_getD]
    simp only [seenFields_eq]; rfl
  | interface t =>
    simp only [transformType]
    rw [map_getD_type, map_getD_type, pruneObj_getD t h, stripObj_getD]
    simp only [seenFields_eq]; rfl
  | enum t =>
    have : pruneHooks.enum t = some { t with values := t.values.filter (fun v => ¬ Hidden v.dirs) } := by
      simp [pruneHooks, marked_eq]
    simp only [transformType, this, Option.map_some, Option.getD_some]
    rw [map_getD_type]
    show TypeDef.enum ((transformEnum stripDirs _).getD _) = _
    rw [stripEnum_getD]; rfl
  | input t =>
    have : pruneHooks.input t = some { t with fields := t.fields.filter (fun v => ¬ Hidden v.dirs) } := by
      simp [pruneHooks, marked_eq]
    simp only [transformType, this, Option.map_some, Option.getD_some]
    rw [map_getD_type]
    show TypeDef.input ((transformInput stripDirs _ _).getD _) = _
    rw [stripInput_getD]; rfl

theorem stripped_pruned_schema (s : SchemaDef) :
    stripped (pruned (.schema s)) = .schema { s with dirs := seenDirs s.dirs } := by
  have : pruned (.schema s) = .schema s := by
    have : pruneHooks.dirs s.dirs = none := keepDirs_eq _
    simp only [pruned, transformDef, transformSchema, this]; rfl
  rw [this]
  have : stripHooks.dirs s.dirs = some (seenDirs s.dirs) := stripDirs_eq _
  simp only [stripped, transformDef, transformSchema, this]; rfl

theorem pruned_directive (d : DirDef) :
    pruned (.directive d) = .directive { d with args := d.args.filter (fun v => ¬ Hidden v.dirs) } := by
  have : pruneHooks.inputs d.args = some (d.args.filter (fun v => ¬ Hidden v.dirs)) := by
    simp [pruneHooks, pruneInputs, marked_eq]
  simp only [pruned, transformDef, transformDirDef, this]; rfl

theorem stripped_pruned_directive (d : DirDef) :
    stripped (pruned (.directive d)) = .directive { d with args := seenInputs d.args } := by
  rw [pruned_directive]
  unfold stripped transformDef
  show (Option.map Def.directive (transformDirDef stripHooks _)).getD (Def.directive _) = _
  rw [map_getD_type]
  congr 1
  have := stripInputs_getD (d.args.filter (fun v => ¬ Hidden v.dirs))
  unfold transformDirDef
  show Option.getD (match transformList (transformInVal stripDirs) _ with
    | none => none
    | some as => some _) _ = _
  simp only [seenInputs]
  rw [← this]
  cases transformList (transformInVal stripDirs) (d.args.filter (fun v => ¬ Hidden v.dirs)) <;> rfl

/-! ## The document -/

theorem prune_eq (d : Doc) (o : Obj) (hs : Def.type (.object o) ∈ d) (hh : ¬ Hidden o.dirs)
    (hf : ∃ f ∈ o.fields, ¬ Hidden f.dirs) :
    prune d = (d.filter pruneKeeps).map pruned := by
  unfold prune
  rw [transformDoc_eq, if_pos]
  · rfl
  · rw [List.any_eq_true]
    refine ⟨_, List.mem_filter.2 ⟨hs, ?_⟩, ?_⟩
    · simp only [pruneKeeps, TypeDef.dirs, marked_eq]; simpa using hh
    · obtain ⟨f, hm, hd⟩ := hf
      have : (pruneHooks.fields o.fields).isSome := by
        show (transformList _ _).isSome
        rw [transformList_eq, if_pos]
        · rfl
        · rw [List.any_eq_true]
          exact ⟨f, List.mem_filter.2 ⟨hm, by rw [marked_eq]; simpa using hd⟩, by
            rw [pruneField_eq]; rfl⟩
      simp only [transformDef, transformType, transformObj]
      cases hx : pruneHooks.fields o.fields with
      | none => simp [hx] at this
      | some fs => simp

theorem strip_eq (d : Doc) (t : TypeDef) (hs : Def.type t ∈ d) (hn : t.name ∉ federationTypes)
    (hk : ∃ o, t = .object o) :
    strip d = (d.filter stripKeeps).map stripped := by
  unfold strip
  rw [transformDoc_eq, if_pos]
  · rfl
  · rw [List.any_eq_true]
    refine ⟨_, List.mem_filter.2 ⟨hs, ?_⟩, ?_⟩
    · simp only [stripKeeps, Bool.not_eq_true', ← Bool.not_eq_true, stripsDef]; exact hn
    · obtain ⟨o, rfl⟩ := hk
      have : stripHooks.dirs o.dirs = some (seenDirs o.dirs) := stripDirs_eq _
      simp [transformDef, transformType, transformObj, this]

theorem strip_prune (d : Doc) (q : String) (h : Composed d q) : strip (prune d) = seen d := by
  obtain ⟨o, ⟨hm, hh, hn⟩, hq, hf⟩ := h.queryType
  have e1 := prune_eq d o hm hh hf
  have hin : pruned (.type (.object o)) ∈ prune d := by
    rw [e1]
    refine List.mem_map.2 ⟨_, List.mem_filter.2 ⟨hm, ?_⟩, rfl⟩
    simp only [pruneKeeps, marked_eq]; simpa using hh
  have hpo : ∃ o', pruned (.type (.object o)) = .type (.object o') ∧ o'.name = o.name := by
    refine ⟨(transformObj pruneHooks o).getD o, ?_, ?_⟩
    · show (Option.map Def.type (Option.map TypeDef.object _)).getD _ = _
      rw [Option.map_map, show Def.type (TypeDef.object o) = (Def.type ∘ TypeDef.object) o from rfl,
        map_getD_type]; rfl
    · rw [pruneObj_getD o (fun _ => hf)]
  obtain ⟨o', ho', hno⟩ := hpo
  rw [ho'] at hin
  rw [strip_eq (prune d) (.object o') hin (by simpa [TypeDef.name, hno] using hn) ⟨o', rfl⟩, e1]
  have hne := h.notEmpty
  have key : ∀ (l : Doc), (∀ x ∈ l, x ∈ d) →
      (((l.filter pruneKeeps).map pruned).filter stripKeeps).map stripped = seen l := by
    intro l
    induction l with
    | nil => intro _; rfl
    | cons x l ih =>
      intro hl
      have ih := ih (fun y hy => hl y (List.mem_cons_of_mem _ hy))
      have hx := hl x List.mem_cons_self
      have hse : seen (x :: l) = match seenDef x with
          | none => seen l
          | some y => y :: seen l := by
        unfold seen; rw [List.filterMap_cons]; cases seenDef x <;> rfl
      rw [hse]
      cases x with
      | schema s =>
        simp only [List.filter_cons, pruneKeeps, if_true, List.map_cons]
        have hk : stripKeeps (pruned (.schema s)) = true := by
          have : pruned (.schema s) = .schema s := by
            have : pruneHooks.dirs s.dirs = none := keepDirs_eq _
            simp only [pruned, transformDef, transformSchema, this]; rfl
          rw [this]; rfl
        rw [if_pos hk, List.map_cons, stripped_pruned_schema, ih]; rfl
      | directive dd =>
        simp only [List.filter_cons, pruneKeeps, if_true, List.map_cons]
        have hk : stripKeeps (pruned (.directive dd)) = !directivesToStrip.contains dd.name := by
          rw [pruned_directive]; rfl
        rw [hk]
        by_cases hc : dd.name ∈ federationDirectives
        · have := (stripsDir dd.name).2 hc
          simp only [this, seenDef, hc, if_true]
          simpa using ih
        · have : directivesToStrip.contains dd.name = false := by
            rw [← Bool.not_eq_true, stripsDir]; exact hc
          simp only [this, seenDef, hc, if_false, Bool.not_false, if_true]
          rw [List.map_cons, stripped_pruned_directive, ih]
      | type t =>
        obtain ⟨t', ht', hn'⟩ := pruned_name t
        by_cases hhid : Hidden t.dirs
        · have : pruneKeeps (.type t) = false := by simp [pruneKeeps, (marked_iff _).2 hhid]
          simp only [List.filter_cons, this, seenDef, hhid, true_or, if_true]
          simpa using ih
        · have : pruneKeeps (.type t) = true := by
            simp only [pruneKeeps, marked_eq]; simpa using hhid
          simp only [List.filter_cons, this, if_true, List.map_cons]
          have hk : stripKeeps (pruned (.type t)) = !definitionsToStrip.contains t.name := by
            rw [ht', ← hn']; rfl
          rw [hk]
          by_cases hc : t.name ∈ federationTypes
          · have := (stripsDef t.name).2 hc
            simp only [this, seenDef, hc, or_true, if_true]
            simpa using ih
          · have : definitionsToStrip.contains t.name = false := by
              rw [← Bool.not_eq_true, stripsDef]; exact hc
            simp only [this, seenDef, hc, hhid, or_self, if_false, Bool.not_false, if_true]
            rw [List.map_cons, stripped_pruned_type t (hne t ⟨hx, hhid, hc⟩), ih]
  exact key d (fun _ h => h)

end Verif.Client
