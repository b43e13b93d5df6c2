import Verif.Usage.CoordsProps
import Verif.Valid.Folds

/-!
# Usage reporting: a report names only parts of the schema (C109)
-/

namespace Verif.Usage.Coords

open Verif.Valid

/-- Every coordinate is one of the schema. -/
def Sound (s : Schema) (us : List Used) : Prop := ∀ u ∈ us, InSchema s u.1

theorem sound_append {s : Schema} {a b : List Used} (h : Sound s a) (k : Sound s b) : Sound s (a ++ b) := by
  intro u hu
  rcases List.mem_append.1 hu with hu | hu
  · exact h u hu
  · exact k u hu

theorem sound_cons {s : Schema} {c : Coord} {g : Bool} {b : List Used} (h : InSchema s c)
    (k : Sound s b) : Sound s ((c, g) :: b) := by
  intro u hu
  rcases List.mem_cons.1 hu with rfl | hu
  · exact h
  · exact k u hu

theorem sound_nil {s : Schema} : Sound s [] := fun u hu => by cases hu

theorem typeByName_mem {s : Schema} {n : Name} {t : TypeDef} (h : s.typeByName n = some t) :
    t ∈ s.types := List.mem_of_find?_eq_some h

theorem in_builtin {s : Schema} {n : Name} (h : builtin n = true) : InSchema s (.type n) := by
  refine .builtin ?_
  simpa [builtin, or_assoc] using h

theorem in_scalar {s : Schema} {n m : Name} (h : s.typeByName n = some (.scalar m)) :
    InSchema s (.type n) := .scalar h

theorem in_enum {s : Schema} {n m : Name} {vs : List Name} (h : s.typeByName n = some (.enum m vs))
    {v : Name} (hv : v ∈ vs) : InSchema s (.member n v) := by
  have hm : m = n := typeByName_name h
  subst hm
  exact .enum (typeByName_mem h) hv

theorem in_input {s : Schema} {n m : Name} {defs : List InputDef}
    (h : s.typeByName n = some (.input m defs)) {k : Name} {b : InputDef}
    (hb : defs.find? (fun b => b.name = k) = some b) : InSchema s (.member m k) :=
  .input (typeByName_mem h) (List.mem_of_find?_eq_some hb) (by simpa using List.find?_some hb)

theorem sound_scalarCoord (s : Schema) (t : Name) : Sound s (scalarCoord s t) := by
  unfold scalarCoord
  split
  · exact sound_cons (in_builtin ‹_›) sound_nil
  · split
    · exact sound_cons (in_scalar ‹_›) sound_nil
    · exact sound_nil

theorem sound_ownScalar (s : Schema) (t : Name) : Sound s (ownScalar s t) := by
  unfold ownScalar
  split
  · exact sound_cons (in_scalar ‹_›) sound_nil
  · exact sound_nil

theorem sound_nested (s : Schema) (k : Nat) : ∀ (n : Name) (st : List Name × List Used),
    Sound s st.2 → Sound s (nested s k n st).2 := by
  induction k with
  | zero => exact fun _ _ h => h
  | succ k ih =>
    intro n st h
    rw [nested]
    split
    · rename_i m hn
      have hm : m = n := typeByName_name hn
      subst hm
      exact sound_cons (in_scalar hn) h
    · rename_i m fs hn
      split
      · exact h
      · have key : ∀ (gs : List InputDef) (st : List Name × List Used), (∀ g ∈ gs, g ∈ fs) →
            Sound s st.2 → Sound s (gs.foldl (fun st f =>
              nested s k f.ty.inner (st.1, (.member m f.name, false) :: st.2)) st).2 := by
          intro gs
          induction gs with
          | nil => exact fun _ _ h => h
          | cons g gs ihg =>
            intro st hg h
            rw [List.foldl_cons]
            refine ihg _ (fun x hx => hg x (List.mem_cons_of_mem _ hx)) (ih _ _ ?_)
            exact sound_cons (.input (typeByName_mem hn) (hg g List.mem_cons_self) rfl) h
        exact key fs _ (fun _ h => h) h
    · rename_i m vs hn
      refine sound_append ?_ h
      intro u hu
      obtain ⟨v, hv, rfl⟩ := List.mem_map.1 hu
      have hm : m = n := typeByName_name hn
      subst hm
      exact in_enum hn hv
    · exact h
    · split
      · exact sound_cons (in_builtin ‹_›) h
      · exact h

/-- Names of enum values stand where that enum is expected. -/
def EnumsGood (s : Schema) (t : Name) (v : Val) : Prop :=
  ∀ t' x, Inner s t' (.enum x) t v → ∃ m vs, s.typeByName t' = some (.enum m vs) ∧ x ∈ vs

theorem enumsGood_here {s : Schema} {t x : Name} (h : EnumsGood s t (.enum x)) :
    InSchema s (.member t x) := by
  obtain ⟨m, vs, h1, h2⟩ := h t x .self
  exact in_enum h1 h2

mutual
theorem sound_default (s : Schema) (t : Name) (v : Val) (h : EnumsGood s t v) :
    Sound s (defaultCoords s t v) := by
  match v with
  | .obj fs =>
    rw [defaultCoords]
    exact sound_defaultFields s t fs fs (fun _ h => h) h
  | .list vs =>
    rw [defaultCoords]
    exact sound_defaultItems s t vs vs (fun _ h => h) h
  | .enum x =>
    rw [defaultCoords]
    exact sound_cons (enumsGood_here h) sound_nil
  | .null => exact sound_nil
  | .bool _ => exact sound_nil
  | .int _ => exact sound_nil
  | .float _ => exact sound_nil
  | .str _ => exact sound_nil
  | .var _ => exact sound_nil
theorem sound_defaultItems (s : Schema) (t : Name) (ws vs : List Val) (hw : ∀ x ∈ ws, x ∈ vs)
    (h : EnumsGood s t (.list vs)) : Sound s (defaultItems s t ws) := by
  match ws with
  | [] => exact sound_nil
  | x :: xs =>
    rw [defaultItems]
    exact sound_append
      (sound_default s t x (fun t' y hy => h t' y (.item (hw x List.mem_cons_self) hy)))
      (sound_defaultItems s t xs vs (fun y hy => hw y (List.mem_cons_of_mem _ hy)) h)
theorem sound_defaultFields (s : Schema) (t : Name) (gs fs : List (Name × Val))
    (hg : ∀ x ∈ gs, x ∈ fs) (h : EnumsGood s t (.obj fs)) : Sound s (defaultFields s t gs) := by
  match gs with
  | [] => exact sound_nil
  | g :: gs =>
    rw [defaultFields]
    exact sound_append (sound_defaultPair s t g fs (hg g List.mem_cons_self) h)
      (sound_defaultFields s t gs fs (fun y hy => hg y (List.mem_cons_of_mem _ hy)) h)
theorem sound_defaultPair (s : Schema) (t : Name) (g : Name × Val) (fs : List (Name × Val))
    (hg : g ∈ fs) (h : EnumsGood s t (.obj fs)) : Sound s (defaultPair s t g) := by
  match g with
  | (n, v) =>
    rw [defaultPair]
    split
    · rename_i b hb
      obtain ⟨ty, ht, hi⟩ := Option.bind_eq_some_iff.1 hb
      cases ty with
      | input m defs =>
        have hm : m = t := typeByName_name ht
        subst hm
        have hin := in_input ht hi
        refine sound_cons hin (sound_cons hin (sound_default s _ v ?_))
        exact fun t' y hy => h t' y (.pair hg ht hi hy)
      | _ => simp [TypeDef.inputByName] at hi
    · exact sound_nil
end

/-! ## Steps -/

theorem sound_mark {s : Schema} {st : Acc} (h : Sound s st.coords) {c : Coord} (hc : InSchema s c) :
    Sound s (st.mark c).coords := by
  unfold Acc.mark
  split
  · exact sound_cons hc (sound_cons hc h)
  · exact sound_cons hc h

theorem sound_pairStep {s : Schema} {st : Acc} (h : Sound s st.coords) {t : Name} {v : Val}
    (hv : EnumsGood s t v) : Sound s (pairStep s st t v).coords := by
  unfold pairStep
  split
  · exact sound_append (sound_cons (enumsGood_here hv) sound_nil) h
  · exact h
  · exact sound_append (sound_ownScalar s t) h
  · split
    · exact sound_nested s _ _ _ h
    · exact h
  · exact sound_append (sound_scalarCoord s t) h

theorem sound_objStep {s : Schema} {st : Acc} (h : Sound s st.coords) {t m : Name}
    {defs : List InputDef} (ht : s.typeByName t = some (.input m defs)) {fs : List (Name × Val)}
    (hv : EnumsGood s t (.obj fs)) {f : Name × Val} (hf : f ∈ fs) :
    Sound s (objStep s m defs st f).coords := by
  unfold objStep
  split
  · exact h
  · rename_i b hb
    have hbn : b.name = f.1 := by simpa using List.find?_some hb
    have hin : InSchema s (.member m b.name) := by rw [hbn]; exact in_input ht hb
    refine sound_pairStep (sound_mark ?_ hin) ?_
    · refine sound_append ?_ (sound_append (sound_cons hin sound_nil) h)
      split
      · exact sound_cons hin sound_nil
      · exact sound_nil
    · exact fun t' y hy => hv t' y (.pair (n := f.1) (x := f.2) hf ht hb hy)

theorem sound_objs {s : Schema} {t m : Name} {defs : List InputDef}
    (ht : s.typeByName t = some (.input m defs)) {fs : List (Name × Val)}
    (hv : EnumsGood s t (.obj fs)) (gs : List (Name × Val)) (hg : ∀ x ∈ gs, x ∈ fs) (st : Acc)
    (h : Sound s st.coords) : Sound s (gs.foldl (objStep s m defs) st).coords := by
  induction gs generalizing st with
  | nil => exact h
  | cons g gs ih =>
    exact ih (fun x hx => hg x (List.mem_cons_of_mem _ hx)) _
      (sound_objStep h ht hv (hg g List.mem_cons_self))

/-- What has to hold where something is told of. -/
def Fine (s : Schema) (f : Option FieldDef) (c : Ctx) : Ev → Prop
  | .field _ n _ _ _ => ∀ p, c.parent = some p → p ∈ s.types ∧ (n = "__typename" ∨ ∃ f, p.fieldByName n = some f)
  | .varDef v => ∀ x, v.default_ = some x → EnumsGood s v.ty.inner x
  | .arg a => ∀ p g, c.parent = some p → f = some g → p ∈ s.types ∧ p.fieldByName g.name = some g ∧
      ∃ b, g.args.find? (fun b => b.name = a.1) = some b ∧ EnumsGood s b.ty.inner a.2
  | .list vs => ∀ t, c.input = some t → EnumsGood s t.inner (.list vs)
  | .obj fs => ∀ t, c.input = some t → EnumsGood s t.inner (.obj fs)
  | _ => True

theorem sound_step {s : Schema} {st : Acc} (h : Sound s st.coords) {f : Option FieldDef} {c : Ctx}
    {ev : Ev} (hf : Fine s f c ev) : Sound s (step s st (f, c, ev)).coords := by
  cases ev with
  | field al n args ds sub =>
    simp only [step]
    split
    · exact h
    · split
      · rename_i p hp
        obtain ⟨h1, h2⟩ := hf p hp
        refine sound_append (sound_cons ?_ ?_) h
        · rcases h2 with rfl | ⟨g, hg⟩
          · exact .typename h1
          · exact .field h1 hg
        · split
          · rename_i e vs he
            obtain ⟨g, _, hg⟩ := Option.bind_eq_some_iff.1 he
            intro u hu
            obtain ⟨v, hv, rfl⟩ := List.mem_map.1 hu
            exact .enum (typeByName_mem hg) hv
          · exact sound_nil
      · exact h
  | varDef v =>
    simp only [step]
    split
    · exact h
    · refine sound_append ?_ h
      split
      · exact sound_default s _ _ (hf _ ‹_›)
      · exact sound_nil
  | arg a =>
    simp only [step]
    split
    · exact h
    · split
      · exact h
      · rename_i p hp
        split
        · rename_i g
          obtain ⟨h1, h2, b, h3, h4⟩ := hf p g hp rfl
          have hbn : b.name = a.1 := by simpa using List.find?_some h3
          have hin : InSchema s (.arg p.name g.name a.1) := by
            rw [← hbn]
            exact .arg h1 h2 (List.mem_of_find?_eq_some h3)
          unfold argStep
          refine sound_append ?_ (sound_mark ?_ hin)
          · rw [h2]
            simp only [Option.bind_some, h3]
            cases hv : a.2 with
            | enum x => rw [hv] at h4; exact sound_cons (enumsGood_here h4) sound_nil
            | list vs => exact sound_nil
            | obj fs => exact sound_ownScalar s _
            | var x => exact sound_nil
            | _ => exact sound_scalarCoord s _
          · split
            · exact h
            · exact h
        · exact h
  | list vs =>
    simp only [step]
    split
    · exact h
    · split
      · rename_i t ht
        obtain ⟨ty, hty, htt⟩ := Option.bind_eq_some_iff.1 ht
        have hn := typeByName_name htt
        refine sound_append ?_ h
        intro u hu
        obtain ⟨v, hv, hu⟩ := List.mem_flatMap.1 hu
        have hg : EnumsGood s t.name v := by
          rw [hn]
          exact fun t' y hy => hf ty hty t' y (.item hv hy)
        cases v with
        | enum x => exact sound_cons (enumsGood_here hg) sound_nil u hu
        | obj _ => cases hu
        | list _ => cases hu
        | var _ => cases hu
        | _ => exact sound_scalarCoord s _ u hu
      · exact h
  | obj fs =>
    simp only [step]
    split
    · rename_i m defs ht
      obtain ⟨ty, hty, htt⟩ := Option.bind_eq_some_iff.1 ht
      exact sound_objs htt (hf ty hty) fs (fun _ h => h) st h
    · exact h
  | _ => exact h

/-! ## What is told of is fine -/

/-- The list or object literal that is told of. -/
def lit : Ev → Option Val
  | .list vs => some (.list vs)
  | .obj fs => some (.obj fs)
  | _ => none

mutual
theorem inner_val (s : Schema) (c : Ctx) (v : Val) : ∀ e ∈ visitVal s c v, ∀ w, lit e.2 = some w →
    ∀ t', e.1.input = some t' → ∃ t, c.input = some t ∧ Inner s t'.inner w t.inner v := by
  match v with
  | .list vs =>
    intro e he w hw t' ht
    rw [visitVal] at he
    rcases List.mem_cons.1 he with he | he
    · subst he
      cases hw
      exact ⟨t', ht, .self⟩
    · obtain ⟨x, hx, t, h1, h2⟩ := inner_vals s _ vs e he w hw t' ht
      cases hc : c.input with
      | none => simp [hc, itemType] at h1
      | some u =>
        cases u with
        | list u =>
          simp only [hc, itemType, Option.some.injEq] at h1
          subst h1
          exact ⟨.list u, rfl, .item hx h2⟩
        | named _ => simp [hc, itemType] at h1
        | nonNull _ => simp [hc, itemType] at h1
  | .obj fs =>
    intro e he w hw t' ht
    rw [visitVal] at he
    rcases List.mem_cons.1 he with he | he
    · subst he
      cases hw
      exact ⟨t', ht, .self⟩
    · obtain ⟨n, x, b, hx, h1, h2⟩ := inner_obj s c fs e he w hw t' ht
      obtain ⟨ty, h3, h4⟩ := Option.bind_eq_some_iff.1 h1
      obtain ⟨t, h5, h6⟩ := Option.bind_eq_some_iff.1 h3
      cases ty with
      | input m defs => exact ⟨t, h5, .pair hx h6 h4 h2⟩
      | _ => simp [TypeDef.inputByName] at h4
  | .null => intro e he w hw; simp [visitVal] at he; subst he; cases hw
  | .bool _ => intro e he w hw; simp [visitVal] at he; subst he; cases hw
  | .int _ => intro e he w hw; simp [visitVal] at he; subst he; cases hw
  | .float _ => intro e he w hw; simp [visitVal] at he; subst he; cases hw
  | .str _ => intro e he w hw; simp [visitVal] at he; subst he; cases hw
  | .enum _ => intro e he w hw; simp [visitVal] at he; subst he; cases hw
  | .var _ => intro e he w hw; simp [visitVal] at he; subst he; cases hw
theorem inner_vals (s : Schema) (c : Ctx) (vs : List Val) : ∀ e ∈ visitVals s c vs, ∀ w, lit e.2 = some w →
    ∀ t', e.1.input = some t' → ∃ x ∈ vs, ∃ t, c.input = some t ∧ Inner s t'.inner w t.inner x := by
  match vs with
  | [] => intro e he; simp [visitVals] at he
  | x :: xs =>
    intro e he w hw t' ht
    rw [visitVals] at he
    rcases List.mem_append.1 he with he | he
    · exact ⟨x, List.mem_cons_self, inner_val s c x e he w hw t' ht⟩
    · obtain ⟨y, hy, h⟩ := inner_vals s c xs e he w hw t' ht
      exact ⟨y, List.mem_cons_of_mem _ hy, h⟩
theorem inner_obj (s : Schema) (c : Ctx) (fs : List (Name × Val)) : ∀ e ∈ visitObj s c fs,
    ∀ w, lit e.2 = some w → ∀ t', e.1.input = some t' → ∃ n x b, (n, x) ∈ fs ∧
      (c.input.bind (fun t => s.typeByName t.inner)).bind (·.inputByName n) = some b ∧
      Inner s t'.inner w b.ty.inner x := by
  match fs with
  | [] => intro e he; simp [visitObj] at he
  | f :: fs =>
    intro e he w hw t' ht
    rw [visitObj] at he
    rcases List.mem_append.1 he with he | he
    · obtain ⟨n, x, b, h1, h2⟩ := inner_pair s c f e he w hw t' ht
      exact ⟨n, x, b, by rw [h1]; exact List.mem_cons_self, h2⟩
    · obtain ⟨n, x, b, h1, h2⟩ := inner_obj s c fs e he w hw t' ht
      exact ⟨n, x, b, List.mem_cons_of_mem _ h1, h2⟩
theorem inner_pair (s : Schema) (c : Ctx) (f : Name × Val) : ∀ e ∈ visitPair s c f,
    ∀ w, lit e.2 = some w → ∀ t', e.1.input = some t' → ∃ n x b, (n, x) = f ∧
      (c.input.bind (fun t => s.typeByName t.inner)).bind (·.inputByName n) = some b ∧
      Inner s t'.inner w b.ty.inner x := by
  match f with
  | (n, v) =>
    intro e he w hw t' ht
    rw [visitPair] at he
    obtain ⟨t, h1, h2⟩ := inner_val s _ v e he w hw t' ht
    obtain ⟨b, h3, rfl⟩ := Option.map_eq_some_iff.1 h1
    exact ⟨n, v, b, rfl, h3, h2⟩
end

theorem inner_trans {s : Schema} {t' t t'' : Name} {w v u : Val} (h : Inner s t' w t v)
    (k : Inner s t v t'' u) : Inner s t' w t'' u := by
  induction k with
  | self => exact h
  | item hx _ ih => exact .item hx ih
  | pair hx ht hb _ ih => exact .pair hx ht hb ih

/-- The value stands in the document, and what is expected there is known only if it is what the visitor
has. -/
theorem val_visit {s : Schema} {d : Doc} {e : Ctx × Ev} (he : e ∈ visit s d) (hv : e.2.isVal = true) :
    ∃ c v, e ∈ visitVal s c v ∧ ∀ t, c.input = some t → Expected s d t v := by
  have hargs : ∀ c defs args, Given s d defs args → e ∈ visitArgs s c defs args →
      ∃ c v, e ∈ visitVal s c v ∧ ∀ t, c.input = some t → Expected s d t v := by
    intro c defs args hg h
    obtain ⟨a, ha, h | h⟩ := (mem_visitArgs _ _ _ _ _).1 h
    · subst h; simp [Ev.isVal] at hv
    · refine ⟨_, a.2, h, fun t ht => ?_⟩
      obtain ⟨b, hb, rfl⟩ := Option.map_eq_some_iff.1 ht
      obtain ⟨ds, rfl, hb⟩ := Option.bind_eq_some_iff.1 hb
      exact .arg hg ha hb
  have hdirs : ∀ c l ds, Carries d l ds → e ∈ visitDirs s c ds →
      ∃ c v, e ∈ visitVal s c v ∧ ∀ t, c.input = some t → Expected s d t v := by
    intro c l ds hc h
    obtain ⟨x, hx, h | h | h⟩ := (mem_visitDirs _ _ _ _).1 h
    · subst h; simp [Ev.isVal] at hv
    · subst h; simp [Ev.isVal] at hv
    · exact hargs _ _ _ (.dir hc hx) h
  by_cases h1 : e.2 = .doc
  · simp [h1, Ev.isVal] at hv
  by_cases h2 : e.2 = .leaveDoc
  · simp [h2, Ev.isVal] at hv
  obtain ⟨x, hx, he⟩ := (mem_visit s d e h1 h2).1 he
  rcases (mem_visitDef s x e).1 he with h | h | h | h | ⟨c, y, hc, h⟩ | ⟨h, _⟩
  · subst h; cases x <;> simp [Def.enter, Ev.isVal] at hv
  · cases x with
    | op o =>
      have ho : o ∈ ops d := List.mem_filterMap.2 ⟨_, hx, rfl⟩
      cases hk : o.kind with
      | query => exact hdirs _ _ _ (.query ho hk) h
      | mutation => exact hdirs _ _ _ (.mutation ho hk) h
      | subscription => exact hdirs _ _ _ (.subscription ho hk) h
    | frag f => exact hdirs _ _ _ (.fragment (List.mem_filterMap.2 ⟨_, hx, rfl⟩)) h
  · obtain ⟨v, hv', h | ⟨w, hw, h⟩⟩ := (mem_visitVars _ _ _ _).1 h
    · subst h; simp [Ev.isVal] at hv
    · refine ⟨_, w, h, fun t ht => ?_⟩
      cases ht
      cases x with
      | op o => exact .default_ (List.mem_filterMap.2 ⟨_, hx, rfl⟩) hv' hw
      | frag f => cases hv'
  · subst h; simp [Ev.isVal] at hv
  · have hin : Inside y x.sels := (defAt_inside (s := s)).1 ⟨c, hc⟩
    cases y with
    | field al n args ds sub =>
      simp only [own, List.mem_cons, List.mem_append, List.not_mem_nil, or_false] at h
      rcases h with h | ((h | h) | h) | h
      · subst h; simp [Ev.isVal] at hv
      · refine hargs _ _ _ (.field (q := c.parent) (al := al) (n := n) (ds := ds) (sub := sub) ?_) h
        exact ⟨x, hx, (defAt_on s x _ _).1 ⟨c, hc, rfl⟩⟩
      · exact hdirs _ _ _ (.field hx hin) h
      · subst h; simp [Ev.isVal] at hv
      · subst h; simp [Ev.isVal] at hv
    | spread n ds =>
      simp only [own, List.mem_cons] at h
      rcases h with h | h
      · subst h; simp [Ev.isVal] at hv
      · exact hdirs _ _ _ (.spread hx hin) h
    | inline cond ds sub =>
      simp only [own, List.mem_cons, List.mem_append, List.not_mem_nil, or_false] at h
      rcases h with h | h | h
      · subst h; simp [Ev.isVal] at hv
      · exact hdirs _ _ _ (.inline hx hin) h
      · subst h; simp [Ev.isVal] at hv
  · subst h; simp [Ev.isVal] at hv

theorem fine_lit {s : Schema} {d : Doc} (hg : NamesGood s d) {c : Ctx} {ev : Ev} {w : Val}
    (he : (c, ev) ∈ visit s d) (hw : lit ev = some w) {t : Ty} (ht : c.input = some t) :
    EnumsGood s t.inner w := by
  have hv : ev.isVal = true := by cases ev <;> simp [lit] at hw <;> rfl
  obtain ⟨c1, v, h1, h2⟩ := val_visit he hv
  obtain ⟨u, h3, h4⟩ := inner_val s c1 v _ h1 w hw t ht
  intro t' x hx
  exact hg.enums u v t' x (h2 u h3) (inner_trans hx h4)

/-! ## Arguments are told of in their field -/

/-- The directives of a selection. -/
def selDirs : Sel → List Dir
  | .field _ _ _ ds _ => ds
  | .spread _ ds => ds
  | .inline _ ds _ => ds

/-- The argument is one of a field in these selections, or one of a directive. -/
def ArgOf (s : Schema) (c : Ctx) (ss : List Sel) (f : Option FieldDef) (c' : Ctx) (a : Name × Val) : Prop :=
  (∃ c1 al n args ds sub, AtC s c ss c1 (.field al n args ds sub) ∧ a ∈ args ∧
    c' = argCtx (inField c1 n) (fieldArgs c1.parent n) a.1 ∧ f = c1.parent.bind (·.fieldByName n)) ∨
  ∃ c1 y, AtC s c ss c1 y ∧ a ∈ dirArgs (selDirs y)

theorem argOf_cons {s : Schema} {c : Ctx} {x : Sel} {xs : List Sel} {f : Option FieldDef} {c' : Ctx}
    {a : Name × Val} (h : ArgOf s c [x] f c' a ∨ ArgOf s c xs f c' a) : ArgOf s c (x :: xs) f c' a := by
  rcases h with (⟨c1, al, n, args, ds, sub, h, k⟩ | ⟨c1, y, h, k⟩) |
    (⟨c1, al, n, args, ds, sub, h, k⟩ | ⟨c1, y, h, k⟩)
  · exact Or.inl ⟨c1, al, n, args, ds, sub, (atC_cons s c c1 x _ xs).2 (Or.inl h), k⟩
  · exact Or.inr ⟨c1, y, (atC_cons s c c1 x _ xs).2 (Or.inl h), k⟩
  · exact Or.inl ⟨c1, al, n, args, ds, sub, (atC_cons s c c1 x _ xs).2 (Or.inr h), k⟩
  · exact Or.inr ⟨c1, y, (atC_cons s c c1 x _ xs).2 (Or.inr h), k⟩

theorem track_top {l : Told} (h : ∀ e ∈ l, still e) {e : Option FieldDef × Ctx × Ev}
    {st : List (Option FieldDef)} (he : e ∈ track st l) : e.1 = top st := by
  induction l generalizing st with
  | nil => cases he
  | cons a l ih =>
    rcases List.mem_cons.1 he with rfl | he
    · rfl
    · rw [h a List.mem_cons_self st] at he
      exact ih (fun e he => h e (List.mem_cons_of_mem _ he)) he

theorem arg_of_args {s : Schema} {c c' : Ctx} {defs : Option (List InputDef)} {args : Args}
    {a : Name × Val} (h : (c', Ev.arg a) ∈ visitArgs s c defs args) :
    a ∈ args ∧ c' = argCtx c defs a.1 := by
  obtain ⟨b, hb, h | h⟩ := (mem_visitArgs _ _ _ _ _).1 h
  · cases h
    exact ⟨hb, rfl⟩
  · exact absurd h (not_mem_visitVal s rfl)

mutual
theorem track_arg_sel (s : Schema) (c : Ctx) (x : Sel) (st : List (Option FieldDef))
    (f : Option FieldDef) (c' : Ctx) (a : Name × Val)
    (h : (f, c', Ev.arg a) ∈ track st (visitSel s c x)) : ArgOf s c [x] f c' a := by
  match x with
  | .field al n args ds sub =>
    rw [visitSel] at h
    rcases List.mem_cons.1 h with h | h
    · cases h
    rw [track_append, track_append, track_append] at h
    rcases List.mem_append.1 h with h | h
    · rcases List.mem_append.1 h with h | h
      · rcases List.mem_append.1 h with h | h
        · obtain ⟨h1, h2⟩ := arg_of_args (mem_track h)
          exact Or.inl ⟨c, al, n, args, ds, sub, .here (by simp), h1, h2, track_top still_args h⟩
        · exact Or.inr ⟨c, _, .here (List.mem_singleton.2 rfl), (arg_visitDirs s _ _ a).1 ⟨c', mem_track h⟩⟩
      · rcases List.mem_cons.1 h with h | h
        · cases h
        · rcases track_arg_sels s _ sub _ f c' a h with ⟨c1, al', n', args', ds', sub', h, k⟩ | ⟨c1, y, h, k⟩
          · exact Or.inl ⟨c1, al', n', args', ds', sub', .field (List.mem_singleton.2 rfl) h, k⟩
          · exact Or.inr ⟨c1, y, .field (List.mem_singleton.2 rfl) h, k⟩
    · rcases List.mem_cons.1 h with h | h
      · cases h
      · cases h
  | .spread n ds =>
    rw [visitSel] at h
    rcases List.mem_cons.1 h with h | h
    · cases h
    · exact Or.inr ⟨c, _, .here (List.mem_singleton.2 rfl), (arg_visitDirs s _ _ a).1 ⟨c', mem_track h⟩⟩
  | .inline cond ds sub =>
    rw [visitSel] at h
    rcases List.mem_cons.1 h with h | h
    · cases h
    rw [track_append] at h
    rcases List.mem_append.1 h with h | h
    · exact Or.inr ⟨c, _, .here (List.mem_singleton.2 rfl), (arg_visitDirs s _ _ a).1 ⟨c', mem_track h⟩⟩
    · rcases List.mem_cons.1 h with h | h
      · cases h
      · rcases track_arg_sels s _ sub _ f c' a h with ⟨c1, al', n', args', ds', sub', h, k⟩ | ⟨c1, y, h, k⟩
        · exact Or.inl ⟨c1, al', n', args', ds', sub', .inline (List.mem_singleton.2 rfl) h, k⟩
        · exact Or.inr ⟨c1, y, .inline (List.mem_singleton.2 rfl) h, k⟩
theorem track_arg_sels (s : Schema) (c : Ctx) (ss : List Sel) (st : List (Option FieldDef))
    (f : Option FieldDef) (c' : Ctx) (a : Name × Val)
    (h : (f, c', Ev.arg a) ∈ track st (visitSels s c ss)) : ArgOf s c ss f c' a := by
  match ss with
  | [] => rw [visitSels] at h; cases h
  | x :: xs =>
    rw [visitSels, track_append] at h
    rcases List.mem_append.1 h with h | h
    · exact argOf_cons (Or.inl (track_arg_sel s c x _ f c' a h))
    · exact argOf_cons (Or.inr (track_arg_sels s c xs _ f c' a h))
end

theorem track_arg_def {s : Schema} {x : Def} {st : List (Option FieldDef)} {f : Option FieldDef}
    {c' : Ctx} {a : Name × Val} (h : (f, c', Ev.arg a) ∈ track st (visitDef s x)) :
    a ∈ dirArgs x.dirs ∨ ArgOf s (inSet s (x.ctx s)) x.sels f c' a := by
  cases x with
  | op o =>
    rw [visitDef] at h
    rcases List.mem_cons.1 h with h | h
    · cases h
    rw [track_append, track_append] at h
    rcases List.mem_append.1 h with h | h
    · rcases List.mem_append.1 h with h | h
      · exact Or.inl ((arg_visitDirs s _ _ a).1 ⟨c', mem_track h⟩)
      · obtain ⟨v, _, h | ⟨w, _, h⟩⟩ := (mem_visitVars _ _ _ _).1 (mem_track h)
        · cases h
        · exact absurd h (not_mem_visitVal s rfl)
    · rcases List.mem_cons.1 h with h | h
      · cases h
      · exact Or.inr (track_arg_sels s _ _ _ f c' a h)
  | frag g =>
    rw [visitDef] at h
    rcases List.mem_cons.1 h with h | h
    · cases h
    rw [track_append, track_append] at h
    rcases List.mem_append.1 h with h | h
    · rcases List.mem_append.1 h with h | h
      · exact Or.inl ((arg_visitDirs s _ _ a).1 ⟨c', mem_track h⟩)
      · rcases List.mem_cons.1 h with h | h
        · cases h
        · exact Or.inr (track_arg_sels s _ _ _ f c' a h)
    · rcases List.mem_cons.1 h with h | h
      · cases h
      · cases h

theorem track_arg_visit {s : Schema} {d : Doc} {f : Option FieldDef} {c' : Ctx} {a : Name × Val}
    (h : (f, c', Ev.arg a) ∈ track [] (visit s d)) :
    ∃ x ∈ d, a ∈ dirArgs x.dirs ∨ ArgOf s (inSet s (x.ctx s)) x.sels f c' a := by
  have key : ∀ (d : Doc) (st : List (Option FieldDef)),
      (f, c', Ev.arg a) ∈ track st (d.flatMap (visitDef s)) →
      ∃ x ∈ d, a ∈ dirArgs x.dirs ∨ ArgOf s (inSet s (x.ctx s)) x.sels f c' a := by
    intro d
    induction d with
    | nil => intro st h; cases h
    | cons x d ih =>
      intro st h
      rw [List.flatMap_cons, track_append] at h
      rcases List.mem_append.1 h with h | h
      · exact ⟨x, List.mem_cons_self, track_arg_def h⟩
      · obtain ⟨y, hy, h⟩ := ih _ h
        exact ⟨y, List.mem_cons_of_mem _ hy, h⟩
  unfold visit at h
  rcases List.mem_cons.1 h with h | h
  · cases h
  rw [track_append] at h
  rcases List.mem_append.1 h with h | h
  · exact key d _ h
  · rcases List.mem_cons.1 h with h | h
    · cases h
    · cases h

theorem parent_mem {s : Schema} {x : Def} {c : Ctx} {y : Sel} (h : DefAt s x c y) {p : TypeDef}
    (hp : c.parent = some p) : p ∈ s.types := by
  rw [defAt_cur h] at hp
  obtain ⟨t, _, ht⟩ := Option.bind_eq_some_iff.1 hp
  exact typeByName_mem ht

theorem fine_visit {s : Schema} {d : Doc} (hg : NamesGood s d) (hd : PlainDirectives d)
    {f : Option FieldDef} {c : Ctx} {ev : Ev} (he : (f, c, ev) ∈ track [] (visit s d)) :
    Fine s f c ev := by
  have hv := mem_track he
  cases ev with
  | field al n args ds sub =>
    intro p hp
    obtain ⟨x, hx, h⟩ := (mem_visit s d _ (by simp) (by simp)).1 hv
    obtain ⟨c1, h1, rfl⟩ := (field_visitDef s x c al n args ds sub).1 h
    refine ⟨parent_mem h1 hp, hg.fields p al n args ds sub ⟨x, hx, ?_⟩⟩
    exact (defAt_on s x _ _).1 ⟨c1, h1, hp⟩
  | varDef v =>
    intro w hw
    obtain ⟨x, hx, h⟩ := (mem_visit s d _ (by simp) (by simp)).1 hv
    rcases (mem_visitDef s x _).1 h with h | h | h | h | ⟨c1, y, h1, h⟩ | ⟨h, _⟩
    · cases x <;> cases h
    · obtain ⟨x', _, h | h | h⟩ := (mem_visitDirs _ _ _ _).1 h
      · cases h
      · cases h
      · obtain ⟨b, _, h | h⟩ := (mem_visitArgs _ _ _ _ _).1 h
        · cases h
        · exact absurd h (not_mem_visitVal s rfl)
    · obtain ⟨v', hv', h | ⟨w', _, h⟩⟩ := (mem_visitVars _ _ _ _).1 h
      · cases h
        cases x with
        | op o =>
          intro t' y hy
          exact hg.enums v.ty w t' y (.default_ (List.mem_filterMap.2 ⟨_, hx, rfl⟩) hv' hw) hy
        | frag f => cases hv'
      · exact absurd h (not_mem_visitVal s rfl)
    · cases h
    · have hA : ∀ (c2 c3 : Ctx) defs args, (c3, Ev.varDef v) ∉ visitArgs s c2 defs args := by
        intro c2 c3 defs args h
        obtain ⟨b, _, h | h⟩ := (mem_visitArgs _ _ _ _ _).1 h
        · cases h
        · exact absurd h (not_mem_visitVal s rfl)
      have hD : ∀ (c2 c3 : Ctx) ds, (c3, Ev.varDef v) ∉ visitDirs s c2 ds := by
        intro c2 c3 ds h
        obtain ⟨x', _, h | h | h⟩ := (mem_visitDirs _ _ _ _).1 h
        · cases h
        · cases h
        · exact hA _ _ _ _ h
      cases y <;> simp [own, hA, hD] at h
    · cases h
  | arg a =>
    intro p g hp hf
    obtain ⟨x, hx, h | ⟨c1, al, n, args, ds, sub, h1, h2, h3, h4⟩ | ⟨c1, y, h1, h2⟩⟩ := track_arg_visit he
    · exfalso
      obtain ⟨y, hy, ha⟩ := List.mem_flatMap.1 h
      have : ∃ l, Carries d l x.dirs := by
        cases x with
        | op o =>
          have ho : o ∈ ops d := List.mem_filterMap.2 ⟨_, hx, rfl⟩
          cases hk : o.kind with
          | query => exact ⟨_, .query ho hk⟩
          | mutation => exact ⟨_, .mutation ho hk⟩
          | subscription => exact ⟨_, .subscription ho hk⟩
        | frag f => exact ⟨_, .fragment (List.mem_filterMap.2 ⟨_, hx, rfl⟩)⟩
      obtain ⟨l, hl⟩ := this
      rw [hd l _ hl y hy] at ha
      cases ha
    · have hp1 : c1.parent = some p := by rw [h3] at hp; exact hp
      have hs : Selects s d (some p) (.field al n args ds sub) :=
        ⟨x, hx, (defAt_on s x _ _).1 ⟨c1, h1, hp1⟩⟩
      rw [h4, hp1] at hf
      have hgn : p.fieldByName n = some g := hf
      have hn := fieldByName_name hgn
      obtain ⟨b0, hb0, hbn⟩ := hg.args p al n args ds sub g hs hgn a h2
      cases hb : g.args.find? (fun b => b.name = a.1) with
      | none =>
        have := List.find?_eq_none.1 hb b0 hb0
        simp [hbn] at this
      | some b =>
        refine ⟨parent_mem h1 hp1, by rw [hn]; exact hgn, b, rfl, ?_⟩
        intro t' y hy
        refine hg.enums b.ty a.2 t' y ?_ hy
        have hgiven : Given s d (((some p : Option TypeDef).bind (·.fieldByName n)).map (·.args)) args :=
          .field hs
        simp only [Option.bind_some, hgn, Option.map_some] at hgiven
        exact .arg hgiven h2 hb
    · exfalso
      obtain ⟨z, hz, ha⟩ := List.mem_flatMap.1 h2
      have hin : Inside y x.sels := (defAt_inside (s := s)).1 ⟨c1, h1⟩
      have : ∃ l, Carries d l (selDirs y) := by
        cases y with
        | field al n args ds sub => exact ⟨_, .field hx hin⟩
        | spread n ds => exact ⟨_, .spread hx hin⟩
        | inline cond ds sub => exact ⟨_, .inline hx hin⟩
      obtain ⟨l, hl⟩ := this
      rw [hd l _ hl z hz] at ha
      cases ha
  | list vs => exact fun t ht => fine_lit hg hv rfl ht
  | obj fs => exact fun t ht => fine_lit hg hv rfl ht
  | _ => trivial

/-- A report names only parts of the schema, if the names in the document are good and no directive has
arguments. What is missing: an argument of a directive is reported as one of the field around it
(`C109_directive_args_refuted`). -/
theorem C109_only_partial {s : Schema} {d : Doc} {us : List Used} (h : Reports s d us)
    (hg : NamesGood s d) (hd : PlainDirectives d) : ∀ u ∈ us, InSchema s u.1 := by
  obtain ⟨_, order, _, rfl⟩ := reports_walk h
  have h1 : ∀ (l : List (Option FieldDef × Ctx × Ev)), (∀ e ∈ l, Fine s e.1 e.2.1 e.2.2) →
      ∀ st : Acc, Sound s st.coords → Sound s (l.foldl (step s) st).coords := by
    intro l
    induction l with
    | nil => exact fun _ _ h => h
    | cons e l ih =>
      intro hl st hst
      exact ih (fun x hx => hl x (List.mem_cons_of_mem _ hx)) _ (sound_step hst (hl e List.mem_cons_self))
  have h2 : Sound s (walk s d).coords := h1 _ (fun e he => fine_visit hg hd he) _ sound_nil
  have h3 : ∀ (order : List Name) (st : Acc), Sound s st.coords →
      Sound s (order.foldl (Acc.nest s) st).coords := by
    intro order
    induction order with
    | nil => exact fun _ h => h
    | cons n order ih => exact fun st hst => ih _ (sound_nested s _ n _ hst)
  exact h3 order _ h2

end Verif.Usage.Coords
