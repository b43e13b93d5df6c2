import Verif.Usage.CoordsOnly

/-!
# Usage reporting: a report says that a value was given only where one was (C109)
-/

namespace Verif.Usage.Coords

open Verif.Valid

/-- No coordinate that is only named has a `!`. -/
def NoMark (us : List Used) : Prop := ∀ u ∈ us, u.2 = false

theorem noMark_scalarCoord (s : Schema) (t : Name) : NoMark (scalarCoord s t) := by
  unfold scalarCoord NoMark
  split
  · simp
  · split <;> simp

theorem noMark_ownScalar (s : Schema) (t : Name) : NoMark (ownScalar s t) := by
  unfold ownScalar NoMark
  split <;> simp

theorem noMark_argCoords (s : Schema) (t : Name) (v : Val) : NoMark (argCoords s t v) := by
  cases v <;> simp only [argCoords] <;>
    first | exact noMark_scalarCoord s t | exact noMark_ownScalar s t | simp [NoMark]

theorem noMark_itemCoords (s : Schema) (t : Name) (v : Val) : NoMark (itemCoords s t v) := by
  cases v <;> simp only [itemCoords] <;> first | exact noMark_scalarCoord s t | simp [NoMark]

theorem noMark_fieldCoords (s : Schema) (p : TypeDef) (n : Name) : NoMark (fieldCoords s p n) := by
  intro u hu
  unfold fieldCoords at hu
  rcases List.mem_cons.1 hu with rfl | hu
  · rfl
  · split at hu
    · obtain ⟨v, _, rfl⟩ := List.mem_map.1 hu
      rfl
    · cases hu

theorem marks_nested (s : Schema) (k : Nat) : ∀ (n : Name) (st : List Name × List Used),
    ∀ c, (c, true) ∈ (nested s k n st).2 → (c, true) ∈ st.2 := by
  induction k with
  | zero => exact fun _ _ _ h => h
  | succ k ih =>
    intro n st c h
    rw [nested] at h
    split at h
    · simpa using h
    · rename_i m fs _
      split at h
      · exact h
      · have key : ∀ (gs : List InputDef) (st : List Name × List Used),
            (c, true) ∈ (gs.foldl (fun st f =>
              nested s k f.ty.inner (st.1, (.member m f.name, false) :: st.2)) st).2 →
            (c, true) ∈ st.2 := by
          intro gs
          induction gs with
          | nil => exact fun _ h => h
          | cons g gs ihg =>
            intro st h
            rw [List.foldl_cons] at h
            simpa using ih _ _ c (ihg _ h)
        exact key fs (m :: st.1, st.2) h
    · rcases List.mem_append.1 h with h | h
      · obtain ⟨v, _, hv⟩ := List.mem_map.1 h
        simp at hv
      · exact h
    · exact h
    · split at h
      · simpa using h
      · exact h

/-- Nothing is counted but not yet marked, every `!` is one of `P`, and every default one of `D`. -/
structure Marked (P : Coord → Prop) (D : Name → Prop) (st : Acc) : Prop where
  counts : ∀ c, countOf st.counts c = 0
  marks : ∀ c, (c, true) ∈ st.coords → P c
  defaults : ∀ n ∈ st.defaults, D n

/-- A value, if `D` are the variables with defaults. -/
def Has (D : Name → Prop) (v : Val) : Prop := v ≠ .null ∧ ∀ n, v = .var n → D n

variable {s : Schema} {P : Coord → Prop} {D : Name → Prop}

theorem has_given {st : Acc} (h : Marked P D st) {v : Val} (hv : st.given v = true) : Has D v := by
  cases v with
  | null => simp [Acc.given] at hv
  | var n =>
    refine ⟨by simp, fun m hm => ?_⟩
    cases hm
    exact h.defaults n (by simpa [Acc.given] using hv)
  | _ => exact ⟨by simp, by simp⟩

theorem marked_add {st : Acc} (h : Marked P D st) {us : List Used}
    (hu : ∀ c, (c, true) ∈ us → P c) : Marked P D (st.add us) :=
  ⟨h.counts, fun c hc => (List.mem_append.1 hc).elim (hu c) (h.marks c), h.defaults⟩

theorem marked_plain {st : Acc} (h : Marked P D st) {us : List Used} (hu : NoMark us) :
    Marked P D (st.add us) :=
  marked_add h (fun c hc => by cases hu _ hc)

theorem marked_mark {st : Acc} (h : Marked P D st) (c : Coord) : Marked P D (st.mark c) := by
  unfold Acc.mark
  rw [if_neg (by rw [h.counts c]; exact Nat.lt_irrefl 0)]
  exact ⟨h.counts, fun c' hc => h.marks c' (by simpa using hc), h.defaults⟩

theorem marked_nest {st : Acc} (h : Marked P D st) (n : Name) : Marked P D (st.nest s n) :=
  ⟨h.counts, fun c hc => h.marks c (marks_nested s _ n _ c hc), h.defaults⟩

theorem marked_count_mark {st : Acc} (h : Marked P D st) {c : Coord} (hc : P c) :
    Marked P D ((st.count c).mark c) := by
  have h1 : countOf (st.count c).counts c = 1 := by simp [Acc.count, countOf, h.counts c]
  unfold Acc.mark
  rw [if_pos (by rw [h1]; exact Nat.zero_lt_one)]
  refine ⟨fun c' => ?_, fun c' hc' => ?_, h.defaults⟩
  · show countOf ((c, countOf (st.count c).counts c - 1) :: (st.count c).counts) c' = 0
    rw [h1, countOf]
    split
    · rfl
    · rename_i hne
      show countOf ((c, countOf st.counts c + 1) :: st.counts) c' = 0
      rw [countOf, if_neg hne]
      exact h.counts c'
  · rcases List.mem_cons.1 hc' with h2 | h2
    · cases h2
    · rcases List.mem_cons.1 h2 with h2 | h2
      · cases h2; exact hc
      · exact h.marks c' h2

theorem marked_argStep {st : Acc} (h : Marked P D st) {p : TypeDef} {f : FieldDef} {a : Name × Val}
    (hp : Has D a.2 → P (.arg p.name f.name a.1)) : Marked P D (argStep s st p f a) := by
  unfold argStep
  refine marked_plain ?_ ?_
  · split
    · exact marked_count_mark h (hp (has_given h ‹_›))
    · exact marked_mark h _
  · split
    · exact noMark_argCoords s _ _
    · simp [NoMark]

theorem marked_pairStep {st : Acc} (h : Marked P D st) (t : Name) (v : Val) :
    Marked P D (pairStep s st t v) := by
  unfold pairStep
  split
  · exact marked_plain h (by simp [NoMark])
  · exact h
  · exact marked_plain h (noMark_ownScalar s t)
  · split
    · exact marked_nest h _
    · exact h
  · exact marked_plain h (noMark_scalarCoord s t)

theorem marked_objStep {st : Acc} (h : Marked P D st) {m : Name} {defs : List InputDef}
    {f : Name × Val} (hp : Has D f.2 → P (.member m f.1)) : Marked P D (objStep s m defs st f) := by
  unfold objStep
  split
  · exact h
  · rename_i b hb
    have hbn : b.name = f.1 := by simpa using List.find?_some hb
    refine marked_pairStep (marked_mark (marked_add (marked_plain h (by simp [NoMark])) ?_) _) _ _
    intro c hc
    split at hc
    · rename_i hg
      simp only [List.mem_singleton, Prod.mk.injEq, and_true] at hc
      rw [hc, hbn]
      exact hp (has_given h hg)
    · cases hc

theorem marked_objs {m : Name} {defs : List InputDef} (fs : List (Name × Val))
    (hp : ∀ f ∈ fs, Has D f.2 → P (.member m f.1)) : ∀ st : Acc, Marked P D st →
    Marked P D (fs.foldl (objStep s m defs) st) := by
  induction fs with
  | nil => exact fun _ h => h
  | cons f fs ih =>
    exact fun st h => ih (fun g hg => hp g (List.mem_cons_of_mem _ hg)) _
      (marked_objStep h (hp f List.mem_cons_self))

/-- What has to hold where something is told of, for `!` to be told only of `P`. -/
def Right (s : Schema) (P : Coord → Prop) (D : Name → Prop) (f : Option FieldDef) (c : Ctx) : Ev → Prop
  | .varDef v => ∀ x, v.default_ = some x → D v.name ∧
      ∀ c, (c, true) ∈ defaultCoords s v.ty.inner x → P c
  | .arg a => ∀ p g, c.parent = some p → f = some g → Has D a.2 → P (.arg p.name g.name a.1)
  | .obj fs => ∀ t m defs, c.input = some t → s.typeByName t.inner = some (.input m defs) →
      ∀ x ∈ fs, Has D x.2 → P (.member m x.1)
  | _ => True

theorem marked_step {st : Acc} (h : Marked P D st) {f : Option FieldDef} {c : Ctx} {ev : Ev}
    (hr : Right s P D f c ev) : Marked P D (step s st (f, c, ev)) := by
  cases ev with
  | field al n args ds sub =>
    simp only [step]
    split
    · exact h
    · split
      · exact marked_plain h (noMark_fieldCoords s _ n)
      · exact ⟨h.counts, h.marks, h.defaults⟩
  | varDef v =>
    simp only [step]
    split
    · exact h
    · refine marked_add ?_ ?_
      · refine ⟨h.counts, h.marks, ?_⟩
        intro n hn
        cases hv : v.default_ with
        | none => simp only [hv, Option.isSome_none] at hn; exact h.defaults n hn
        | some x =>
          simp only [hv, Option.isSome_some, if_true] at hn
          rcases List.mem_cons.1 hn with rfl | hn
          · exact (hr x hv).1
          · exact h.defaults n hn
      · intro c hc
        split at hc
        · exact (hr _ ‹_›).2 c hc
        · cases hc
  | arg a =>
    simp only [step]
    split
    · exact h
    · split
      · exact ⟨h.counts, h.marks, h.defaults⟩
      · split
        · exact marked_argStep h (hr _ _ ‹_› rfl)
        · exact h
  | list vs =>
    simp only [step]
    split
    · exact h
    · split
      · refine marked_plain h ?_
        intro u hu
        obtain ⟨v, _, hv⟩ := List.mem_flatMap.1 hu
        exact noMark_itemCoords s _ v u hv
      · exact h
  | obj fs =>
    simp only [step]
    split
    · rename_i m defs ht
      obtain ⟨ty, hty, htt⟩ := Option.bind_eq_some_iff.1 ht
      exact marked_objs fs (fun x hx => hr ty m defs hty htt x hx) st h
    · exact h
  | _ => exact h

/-! ## Defaults -/

/-- A field that an object literal in the value has. -/
def FieldIn (s : Schema) (t : Name) (v : Val) (c : Coord) : Prop :=
  ∃ t' fs n x, c = .member t' n ∧ Inner s t' (.obj fs) t v ∧ (n, x) ∈ fs

mutual
theorem marks_default (s : Schema) (t : Name) (v : Val) (c : Coord)
    (h : (c, true) ∈ defaultCoords s t v) : FieldIn s t v c := by
  match v with
  | .obj fs =>
    rw [defaultCoords] at h
    exact marks_defaultFields s t fs fs (fun _ h => h) c h
  | .list vs =>
    rw [defaultCoords] at h
    exact marks_defaultItems s t vs vs (fun _ h => h) c h
  | .enum x => rw [defaultCoords] at h; simp at h
  | .null => cases h
  | .bool _ => cases h
  | .int _ => cases h
  | .float _ => cases h
  | .str _ => cases h
  | .var _ => cases h
theorem marks_defaultItems (s : Schema) (t : Name) (ws vs : List Val) (hw : ∀ x ∈ ws, x ∈ vs)
    (c : Coord) (h : (c, true) ∈ defaultItems s t ws) : FieldIn s t (.list vs) c := by
  match ws with
  | [] => cases h
  | x :: xs =>
    rw [defaultItems] at h
    rcases List.mem_append.1 h with h | h
    · obtain ⟨t', fs, n, y, h1, h2, h3⟩ := marks_default s t x c h
      exact ⟨t', fs, n, y, h1, .item (hw x List.mem_cons_self) h2, h3⟩
    · exact marks_defaultItems s t xs vs (fun y hy => hw y (List.mem_cons_of_mem _ hy)) c h
theorem marks_defaultFields (s : Schema) (t : Name) (gs fs : List (Name × Val))
    (hg : ∀ x ∈ gs, x ∈ fs) (c : Coord) (h : (c, true) ∈ defaultFields s t gs) :
    FieldIn s t (.obj fs) c := by
  match gs with
  | [] => cases h
  | g :: gs =>
    rw [defaultFields] at h
    rcases List.mem_append.1 h with h | h
    · exact marks_defaultPair s t g fs (hg g List.mem_cons_self) c h
    · exact marks_defaultFields s t gs fs (fun y hy => hg y (List.mem_cons_of_mem _ hy)) c h
theorem marks_defaultPair (s : Schema) (t : Name) (g : Name × Val) (fs : List (Name × Val))
    (hg : g ∈ fs) (c : Coord) (h : (c, true) ∈ defaultPair s t g) : FieldIn s t (.obj fs) c := by
  match g with
  | (n, v) =>
    rw [defaultPair] at h
    split at h
    · rename_i b hb
      rcases List.mem_cons.1 h with h | h
      · cases h
        exact ⟨t, fs, n, v, rfl, .self, hg⟩
      rcases List.mem_cons.1 h with h | h
      · cases h
      · obtain ⟨ty, ht, hi⟩ := Option.bind_eq_some_iff.1 hb
        cases ty with
        | input m defs =>
          obtain ⟨t', fs', n', y, h1, h2, h3⟩ := marks_default s _ v c h
          exact ⟨t', fs', n', y, h1, .pair hg ht hi h2, h3⟩
        | _ => simp [TypeDef.inputByName] at hi
    · cases h
end

/-! ## What is told of -/

theorem varDef_visit {s : Schema} {d : Doc} {c : Ctx} {v : VarDef} (h : (c, Ev.varDef v) ∈ visit s d) :
    ∃ o ∈ ops d, v ∈ o.vars := by
  obtain ⟨x, hx, h⟩ := (mem_visit s d _ (by simp) (by simp)).1 h
  have hA : ∀ (c2 c3 : Ctx) defs args, (c3, Ev.varDef v) ∉ visitArgs s c2 defs args := by
    intro c2 c3 defs args h
    obtain ⟨b, _, h | h⟩ := (mem_visitArgs _ _ _ _ _).1 h
    · cases h
    · exact absurd h (not_mem_visitVal s rfl)
  have hD : ∀ (c2 c3 : Ctx) ds, (c3, Ev.varDef v) ∉ visitDirs s c2 ds := by
    intro c2 c3 ds h
    obtain ⟨x', _, h | h | h⟩ := (mem_visitDirs _ _ _ _).1 h
    · cases h
    · cases h
    · exact hA _ _ _ _ h
  rcases (mem_visitDef s x _).1 h with h | h | h | h | ⟨c1, y, h1, h⟩ | ⟨h, _⟩
  · cases x <;> cases h
  · exact absurd h (hD _ _ _)
  · obtain ⟨v', hv', h | ⟨w', _, h⟩⟩ := (mem_visitVars _ _ _ _).1 h
    · cases h
      cases x with
      | op o => exact ⟨o, List.mem_filterMap.2 ⟨_, hx, rfl⟩, hv'⟩
      | frag f => cases hv'
    · exact absurd h (not_mem_visitVal s rfl)
  · cases h
  · cases y <;> simp [own, hA, hD] at h
  · cases h

/-- No argument of a directive is told of if no directive has arguments. -/
theorem plain_args {d : Doc} (hd : PlainDirectives d) {l : Loc} {ds : List Dir} (hc : Carries d l ds)
    {a : Name × Val} (h : a ∈ dirArgs ds) : False := by
  obtain ⟨y, hy, ha⟩ := List.mem_flatMap.1 h
  rw [hd l _ hc y hy] at ha
  cases ha

/-- Some operation has a default for the variable. -/
def Defaulted (d : Doc) (n : Name) : Prop := ∃ o ∈ ops d, ∃ x ∈ o.vars, x.name = n ∧ x.default_ ≠ none

theorem right_visit {s : Schema} {d : Doc} (hd : PlainDirectives d)
    {f : Option FieldDef} {c : Ctx} {ev : Ev} (he : (f, c, ev) ∈ track [] (visit s d)) :
    Right s (Gives s d) (Defaulted d) f c ev := by
  have hv := mem_track he
  cases ev with
  | varDef v =>
    intro x hx
    obtain ⟨o, ho, hvo⟩ := varDef_visit hv
    refine ⟨⟨o, ho, v, hvo, rfl, by simp [hx]⟩, fun c hc => ?_⟩
    obtain ⟨t, fs, n, y, rfl, h1, h2⟩ := marks_default s _ x c hc
    exact .default_ ho hvo hx h1 h2
  | arg a =>
    intro p g hp hf ha
    obtain ⟨x, hx, h | ⟨c1, al, n, args, ds, sub, h1, h2, h3, h4⟩ | ⟨c1, y, h1, h2⟩⟩ := track_arg_visit he
    · exfalso
      cases x with
      | op o =>
        have ho : o ∈ ops d := List.mem_filterMap.2 ⟨_, hx, rfl⟩
        cases hk : o.kind with
        | query => exact plain_args hd (.query ho hk) h
        | mutation => exact plain_args hd (.mutation ho hk) h
        | subscription => exact plain_args hd (.subscription ho hk) h
      | frag f => exact plain_args hd (.fragment (List.mem_filterMap.2 ⟨_, hx, rfl⟩)) h
    · have hp1 : c1.parent = some p := by rw [h3] at hp; exact hp
      have hs : Selects s d (some p) (.field al n args ds sub) :=
        ⟨x, hx, (defAt_on s x _ _).1 ⟨c1, h1, hp1⟩⟩
      rw [h4, hp1] at hf
      have hgn : p.fieldByName n = some g := hf
      rw [fieldByName_name hgn]
      exact .arg (v := a.2) hs hgn h2 ha
    · exfalso
      have hin : Inside y x.sels := (defAt_inside (s := s)).1 ⟨c1, h1⟩
      cases y with
      | field al n args ds sub => exact plain_args hd (.field hx hin) h2
      | spread n ds => exact plain_args hd (.spread hx hin) h2
      | inline cond ds sub => exact plain_args hd (.inline hx hin) h2
  | obj fs =>
    intro t m defs ht htt x hx hh
    obtain ⟨c1, v, h1, h2⟩ := val_visit hv rfl
    obtain ⟨u, h3, h4⟩ := inner_val s c1 v _ h1 _ rfl t ht
    exact .literal (h2 u h3) h4 htt hx hh
  | _ => trivial

/-- A report says of an argument, or of the field of an input object, that a value was given only if the
document gives one: `null` and variables without a default do not count. What is missing: arguments of
directives are taken for those of the field around them (`C109_directive_args_refuted`). -/
theorem C109_given_partial {s : Schema} {d : Doc} {us : List Used} (h : Reports s d us)
    (hd : PlainDirectives d) {c : Coord} (hc : (c, true) ∈ us) : Gives s d c := by
  obtain ⟨_, order, _, rfl⟩ := reports_walk h
  have h1 : ∀ (l : List (Option FieldDef × Ctx × Ev)),
      (∀ e ∈ l, Right s (Gives s d) (Defaulted d) e.1 e.2.1 e.2.2) →
      ∀ st : Acc, Marked (Gives s d) (Defaulted d) st →
        Marked (Gives s d) (Defaulted d) (l.foldl (step s) st) := by
    intro l
    induction l with
    | nil => exact fun _ _ h => h
    | cons e l ih =>
      intro hl st hst
      exact ih (fun x hx => hl x (List.mem_cons_of_mem _ hx)) _ (marked_step hst (hl e List.mem_cons_self))
  have h2 : Marked (Gives s d) (Defaulted d) (walk s d) :=
    h1 _ (fun e he => right_visit hd he) _ ⟨fun _ => rfl, fun _ h => (by cases h), fun _ h => (by cases h)⟩
  have h3 : ∀ (order : List Name) (st : Acc), Marked (Gives s d) (Defaulted d) st →
      Marked (Gives s d) (Defaulted d) (order.foldl (Acc.nest s) st) := by
    intro order
    induction order with
    | nil => exact fun _ h => h
    | cons n order ih => exact fun st hst => ih _ (marked_nest hst n)
  exact (h3 order _ h2).marks c hc

end Verif.Usage.Coords
