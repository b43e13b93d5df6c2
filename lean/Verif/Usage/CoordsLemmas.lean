import Verif.Usage.Coords
import Verif.Valid.Types

/-!
# Collecting the parts of the schema that an operation uses: lemmas
-/

namespace Verif.Usage.Coords

open Verif.Valid

/-! ## What is collected stays -/

theorem nested_mono (s : Schema) (k : Nat) : ∀ (n : Name) (st : List Name × List Used),
    (∀ m ∈ st.1, m ∈ (nested s k n st).1) ∧ ∀ u ∈ st.2, u ∈ (nested s k n st).2 := by
  induction k with
  | zero => intro n st; exact ⟨fun _ h => h, fun _ h => h⟩
  | succ k ih =>
    intro n st
    rw [nested]
    split
    · exact ⟨fun _ h => h, fun _ h => List.mem_cons_of_mem _ h⟩
    · rename_i m fs _
      split
      · exact ⟨fun _ h => h, fun _ h => h⟩
      · have key : ∀ (fs : List InputDef) (st : List Name × List Used),
            (∀ x ∈ st.1, x ∈ (fs.foldl (fun st f =>
              nested s k f.ty.inner (st.1, (.member m f.name, false) :: st.2)) st).1) ∧
            ∀ u ∈ st.2, u ∈ (fs.foldl (fun st f =>
              nested s k f.ty.inner (st.1, (.member m f.name, false) :: st.2)) st).2 := by
          intro fs
          induction fs with
          | nil => intro st; exact ⟨fun _ h => h, fun _ h => h⟩
          | cons f fs ihf =>
            intro st
            rw [List.foldl_cons]
            obtain ⟨h1, h2⟩ := ih f.ty.inner (st.1, (.member m f.name, false) :: st.2)
            obtain ⟨h3, h4⟩ := ihf (nested s k f.ty.inner (st.1, (.member m f.name, false) :: st.2))
            exact ⟨fun x hx => h3 x (h1 x hx), fun u hu => h4 u (h2 u (List.mem_cons_of_mem _ hu))⟩
        obtain ⟨h1, h2⟩ := key fs (m :: st.1, st.2)
        exact ⟨fun x hx => h1 x (List.mem_cons_of_mem _ hx), h2⟩
    · exact ⟨fun _ h => h, fun _ h => List.mem_append_right _ h⟩
    · exact ⟨fun _ h => h, fun _ h => h⟩
    · split
      · exact ⟨fun _ h => h, fun _ h => List.mem_cons_of_mem _ h⟩
      · exact ⟨fun _ h => h, fun _ h => h⟩

/-- Nothing is lost, and what has failed has failed. -/
structure Le (a b : Acc) : Prop where
  coords : ∀ u ∈ a.coords, u ∈ b.coords
  used : ∀ n ∈ a.used, n ∈ b.used
  defaults : ∀ n ∈ a.defaults, n ∈ b.defaults
  error : b.error = false → a.error = false

theorem Le.refl (a : Acc) : Le a a := ⟨fun _ h => h, fun _ h => h, fun _ h => h, id⟩

theorem Le.trans {a b c : Acc} (h : Le a b) (k : Le b c) : Le a c :=
  ⟨fun u hu => k.coords u (h.coords u hu), fun u hu => k.used u (h.used u hu),
    fun u hu => k.defaults u (h.defaults u hu), fun he => h.error (k.error he)⟩

theorem le_add (st : Acc) (us : List Used) : Le st (st.add us) :=
  ⟨fun _ h => List.mem_append_right _ h, fun _ h => h, fun _ h => h, id⟩

theorem le_count (st : Acc) (c : Coord) : Le st (st.count c) :=
  ⟨fun _ h => h, fun _ h => h, fun _ h => h, id⟩

theorem le_mark (st : Acc) (c : Coord) : Le st (st.mark c) := by
  unfold Acc.mark
  split
  · exact ⟨fun _ h => List.mem_cons_of_mem _ (List.mem_cons_of_mem _ h), fun _ h => h, fun _ h => h, id⟩
  · exact ⟨fun _ h => List.mem_cons_of_mem _ h, fun _ h => h, fun _ h => h, id⟩

theorem le_nest (s : Schema) (st : Acc) (n : Name) : Le st (st.nest s n) :=
  ⟨fun u hu => (nested_mono s _ n (st.visited, st.coords)).2 u hu, fun _ h => h, fun _ h => h, id⟩

theorem mark_mem (st : Acc) (c : Coord) : (c, false) ∈ (st.mark c).coords := by
  unfold Acc.mark
  split <;> simp

theorem count_mark_mem (st : Acc) (c : Coord) : (c, true) ∈ ((st.count c).mark c).coords := by
  have : 0 < countOf (st.count c).counts c := by simp [Acc.count, countOf]
  simp [Acc.mark, this]

theorem le_argStep (s : Schema) (st : Acc) (p : TypeDef) (f : FieldDef) (a : Name × Val) :
    Le st (argStep s st p f a) := by
  unfold argStep
  refine Le.trans ?_ (le_add _ _)
  refine Le.trans ?_ (le_mark _ _)
  split
  · exact le_count _ _
  · exact Le.refl _

theorem le_pairStep (s : Schema) (st : Acc) (t : Name) (v : Val) : Le st (pairStep s st t v) := by
  unfold pairStep
  split
  · exact le_add _ _
  · exact Le.refl _
  · exact le_add _ _
  · split
    · exact le_nest _ _ _
    · exact Le.refl _
  · exact le_add _ _

theorem le_objStep (s : Schema) (m : Name) (defs : List InputDef) (st : Acc) (f : Name × Val) :
    Le st (objStep s m defs st f) := by
  unfold objStep
  split
  · exact Le.refl _
  · exact (((le_add _ _).trans (le_add _ _)).trans (le_mark _ _)).trans (le_pairStep _ _ _ _)

theorem le_foldl {α : Type} (g : Acc → α → Acc) (hg : ∀ st a, Le st (g st a)) :
    ∀ (l : List α) (st : Acc), Le st (l.foldl g st) := by
  intro l
  induction l with
  | nil => intro st; exact Le.refl _
  | cons a l ih => intro st; exact (hg st a).trans (ih _)

theorem le_step (s : Schema) (st : Acc) (e : Option FieldDef × Ctx × Ev) : Le st (step s st e) := by
  obtain ⟨f, c, ev⟩ := e
  cases ev with
  | field al n args ds sub =>
    simp only [step]
    split
    · exact Le.refl _
    · split
      · exact le_add _ _
      · exact ⟨fun _ h => h, fun _ h => h, fun _ h => h, fun h => by cases h⟩
  | varDef v =>
    simp only [step]
    split
    · exact Le.refl _
    · refine ⟨fun _ h => List.mem_append_right _ h, fun _ h => ?_, fun _ h => ?_, id⟩
      · exact List.mem_cons_of_mem _ (List.mem_append_right _ h)
      · show _ ∈ (if v.default_.isSome then v.name :: st.defaults else st.defaults)
        split
        · exact List.mem_cons_of_mem _ h
        · exact h
  | arg a =>
    simp only [step]
    split
    · exact Le.refl _
    · split
      · exact ⟨fun _ h => h, fun _ h => h, fun _ h => h, fun h => by cases h⟩
      · split
        · exact le_argStep _ _ _ _ _
        · exact Le.refl _
  | list vs =>
    simp only [step]
    split
    · exact Le.refl _
    · split
      · exact le_add _ _
      · exact Le.refl _
  | obj fs =>
    simp only [step]
    split
    · exact le_foldl _ (fun st f => le_objStep s _ _ st f) _ _
    · exact Le.refl _
  | _ => exact Le.refl _

/-- What is told of was dealt with in a state between the first and the last. -/
theorem fold_mem (s : Schema) {l : List (Option FieldDef × Ctx × Ev)} {e : Option FieldDef × Ctx × Ev}
    (he : e ∈ l) (st : Acc) : ∃ st1, Le st st1 ∧ Le st1 (step s st1 e) ∧
      Le (step s st1 e) (l.foldl (step s) st) := by
  induction l generalizing st with
  | nil => cases he
  | cons a l ih =>
    rcases List.mem_cons.1 he with rfl | he
    · exact ⟨st, Le.refl _, le_step s st _, le_foldl _ (le_step s) _ _⟩
    · obtain ⟨st1, h1, h2, h3⟩ := ih he (step s st a)
      exact ⟨st1, (le_step s st a).trans h1, h2, h3⟩

theorem le_finish (s : Schema) (order : List Name) (st : Acc) :
    ∀ u ∈ st.coords, u ∈ finish s order st :=
  (le_foldl _ (le_nest s) order st).coords

/-! ## The field that the visitor is in -/

/-- The fields that the visitor is in after all that. -/
def pushAll (st : List (Option FieldDef)) (l : Told) : List (Option FieldDef) := l.foldl push st

theorem track_append (st : List (Option FieldDef)) (a b : Told) :
    track st (a ++ b) = track st a ++ track (pushAll st a) b := by
  induction a generalizing st with
  | nil => rfl
  | cons e a ih =>
    rw [List.cons_append, track, track, ih]
    rfl

theorem pushAll_append (st : List (Option FieldDef)) (a b : Told) :
    pushAll st (a ++ b) = pushAll (pushAll st a) b := List.foldl_append

theorem pushAll_cons (st : List (Option FieldDef)) (e : Ctx × Ev) (l : Told) :
    pushAll st (e :: l) = pushAll (push st e) l := rfl

theorem track_mem {l : Told} {e : Ctx × Ev} (he : e ∈ l) (st : List (Option FieldDef)) :
    ∃ f, (f, e) ∈ track st l := by
  induction l generalizing st with
  | nil => cases he
  | cons a l ih =>
    rcases List.mem_cons.1 he with rfl | he
    · exact ⟨_, List.mem_cons_self⟩
    · obtain ⟨f, hf⟩ := ih he (push st a)
      exact ⟨f, List.mem_cons_of_mem _ hf⟩

theorem mem_track {l : Told} {e : Option FieldDef × Ctx × Ev} {st : List (Option FieldDef)}
    (he : e ∈ track st l) : e.2 ∈ l := by
  induction l generalizing st with
  | nil => cases he
  | cons a l ih =>
    rcases List.mem_cons.1 he with rfl | he
    · exact List.mem_cons_self
    · exact List.mem_cons_of_mem _ (ih he)

/-- Neither entering nor leaving a field. -/
def still (e : Ctx × Ev) : Prop := ∀ st, push st e = st

theorem pushAll_still {l : Told} (h : ∀ e ∈ l, still e) (st : List (Option FieldDef)) :
    pushAll st l = st := by
  induction l generalizing st with
  | nil => rfl
  | cons a l ih =>
    show pushAll (push st a) l = st
    rw [h a List.mem_cons_self st]
    exact ih (fun e he => h e (List.mem_cons_of_mem _ he)) st

theorem track_still {l : Told} (h : ∀ e ∈ l, still e) {e : Ctx × Ev} (he : e ∈ l)
    (st : List (Option FieldDef)) : (top st, e) ∈ track st l := by
  induction l generalizing st with
  | nil => cases he
  | cons a l ih =>
    rcases List.mem_cons.1 he with rfl | he
    · exact List.mem_cons_self
    · refine List.mem_cons_of_mem _ ?_
      rw [h a List.mem_cons_self st]
      exact ih (fun e he => h e (List.mem_cons_of_mem _ he)) he st

theorem still_val {s : Schema} {c : Ctx} {v : Val} : ∀ e ∈ visitVal s c v, still e := by
  intro e he st
  have := visitVal_isVal s c v e he
  obtain ⟨c', ev⟩ := e
  cases ev <;> first | rfl | simp [Ev.isVal] at this

theorem still_args {s : Schema} {c : Ctx} {defs : Option (List InputDef)} {args : Args} :
    ∀ e ∈ visitArgs s c defs args, still e := by
  intro e he
  obtain ⟨a, _, h | h⟩ := (mem_visitArgs _ _ _ _ _).1 he
  · subst h; intro st; rfl
  · exact still_val e h

theorem still_dirs {s : Schema} {c : Ctx} {ds : List Dir} : ∀ e ∈ visitDirs s c ds, still e := by
  intro e he
  obtain ⟨x, _, h | h | h⟩ := (mem_visitDirs _ _ _ _).1 he
  · subst h; intro st; rfl
  · subst h; intro st; rfl
  · exact still_args e h

theorem still_vars {s : Schema} {c : Ctx} {vs : List VarDef} : ∀ e ∈ visitVars s c vs, still e := by
  intro e he
  obtain ⟨v, _, h⟩ := List.mem_flatMap.1 he
  rcases List.mem_cons.1 h with h | h
  · subst h; intro st; rfl
  · cases hd : v.default_ with
    | none => rw [hd] at h; cases h
    | some x => rw [hd] at h; exact still_val e h

mutual
theorem pushAll_sel (s : Schema) (c : Ctx) (x : Sel) (st : List (Option FieldDef)) :
    pushAll st (visitSel s c x) = st := by
  match x with
  | .field al n args ds sub =>
    rw [visitSel]
    show pushAll (((inField c n).parent.bind (·.fieldByName n)) :: st) _ = st
    rw [pushAll_append, pushAll_append, pushAll_append, pushAll_still still_args,
      pushAll_still still_dirs]
    show pushAll (pushAll _ (visitSels s (inSet s (inField c n)) sub)) [(inField c n, .leaveField)] = st
    rw [pushAll_sels s _ sub]
    rfl
  | .spread n ds =>
    rw [visitSel]
    show pushAll st (visitDirs s c ds) = st
    exact pushAll_still still_dirs st
  | .inline cond ds sub =>
    rw [visitSel, pushAll_cons, show push st (inCond c cond, .inline cond ds) = st from rfl,
      pushAll_append, pushAll_still still_dirs]
    show pushAll st (visitSels s (inSet s (inCond c cond)) sub) = st
    exact pushAll_sels s _ sub st
theorem pushAll_sels (s : Schema) (c : Ctx) (ss : List Sel) (st : List (Option FieldDef)) :
    pushAll st (visitSels s c ss) = st := by
  match ss with
  | [] => rw [visitSels]; rfl
  | x :: xs => rw [visitSels, pushAll_append, pushAll_sel s c x, pushAll_sels s c xs]
end

theorem pushAll_def (s : Schema) (x : Def) (st : List (Option FieldDef)) :
    pushAll st (visitDef s x) = st := by
  cases x with
  | op o =>
    rw [visitDef, pushAll_cons, show push st (startCtx (rootOf s o.kind), .op o) = st from rfl,
      pushAll_append, pushAll_append, pushAll_still still_dirs, pushAll_still still_vars]
    exact pushAll_sels s _ _ st
  | frag f =>
    rw [visitDef, pushAll_cons, show push st (startCtx (some f.cond), .frag f) = st from rfl,
      pushAll_append, pushAll_append, pushAll_still still_dirs]
    show pushAll (pushAll st (visitSels s _ f.sels)) _ = st
    rw [pushAll_sels]
    rfl

theorem track_sels_of_mem {s : Schema} {c : Ctx} {ss : List Sel} {x : Sel}
    {e : Option FieldDef × Ctx × Ev} {st : List (Option FieldDef)} (hx : x ∈ ss)
    (he : e ∈ track st (visitSel s c x)) : e ∈ track st (visitSels s c ss) := by
  induction ss with
  | nil => cases hx
  | cons y ys ih =>
    rw [visitSels, track_append, pushAll_sel]
    rcases List.mem_cons.1 hx with rfl | hx
    · exact List.mem_append_left _ he
    · exact List.mem_append_right _ (ih hx)

/-- The arguments of a field are told of in that field. -/
theorem track_args_at {s : Schema} {c c' : Ctx} {ss : List Sel} {y : Sel}
    (h : AtC s c ss c' y) : ∀ {al n args ds sub}, y = .field al n args ds sub →
    ∀ e ∈ visitArgs s (inField c' n) (fieldArgs c'.parent n) args,
    ∀ st, (c'.parent.bind (·.fieldByName n), e) ∈ track st (visitSels s c ss) := by
  induction h with
  | @here c ss x hx =>
    intro al n args ds sub hy e he st
    subst hy
    refine track_sels_of_mem hx ?_
    rw [visitSel]
    refine List.mem_cons_of_mem _ ?_
    rw [track_append, track_append, track_append]
    exact List.mem_append_left _ (List.mem_append_left _ (List.mem_append_left _
      (track_still still_args he _)))
  | @field c c' ss x al' n' args' ds' sub' hx _ ih =>
    intro al n args ds sub hy e he st
    refine track_sels_of_mem hx ?_
    rw [visitSel]
    refine List.mem_cons_of_mem _ ?_
    rw [track_append, track_append]
    refine List.mem_append_left _ (List.mem_append_right _ ?_)
    exact List.mem_cons_of_mem _ (ih hy e he _)
  | @inline c c' ss x cond ds' sub' hx _ ih =>
    intro al n args ds sub hy e he st
    refine track_sels_of_mem hx ?_
    rw [visitSel]
    refine List.mem_cons_of_mem _ ?_
    rw [track_append]
    refine List.mem_append_right _ ?_
    exact List.mem_cons_of_mem _ (ih hy e he _)

theorem track_defs_of_mem {s : Schema} {d : Doc} {x : Def} {e : Option FieldDef × Ctx × Ev}
    {st : List (Option FieldDef)} (hx : x ∈ d) (he : e ∈ track st (visitDef s x)) :
    e ∈ track st (d.flatMap (visitDef s)) := by
  induction d with
  | nil => cases hx
  | cons y ys ih =>
    rw [List.flatMap_cons, track_append, pushAll_def]
    rcases List.mem_cons.1 hx with rfl | hx
    · exact List.mem_append_left _ he
    · exact List.mem_append_right _ (ih hx)

theorem track_visit_of_mem {s : Schema} {d : Doc} {x : Def} {e : Option FieldDef × Ctx × Ev}
    (hx : x ∈ d) (he : e ∈ track [] (visitDef s x)) : e ∈ track [] (visit s d) := by
  unfold visit
  refine List.mem_cons_of_mem _ ?_
  rw [track_append]
  exact List.mem_append_left _ (track_defs_of_mem hx he)

theorem track_args_def {s : Schema} {x : Def} {c : Ctx} {al n args ds sub}
    (h : DefAt s x c (.field al n args ds sub)) :
    ∀ e ∈ visitArgs s (inField c n) (fieldArgs c.parent n) args,
    (c.parent.bind (·.fieldByName n), e) ∈ track [] (visitDef s x) := by
  intro e he
  have := track_args_at h rfl e he
  cases x with
  | op o =>
    rw [visitDef]
    refine List.mem_cons_of_mem _ ?_
    rw [track_append]
    exact List.mem_append_right _ (List.mem_cons_of_mem _ (this _))
  | frag f =>
    rw [visitDef]
    refine List.mem_cons_of_mem _ ?_
    rw [track_append, track_append]
    exact List.mem_append_left _ (List.mem_append_right _ (List.mem_cons_of_mem _ (this _)))

/-! ## What fails -/

/-- There the visitor has no type in scope. -/
def bad (e : Ctx × Ev) : Bool :=
  match e.2 with
  | .field _ _ _ _ _ => e.1.parent.isNone
  | .arg _ => e.1.parent.isNone
  | _ => false

theorem error_pairStep (s : Schema) (st : Acc) (t : Name) (v : Val) :
    (pairStep s st t v).error = st.error := by
  unfold pairStep
  split
  · rfl
  · rfl
  · rfl
  · split <;> rfl
  · rfl

theorem error_mark (st : Acc) (c : Coord) : (st.mark c).error = st.error := by
  unfold Acc.mark
  split <;> rfl

theorem error_objStep (s : Schema) (m : Name) (defs : List InputDef) (st : Acc) (f : Name × Val) :
    (objStep s m defs st f).error = st.error := by
  unfold objStep
  split
  · rfl
  · rw [error_pairStep, error_mark]; rfl

theorem error_step (s : Schema) (st : Acc) (e : Option FieldDef × Ctx × Ev) :
    (step s st e).error = (st.error || bad e.2) := by
  obtain ⟨f, c, ev⟩ := e
  cases ev with
  | field al n args ds sub =>
    simp only [step, bad]
    cases he : st.error <;> simp [he]
    cases c.parent <;> simp [Acc.add, he]
  | varDef v =>
    simp only [step, bad]
    cases he : st.error <;> simp [he, Acc.add]
  | arg a =>
    simp only [step, bad]
    cases he : st.error <;> simp [he]
    cases c.parent with
    | none => simp
    | some p =>
      cases f with
      | none => simp [he]
      | some fd =>
        simp only [argStep, Acc.add, error_mark]
        split <;> simp [Acc.count, he]
  | list vs =>
    simp only [step, bad]
    cases he : st.error <;> simp [he]
    split <;> simp [he, Acc.add]
  | obj fs =>
    simp only [step, bad, Bool.or_false]
    split
    · rename_i m defs _
      clear * -
      induction fs generalizing st with
      | nil => rfl
      | cons f fs ih => rw [List.foldl_cons, ih, error_objStep]
    · rfl
  | _ => simp [step, bad]

theorem error_fold (s : Schema) (l : List (Option FieldDef × Ctx × Ev)) (st : Acc) :
    (l.foldl (step s) st).error = (st.error || l.any (fun e => bad e.2)) := by
  induction l generalizing st with
  | nil => simp
  | cons e l ih => rw [List.foldl_cons, ih, error_step, List.any_cons, Bool.or_assoc]

theorem walk_error (s : Schema) (d : Doc) :
    (walk s d).error = false ↔ ∀ e ∈ visit s d, bad e = false := by
  unfold walk
  rw [error_fold]
  simp only [Acc.new, Bool.false_or, List.any_eq_false]
  constructor
  · intro h e he
    obtain ⟨f, hf⟩ := track_mem he []
    simpa using h _ hf
  · intro h e he
    simpa using h _ (mem_track he)

end Verif.Usage.Coords
