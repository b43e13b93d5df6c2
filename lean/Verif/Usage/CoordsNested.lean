import Verif.Usage.CoordsLemmas
import Verif.Usage.CoordsSpec

/-!
# The types of variables: everything in them is collected
-/

namespace Verif.Usage.Coords

open Verif.Valid

theorem typeByName_name {s : Schema} {n : Name} {t : TypeDef} (h : s.typeByName n = some t) :
    t.name = n := by
  have := List.find?_some h
  simpa using this

/-- The type was collected, but for the fields of an input object. -/
def Seen (s : Schema) (st : List Name × List Used) (n : Name) : Prop :=
  match s.typeByName n with
  | some (.scalar m) => (Coord.type m, false) ∈ st.2
  | some (.input m _) => m ∈ st.1
  | some (.enum m vs) => ∀ v ∈ vs, (Coord.member m v, false) ∈ st.2
  | some _ => True
  | none => builtin n = true → (Coord.type n, false) ∈ st.2

/-- The fields of every input object that was entered were collected, but for those in `W`. -/
def Full (s : Schema) (W : List Name) (st : List Name × List Used) : Prop :=
  ∀ m ∈ st.1, m ∉ W → ∀ m' fs, s.typeByName m = some (.input m' fs) → ∀ f ∈ fs,
    (Coord.member m' f.name, false) ∈ st.2 ∧ Seen s st f.ty.inner

theorem seen_mono {s : Schema} {st st' : List Name × List Used} {n : Name} (h : Seen s st n)
    (h1 : ∀ m ∈ st.1, m ∈ st'.1) (h2 : ∀ u ∈ st.2, u ∈ st'.2) : Seen s st' n := by
  unfold Seen at *
  split <;> rename_i heq <;> rw [heq] at h <;> simp only at h
  · exact h2 _ h
  · exact h1 _ h
  · exact fun v hv => h2 _ (h v hv)
  · rename_i h3 h4 h5
    trivial
  · exact fun hb => h2 _ (h hb)

theorem full_mono {s : Schema} {W : List Name} {st st' : List Name × List Used} (h : Full s W st)
    (h1 : st'.1 = st.1) (h2 : ∀ u ∈ st.2, u ∈ st'.2) : Full s W st' := by
  intro m hm hw m' fs ht f hf
  obtain ⟨h3, h4⟩ := h m (h1 ▸ hm) hw m' fs ht f hf
  exact ⟨h2 _ h3, seen_mono h4 (fun x hx => by rw [h1]; exact hx) h2⟩

/-- How many types of the schema were not entered. -/
def left (s : Schema) (vis : List Name) : Nat := (s.types.filter (fun t => decide (t.name ∉ vis))).length

theorem left_le (s : Schema) {a b : List Name} (h : ∀ m ∈ a, m ∈ b) : left s b ≤ left s a := by
  unfold left
  apply List.Sublist.length_le
  apply List.monotone_filter_right
  intro t ht
  simp only [decide_eq_true_eq] at *
  exact fun hm => ht (h _ hm)

theorem filter_lt {α : Type} (p q : α → Bool) (l : List α) (hpq : ∀ a, p a = true → q a = true) {x : α}
    (hx : x ∈ l) (h1 : p x = false) (h2 : q x = true) : (l.filter p).length < (l.filter q).length := by
  induction l with
  | nil => cases hx
  | cons a l ih =>
    have hle : (l.filter p).length ≤ (l.filter q).length :=
      (List.monotone_filter_right l hpq).length_le
    rcases List.mem_cons.1 hx with rfl | hx
    · rw [List.filter_cons, List.filter_cons, if_neg (by simp [h1]), if_pos h2]
      simp only [List.length_cons]
      omega
    · have := ih hx
      rw [List.filter_cons, List.filter_cons]
      by_cases hp : p a = true
      · rw [if_pos hp, if_pos (hpq a hp)]
        simp only [List.length_cons]
        omega
      · rw [if_neg hp]
        split
        · simp only [List.length_cons]; omega
        · exact this

theorem left_lt (s : Schema) {m : Name} {vis : List Name} {t : TypeDef} (h : s.typeByName m = some t)
    (hm : m ∉ vis) : left s (m :: vis) < left s vis := by
  refine filter_lt _ _ _ ?_ (List.mem_of_find?_eq_some h) ?_ ?_
  · intro a ha
    simp only [List.mem_cons, not_or, decide_eq_true_eq] at *
    exact ha.2
  · simp [typeByName_name h]
  · simpa [typeByName_name h] using hm

/-- Entering a type collects it and all that is in it. -/
theorem nested_full (s : Schema) (k : Nat) : ∀ (n : Name) (st : List Name × List Used) (W : List Name),
    left s st.1 < k → Full s W st → Full s W (nested s k n st) ∧ Seen s (nested s k n st) n := by
  induction k with
  | zero => intro n st W h; exact absurd h (Nat.not_lt_zero _)
  | succ k ih =>
    intro n st W hk hf
    rw [nested]
    split
    · rename_i m hn
      refine ⟨full_mono hf rfl (fun u hu => List.mem_cons_of_mem _ hu), ?_⟩
      simp [Seen, hn]
    · rename_i m fs hn
      have hmn : m = n := typeByName_name hn
      split
      · rename_i hm
        exact ⟨hf, by simpa [Seen, hn] using hm⟩
      · rename_i hm
        subst hmn
        have hl := left_lt s hn hm
        have key : ∀ (gs : List InputDef) (st1 : List Name × List Used),
            left s st1.1 < k → Full s (m :: W) st1 →
            Full s (m :: W) (gs.foldl (fun st f =>
              nested s k f.ty.inner (st.1, (.member m f.name, false) :: st.2)) st1) ∧
            (∀ x ∈ st1.1, x ∈ (gs.foldl (fun st f =>
              nested s k f.ty.inner (st.1, (.member m f.name, false) :: st.2)) st1).1) ∧
            (∀ x ∈ st1.2, x ∈ (gs.foldl (fun st f =>
              nested s k f.ty.inner (st.1, (.member m f.name, false) :: st.2)) st1).2) ∧
            ∀ f ∈ gs, (Coord.member m f.name, false) ∈ (gs.foldl (fun st f =>
              nested s k f.ty.inner (st.1, (.member m f.name, false) :: st.2)) st1).2 ∧
              Seen s (gs.foldl (fun st f =>
              nested s k f.ty.inner (st.1, (.member m f.name, false) :: st.2)) st1) f.ty.inner := by
          intro gs
          induction gs with
          | nil => intro st1 _ h; exact ⟨h, fun _ h => h, fun _ h => h, fun f hf => by cases hf⟩
          | cons g gs ihg =>
            intro st1 h1 h2
            rw [List.foldl_cons]
            have h3 : Full s (m :: W) (st1.1, (Coord.member m g.name, false) :: st1.2) :=
              full_mono h2 rfl (fun u hu => List.mem_cons_of_mem _ hu)
            obtain ⟨h4, h5⟩ := ih g.ty.inner (st1.1, (Coord.member m g.name, false) :: st1.2) (m :: W) h1 h3
            obtain ⟨h6, h7⟩ := nested_mono s k g.ty.inner (st1.1, (Coord.member m g.name, false) :: st1.2)
            obtain ⟨h8, h9, h10, h11⟩ := ihg _ (Nat.lt_of_le_of_lt (left_le s h6) h1) h4
            refine ⟨h8, fun x hx => h9 x (h6 x hx), fun x hx => h10 x (h7 x (List.mem_cons_of_mem _ hx)), ?_⟩
            intro f hf
            rcases List.mem_cons.1 hf with rfl | hf
            · exact ⟨h10 _ (h7 _ List.mem_cons_self), seen_mono h5 h9 h10⟩
            · exact h11 f hf
        have h0 : Full s (m :: W) (m :: st.1, st.2) := by
          intro x hx hw m' gs ht f hff
          rcases List.mem_cons.1 hx with rfl | hx
          · exact absurd List.mem_cons_self hw
          · obtain ⟨h3, h4⟩ := hf x hx (fun h => hw (List.mem_cons_of_mem _ h)) m' gs ht f hff
            exact ⟨h3, seen_mono h4 (fun y hy => List.mem_cons_of_mem _ hy) (fun _ h => h)⟩
        obtain ⟨h1, h2, h3, h4⟩ := key fs (m :: st.1, st.2)
          (by show left s (m :: st.1) < k; omega) h0
        refine ⟨?_, ?_⟩
        · intro x hx hw m' gs ht f hff
          by_cases hxm : x = m
          · subst hxm
            rw [hn] at ht
            cases ht
            exact h4 f hff
          · exact h1 x hx (by simp [hxm, hw]) m' gs ht f hff
        · simp only [Seen, hn]
          exact h2 m List.mem_cons_self
    · rename_i m vs hn
      refine ⟨full_mono hf rfl (fun u hu => List.mem_append_right _ hu), ?_⟩
      simp only [Seen, hn]
      intro v hv
      exact List.mem_append_left _ (List.mem_map_of_mem hv)
    · rename_i t h1 h2 h3 hn
      refine ⟨hf, ?_⟩
      unfold Seen
      rw [hn]
      cases t with
      | scalar m => exact absurd rfl (h1 m)
      | input m fs => exact absurd rfl (h2 m fs)
      | enum m vs => exact absurd rfl (h3 m vs)
      | _ => trivial
    · rename_i hn
      split
      · refine ⟨full_mono hf rfl (fun u hu => List.mem_cons_of_mem _ hu), ?_⟩
        simp [Seen, hn]
      · rename_i hb
        exact ⟨hf, by simp [Seen, hn, hb]⟩

/-- `Full`, for what is kept on the walk. -/
def Acc.Full (s : Schema) (st : Acc) : Prop := Coords.Full s [] (st.visited, st.coords)

theorem full_of (s : Schema) {a b : Acc} (h : a.Full s) (hv : b.visited = a.visited) (hl : Le a b) :
    b.Full s := full_mono h hv hl.coords

theorem full_nest (s : Schema) {st : Acc} (h : st.Full s) (n : Name) :
    (st.nest s n).Full s ∧ Seen s ((st.nest s n).visited, (st.nest s n).coords) n := by
  have := nested_full s (s.types.length + 1) n (st.visited, st.coords) []
    (Nat.lt_succ_of_le (List.length_filter_le _ _)) h
  exact this

theorem mark_visited (st : Acc) (c : Coord) : (st.mark c).visited = st.visited := by
  unfold Acc.mark
  split <;> rfl

theorem full_pairStep (s : Schema) {st : Acc} (h : st.Full s) (t : Name) (v : Val) :
    (pairStep s st t v).Full s := by
  unfold pairStep
  split
  · exact full_of s h rfl (le_add _ _)
  · exact h
  · exact full_of s h rfl (le_add _ _)
  · split
    · exact (full_nest s h t).1
    · exact h
  · exact full_of s h rfl (le_add _ _)

theorem full_objStep (s : Schema) (m : Name) (defs : List InputDef) {st : Acc} (h : st.Full s)
    (f : Name × Val) : (objStep s m defs st f).Full s := by
  unfold objStep
  split
  · exact h
  · refine full_pairStep s ?_ _ _
    exact full_of s h (by rw [mark_visited]; rfl) (((le_add _ _).trans (le_add _ _)).trans (le_mark _ _))

theorem full_step (s : Schema) {st : Acc} (h : st.Full s) (e : Option FieldDef × Ctx × Ev) :
    (step s st e).Full s := by
  by_cases ho : ∃ fs, e.2.2 = .obj fs
  · obtain ⟨f, c, ev⟩ := e
    obtain ⟨fs, rfl⟩ := ho
    simp only [step]
    split
    · rename_i m defs _
      clear * - h
      induction fs generalizing st with
      | nil => exact h
      | cons f fs ih => exact ih (full_objStep s m defs h f)
    · exact h
  · refine full_of s h ?_ (le_step s st e)
    obtain ⟨f, c, ev⟩ := e
    cases ev with
    | field al n args ds sub =>
      simp only [step]
      split
      · rfl
      · split <;> rfl
    | varDef v =>
      simp only [step]
      split <;> rfl
    | arg a =>
      simp only [step]
      split
      · rfl
      · split
        · rfl
        · split
          · simp only [argStep, Acc.add, mark_visited]
            split <;> rfl
          · rfl
    | list vs =>
      simp only [step]
      split
      · rfl
      · split <;> rfl
    | obj fs => exact absurd ⟨fs, rfl⟩ ho
    | _ => rfl

theorem full_walk (s : Schema) (d : Doc) : (walk s d).Full s := by
  have : ∀ (l : List (Option FieldDef × Ctx × Ev)) (st : Acc), st.Full s →
      (l.foldl (step s) st).Full s := by
    intro l
    induction l with
    | nil => exact fun _ h => h
    | cons e l ih => exact fun st h => ih _ (full_step s h e)
  exact this _ _ (fun m hm => by cases hm)

theorem nest_seen (s : Schema) {st : Acc} {n : Name} (m : Name)
    (h : Seen s (st.visited, st.coords) n) :
    Seen s ((st.nest s m).visited, (st.nest s m).coords) n :=
  seen_mono h (fun x hx => (nested_mono s _ m (st.visited, st.coords)).1 x hx)
    (fun x hx => (nested_mono s _ m (st.visited, st.coords)).2 x hx)

theorem finish_seen (s : Schema) (order : List Name) (st : Acc) (h : st.Full s) :
    (order.foldl (Acc.nest s) st).Full s ∧
    (∀ n, Seen s (st.visited, st.coords) n →
      Seen s ((order.foldl (Acc.nest s) st).visited, (order.foldl (Acc.nest s) st).coords) n) ∧
    ∀ n ∈ order, Seen s ((order.foldl (Acc.nest s) st).visited,
      (order.foldl (Acc.nest s) st).coords) n := by
  induction order generalizing st with
  | nil => exact ⟨h, fun _ h => h, fun n hn => by cases hn⟩
  | cons m order ih =>
    obtain ⟨h1, h2⟩ := full_nest s h m
    obtain ⟨h3, h4, h5⟩ := ih (st.nest s m) h1
    refine ⟨h3, fun n hn => h4 n (nest_seen s m hn), fun n hn => ?_⟩
    rcases List.mem_cons.1 hn with rfl | hn
    · exact h4 _ h2
    · exact h5 n hn

/-- Everything that is in a type of a variable was collected. -/
theorem finish_covers (s : Schema) (order : List Name) (st : Acc) (h : st.Full s) {n m : Name}
    (hn : n ∈ order) (hm : Within s n m) : Tells s (finish s order st) m := by
  obtain ⟨h1, _, h3⟩ := finish_seen s order st h
  have hs : Seen s ((order.foldl (Acc.nest s) st).visited, (order.foldl (Acc.nest s) st).coords) m := by
    induction hm with
    | self => exact h3 _ hn
    | @field m m' fs f _ ht hf ih =>
      unfold Seen at ih
      rw [ht] at ih
      have hmm : m' = m := typeByName_name ht
      subst hmm
      exact (h1 m' ih (by simp) m' fs ht f hf).2
  unfold Seen at hs
  unfold Tells finish
  cases ht : s.typeByName m with
  | none => rw [ht] at hs; simpa [builtin, or_assoc] using hs
  | some t =>
    rw [ht] at hs
    cases t with
    | scalar _ => exact hs
    | enum _ _ => exact hs
    | input m' fs =>
      have hmm : m' = m := typeByName_name ht
      subst hmm
      exact fun f hf => (h1 m' hs (by simp) m' fs ht f hf).1
    | _ => trivial

end Verif.Usage.Coords
