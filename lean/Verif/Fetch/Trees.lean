import Verif.Fetch.Build

/-!
# Lemmas: what is in a tree stays in it when trees are merged
-/

namespace Verif.Fetch

open Verif.Graph (Moves Edge)

/-! ## Trees within trees -/

mutual
/-- All of a tree is in another one. -/
def Sub : Tree → Tree → Prop
  | .mk l rs cs, u => u.label = l ∧ SubL rs u.reqs ∧ SubL cs u.children
/-- All of the trees are in the others. -/
def SubL : List Tree → List Tree → Prop
  | [], _ => True
  | t :: r, us => (∃ u ∈ us, Sub t u) ∧ SubL r us
end

theorem subL_iff : ∀ {ts us : List Tree}, SubL ts us ↔ ∀ t ∈ ts, ∃ u ∈ us, Sub t u
  | [], us => by simp [SubL]
  | t :: r, us => by
    simp only [SubL, List.mem_cons, forall_eq_or_imp]
    rw [subL_iff]

theorem Sub.label {t u : Tree} (h : Sub t u) : u.label = t.label := by
  cases t
  simp only [Sub] at h
  exact h.1

mutual
theorem Sub.refl : ∀ t : Tree, Sub t t
  | .mk _ rs cs => ⟨rfl, SubL.refl rs, SubL.refl cs⟩
theorem SubL.refl : ∀ ts : List Tree, SubL ts ts
  | [] => trivial
  | t :: r => ⟨⟨t, List.mem_cons_self .., Sub.refl t⟩,
      subL_iff.2 fun x hx =>
        let ⟨u, hu, h⟩ := subL_iff.1 (SubL.refl r) x hx
        ⟨u, List.mem_cons_of_mem _ hu, h⟩⟩
end

mutual
theorem Sub.trans : ∀ {a b c : Tree}, Sub a b → Sub b c → Sub a c
  | .mk _ rs cs, .mk _ rs' cs', c, h, k => by
    simp only [Sub, Tree.label, Tree.reqs, Tree.children] at h k ⊢
    exact ⟨k.1.trans h.1, SubL.trans h.2.1 k.2.1, SubL.trans h.2.2 k.2.2⟩
theorem SubL.trans : ∀ {a b c : List Tree}, SubL a b → SubL b c → SubL a c
  | [], _, _, _, _ => trivial
  | t :: r, b, c, h, k => by
    simp only [SubL] at h ⊢
    obtain ⟨⟨u, hu, h1⟩, h2⟩ := h
    obtain ⟨w, hw, h3⟩ := subL_iff.1 k u hu
    exact ⟨⟨w, hw, Sub.trans h1 h3⟩, SubL.trans h2 k⟩
end

theorem subL_insert {f : Tree → Tree} {s : Tree} (hf : ∀ x, Sub x (f x)) : ∀ {ts : List Tree},
    SubL ts (insertTree f s ts)
  | [] => trivial
  | x :: r => by
    refine subL_iff.2 ?_
    intro t ht
    simp only [insertTree]
    rcases List.mem_cons.1 ht with rfl | ht
    · split
      · exact ⟨f t, List.mem_cons_self .., hf t⟩
      · exact ⟨t, List.mem_cons_self .., Sub.refl t⟩
    · split
      · exact ⟨t, List.mem_cons_of_mem _ ht, Sub.refl t⟩
      · obtain ⟨u, hu, h⟩ := subL_iff.1 (subL_insert hf (ts := r)) t ht
        exact ⟨u, List.mem_cons_of_mem _ hu, h⟩

mutual
theorem merge_left : ∀ (a b : Tree), Sub a (mergeTree a b)
  | .mk _ rs cs, .mk _ rs' cs' => by
    simp only [mergeTree, Sub, Tree.label, Tree.reqs, Tree.children]
    exact ⟨trivial, merges_left rs rs', merges_left cs cs'⟩
theorem merges_left : ∀ (a b : List Tree), SubL a (mergeTrees a b)
  | a, [] => by
    simp only [mergeTrees]
    exact SubL.refl a
  | a, s :: r => by
    simp only [mergeTrees]
    exact SubL.trans (subL_insert fun x => merge_left x s) (merges_left _ r)
end

theorem insert_has {f : Tree → Tree} {s : Tree} (hf : ∀ x, x.label = s.label → Sub s (f x)) : ∀ {ts : List Tree},
    ∃ u ∈ insertTree f s ts, Sub s u
  | [] => ⟨s, by simp [insertTree], Sub.refl s⟩
  | x :: r => by
    simp only [insertTree]
    split
    next h => exact ⟨f x, List.mem_cons_self .., hf x h⟩
    next =>
      obtain ⟨u, hu, h⟩ := insert_has hf (ts := r)
      exact ⟨u, List.mem_cons_of_mem _ hu, h⟩

mutual
theorem merge_right : ∀ (a b : Tree), a.label = b.label → Sub b (mergeTree a b)
  | .mk _ rs cs, .mk _ rs' cs', h => by
    simp only [mergeTree, Sub, Tree.label, Tree.reqs, Tree.children]
    exact ⟨h, merges_right rs rs', merges_right cs cs'⟩
theorem merges_right : ∀ (a b : List Tree), SubL b (mergeTrees a b)
  | _, [] => trivial
  | a, s :: r => by
    simp only [mergeTrees, SubL]
    obtain ⟨u, hu, h⟩ := insert_has (f := fun x => mergeTree x s) (s := s) (fun x hx => merge_right x s hx) (ts := a)
    obtain ⟨w, hw, h'⟩ := subL_iff.1 (merges_left (insertTree (fun x => mergeTree x s) s a) r) u hu
    exact ⟨⟨w, hw, h.trans h'⟩, merges_right _ r⟩
end

theorem mergeTree_label (a b : Tree) : (mergeTree a b).label = a.label := by
  cases a; cases b
  simp [mergeTree, Tree.label]

/-- All trees are in the merged one, if they have one label. -/
theorem mergeAll_sub {ts : List Tree} {l : Label} (h : ∀ t ∈ ts, t.label = l) : SubL ts (mergeAll ts) := by
  have fold : ∀ (r : List Tree) (t : Tree), t.label = l → (∀ x ∈ r, x.label = l) →
      Sub t (r.foldl mergeTree t) ∧ ∀ x ∈ r, Sub x (r.foldl mergeTree t) := by
    intro r
    induction r with
    | nil => exact fun t _ _ => ⟨Sub.refl t, fun x hx => by cases hx⟩
    | cons y r ih =>
      intro t ht hr
      have hy := hr y (List.mem_cons_self ..)
      obtain ⟨i1, i2⟩ := ih (mergeTree t y) (by rw [mergeTree_label]; exact ht) fun x hx =>
        hr x (List.mem_cons_of_mem _ hx)
      refine ⟨(merge_left t y).trans i1, ?_⟩
      intro x hx
      rcases List.mem_cons.1 hx with rfl | hx
      · exact (merge_right t x (ht.trans hy.symm)).trans i1
      · exact i2 x hx
  match ts with
  | [] => trivial
  | t :: r =>
    have := fold r t (h t (List.mem_cons_self ..)) fun x hx => h x (List.mem_cons_of_mem _ hx)
    refine subL_iff.2 ?_
    intro x hx
    refine ⟨_, by simp only [mergeAll]; exact List.mem_singleton.2 rfl, ?_⟩
    rcases List.mem_cons.1 hx with rfl | hx
    · exact this.1
    · exact this.2 x hx

/-! ## Trees with one requirement -/

/-- The node an edge starts at. -/
def srcOf (G : Moves) (l : Label) : Option Nat := l.edge.bind fun id => (Walker.Moves.edge? G id).map (·.src)

mutual
/-- Every part of a tree has at most one requirement, which starts where the part starts. -/
def Tidy (G : Moves) : Tree → Prop
  | .mk l rs cs => rs.length ≤ 1 ∧ Needs G l rs ∧ TidyL G cs
/-- See `Tidy`. -/
def Needs (G : Moves) (l : Label) : List Tree → Prop
  | [] => True
  | t :: r => (∃ n, srcOf G l = some n ∧ t.label = { node := n }) ∧ Tidy G t ∧ Needs G l r
/-- See `Tidy`. -/
def TidyL (G : Moves) : List Tree → Prop
  | [] => True
  | t :: r => Tidy G t ∧ TidyL G r
end

theorem tidyL_iff {G : Moves} : ∀ {ts : List Tree}, TidyL G ts ↔ ∀ t ∈ ts, Tidy G t
  | [] => by simp [TidyL]
  | t :: r => by
    simp only [TidyL, List.mem_cons, forall_eq_or_imp]
    rw [tidyL_iff]

theorem needs_iff {G : Moves} {l : Label} : ∀ {ts : List Tree}, Needs G l ts ↔
    ∀ t ∈ ts, (∃ n, srcOf G l = some n ∧ t.label = { node := n }) ∧ Tidy G t
  | [] => by simp [Needs]
  | t :: r => by
    simp only [Needs, List.mem_cons, forall_eq_or_imp]
    rw [needs_iff, and_assoc]

mutual
theorem merge_tidy {G : Moves} : ∀ (a b : Tree), a.label = b.label → Tidy G a → Tidy G b → Tidy G (mergeTree a b)
  | .mk l rs cs, .mk _ rs' cs', h, ha, hb => by
    simp only [Tree.label] at h
    subst h
    simp only [Tidy] at ha hb
    simp only [mergeTree, Tidy]
    refine ⟨?_, merges_tidy cs cs' ha.2.2 hb.2.2 |> fun hc => ⟨?_, hc⟩⟩
    · match rs, rs', ha, hb with
      | rs, [], ha, _ => simpa only [mergeTrees] using ha.1
      | [], [y], _, _ => simp [mergeTrees, insertTree]
      | [x], [y], ha, hb =>
        have hx := (needs_iff.1 ha.2.1 x (List.mem_cons_self ..)).1
        have hy := (needs_iff.1 hb.2.1 y (List.mem_cons_self ..)).1
        obtain ⟨n, h1, h2⟩ := hx
        obtain ⟨m, h3, h4⟩ := hy
        have : n = m := Option.some.inj (h1.symm.trans h3)
        subst this
        simp [mergeTrees, insertTree, h2, h4]
      | _ :: _ :: _, _, ha, _ => simp at ha
      | _, _ :: _ :: _, _, hb => simp at hb
    · exact needs_merge rs rs' ha.2.1 hb.2.1
theorem needs_merge {G : Moves} {l : Label} : ∀ (a b : List Tree), Needs G l a → Needs G l b →
    Needs G l (mergeTrees a b)
  | a, [], ha, _ => by
    simp only [mergeTrees]
    exact ha
  | a, s :: r, ha, hb => by
    simp only [mergeTrees]
    simp only [Needs] at hb
    refine needs_merge _ r ?_ hb.2.2
    refine needs_iff.2 ?_
    intro t ht
    have key : ∀ {a : List Tree}, Needs G l a → ∀ t ∈ insertTree (fun x => mergeTree x s) s a,
        (∃ n, srcOf G l = some n ∧ t.label = { node := n }) ∧ Tidy G t := by
      intro a
      induction a with
      | nil =>
        intro _ t ht
        simp only [insertTree, List.mem_singleton] at ht
        subst ht
        exact ⟨hb.1, hb.2.1⟩
      | cons x r ih =>
        intro ha t ht
        simp only [Needs] at ha
        simp only [insertTree] at ht
        split at ht
        next hx =>
          rcases List.mem_cons.1 ht with rfl | ht
          · exact ⟨by rw [mergeTree_label]; exact ha.1, merge_tidy x s hx ha.2.1 hb.2.1⟩
          · exact needs_iff.1 ha.2.2 t ht
        next =>
          rcases List.mem_cons.1 ht with rfl | ht
          · exact ⟨ha.1, ha.2.1⟩
          · exact ih ha.2.2 t ht
    exact key ha t ht
theorem merges_tidy {G : Moves} : ∀ (a b : List Tree), TidyL G a → TidyL G b → TidyL G (mergeTrees a b)
  | a, [], ha, _ => by
    simp only [mergeTrees]
    exact ha
  | a, s :: r, ha, hb => by
    simp only [mergeTrees]
    simp only [TidyL] at hb
    refine merges_tidy _ r ?_ hb.2
    refine tidyL_iff.2 ?_
    have key : ∀ {a : List Tree}, TidyL G a → ∀ t ∈ insertTree (fun x => mergeTree x s) s a, Tidy G t := by
      intro a
      induction a with
      | nil =>
        intro _ t ht
        simp only [insertTree, List.mem_singleton] at ht
        subst ht
        exact hb.1
      | cons x r ih =>
        intro ha t ht
        simp only [TidyL] at ha
        simp only [insertTree] at ht
        split at ht
        next hx =>
          rcases List.mem_cons.1 ht with rfl | ht
          · exact merge_tidy x s hx ha.1 hb.1
          · exact tidyL_iff.1 ha.2 t ht
        next =>
          rcases List.mem_cons.1 ht with rfl | ht
          · exact ha.1
          · exact ih ha.2 t ht
    exact key ha
end

theorem mergeAll_tidy {G : Moves} {ts : List Tree} {l : Label} (h : ∀ t ∈ ts, t.label = l ∧ Tidy G t) :
    (mergeAll ts).length ≤ 1 ∧ ∀ t ∈ mergeAll ts, t.label = l ∧ Tidy G t := by
  have fold : ∀ (r : List Tree) (t : Tree), t.label = l ∧ Tidy G t → (∀ x ∈ r, x.label = l ∧ Tidy G x) →
      (r.foldl mergeTree t).label = l ∧ Tidy G (r.foldl mergeTree t) := by
    intro r
    induction r with
    | nil => exact fun t ht _ => ht
    | cons y r ih =>
      intro t ht hr
      have hy := hr y (List.mem_cons_self ..)
      exact ih (mergeTree t y) ⟨by rw [mergeTree_label]; exact ht.1, merge_tidy t y (ht.1.trans hy.1.symm) ht.2 hy.2⟩
        fun x hx => hr x (List.mem_cons_of_mem _ hx)
  match ts with
  | [] => exact ⟨by simp [mergeAll], fun t ht => by simp [mergeAll] at ht⟩
  | t :: r =>
    refine ⟨by simp [mergeAll], ?_⟩
    intro x hx
    simp only [mergeAll, List.mem_singleton] at hx
    subst hx
    exact fold r t (h t (List.mem_cons_self ..)) fun x hx => h x (List.mem_cons_of_mem _ hx)

end Verif.Fetch
