import Verif.Plan.Waves
import Std.Data.String.ToNat

/-!
# Lists with equal neighbours that are one
-/

namespace Verif.Plan

variable {α β : Type}

theorem Stutter.refl (l : List α) : Stutter l l := by
  induction l with
  | nil => exact .nil
  | cons a l ih => exact .cons a l l ih

/-- The first list from the second one and the numbers of copies. -/
def copies (ks : List (α × Nat)) : List α := ks.flatMap fun p => List.replicate (p.2 + 1) p.1

theorem stutter_copies (ks : List (α × Nat)) : Stutter (copies ks) (ks.map (·.1)) := by
  induction ks with
  | nil => exact .nil
  | cons p ks ih =>
    obtain ⟨a, k⟩ := p
    simp only [copies, List.flatMap_cons, List.map_cons]
    change Stutter (List.replicate (k + 1) a ++ copies ks) (a :: ks.map (·.1))
    induction k with
    | zero => exact .cons a _ _ ih
    | succ k ihk =>
      rw [List.replicate_succ, List.cons_append] at ihk ⊢
      rw [List.replicate_succ, List.cons_append]
      exact .dup a _ _ ihk

theorem copies_of_stutter (l m : List α) (h : Stutter l m) :
    ∃ ks : List (α × Nat), l = copies ks ∧ m = ks.map (·.1) := by
  induction h with
  | nil => exact ⟨[], rfl, rfl⟩
  | cons a l m _ ih =>
    obtain ⟨ks, rfl, rfl⟩ := ih
    exact ⟨(a, 0) :: ks, rfl, rfl⟩
  | dup a l m _ ih =>
    obtain ⟨ks, h1, h2⟩ := ih
    cases ks with
    | nil => simp at h2
    | cons p ks =>
      obtain ⟨b, k⟩ := p
      simp only [List.map_cons, List.cons.injEq] at h2
      obtain ⟨rfl, rfl⟩ := h2
      refine ⟨(a, k + 1) :: ks, ?_, rfl⟩
      rw [h1]
      rfl

theorem perm_lift (f : α → β) (l : List β) (ks : List α) (h : l.Perm (ks.map f)) :
    ∃ ks' : List α, ks'.Perm ks ∧ l = ks'.map f := by
  generalize hm : ks.map f = m at h
  induction h generalizing ks with
  | nil => 
    cases ks with
    | nil => exact ⟨[], .refl _, rfl⟩
    | cons _ _ => simp at hm
  | cons b _ ih =>
    cases ks with
    | nil => simp at hm
    | cons a ks =>
      simp only [List.map_cons, List.cons.injEq] at hm
      obtain ⟨rfl, hm⟩ := hm
      obtain ⟨ks', h1, h2⟩ := ih ks hm
      exact ⟨a :: ks', h1.cons a, by simp [h2]⟩
  | swap b c l =>
    cases ks with
    | nil => simp at hm
    | cons a ks =>
      cases ks with
      | nil => simp at hm
      | cons a' ks =>
        simp only [List.map_cons, List.cons.injEq] at hm
        obtain ⟨rfl, rfl, rfl⟩ := hm
        exact ⟨a' :: a :: ks, .swap _ _ _, rfl⟩
  | trans _ _ ih1 ih2 =>
    obtain ⟨k2, h3, h4⟩ := ih2 ks hm
    obtain ⟨k1, h1, h2⟩ := ih1 k2 h4.symm
    exact ⟨k1, h1.trans h3, h2⟩

theorem Stutter.append {l m l' m' : List α} (h : Stutter l m) (h' : Stutter l' m') :
    Stutter (l ++ l') (m ++ m') := by
  induction h with
  | nil => exact h'
  | cons a l m _ ih => exact .cons a _ _ ih
  | dup a l m _ ih => exact .dup a _ _ ih

theorem Stutter.map (f : α → β) {l m : List α} (h : Stutter l m) : Stutter (l.map f) (m.map f) := by
  induction h with
  | nil => exact .nil
  | cons a l m _ ih => exact .cons _ _ _ ih
  | dup a l m _ ih => exact .dup _ _ _ ih

theorem Stutter.trans {l m n : List α} (h : Stutter l m) (h' : Stutter m n) : Stutter l n := by
  induction h generalizing n with
  | nil => exact h'
  | cons a l m h ih =>
    obtain ⟨ks, h1, rfl⟩ := copies_of_stutter _ _ h'
    cases ks with
    | nil => simp [copies] at h1
    | cons p ks =>
      obtain ⟨b, k⟩ := p
      cases k with
      | zero =>
        simp only [copies, List.flatMap_cons, List.replicate_succ, List.replicate_zero,
          List.cons_append, List.nil_append, List.cons.injEq] at h1
        obtain ⟨rfl, rfl⟩ := h1
        exact .cons _ _ _ (ih (stutter_copies ks))
      | succ k =>
        simp only [copies, List.flatMap_cons] at h1
        rw [List.replicate_succ, List.cons_append, List.cons.injEq] at h1
        obtain ⟨rfl, h2⟩ := h1
        have : m = copies ((a, k) :: ks) := by rw [h2]; rfl
        subst this
        have hs := ih (stutter_copies ((a, k) :: ks))
        have h3 : ∃ l', l = a :: l' := by
          have : copies ((a, k) :: ks) = a :: (List.replicate k a ++ copies ks) := by
            simp only [copies, List.flatMap_cons]
            rw [List.replicate_succ, List.cons_append]
          rw [this] at h
          cases h with
          | cons => exact ⟨_, rfl⟩
          | dup => exact ⟨_, rfl⟩
        obtain ⟨l', rfl⟩ := h3
        exact .dup _ _ _ hs
  | dup a l m h ih =>
    have hs := ih h'
    obtain ⟨ks, h1, rfl⟩ := copies_of_stutter _ _ hs
    cases ks with
    | nil => simp [copies] at h1
    | cons p ks =>
      simp only [copies, List.flatMap_cons] at h1
      rw [List.replicate_succ, List.cons_append, List.cons.injEq] at h1
      obtain ⟨rfl, _⟩ := h1
      exact .dup _ _ _ hs

/-- The second list is the first one in another order and without some of its copies. -/
def Collapse (l m : List α) : Prop := ∃ l', l'.Perm l ∧ Stutter l' m

theorem Collapse.of_perm {l m : List α} (h : m.Perm l) : Collapse l m := ⟨m, h, .refl m⟩

theorem Collapse.perm_left {l l' m : List α} (h : Collapse l m) (hp : l.Perm l') : Collapse l' m := by
  obtain ⟨k, h1, h2⟩ := h
  exact ⟨k, h1.trans hp, h2⟩

theorem Collapse.perm_right {l m m' : List α} (h : Collapse l m) (hp : m'.Perm m) : Collapse l m' := by
  obtain ⟨k, h1, h2⟩ := h
  obtain ⟨ks, rfl, rfl⟩ := copies_of_stutter _ _ h2
  obtain ⟨ks', h3, rfl⟩ := perm_lift (·.1) m' ks hp
  refine ⟨copies ks', ?_, stutter_copies ks'⟩
  exact List.Perm.trans (List.Perm.flatMap_right _ h3) h1

theorem Collapse.append {l m l' m' : List α} (h : Collapse l m) (h' : Collapse l' m') :
    Collapse (l ++ l') (m ++ m') := by
  obtain ⟨k, h1, h2⟩ := h
  obtain ⟨k', h1', h2'⟩ := h'
  exact ⟨k ++ k', h1.append h1', h2.append h2'⟩

theorem Collapse.map (f : α → β) {l m : List α} (h : Collapse l m) : Collapse (l.map f) (m.map f) := by
  obtain ⟨k, h1, h2⟩ := h
  exact ⟨k.map f, h1.map f, h2.map f⟩

theorem Collapse.nil : Collapse ([] : List α) [] := .of_perm (.refl _)

theorem Collapse.flatMap {γ : Type} (xs : List γ) (f g : γ → List α) (h : ∀ x ∈ xs, Collapse (f x) (g x)) :
    Collapse (xs.flatMap f) (xs.flatMap g) := by
  induction xs with
  | nil => exact .nil
  | cons x xs ih =>
    simp only [List.flatMap_cons]
    exact (h x (by simp)).append (ih fun y hy => h y (by simp [hy]))

/-- One more copy. -/
theorem Collapse.snoc_mem {l m : List α} (h : Collapse l m) (a : α) (ha : a ∈ m) :
    Collapse (l ++ [a]) m := by
  obtain ⟨k, h1, h2⟩ := h
  obtain ⟨ks, rfl, rfl⟩ := copies_of_stutter _ _ h2
  obtain ⟨p, hp, rfl⟩ := List.mem_map.1 ha
  obtain ⟨x, y, rfl⟩ := List.append_of_mem hp
  refine ⟨copies (x ++ (p.1, p.2 + 1) :: y), ?_, ?_⟩
  · refine List.Perm.trans ?_ (h1.append_right [p.1])
    simp only [copies, List.flatMap_append, List.flatMap_cons]
    rw [List.replicate_succ]
    simp only [List.cons_append]
    refine List.perm_middle.trans ?_
    exact (List.perm_append_singleton _ _).symm
  · have := stutter_copies (x ++ (p.1, p.2 + 1) :: y)
    simpa using this

theorem Collapse.snoc {l m : List α} (h : Collapse l m) (a : α) : Collapse (l ++ [a]) (m ++ [a]) :=
  h.append (.of_perm (.refl _))

/-- The paths, each once. -/
theorem mergePaths_collapse (ps : List Path) : ∀ (l m : List Path), Collapse l m →
    Collapse (l ++ ps) (mergePaths m ps) := by
  induction ps with
  | nil => intro l m h; simpa [mergePaths] using h
  | cons p ps ih =>
    intro l m h
    rw [mergePaths]
    split
    · rename_i hc
      have := ih (l ++ [p]) m (h.snoc_mem p (by simpa using hc))
      simpa using this
    · have := ih (l ++ [p]) (m ++ [p]) (h.snoc p)
      simpa using this

theorem mergePaths_nodup (ps : List Path) : ∀ (m : List Path), m.Nodup → (mergePaths m ps).Nodup := by
  induction ps with
  | nil => intro m h; exact h
  | cons p ps ih =>
    intro m h
    rw [mergePaths]
    split
    · exact ih m h
    · rename_i hc
      refine ih _ ?_
      rw [List.nodup_append]
      refine ⟨h, by simp, ?_⟩
      intro a ha b hb hab
      simp only [List.mem_singleton] at hb
      subst hb
      subst hab
      exact hc (by simpa using ha)

end Verif.Plan
