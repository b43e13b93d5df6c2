import Verif.Fetch.Spec

/-!
# Lemmas: merging selections loses nothing
-/

namespace Verif.Fetch

open Verif.Walker (Cond)

variable {v : Vars}

/-! ## What is asked for -/

theorem mem_asked {x : List String × Ask} {l : List Sel} :
    x ∈ asked v l ↔ ∃ i ∈ l, x ∈ askedBy v i := by
  induction l with
  | nil => simp [asked]
  | cons a r ih => simp [asked, ih]

theorem asked_append {a b : List Sel} : asked v (a ++ b) = asked v a ++ asked v b := by
  induction a with
  | nil => simp [asked]
  | cons x r ih => simp [asked, ih]

/-- Everything one selection set asks for, another one asks for too. -/
def Keeps (v : Vars) (a b : List Sel) : Prop := ∀ x ∈ asked v a, x ∈ asked v b

theorem Keeps.refl {a : List Sel} : Keeps v a a := fun _ h => h
theorem Keeps.trans {a b c : List Sel} (h : Keeps v a b) (k : Keeps v b c) : Keeps v a c :=
  fun x hx => k x (h x hx)
theorem Keeps.left {a b : List Sel} : Keeps v a (a ++ b) := by
  intro x hx; rw [asked_append]; exact List.mem_append_left _ hx
theorem Keeps.right {a b : List Sel} : Keeps v b (a ++ b) := by
  intro x hx; rw [asked_append]; exact List.mem_append_right _ hx
theorem Keeps.mid {a b : List Sel} {x y : Sel} (h : ∀ z ∈ askedBy v x, z ∈ askedBy v y) :
    Keeps v (a ++ x :: b) (a ++ y :: b) := by
  intro z hz
  simp only [asked_append, asked, List.mem_append] at hz ⊢
  rcases hz with hz | hz | hz
  · exact .inl hz
  · exact .inr (.inl (h z hz))
  · exact .inr (.inr hz)

theorem askedBy_field_mono {f g : FieldInfo} {ss ts : List Sel} (hc : condOf f = condOf g)
    (ha : askOf f = askOf g) (h : Keeps v ss ts) :
    ∀ z ∈ askedBy v (.field f ss), z ∈ askedBy v (.field g ts) := by
  intro z hz
  have hk : f.key = g.key := congrArg Ask.key ha
  simp only [askedBy] at hz ⊢
  rw [← hc]
  split at hz
  next hh =>
    rw [if_pos hh]
    rcases List.mem_cons.1 hz with rfl | hz
    · rw [ha]; exact List.mem_cons_self ..
    · obtain ⟨y, hy, rfl⟩ := List.mem_map.1 hz
      rw [hk]
      exact List.mem_cons_of_mem _ (List.mem_map.2 ⟨y, h y hy, rfl⟩)
  next => exact absurd hz (by simp)

theorem askedBy_frag_mono {f g : FragInfo} {ss ts : List Sel} (hc : fragCond f = fragCond g)
    (h : Keeps v ss ts) : ∀ z ∈ askedBy v (.frag f ss), z ∈ askedBy v (.frag g ts) := by
  intro z hz
  simp only [askedBy] at hz ⊢
  rw [← hc]
  split at hz
  next hh => rw [if_pos hh]; exact h z hz
  next => exact absurd hz (by simp)

/-! ## What all fields and fragments have in common -/

variable {P : FieldInfo → Prop} {Q : FragInfo → Prop}

theorem fit_iff {l : List Sel} : Fit P Q l ↔ ∀ i ∈ l, FitBy P Q i := by
  induction l with
  | nil => simp [Fit]
  | cons a r ih => simp [Fit, ih]

theorem fit_append {a b : List Sel} : Fit P Q (a ++ b) ↔ Fit P Q a ∧ Fit P Q b := by
  simp only [fit_iff, List.mem_append]
  exact ⟨fun h => ⟨fun i hi => h i (.inl hi), fun i hi => h i (.inr hi)⟩,
    fun h i hi => hi.elim (h.1 i) (h.2 i)⟩

theorem fit_mid {a b : List Sel} {x : Sel} :
    Fit P Q (a ++ x :: b) ↔ Fit P Q a ∧ FitBy P Q x ∧ Fit P Q b := by
  rw [fit_append]; simp [Fit]

/-! ## `merge_selection_set` -/

theorem updateFirst_some {p : Sel → Bool} {u : Sel → Sel} : ∀ {ts ts' : List Sel},
    updateFirst p u ts = some ts' → ∃ a x b, ts = a ++ x :: b ∧ p x = true ∧ ts' = a ++ u x :: b
  | [], _, h => by simp [updateFirst] at h
  | y :: r, ts', h => by
    simp only [updateFirst] at h
    split at h
    next hp => exact ⟨[], y, r, rfl, hp, (Option.some.inj h).symm⟩
    next =>
      cases hr : updateFirst p u r with
      | none => rw [hr] at h; simp at h
      | some r' =>
        rw [hr] at h
        obtain ⟨a, x, b, h1, h2, h3⟩ := updateFirst_some hr
        refine ⟨y :: a, x, b, by rw [h1]; rfl, h2, ?_⟩
        rw [← Option.some.inj h, h3]; rfl

theorem sameField_ask {f g : FieldInfo} (h : sameField f g = true) : askOf f = askOf g := by
  simp only [sameField, Bool.and_eq_true, beq_iff_eq, decide_eq_true_eq] at h
  obtain ⟨⟨h1, h2⟩, h3⟩ := h
  simp [askOf, FieldInfo.key, h1, h2, h3]

theorem mergeOmit_ask {f g : FieldInfo} : askOf (mergeOmit f g) = askOf f ∧ condOf (mergeOmit f g) = condOf f := by
  unfold mergeOmit
  split <;> exact ⟨rfl, rfl⟩

theorem place_keeps {first : Bool} {a b : List Sel} :
    Keeps v a (place first (a, b)) ∧ Keeps v b (place first (a, b)) := by
  cases first
  · exact ⟨Keeps.left, Keeps.right⟩
  · exact ⟨Keeps.right, Keeps.left⟩

theorem place_fit {first : Bool} {r : List Sel × List Sel} (h : Fit P Q r.1 ∧ Fit P Q r.2) :
    Fit P Q (place first r) := by
  cases first
  · exact fit_append.2 h
  · exact fit_append.2 h.symm

/-- The fields that are compared do not say whether a field is left out of the response. -/
def Blind (P : FieldInfo → Prop) : Prop := ∀ f g, P f → P (mergeOmit f g)

mutual
theorem mergeSel_keeps (first : Bool) : ∀ (s : Sel) {ts ts' : List Sel},
    mergeSel first s ts = some ts' → Keeps v ts ts' ∧ ∀ z ∈ askedBy v s, z ∈ asked v ts'
  | .field f ss, ts, ts', h => by
    simp only [mergeSel] at h
    obtain ⟨a, x, b, rfl, hp, rfl⟩ := updateFirst_some h
    match x, hp with
    | .field g us, hp =>
      simp only [matches', Bool.and_eq_true, decide_eq_true_eq] at hp
      have hl := mergeLoop_keeps first ss (ts := us)
      refine ⟨Keeps.mid ?_, ?_⟩
      · exact askedBy_field_mono mergeOmit_ask.2.symm mergeOmit_ask.1.symm (hl.1.trans place_keeps.1)
      · intro z hz
        refine mem_asked.2 ⟨_, List.mem_append_right _ (List.mem_cons_self ..), ?_⟩
        refine askedBy_field_mono (hp.2.trans mergeOmit_ask.2.symm)
          ((sameField_ask hp.1).trans mergeOmit_ask.1.symm) ?_ z hz
        intro y hy
        have := hl.2 y hy
        rw [asked_append] at this
        rcases List.mem_append.1 this with h1 | h1
        · exact place_keeps.1 y h1
        · exact place_keeps.2 y h1
    | .frag _ _, hp => simp [matches'] at hp
    | .spread _, hp => simp [matches'] at hp
  | .frag f ss, ts, ts', h => by
    simp only [mergeSel] at h
    obtain ⟨a, x, b, rfl, hp, rfl⟩ := updateFirst_some h
    match x, hp with
    | .frag g us, hp =>
      simp only [matches', Bool.and_eq_true, decide_eq_true_eq] at hp
      have hl := mergeLoop_keeps first ss (ts := us)
      refine ⟨Keeps.mid ?_, ?_⟩
      · exact askedBy_frag_mono rfl (hl.1.trans place_keeps.1)
      · intro z hz
        refine mem_asked.2 ⟨_, List.mem_append_right _ (List.mem_cons_self ..), ?_⟩
        refine askedBy_frag_mono hp.2 ?_ z hz
        intro y hy
        have := hl.2 y hy
        rw [asked_append] at this
        rcases List.mem_append.1 this with h1 | h1
        · exact place_keeps.1 y h1
        · exact place_keeps.2 y h1
    | .field _ _, hp => simp [matches'] at hp
    | .spread _, hp => simp [matches'] at hp
  | .spread _, _, _, h => by simp [mergeSel] at h
theorem mergeLoop_keeps (first : Bool) : ∀ (ss : List Sel) {ts : List Sel},
    Keeps v ts (mergeLoop first ss ts).1 ∧
      Keeps v ss ((mergeLoop first ss ts).1 ++ (mergeLoop first ss ts).2)
  | [], ts => by
    simp only [mergeLoop]
    exact ⟨Keeps.refl, fun x hx => by simp [asked] at hx⟩
  | s :: r, ts => by
    simp only [mergeLoop]
    split
    next ts' h =>
      have h1 := mergeSel_keeps first s h
      have h2 := mergeLoop_keeps first r (ts := ts')
      refine ⟨h1.1.trans h2.1, ?_⟩
      intro x hx
      simp only [asked, List.mem_append] at hx
      rcases hx with hx | hx
      · exact Keeps.left x (h2.1 x (h1.2 x hx))
      · exact h2.2 x hx
    next =>
      have h2 := mergeLoop_keeps first r (ts := ts)
      refine ⟨h2.1, ?_⟩
      intro x hx
      simp only [asked, List.mem_append] at hx
      rcases hx with hx | hx
      · exact mem_asked.2 ⟨s, by simp, hx⟩
      · have := h2.2 x hx
        simp only [asked_append, asked, List.mem_append] at this ⊢
        rcases this with h | h
        · exact .inl h
        · exact .inr (.inr h)
end

theorem mergeSels_keeps (first : Bool) (ss ts : List Sel) :
    Keeps v ts (mergeSels first ss ts) ∧ Keeps v ss (mergeSels first ss ts) := by
  have h := mergeLoop_keeps (v := v) first ss (ts := ts)
  refine ⟨h.1.trans place_keeps.1, ?_⟩
  intro x hx
  have := h.2 x hx
  rw [asked_append] at this
  rcases List.mem_append.1 this with h1 | h1
  · exact place_keeps.1 x h1
  · exact place_keeps.2 x h1

mutual
theorem mergeSel_fit (hB : Blind P) (first : Bool) : ∀ (s : Sel) {ts ts' : List Sel},
    FitBy P Q s → Fit P Q ts → mergeSel first s ts = some ts' → Fit P Q ts'
  | .field f ss, ts, ts', hs, ht, h => by
    simp only [mergeSel] at h
    obtain ⟨a, x, b, rfl, hp, rfl⟩ := updateFirst_some h
    obtain ⟨h1, h2, h3⟩ := fit_mid.1 ht
    match x, hp, h2 with
    | .field g us, _, h2 =>
      exact fit_mid.2 ⟨h1, ⟨hB g f h2.1, place_fit (mergeLoop_fit hB first ss hs.2 h2.2)⟩, h3⟩
    | .frag _ _, hp, _ => simp [matches'] at hp
    | .spread _, hp, _ => simp [matches'] at hp
  | .frag f ss, ts, ts', hs, ht, h => by
    simp only [mergeSel] at h
    obtain ⟨a, x, b, rfl, hp, rfl⟩ := updateFirst_some h
    obtain ⟨h1, h2, h3⟩ := fit_mid.1 ht
    match x, hp, h2 with
    | .frag g us, _, h2 =>
      exact fit_mid.2 ⟨h1, ⟨h2.1, place_fit (mergeLoop_fit hB first ss hs.2 h2.2)⟩, h3⟩
    | .field _ _, hp, _ => simp [matches'] at hp
    | .spread _, hp, _ => simp [matches'] at hp
  | .spread _, _, _, _, _, h => by simp [mergeSel] at h
theorem mergeLoop_fit (hB : Blind P) (first : Bool) : ∀ (ss : List Sel) {ts : List Sel},
    Fit P Q ss → Fit P Q ts → Fit P Q (mergeLoop first ss ts).1 ∧ Fit P Q (mergeLoop first ss ts).2
  | [], ts, _, ht => by
    simp only [mergeLoop]
    exact ⟨ht, trivial⟩
  | s :: r, ts, hs, ht => by
    simp only [mergeLoop]
    split
    next ts' h => exact mergeLoop_fit hB first r hs.2 (mergeSel_fit hB first s hs.1 ht h)
    next =>
      have h2 := mergeLoop_fit hB first r hs.2 ht
      exact ⟨h2.1, hs.1, h2.2⟩
end

theorem mergeSels_fit (hB : Blind P) (first : Bool) {ss ts : List Sel} (hs : Fit P Q ss) (ht : Fit P Q ts) :
    Fit P Q (mergeSels first ss ts) := place_fit (mergeLoop_fit hB first ss hs ht)

end Verif.Fetch
