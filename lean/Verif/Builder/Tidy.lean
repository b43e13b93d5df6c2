import Verif.Builder.Main

/-!
# Dropping redundant guards

`remove_redundant_child_guards` changes nothing of what the plans show.
-/

namespace Verif.Builder

open Verif.Projection
open Verif.Normalize (Item)

variable {S : Meta}

/-- Where a guard is redundant, it accepts every type of the domain. -/
def Sound (D : String → Prop) (poss : Option (List String)) (ps : List Plan) : Prop :=
  ∀ l, poss = some l → ∀ p ∈ ps, ∀ g, p.info.guard = some g → redundant l g = true →
    ∀ T, D T → g.Names T

theorem tidyAll_eq (poss : Option (List String)) (ps : List Plan) :
    tidyAll S poss ps = ps.map (tidy S poss) := by
  induction ps with
  | nil => rfl
  | cons p ps ih => simp only [tidyAll, List.map_cons, ih]

theorem tidy_info (poss : Option (List String)) (p : Plan) :
    (tidy S poss p).info = dropGuard poss p.info := by
  cases p <;> simp only [tidy] <;> rfl

theorem dropGuard_key (poss : Option (List String)) (i : PlanInfo) :
    (dropGuard poss i).responseKey = i.responseKey := by
  unfold dropGuard
  split
  · split <;> rfl
  · rfl

theorem dropGuard_name (poss : Option (List String)) (i : PlanInfo) :
    (dropGuard poss i).fieldName = i.fieldName := by
  unfold dropGuard
  split
  · split <;> rfl
  · rfl

theorem dropGuard_conditions (poss : Option (List String)) (i : PlanInfo) :
    (dropGuard poss i).conditions = i.conditions := by
  unfold dropGuard
  split
  · split <;> rfl
  · rfl

theorem dropGuard_guard (poss : Option (List String)) (i : PlanInfo) :
    (dropGuard poss i).guard = i.guard ∨ ((dropGuard poss i).guard = none ∧
      ∃ l g, poss = some l ∧ i.guard = some g ∧ redundant l g = true) := by
  unfold dropGuard
  split
  · rename_i g l hg
    split
    · rename_i hr; exact Or.inr ⟨rfl, l, g, rfl, hg, hr⟩
    · exact Or.inl rfl
  · exact Or.inl rfl

theorem dropGuard_means {D : String → Prop} {poss : Option (List String)} {ps : List Plan}
    (h : Sound D poss ps) {p : Plan} (hp : p ∈ ps) {T : String} (hT : D T) :
    GuardMeans T (tidy S poss p).info.guard ↔ GuardMeans T p.info.guard := by
  rw [tidy_info]
  rcases dropGuard_guard poss p.info with h1 | ⟨h1, l, g, h2, h3, h4⟩
  · rw [h1]
  · rw [h1, h3]
    exact ⟨fun _ => h l h2 p hp g h3 h4 T hT, fun _ => trivial⟩

/-- The possible types below a plan are its field's type alone. -/
theorem childTypes_one (hS : MetaOk S) {P T : String} {i : PlanInfo} (ho : Owner S P T i)
    (hn : i.fieldName ≠ "__typename") {ft : FieldType} (hft : S.field T i.fieldName = some ft)
    {l : List String} (hl : childTypes S i = some l) : ∀ x, x ∈ l → x = ft.out := by
  obtain ⟨Q, f, h1, h2, h3, h4⟩ := ho
  rw [fieldInfo, if_neg hn] at h1
  obtain ⟨ft', h5, h6⟩ := hS.fields Q T _ f h2 h1
  rw [hft] at h5
  cases h5
  cases hg : i.guard with
  | none => simp [childTypes, hg] at hl
  | some g =>
    simp only [childTypes, hg, Option.map_some, Option.some.injEq] at hl
    subst hl
    intro x hx
    rw [mem_setExtend] at hx
    simp only [List.not_mem_nil, false_or, List.mem_filterMap] at hx
    obtain ⟨t, ht, hx⟩ := hx
    obtain ⟨fX, h7, h8⟩ := hS.fields Q t _ f ((h4 g hg).2 t ((mem_namesOf g t).1 ht)) h1
    rw [h7] at hx
    simp only [Option.map_some, Option.some.injEq] at hx
    rw [← hx, h8, h6]

/-- Below a plan at a type, redundant guards accept all objects. -/
theorem sound_below (hS : MetaOk S) {k : Nat} {P T : String} {p : Plan} (hp : AtInv S P T p)
    (hn : p.info.fieldName ≠ "__typename") {ft : FieldType}
    (hft : S.field T p.info.fieldName = some ft) (poss : Option (List String))
    (hs : ∀ c ∈ kids p, Stat S k c) :
    Sound (Obj S ft.out) (childTypes S (dropGuard poss p.info)) (kids p) := by
  intro l hl c hc g hg hr T' hT'
  have hch : childTypes S p.info = some l := by
    rcases dropGuard_guard poss p.info with h1 | ⟨h1, _⟩
    · simp only [childTypes, h1, dropGuard_name] at hl ⊢; exact hl
    · simp [childTypes, h1] at hl
  have hone := childTypes_one hS hp.owner hn hft hch
  have hclosed : Closed S c.info.guard := (hs c hc).closed
  cases g with
  | exact t =>
    simp only [redundant, Bool.and_eq_true, List.contains_iff_mem] at hr
    have ht := hone t hr.2
    exact hclosed (.exact t) hg ft.out T' ht.symm hT'.2
  | oneOf ts =>
    simp only [redundant, Bool.and_eq_true, List.all_eq_true, List.contains_iff_mem,
      beq_iff_eq] at hr
    have hlne : l ≠ [] := by
      obtain ⟨Q, f, h1, h2, h3, h4⟩ := hp.owner
      rw [fieldInfo, if_neg hn] at h1
      cases hgd : p.info.guard with
      | none => simp [childTypes, hgd] at hch
      | some g' =>
        obtain ⟨X, hX⟩ := (h4 g' hgd).1
        obtain ⟨fX, h7, h8⟩ := hS.fields Q X _ f ((h4 g' hgd).2 X hX) h1
        simp only [childTypes, hgd, Option.map_some, Option.some.injEq] at hch
        intro hnil
        have : fX.out ∈ l := by
          rw [← hch, mem_setExtend]
          refine Or.inr (List.mem_filterMap.2 ⟨X, (mem_namesOf g' X).2 hX, ?_⟩)
          rw [h7]; rfl
        rw [hnil] at this
        simp at this
    cases ts with
    | nil =>
      have h0 : l.length = 0 := hr.1.symm
      exact absurd (List.length_eq_zero_iff.1 h0) hlne
    | cons t ts =>
      have ht := hone t (hr.2 t (by simp))
      refine hclosed (.oneOf (t :: ts)) hg ft.out T' ?_ hT'.2
      show ft.out ∈ t :: ts
      simp [ht]

theorem tidyAll_shows (hS : MetaOk S) : ∀ (k : Nat) {P : String} {D : String → Prop}
    {poss : Option (List String)} {ps : List Plan}, (∀ p ∈ ps, Stat S k p) →
    (∀ p ∈ ps, Good S P D p) → Sound D poss ps → ∀ V path, Fits S D path →
    (Shows V (tidyAll S poss ps) path ↔ Shows V ps path) := by
  intro k
  induction k with
  | zero =>
    intro P D poss ps hs hg hso V path hf
    cases path with
    | nil => simp [shows_nil]
    | cons st rest =>
      rw [tidyAll_eq, shows_cons, shows_cons]
      have hb : ∀ p ∈ ps, (Below V (tidy S poss p) rest ↔ Below V p rest) := by
        intro p hp
        have := hs p hp
        cases this with
        | leaf _ i hi => simp only [tidy]; rfl
      constructor
      · rintro ⟨q, hq, q1, q2, q3, q4, q5⟩
        obtain ⟨p, hp, rfl⟩ := List.mem_map.1 hq
        rw [tidy_info, dropGuard_key] at q1
        rw [tidy_info, dropGuard_name] at q2
        rw [tidy_info, dropGuard_conditions] at q4
        exact ⟨p, hp, q1, q2, (dropGuard_means hso hp hf.1).1 q3, q4, (hb p hp).1 q5⟩
      · rintro ⟨p, hp, q1, q2, q3, q4, q5⟩
        refine ⟨tidy S poss p, List.mem_map.2 ⟨p, hp, rfl⟩, ?_, ?_,
          (dropGuard_means hso hp hf.1).2 q3, ?_, (hb p hp).2 q5⟩
        · rw [tidy_info, dropGuard_key]; exact q1
        · rw [tidy_info, dropGuard_name]; exact q2
        · rw [tidy_info, dropGuard_conditions]; exact q4
  | succ k ih =>
    intro P D poss ps hs hg hso V path hf
    cases path with
    | nil => simp [shows_nil]
    | cons st rest =>
      rw [tidyAll_eq, shows_cons, shows_cons]
      have hb : ∀ p ∈ ps, p.info.fieldName = st.name → GuardMeans st.type p.info.guard →
          (Below V (tidy S poss p) rest ↔ Below V p rest) := by
        intro p hp hname hgd
        have hst := hs p hp
        have hinv := hg p hp st.type hf.1 hgd
        cases hst with
        | leaf _ i hi => simp only [tidy]; rfl
        | node _ i cs hi hcs hx =>
          simp only [tidy]
          show Shows V (tidyAll S _ cs) rest ↔ Shows V cs rest
          by_cases hr : rest = []
          · subst hr; simp [shows_nil]
          · rcases hf.2 with h | ⟨hn, ft, hft, hf'⟩
            · exact absurd h hr
            · rw [← hname] at hn hft
              exact ih hcs (hinv.inner ft hn hft) (sound_below hS hinv hn hft poss hcs) V rest hf'
      constructor
      · rintro ⟨q, hq, q1, q2, q3, q4, q5⟩
        obtain ⟨p, hp, rfl⟩ := List.mem_map.1 hq
        rw [tidy_info, dropGuard_key] at q1
        rw [tidy_info, dropGuard_name] at q2
        rw [tidy_info, dropGuard_conditions] at q4
        have q3 := (dropGuard_means hso hp hf.1).1 q3
        exact ⟨p, hp, q1, q2, q3, q4, (hb p hp q2 q3).1 q5⟩
      · rintro ⟨p, hp, q1, q2, q3, q4, q5⟩
        refine ⟨tidy S poss p, List.mem_map.2 ⟨p, hp, rfl⟩, ?_, ?_,
          (dropGuard_means hso hp hf.1).2 q3, ?_, (hb p hp q2 q3).2 q5⟩
        · rw [tidy_info, dropGuard_key]; exact q1
        · rw [tidy_info, dropGuard_name]; exact q2
        · rw [tidy_info, dropGuard_conditions]; exact q4

end Verif.Builder
