import Verif.Builder.Spec

/-!
# Conditions of the builder
-/

namespace Verif.Builder

open Verif.Projection
open Verif.Normalize (Item)

variable {S : Meta} {V : Val} {T : String}

theorem holds_eq : ∀ {a b : Cond}, a.eq b = true → (Holds V T a ↔ Holds V T b)
  | .incl v, b, h => by cases b <;> simp_all [Cond.eq, Holds]
  | .skip v, b, h => by cases b <;> simp_all [Cond.eq, Holds]
  | .parent t, b, h => by
    cases b <;> simp only [Cond.eq, Bool.false_eq_true] at h
    exact typeCond_eq h T
  | .field t, b, h => by cases b <;> simp_all [Cond.eq, Holds]
  | .enum s, b, h => by cases b <;> simp_all [Cond.eq, Holds]
  | .or a b, c, h => by
    cases c <;> simp only [Cond.eq, Bool.false_eq_true, Bool.and_eq_true] at h
    simp only [Holds, holds_eq h.1, holds_eq h.2]
  | .and a b, c, h => by
    cases c <;> simp only [Cond.eq, Bool.false_eq_true, Bool.and_eq_true] at h
    simp only [Holds, holds_eq h.1, holds_eq h.2]

theorem holds_and (l r : Cond) : Holds V T (l.andThen r) ↔ Holds V T l ∧ Holds V T r := by
  cases l <;> cases r <;> simp [Cond.andThen, Holds, C38_intersect]

theorem holds_orMerge (l r : Cond) : Holds V T (l.orMerge r) ↔ Holds V T l ∨ Holds V T r := by
  cases l <;> cases r <;> simp [Cond.orMerge, Holds, C38_union]

theorem holds_or (l r : Cond) : Holds V T (l.orElse r) ↔ Holds V T l ∨ Holds V T r := by
  unfold Cond.orElse
  split
  · rename_i h; rw [← holds_eq h]; simp
  · exact holds_orMerge l r

theorem holds_andOpt (l r : Option Cond) :
    HoldsOpt V T (andOpt l r) ↔ HoldsOpt V T l ∧ HoldsOpt V T r := by
  cases l <;> cases r <;> simp [andOpt, combine, HoldsOpt, holds_and]

theorem holds_orOpt (l r : Option Cond) :
    HoldsOpt V T (orOpt l r) ↔ HoldsOpt V T l ∨ HoldsOpt V T r := by
  cases l <;> cases r <;> simp [orOpt, HoldsOpt, holds_or]

theorem holds_directives (c : Option Cond) (si ii : Option String) :
    HoldsOpt V T (applyDirectives c ii si) ↔ HoldsOpt V T c ∧ Lets V si ii := by
  have hi : ∀ x, HoldsOpt V T (some (.incl x)) ↔ V.incl x := fun _ => Iff.rfl
  have hs : ∀ x, HoldsOpt V T (some (.skip x)) ↔ V.skip x := fun _ => Iff.rfl
  cases ii <;> cases si <;>
    simp [applyDirectives, holds_andOpt, hi, hs, Lets, and_assoc]

theorem holds_simplify (c : Cond) (g : Option TypeCond) (hg : GuardMeans T g) :
    HoldsOpt V T (simplify c g) ↔ Holds V T c := by
  cases g with
  | none => rfl
  | some g =>
    cases g with
    | oneOf s => rfl
    | exact g =>
      have hp : T = g := hg
      subst hp
      show HoldsOpt V T (simplifyExact T c) ↔ _
      induction c with
      | incl x => rfl
      | skip x => rfl
      | field tc => rfl
      | enum s => rfl
      | parent tc =>
        cases tc with
        | exact a =>
          simp only [simplifyExact]
          split
          · rename_i h; subst h; simp [HoldsOpt, Holds, TypeCond.Names]
          · rfl
        | oneOf s =>
          simp only [simplifyExact]
          split
          · rename_i h; subst h; simp [HoldsOpt, Holds, TypeCond.Names]
          · rfl
      | or a b iha ihb => simp only [simplifyExact, holds_orOpt, iha, ihb, Holds]
      | and a b iha ihb =>
        have : simplifyExact T (.and a b) = andOpt (simplifyExact T a) (simplifyExact T b) := by
          simp only [simplifyExact]
          cases simplifyExact T a <;> cases simplifyExact T b <;> rfl
        rw [this, holds_andOpt, iha, ihb]; rfl

theorem holds_mergeConds (g : Option TypeCond) (l r : Option Cond) :
    HoldsOpt V T (mergeConds g l g r) ↔ HoldsOpt V T l ∨ HoldsOpt V T r := by
  have hg : guardEq g g = true := by
    cases g with
    | none => rfl
    | some g => cases g <;> simp [guardEq, TypeCond.eq, setEq]
  simp [mergeConds, hg, holds_orOpt]

theorem means_mergeConds (p f : String) (v : Option Value) (t : String → Bool) (g : Option TypeCond)
    (l r : Option Cond) : MeansOpt p f v t (mergeConds g l g r) ↔
      MeansOpt p f v t l ∨ MeansOpt p f v t r := by
  have hg : guardEq g g = true := by
    cases g with
    | none => rfl
    | some g => cases g <;> simp [guardEq, TypeCond.eq, setEq]
  simp [mergeConds, hg, means_orOpt]

/-! ## The parts of a condition about the data -/

/-- Whatever the condition says about a field's type and its enum value is so. -/
def AtomsOk (f : String) (v : Option Value) : Cond → Prop
  | .field tc => tc.Names f
  | .enum s => ∀ x, v = some (.str x) → x ∈ s
  | .or a b => AtomsOk f v a ∧ AtomsOk f v b
  | .and a b => AtomsOk f v a ∧ AtomsOk f v b
  | _ => True

def AtomsOpt (f : String) (v : Option Value) : Option Cond → Prop
  | none => True
  | some c => AtomsOk f v c

section

variable {f : String} {v : Option Value}

theorem atoms_and {l r : Cond} (hl : AtomsOk f v l) (hr : AtomsOk f v r) :
    AtomsOk f v (l.andThen r) := by
  cases l <;> cases r <;> simp_all [Cond.andThen, AtomsOk, C38_intersect]

theorem atoms_or {l r : Cond} (hl : AtomsOk f v l) (hr : AtomsOk f v r) :
    AtomsOk f v (l.orElse r) := by
  unfold Cond.orElse
  split
  · exact hl
  · cases l <;> cases r <;> simp_all [Cond.orMerge, AtomsOk, C38_union, mem_setExtend]

theorem atoms_andOpt {l r : Option Cond} (hl : AtomsOpt f v l) (hr : AtomsOpt f v r) :
    AtomsOpt f v (andOpt l r) := by
  cases l <;> cases r <;> simp_all [andOpt, combine, AtomsOpt, atoms_and]

theorem atoms_orOpt {l r : Option Cond} (hl : AtomsOpt f v l) (hr : AtomsOpt f v r) :
    AtomsOpt f v (orOpt l r) := by
  cases l <;> cases r <;> simp_all [orOpt, AtomsOpt, atoms_or]

theorem atoms_directives {c : Option Cond} (hc : AtomsOpt f v c) (si ii : Option String) :
    AtomsOpt f v (applyDirectives c ii si) := by
  have hi : ∀ x, AtomsOpt f v (some (.incl x)) := fun _ => trivial
  have hs : ∀ x, AtomsOpt f v (some (.skip x)) := fun _ => trivial
  cases ii <;> cases si <;> simp only [applyDirectives]
  · exact hc
  · exact atoms_andOpt hc (hs _)
  · exact atoms_andOpt hc (hi _)
  · exact atoms_andOpt (atoms_andOpt hc (hi _)) (hs _)

theorem atoms_simplifyExact (g : String) : ∀ {c : Cond}, AtomsOk f v c →
    AtomsOpt f v (simplifyExact g c)
  | .incl _, _ => trivial
  | .skip _, _ => trivial
  | .field _, h => h
  | .enum _, h => h
  | .parent (.exact _), _ => by simp only [simplifyExact]; split <;> trivial
  | .parent (.oneOf _), _ => by simp only [simplifyExact]; split <;> trivial
  | .or a b, h => atoms_orOpt (atoms_simplifyExact g h.1) (atoms_simplifyExact g h.2)
  | .and a b, h => by
    have : simplifyExact g (.and a b) = andOpt (simplifyExact g a) (simplifyExact g b) := by
      simp only [simplifyExact]
      cases simplifyExact g a <;> cases simplifyExact g b <;> rfl
    rw [this]
    exact atoms_andOpt (atoms_simplifyExact g h.1) (atoms_simplifyExact g h.2)

theorem atoms_simplify {c : Cond} (h : AtomsOk f v c) (g : Option TypeCond) :
    AtomsOpt f v (simplify c g) := by
  cases g with
  | none => exact h
  | some g => cases g with
    | oneOf s => exact h
    | exact g => exact atoms_simplifyExact g h

theorem atoms_mergeConds {g : Option TypeCond} {l r : Option Cond} (hl : AtomsOpt f v l)
    (hr : AtomsOpt f v r) : AtomsOpt f v (mergeConds g l g r) := by
  have hg : guardEq g g = true := by
    cases g with
    | none => rfl
    | some g => cases g <;> simp [guardEq, TypeCond.eq, setEq]
  simp only [mergeConds, hg, if_true]
  exact atoms_orOpt hl hr

/-- Then a failing condition fails for its directives or for the parent's type. -/
theorem check_atoms {t : String → Bool} : ∀ {c : Cond}, AtomsOk f v c →
    (check ⟨.ok T, .ok f, v, t⟩ c = .ok () ∧ Holds (.of t) T c) ∨
    ((check ⟨.ok T, .ok f, v, t⟩ c = .error .skip ∨
      check ⟨.ok T, .ok f, v, t⟩ c = .error .invalidParentType) ∧ ¬ Holds (.of t) T c)
  | .incl x, _ => by
    cases h : t x <;> simp [check, Holds, Val.of, h]
  | .skip x, _ => by
    cases h : t x <;> simp [check, Holds, Val.of, h]
  | .parent tc, _ => by
    simp only [check, typeVerdict, Holds, ← accepts_iff]
    cases tc.accepts T <;> simp
  | .field tc, h => by
    left
    simp only [check, typeVerdict, (accepts_iff tc f).2 h, Holds]; simp
  | .enum s, h => by
    left
    refine ⟨?_, trivial⟩
    simp only [check]
    split
    · rename_i x
      have := h x rfl
      simp [this]
    · rfl
  | .or a b, h => by
    have ha := check_atoms (t := t) h.1
    have hb := check_atoms (t := t) h.2
    simp only [check, Holds]
    rcases ha with ⟨h1, h2⟩ | ⟨h1 | h1, h2⟩
    · rw [h1]; exact Or.inl ⟨rfl, Or.inl h2⟩
    all_goals
      rw [h1]
      simp only
      rcases hb with ⟨h3, h4⟩ | ⟨h3, h4⟩
      · exact Or.inl ⟨h3, Or.inr h4⟩
      · exact Or.inr ⟨h3, by simp [h2, h4]⟩
  | .and a b, h => by
    have ha := check_atoms (t := t) h.1
    have hb := check_atoms (t := t) h.2
    simp only [check, Holds]
    rcases ha with ⟨h1, h2⟩ | ⟨h1 | h1, h2⟩
    · rw [h1]
      simp only
      rcases hb with ⟨h3, h4⟩ | ⟨h3, h4⟩
      · exact Or.inl ⟨h3, h2, h4⟩
      · exact Or.inr ⟨h3, by simp [h4]⟩
    · rw [h1]; exact Or.inr ⟨Or.inl rfl, by simp [h2]⟩
    · rw [h1]; exact Or.inr ⟨Or.inr rfl, by simp [h2]⟩

end

/-! ## The conditions handed down -/

/-- Conjunctions of directives and of conditions on the parent. -/
def Plain : Cond → Prop
  | .incl _ => True
  | .skip _ => True
  | .parent _ => True
  | .and a b => Plain a ∧ Plain b
  | _ => False

def PlainOpt : Option Cond → Prop
  | none => True
  | some c => Plain c

/-- The directives among them. -/
def Dirs (V : Val) : Cond → Prop
  | .incl v => V.incl v
  | .skip v => V.skip v
  | .and a b => Dirs V a ∧ Dirs V b
  | _ => True

def DirsOpt (V : Val) : Option Cond → Prop
  | none => True
  | some c => Dirs V c

theorem atoms_plain {f : String} {v : Option Value} : ∀ {c : Cond}, Plain c → AtomsOk f v c
  | .incl _, _ => trivial
  | .skip _, _ => trivial
  | .parent _, _ => trivial
  | .field _, h => h.elim
  | .enum _, h => h.elim
  | .or _ _, h => h.elim
  | .and _ _, h => ⟨atoms_plain h.1, atoms_plain h.2⟩

theorem plain_andThen {a b : Cond} (ha : Plain a) (hb : Plain b) : Plain (a.andThen b) := by
  cases a <;> cases b <;> simp_all [Cond.andThen, Plain]

theorem plain_andOpt {a b : Option Cond} (ha : PlainOpt a) (hb : PlainOpt b) :
    PlainOpt (andOpt a b) := by
  cases a <;> cases b <;> simp_all [andOpt, combine, PlainOpt, plain_andThen]

theorem plain_directives {c : Option Cond} (hc : PlainOpt c) (si ii : Option String) :
    PlainOpt (applyDirectives c ii si) := by
  cases ii <;> cases si <;> simp only [applyDirectives]
  · exact hc
  · exact plain_andOpt hc trivial
  · exact plain_andOpt hc trivial
  · exact plain_andOpt (plain_andOpt hc trivial) trivial

theorem plain_childConds {c : Cond} (hc : Plain c) : PlainOpt (childConds c) := by
  induction c with
  | incl | skip | parent => trivial
  | field | enum | or => exact hc.elim
  | and a b iha ihb => exact plain_andOpt (iha hc.1) (ihb hc.2)

theorem holds_free {c : Cond} (hc : Plain c) : Holds .free T c ↔ GuardMeans T (typeGuard c) := by
  induction c with
  | incl | skip => simp [Holds, Val.free, typeGuard, GuardMeans]
  | parent tc => rfl
  | field | enum | or => exact hc.elim
  | and a b iha ihb =>
    simp only [Holds, iha hc.1, ihb hc.2, typeGuard]
    cases typeGuard a <;> cases typeGuard b <;> simp [combine, GuardMeans, C38_intersect]

theorem holds_split {c : Cond} (hc : Plain c) :
    Holds V T c ↔ GuardMeans T (typeGuard c) ∧ Dirs V c := by
  induction c with
  | incl | skip => simp [Holds, typeGuard, GuardMeans, Dirs]
  | parent tc => simp [Holds, typeGuard, GuardMeans, Dirs]
  | field | enum | or => exact hc.elim
  | and a b iha ihb =>
    simp only [Holds, iha hc.1, ihb hc.2, typeGuard, Dirs]
    cases typeGuard a <;> cases typeGuard b <;> simp [combine, GuardMeans, C38_intersect] <;> grind

theorem holdsOpt_split {c : Option Cond} (hc : PlainOpt c) :
    HoldsOpt V T c ↔ GuardMeans T (c.bind typeGuard) ∧ DirsOpt V c := by
  cases c with
  | none => simp [HoldsOpt, GuardMeans, DirsOpt]
  | some c => exact holds_split hc

theorem dirs_andThen (a b : Cond) (ha : Plain a) (hb : Plain b) :
    Dirs V (a.andThen b) ↔ Dirs V a ∧ Dirs V b := by
  cases a <;> cases b <;> simp_all [Cond.andThen, Dirs, Plain]

theorem dirs_andOpt {a b : Option Cond} (ha : PlainOpt a) (hb : PlainOpt b) :
    DirsOpt V (andOpt a b) ↔ DirsOpt V a ∧ DirsOpt V b := by
  cases a <;> cases b <;> simp_all [andOpt, combine, DirsOpt, dirs_andThen, PlainOpt]

theorem dirs_directives {c : Option Cond} (hc : PlainOpt c) (si ii : Option String) :
    DirsOpt V (applyDirectives c ii si) ↔ DirsOpt V c ∧ Lets V si ii := by
  have hi : ∀ x, DirsOpt V (some (.incl x)) ↔ V.incl x := fun _ => Iff.rfl
  have hs : ∀ x, DirsOpt V (some (.skip x)) ↔ V.skip x := fun _ => Iff.rfl
  have pi : ∀ x, PlainOpt (some (.incl x)) := fun _ => trivial
  have ps : ∀ x, PlainOpt (some (.skip x)) := fun _ => trivial
  cases ii with
  | none =>
    cases si with
    | none => simp [applyDirectives, Lets]
    | some w => simp [applyDirectives, Lets, dirs_andOpt hc (ps w), hs]
  | some v =>
    cases si with
    | none => simp [applyDirectives, Lets, dirs_andOpt hc (pi v), hi]
    | some w =>
      simp [applyDirectives, Lets, dirs_andOpt (plain_andOpt hc (pi v)) (ps w),
        dirs_andOpt hc (pi v), hi, hs, and_assoc]

theorem dirs_childConds {c : Cond} (hc : Plain c) : DirsOpt V (childConds c) ↔ Dirs V c := by
  induction c with
  | incl | skip => rfl
  | parent tc => simp [childConds, DirsOpt, Dirs]
  | field | enum | or => exact hc.elim
  | and a b iha ihb =>
    simp only [childConds, Dirs]
    rw [dirs_andOpt (plain_childConds hc.1) (plain_childConds hc.2), iha hc.1, ihb hc.2]

theorem guard_andOpt (a b : Option Cond) : (andOpt a b).bind typeGuard =
    combine TypeCond.intersect (a.bind typeGuard) (b.bind typeGuard) := by
  cases a with
  | none => cases b with
    | none => rfl
    | some y => simp only [andOpt, combine, Option.bind_some, Option.bind_none]
                cases typeGuard y <;> rfl
  | some x => cases b with
    | none => simp only [andOpt, combine, Option.bind_some, Option.bind_none]
              cases typeGuard x <;> rfl
    | some y =>
      simp only [andOpt, combine, Option.bind_some]
      cases x <;> cases y <;> simp [Cond.andThen, typeGuard, combine]

theorem guard_directives (c : Option Cond) (si ii : Option String) :
    (applyDirectives c ii si).bind typeGuard = c.bind typeGuard := by
  have h : ∀ g : Option TypeCond, combine TypeCond.intersect g none = g := by
    intro g; cases g <;> rfl
  cases ii <;> cases si <;> simp only [applyDirectives, guard_andOpt, Option.bind_some, typeGuard, h]

theorem guard_childConds {c : Cond} (hc : Plain c) : (childConds c).bind typeGuard = none := by
  induction c with
  | incl | skip => rfl
  | parent tc => rfl
  | field | enum | or => exact hc.elim
  | and a b iha ihb => simp only [childConds, guard_andOpt, iha hc.1, ihb hc.2, combine]

theorem guardMeans_combine (a b : Option TypeCond) : GuardMeans T (combine TypeCond.intersect a b) ↔
    GuardMeans T a ∧ GuardMeans T b := by
  cases a <;> cases b <;> simp [combine, GuardMeans, C38_intersect]

theorem dirsOpt_free {c : Option Cond} (hc : PlainOpt c) : DirsOpt .free c := by
  cases c with
  | none => trivial
  | some c =>
    induction c with
    | incl | skip | parent => trivial
    | field | enum | or => exact hc.elim
    | and a b iha ihb => exact ⟨iha hc.1, ihb hc.2⟩

theorem lets_free (si ii : Option String) : Lets .free si ii :=
  ⟨fun _ _ => trivial, fun _ _ => trivial⟩

end Verif.Builder
