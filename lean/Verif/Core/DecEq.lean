import Verif.Core.Ast

/-!
# Equality of literals and selections is decidable
-/

namespace Verif

mutual
/-- Equality of literals. -/
def Lit.eqb : Lit → Lit → Bool
  | .var a, .var b => a == b
  | .int a, .int b => a == b
  | .float a, .float b => a == b
  | .str a, .str b => a == b
  | .bool a, .bool b => a == b
  | .null, .null => true
  | .enum a, .enum b => a == b
  | .list a, .list b => Lit.eqbs a b
  | .obj a, .obj b => Lit.eqbm a b
  | _, _ => false

def Lit.eqbs : List Lit → List Lit → Bool
  | [], [] => true
  | a :: as, b :: bs => Lit.eqb a b && Lit.eqbs as bs
  | _, _ => false

def Lit.eqbm : List (String × Lit) → List (String × Lit) → Bool
  | [], [] => true
  | (k, a) :: as, (l, b) :: bs => k == l && (Lit.eqb a b && Lit.eqbm as bs)
  | _, _ => false
end

mutual
theorem Lit.eqb_iff : ∀ a b : Lit, Lit.eqb a b = true ↔ a = b
  | .var a, b => by cases b <;> simp [Lit.eqb]
  | .int a, b => by cases b <;> simp [Lit.eqb]
  | .float a, b => by cases b <;> simp [Lit.eqb]
  | .str a, b => by cases b <;> simp [Lit.eqb]
  | .bool a, b => by cases b <;> simp [Lit.eqb]
  | .null, b => by cases b <;> simp [Lit.eqb]
  | .enum a, b => by cases b <;> simp [Lit.eqb]
  | .list a, b => by cases b <;> simp [Lit.eqb, Lit.eqbs_iff a]
  | .obj a, b => by cases b <;> simp [Lit.eqb, Lit.eqbm_iff a]

theorem Lit.eqbs_iff : ∀ a b : List Lit, Lit.eqbs a b = true ↔ a = b
  | [], b => by cases b <;> simp [Lit.eqbs]
  | a :: as, b => by cases b <;> simp [Lit.eqbs, Lit.eqb_iff a, Lit.eqbs_iff as]

theorem Lit.eqbm_iff : ∀ a b : List (String × Lit), Lit.eqbm a b = true ↔ a = b
  | [], b => by cases b <;> simp [Lit.eqbm]
  | (k, a) :: as, b => by
    cases b with
    | nil => simp [Lit.eqbm]
    | cons x xs => obtain ⟨l, y⟩ := x; simp [Lit.eqbm, Lit.eqb_iff a, Lit.eqbm_iff as, and_assoc]
end

instance : DecidableEq Lit := fun a b => decidable_of_iff _ (Lit.eqb_iff a b)

deriving instance DecidableEq for FieldInfo
deriving instance DecidableEq for FragInfo

/-- Equality of selections. -/
def Sel.eqbs : List Sel → List Sel → Bool
  | [], [] => true
  | .field f s :: as, .field g t :: bs => decide (f = g) && (Sel.eqbs s t && Sel.eqbs as bs)
  | .frag f s :: as, .frag g t :: bs => decide (f = g) && (Sel.eqbs s t && Sel.eqbs as bs)
  | .spread m :: as, .spread n :: bs => m == n && Sel.eqbs as bs
  | _, _ => false

theorem Sel.eqbs_iff (a : List Sel) : ∀ b, Sel.eqbs a b = true ↔ a = b := by
  induction a using Sels.ind with
  | nil => intro b; cases b <;> simp [Sel.eqbs]
  | field f s rest ihs ihr =>
    intro b
    cases b with
    | nil => simp [Sel.eqbs]
    | cons x xs => cases x <;> simp [Sel.eqbs, ihs, ihr, and_assoc]
  | frag f s rest ihs ihr =>
    intro b
    cases b with
    | nil => simp [Sel.eqbs]
    | cons x xs => cases x <;> simp [Sel.eqbs, ihs, ihr, and_assoc]
  | spread n rest ihr =>
    intro b
    cases b with
    | nil => simp [Sel.eqbs]
    | cons x xs => cases x <;> simp [Sel.eqbs, ihr]

/-- Equality of selection sets is decidable. -/
instance : DecidableEq (List Sel) := fun a b => decidable_of_iff _ (Sel.eqbs_iff a b)

instance : DecidableEq Sel := fun a b => decidable_of_iff ([a] = [b]) (by simp)

end Verif
