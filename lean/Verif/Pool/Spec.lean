import Verif.Pool.Model

/-!
What is said of the pool, in terms of what callers, attempts and connections there are.
-/

namespace Verif.Pool

variable {κ : Type} [DecidableEq κ]

/-- There is a connection `c` for `id`, and it takes commands. -/
def Open (s : St κ) (id : κ) (c : Nat) : Prop := s.conns c = some (id, true)

/-- There is an attempt `g` to connect for `id`. -/
def Connects (s : St κ) (id : κ) (g : Nat) : Prop := s.attempts g = some (id, .connecting)

/-- The caller `w` asked for `id`. -/
def Asked (s : St κ) (w : Nat) (id : κ) : Prop := ∃ c, s.callers w = some (id, c)

/-- The caller `w` asked for `id`, is still there, and has no answer. -/
def Waits (s : St κ) (w : Nat) (id : κ) : Prop := s.callers w = some (id, .waits)

/-- The caller `w` was told `r`. -/
def Told (s : St κ) (w : Nat) (r : Res) : Prop := (w, r) ∈ s.log

/-- The states after some steps. -/
inductive Steps : St κ → List (Label κ) → St κ → Prop where
  | nil (s : St κ) : Steps s [] s
  | cons {s t u : St κ} {l : Label κ} {ls : List (Label κ)} : step s l = some t → Steps t ls u → Steps s (l :: ls) u

end Verif.Pool
