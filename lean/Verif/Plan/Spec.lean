import Verif.Plan.Model

/-!
# What is expected of query plans
-/

namespace Verif.Plan

/-- The graph is one: no step and no edge twice, edges between steps, the root a step. -/
structure Graph.WF (g : Graph) : Prop where
  nodes : g.nodes.Nodup
  edges : g.edges.Nodup
  ends : ∀ e ∈ g.edges, e.1 ∈ g.nodes ∧ e.2 ∈ g.nodes
  root : ∀ r, g.root = some r → r ∈ g.nodes

/-- `v` depends on `u`: there is a path of edges from `u` to `v`, not counting those of the root. -/
inductive Graph.Depends (g : Graph) (root : Nat) : Nat → Nat → Prop
  | edge (u v : Nat) : (u, v) ∈ g.edges → u ≠ root → Depends g root u v
  | step (u v w : Nat) : Depends g root u v → (v, w) ∈ g.edges → Depends g root u w

/-- A step can be reached from the root. -/
inductive Graph.Reachable (g : Graph) (root : Nat) : Nat → Prop
  | child (v : Nat) : (root, v) ∈ g.edges → Reachable g root v
  | step (u v : Nat) : Reachable g root u → (u, v) ∈ g.edges → Reachable g root v

/-- `a` comes before `b` in the list. -/
def Before {α : Type} (a b : α) (l : List α) : Prop := ∃ x y z, l = x ++ a :: (y ++ b :: z)

/-- A variable has the value `true`. -/
def IsTrue (vars : Option (List (String × Value))) (v : String) : Prop :=
  ∃ m, vars = some m ∧ lookup v m = some (.bool true)

/-- A variable has a value, and it is not `true`. -/
def IsFalse (vars : Option (List (String × Value))) (v : String) : Prop :=
  ∃ m x, vars = some m ∧ lookup v m = some x ∧ x ≠ .bool true

/-- The conditions of a step hold: `@include(if: $v)` and `@skip(if: $v)`. -/
def Wanted (vars : Option (List (String × Value))) (s : Step) : Prop :=
  match s.cond with
  | none => True
  | some (.incl v) => IsTrue vars v
  | some (.skip v) => IsFalse vars v
  | some (.skipIncl sk i) => IsFalse vars sk ∧ IsTrue vars i

/-- The work of a step: the call for the entities at its path, or its operation. -/
def Step.work (s : Step) : Work :=
  if s.path = [] then .op (Fetch.ofStep s) none
  else if s.entity then .entities s.service s.path s.input s.inputRw s.output s.outputRw
  else .op (Fetch.ofStep s) (some s.path)

/-- Events of steps. -/
inductive StepEvent where
  | start (n : Nat)
  | done (n : Nat)
  deriving DecidableEq

def StepEvent.node : StepEvent → Nat
  | .start n | .done n => n

/-- The event of the work of the step. -/
def StepEvent.event (g : Graph) : StepEvent → Event
  | .start n => .start (g.step n).work
  | .done n => .done (g.step n).work

/-- A good execution: exactly the wanted steps, each once, and no step starts before those it depends
on are done. -/
structure Good (g : Graph) (root : Nat) (vars : Option (List (String × Value))) (t : List StepEvent) :
    Prop where
  only : ∀ e ∈ t, e.node ∈ g.nodes ∧ e.node ≠ root ∧ Wanted vars (g.step e.node)
  once : ∀ n ∈ g.nodes, n ≠ root → Wanted vars (g.step n) →
    t.count (.start n) = 1 ∧ t.count (.done n) = 1 ∧ Before (.start n) (.done n) t
  order : ∀ u v, g.Depends root u v → Wanted vars (g.step u) → Wanted vars (g.step v) →
    Before (.done u) (.start v) t

/-- The second list is the first one, but for equal neighbours that are one: the same call for the same
entities at the same path need not be made twice. -/
inductive Stutter {α : Type} : List α → List α → Prop
  | nil : Stutter [] []
  | cons (a : α) (l m : List α) : Stutter l m → Stutter (a :: l) (a :: m)
  | dup (a : α) (l m : List α) : Stutter (a :: l) (a :: m) → Stutter (a :: a :: l) (a :: m)

end Verif.Plan
