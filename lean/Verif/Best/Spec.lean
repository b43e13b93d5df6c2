import Verif.Best.Model
/-!
# What a plan is made of, and what it costs

A plan is the set of its places: sequences of steps from the root, each step to a node that is
selected or to one that a node requires. Its cost counts places, not trees.
-/
namespace Verif.Best

/-- A step: to a child, or to a required node. -/
inductive Step where
  | child (l : Label)
  | req (l : Label)
deriving DecidableEq, Repr

/-- The places of a tree. -/
inductive Has : Node → List Step → Prop where
  | root {t : Node} : Has t []
  | child {t c : Node} {p : List Step} : c ∈ t.children → Has c p → Has t (.child c.label :: p)
  | req {t c : Node} {p : List Step} : c ∈ t.reqs → Has c p → Has t (.req c.label :: p)

/-- The cost of a step: 1, and 1000 for entering a subgraph or for something required. -/
def stepCost (g : Graph) : Step → Nat
  | .child l => if l.edge.any g.entry then 1001 else 1
  | .req _ => 1001

/-- The cost of a place: that of the last step, 1 for the root. -/
def placeCost (g : Graph) : List Step → Nat
  | [] => 1
  | [s] => stepCost g s
  | _ :: p => placeCost g p

/-- `c` is the cost of a finite set of places. -/
def SetCost (g : Graph) (P : List Step → Prop) (c : Nat) : Prop :=
  ∃ L : List (List Step), L.Nodup ∧ (∀ p, p ∈ L ↔ P p) ∧ c = (L.map (placeCost g)).sum

/-- The leaves of an operation: position of the root field if it is a mutation, paths. -/
def leafPaths (op : Resolved) : List (Option Nat × List Path) :=
  (op.groups.zipIdx).flatMap fun f => f.1.map fun ps => (if op.mutation then some f.2 else none, ps)

/-- One path for each leaf, with the position. -/
inductive Choice : List (Option Nat × List Path) → List (Option Nat × Path) → Prop where
  | nil : Choice [] []
  | cons {pos : Option Nat} {p : Path} {ps : List Path} {r : List (Option Nat × List Path)}
      {c : List (Option Nat × Path)} : p ∈ ps → Choice r c → Choice ((pos, ps) :: r) ((pos, p) :: c)

/-- The step along a segment: to the node its edge leads to, with the alias, arguments and conditions of the
segment, and the position of the root field if it is the first one. -/
def stepOf (g : Graph) (pos : Option Nat) (s : Segment) : Step :=
  .child { node := g.tail s.edge, edge := some s.edge, attrs := s.attrs, pos := pos, cond := s.cond }

/-- The places of a path: the root, every node on the way, and whatever its steps require. -/
inductive Along (g : Graph) : Option Nat → List Segment → List Step → Prop where
  | stop {pos : Option Nat} {ss : List Segment} : Along g pos ss []
  | step {pos : Option Nat} {s : Segment} {r : List Segment} {q : List Step} :
      Along g none r q → Along g pos (s :: r) (stepOf g pos s :: q)
  | req {pos : Option Nat} {s : Segment} {r : List Segment} {t : Node} {q : List Step} :
      s.requirement = some t → Has t q → Along g pos (s :: r) (stepOf g pos s :: .req t.label :: q)

/-- The places of a combination: those of its paths. -/
def Places (g : Graph) (c : List (Option Nat × Path)) (p : List Step) : Prop :=
  ∃ x ∈ c, Along g x.1 x.2.segments p

/-- No two siblings of a tree are alike. -/
inductive Tidy : Node → Prop where
  | mk {l : Label} {rs cs : List Node} : (rs.map Node.label).Nodup → (cs.map Node.label).Nodup →
      (∀ x ∈ rs, Tidy x) → (∀ x ∈ cs, Tidy x) → Tidy (.mk l rs cs)

/-- The requirements along the paths are tidy. -/
def PathsTidy (op : Resolved) : Prop :=
  ∀ f ∈ op.groups, ∀ ps ∈ f, ∀ p ∈ ps, ∀ s ∈ p.segments, ∀ t, s.requirement = some t → Tidy t

/-- Every leaf can be resolved, and there is one. -/
def Resolvable (op : Resolved) : Prop :=
  leafPaths op ≠ [] ∧ ∀ l ∈ leafPaths op, l.2 ≠ []

end Verif.Best
