import Verif.Walker.Model
import Verif.Graph.Spec

/-!
# What it means to resolve a leaf

A leaf of an operation is named by the fields and type conditions on the way to it, its trail. A way along a
trail is a chain of moves of the graph that takes the steps of the trail one after another; between two
steps it may go to other subgraphs. Every move is allowed for the request, and what it needs is found by
ways that start in the same place.
-/

namespace Verif.Walker

open Verif.Graph
open Verif.Overrides (Context Label)

/-- A field, or a type condition with its `@skip` and `@include`. -/
inductive Step where
  | field (f : FieldInfo)
  | on (type : String) (cond : Cond)

abbrev Trail := List Step

mutual
/-- The trails of the leaves of what a move needs. -/
def reqTrails : Sel → List Trail
  | .field f [] => [[.field f]]
  | .field f (x :: r) => (reqTrailsAll (x :: r)).map (.field f :: ·)
  | .frag g ss => (reqTrailsAll ss).map (.on g.cond (none, none) :: ·)
  | .spread _ => []
/-- Of several selections. -/
def reqTrailsAll : List Sel → List Trail
  | [] => []
  | x :: r => reqTrails x ++ reqTrailsAll r
end

/-- A label of a progressive override is on for this request. -/
def Active (c : Context) : Label → Prop
  | .custom name => name ∈ c.flags
  | .percentage p => c.dice < p

/-- The field may be asked for in its subgraph: it has not been moved away, and if it has been moved here
under a label, the label is on. -/
def MayUse (c : Context) (m : Overrides.FieldMove) : Prop :=
  match m.overriddenBy, m.label with
  | some (_, some l), _ => ¬ Active c l
  | some (_, none), _ => False
  | none, some l => Active c l
  | none, none => True

/-- A move is allowed for this request. -/
def Allowed (c : Context) (w : Weight) : Prop :=
  ∀ m, w = .field m → MayUse c m.move

/-- A move takes a step. -/
inductive Takes : Step → Weight → Prop
  | field (f m) : m.name = f.name → Takes (.field f) (.field m)
  | reentry (f name type list) : name = f.name → Takes (.field f) (.reentry name type list)
  | abstract (t c) : Takes (.on t c) (.abstract t)
  | ioType (t c r) : Takes (.on t c) (.ioType t r)
  | selfie (t c) : Takes (.on t c) (.selfie t)

/-- A move goes to another subgraph, or from an interface object to a type, without taking a step. -/
inductive Hops : Weight → Prop
  | entity (k r i) : Hops (.entity k r i)
  | ioType (t r) : Hops (.ioType t r)

/-- The segment carries the alias and the arguments of the field, and the conditions of the step. -/
def Labels (st : Step) (s : Seg Path) : Prop :=
  match st with
  | .field f => s.attrs = some (f.alias, f.args) ∧ s.cond = (f.skipIf, f.includeIf)
  | .on _ c => s.attrs = none ∧ s.cond = c

/-- Objects of one type are of the other. -/
def IsA (S : Super) (type cond : String) : Prop :=
  type = cond ∨ S.implementsIn type cond = true

/-- The segment is for this edge of the graph, which leaves the node, and which may be taken. -/
structure Is (env : Env) (n c : Nat) (st : Step) (e : Edge) (s : Seg Path) : Prop where
  mem : e ∈ env.G.edges
  src : e.src = n
  allowed : Allowed env.ctx e.weight
  edge : s.edge = e.id
  tail : s.tail = e.dst
  cost : s.cost = c + e.weight.cost
  labels : Labels st s

/-- What a move needs. -/
def needed (w : Weight) : List Sel :=
  match w.requires with
  | some r => r.items
  | none => []

mutual
/-- The segments are a way along the trail from a node to another, starting with one cost and ending with
another. -/
inductive Way (env : Env) : Nat → Nat → Trail → List (Seg Path) → Nat → Nat → Prop
  | done (c n) : Way env c n [] [] c n
  | same (c n node t tr segs c' m) : env.G.node n = some node → IsA env.S node.name t →
      Way env c n tr segs c' m → Way env c n (.on t (none, none) :: tr) segs c' m
  | hop (c n e s st tr segs c' m) : Is env n c st e s → Hops e.weight →
      Met env n (needed e.weight) s.reqs →
      Way env s.cost s.tail (st :: tr) segs c' m → Way env c n (st :: tr) (s :: segs) c' m
  | step (c n e s st tr segs c' m) : Is env n c st e s → Takes st e.weight →
      Met env n (needed e.weight) s.reqs →
      Way env s.cost s.tail tr segs c' m → Way env c n (st :: tr) (s :: segs) c' m
/-- The paths lead from a node to every leaf of the selections, and to nothing else. -/
inductive Met (env : Env) : Nat → List Sel → List Path → Prop
  | mk (n items qs) (pick : Trail → Path) (why : Path → Trail) :
      (∀ t ∈ reqTrailsAll items, pick t ∈ qs) →
      (∀ t ∈ reqTrailsAll items, (pick t).root = n) →
      (∀ t ∈ reqTrailsAll items, Way env 0 n t (pick t).segs (pick t).cost (pick t).tail) →
      (∀ q ∈ qs, why q ∈ reqTrailsAll items) →
      (∀ q ∈ qs, q.root = n) →
      (∀ q ∈ qs, Way env 0 n (why q) q.segs q.cost q.tail) →
      Met env n items qs
end

/-- The type after a step from a type. -/
def Next (S : Super) (a : String) : Step → String → Prop
  | .field f, b => (f.name = "__typename" ∧ b = "String") ∨ (f.name ≠ "__typename" ∧ HasField S a f.name b)
  | .on t _, b => ((a = t ∨ S.implementsIn a t = true) ∧ b = a) ∨
      (¬ (a = t ∨ S.implementsIn a t = true) ∧ b = t)

/-- The type after a trail from a type. -/
inductive After (S : Super) : String → Trail → String → Prop
  | nil (a) : After S a [] a
  | cons (a st b tr c) : Next S a st b → After S b tr c → After S a (st :: tr) c

/-- The type an operation starts with. -/
def rootType (S : Super) : OpKind → Option String
  | .query => some S.queryType
  | .mutation => S.mutationType
  | .subscription => S.subscriptionType

/-- The root an operation starts in. -/
def rootOf (G : Moves) : OpKind → Option Nat
  | .query => some G.queryRoot
  | .mutation => G.mutationRoot
  | .subscription => G.subscriptionRoot

/-- The path enters a subgraph at the root and is a way along the trail from there. -/
def Arrives (env : Env) (kind : OpKind) (tr : Trail) (p : Path) : Prop :=
  ∃ e s rest, e ∈ env.G.edges ∧ rootOf env.G kind = some e.src ∧ p.root = e.src ∧ p.segs = s :: rest ∧
    s.edge = e.id ∧ s.tail = e.dst ∧ s.cost = e.weight.cost ∧
    (s.reqs = [] ∧ s.attrs = none ∧ s.cond = (none, none)) ∧
    Way env s.cost s.tail tr rest p.cost p.tail

/-- Wherever ways along the same trail end, there are objects of the same type. -/
def Agree (env : Env) (kind : OpKind) : Prop :=
  ∀ tr p q, Arrives env kind tr p → Arrives env kind tr q →
    (env.G.node p.tail).map Node.name = (env.G.node q.tail).map Node.name

/-- A field on the trail has a union type, which has these members where some way to the field ends, and since
then the trail has only type conditions. -/
def UnderUnion (env : Env) (kind : OpKind) (tr : Trail) (members : List String) (ons : List (String × Cond)) :
    Prop :=
  ∃ tr0 p n u, tr = tr0 ++ ons.map (fun x => .on x.1 x.2) ∧ Arrives env kind tr0 p ∧
    env.G.node p.tail = some n ∧ n.union = some u ∧ u.members = members

/-- Some subgraph on the way cannot give objects of a type where the trail ends: it has objects of another
type and no move onto this one; or the field there has a union type which in that subgraph is without it, or
is already known to be something else. -/
def Blocked (env : Env) (kind : OpKind) (tr : Trail) (type : String) : Prop :=
  (∃ p n, Arrives env kind tr p ∧ env.G.node p.tail = some n ∧ n.name ≠ type ∧
    ∀ e ∈ env.G.edges, e.src = p.tail → e.weight ≠ .abstract type) ∨
  (∃ ms ons, UnderUnion env kind tr ms ons ∧ (type ∉ ms ∨ ∃ x ∈ ons, x.1 ≠ type))

mutual
/-- The trails of the leaves of a selection that stands at the end of a trail. Instead of a fragment whose
type is blocked there is only `__typename`. -/
inductive Leaves (env : Env) (kind : OpKind) : Trail → Sel → List Trail → Prop
  | leaf (tr f) : Leaves env kind tr (.field f []) [[.field f]]
  | field (tr f x ss ts) : LeavesAll env kind (tr ++ [.field f]) (x :: ss) ts →
      Leaves env kind tr (.field f (x :: ss)) (ts.map (.field f :: ·))
  | frag (tr g ss ts) : LeavesAll env kind (tr ++ [.on g.cond (g.skipIf, g.includeIf)]) ss ts →
      Leaves env kind tr (.frag g ss) (ts.map (.on g.cond (g.skipIf, g.includeIf) :: ·))
  | cut (tr g ss) : Blocked env kind tr g.cond → Leaves env kind tr (.frag g ss) [[.field typename]]
  | spread (tr n) : Leaves env kind tr (.spread n) []
/-- Of several selections. -/
inductive LeavesAll (env : Env) (kind : OpKind) : Trail → List Sel → List Trail → Prop
  | nil (tr) : LeavesAll env kind tr [] []
  | cons (tr x r ts us) : Leaves env kind tr x ts → LeavesAll env kind tr r us →
      LeavesAll env kind tr (x :: r) (ts ++ us)
end

/-- A group of paths for a leaf: at least one, each a way to the leaf, all of the same cost. -/
structure Serves (env : Env) (kind : OpKind) (tr : Trail) (g : List Path) : Prop where
  some : g ≠ []
  ways : ∀ p ∈ g, Arrives env kind tr p
  equal : ∀ p ∈ g, ∀ q ∈ g, p.cost = q.cost

/-- Two lists match item by item. -/
inductive Match {α β : Type} (R : α → β → Prop) : List α → List β → Prop
  | nil : Match R [] []
  | cons {a b as bs} : R a b → Match R as bs → Match R (a :: as) (b :: bs)

/-- The groups, in some order, serve the leaves of the selection, one each. -/
def Resolves (env : Env) (kind : OpKind) (x : Sel) (gs : List (List Path)) : Prop :=
  ∃ ts gs', Leaves env kind [] x ts ∧ gs'.Perm gs ∧ Match (Serves env kind) ts gs'

/-- Every edge connects nodes of the graph, and leads to a type in a subgraph. -/
def Connected (G : Moves) : Prop :=
  ∀ e ∈ G.edges, (∃ n, G.node e.src = some n) ∧ ∃ t g i s, G.node e.dst = some (.type t g i s)

/-- The path uses the edge, on its way or to find what a move on its way needs. -/
inductive Uses (env : Env) : Path → Edge → Prop
  | here (p s e) : s ∈ p.segs → e ∈ env.G.edges → s.edge = e.id → Uses env p e
  | need (p s q e) : s ∈ p.segs → q ∈ s.reqs → Uses env q e → Uses env p e

/-- The subgraph may be asked for the field in this request: no other subgraph has taken it over, for good or
under a label that is on; and if it has taken the field over under a label, the label is on. -/
def MayAsk (S : Super) (c : Context) (type field graph : String) : Prop :=
  ∃ d fd id, (type, d) ∈ S.defs ∧ (field, fd) ∈ d.fields ∧ S.graphName id = some graph ∧
    (∀ j ∈ fd.joins, j.overrideFrom = some graph → ∃ l, j.label = some l ∧ ¬ Active c l) ∧
    (∀ j ∈ fd.joins, j.graph = some id → j.overrideFrom.isSome = true → ∀ l, j.label = some l → Active c l)

/-- A field is taken over from a subgraph by one subgraph, and what was taken over is not taken over
again. -/
def OverridesOnce (S : Super) : Prop :=
  ∀ x ∈ S.defs, ∀ f ∈ x.2.fields, ∀ j ∈ f.2.joins, ∀ j' ∈ f.2.joins, j.overrideFrom.isSome = true →
    (j.overrideFrom = j'.overrideFrom → j.label = j'.label) ∧
    (∀ id n, j.graph = some id → S.graphName id = some n → j'.overrideFrom ≠ some n)

end Verif.Walker
