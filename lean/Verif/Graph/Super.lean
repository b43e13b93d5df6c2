import Verif.Core.DecEq
import Verif.Overrides.Model

/-!
# The supergraph and the graph of moves

What the planner knows of a supergraph (`query_planner/state/supergraph_state.rs`) and the graph of moves
it is turned into (`query_planner/graph/{mod,edge,node}.rs`).

Simplifications, for the whole file: hash maps are association lists (the theorems hold for every order);
`@join__type(key:)`, `@join__field(requires:)` and `@join__field(provides:)` come with the selection that
`normalize_fields_argument_value_mut` (`federation_spec/mod.rs:31-68`) makes of their text.
-/

namespace Verif.Graph

open Verif.Overrides (Label Context)

/-! ## The supergraph -/

/-- `JoinFieldDirective`, `federation_spec/join_field.rs:10-20`. -/
structure JoinField where
  graph : Option String := none
  requires : Option (String × List Sel) := none
  provides : Option (String × List Sel) := none
  typeInGraph : Option String := none
  external : Bool := false
  overrideFrom : Option String := none
  label : Option Label := none
  usedOverridden : Bool := false

/-- `JoinTypeDirective`, `federation_spec/join_type.rs:6-12`. -/
structure JoinType where
  graph : String
  key : Option (String × List Sel) := none
  resolvable : Bool := true
  interfaceObject : Bool := false

/-- `SupergraphField`, `supergraph_state.rs:1056-1068`: the inner type, is it a list, the joins. -/
structure FieldDef where
  typeName : String
  isList : Bool := false
  joins : List JoinField := []

/-- The kinds of definitions, `SupergraphDefinition`, `supergraph_state.rs:799-807`. -/
inductive Kind where
  | object | interface | union | enum | scalar | inputObject
  deriving DecidableEq

/-- `SupergraphDefinition` and the structures it holds, `supergraph_state.rs:799-920`.
`fields` is empty for definitions other than objects and interfaces (`fields()`, 969-979). -/
structure Def where
  name : String
  kind : Kind
  joinTypes : List JoinType := []
  fields : List (String × FieldDef) := []
  /-- `join_implements`: graph and interface. -/
  implements : List (String × String) := []
  /-- `union_members`: graph and member. -/
  members : List (String × String) := []

/-- `OperationKind`, `supergraph_state.rs:751-760`. -/
inductive OpKind where
  | query | mutation | subscription
  deriving DecidableEq

/-- `SupergraphState`, `supergraph_state.rs:162-188`. -/
structure Super where
  defs : List (String × Def)
  /-- `known_subgraphs`: id and name. -/
  graphs : List (String × String)
  scalars : List String := []
  queryType : String := "Query"
  mutationType : Option String := none
  subscriptionType : Option String := none

/-- `definitions.get`. -/
def Super.def? (S : Super) (n : String) : Option Def := S.defs.lookup n

/-- `resolve_graph_id`, `supergraph_state.rs:236-241`. -/
def Super.graphName (S : Super) (id : String) : Option String := S.graphs.lookup id

/-- `interface_to_object_types`, `supergraph_state.rs:318-335`: is the type listed for the interface. -/
def Super.implementsIn (S : Super) (type interface : String) : Bool :=
  S.defs.any fun d => d.2.kind = .object && d.2.name == type &&
    d.2.implements.any (·.2 == interface)

/-- `resolvable_in_graphs`, `supergraph_state.rs:1071-1093`; a set, here a list that may repeat. -/
def FieldDef.resolvableIn (f : FieldDef) (d : Def) : List String :=
  if f.joins.isEmpty then d.joinTypes.map (·.graph)
  else f.joins.filterMap fun j =>
    match j.graph with
    | some g => if !j.external && !j.usedOverridden && j.label.isNone then some g else none
    | none => none

/-! ## The graph of moves -/

/-- `TypeAwareSelection`, `ast/type_aware_selection.rs:6-9`. -/
structure Req where
  typeName : String
  items : List Sel

mutual
/-- `PartialEq for SelectionItem`, `ast/selection_item.rs:204-220`: arguments and aliases are not
compared, and a fragment spread is equal to nothing. -/
def selEq : Sel → Sel → Bool
  | .field f a, .field g b => f.name == g.name && selsEq a b
  | .frag f a, .frag g b => f.cond == g.cond && selsEq a b
  | _, _ => false
/-- Equality of lists of items. -/
def selsEq : List Sel → List Sel → Bool
  | [], [] => true
  | a :: as, b :: bs => selEq a b && selsEq as bs
  | _, _ => false
end

/-- `PartialEq for TypeAwareSelection`, `ast/type_aware_selection.rs:30-35`. (The set it is looked up in
also uses a hash; keys with equal names and different arguments are not told apart here.) -/
def Req.eqb (a b : Req) : Bool := a.typeName == b.typeName && selsEq a.items b.items

mutual
/-- `SelectionItem::cost`, `ast/selection_item.rs:127-137`. -/
def selCost : Sel → Nat
  | .field _ s => 1 + selsCost s
  | .frag _ s => 1 + selsCost s
  | .spread _ => 1
/-- The loop of `cost`. -/
def selsCost : List Sel → Nat
  | [] => 0
  | x :: r => selCost x + selsCost r
end

/-- `UnionMembersData`, `graph/node.rs:6-16` (without `provides`, which is never set). -/
structure UnionData where
  typeName : String
  fieldName : String
  member : String
  members : List String
  deriving DecidableEq

/-- `SubgraphTypeSpecialization`, `graph/node.rs:18-32`; `Root` is left out: it changes nothing (the
display names that nodes are found by are the same). -/
inductive Spec where
  | provides (view : Nat)
  | union (u : UnionData)
  deriving DecidableEq

/-- `Node`, `graph/node.rs:43-58`. -/
inductive Node where
  | root (kind : OpKind) (name : String)
  | type (name graph : String) (interfaceObject : Bool) (spec : Option Spec)
  deriving DecidableEq

/-- `name_str`, `graph/node.rs:92-99`. -/
def Node.name : Node → String
  | .root _ n => n
  | .type n _ _ _ => n

/-- `graph_id`, `graph/node.rs:144-151`. -/
def Node.graph : Node → Option String
  | .root _ _ => none
  | .type _ g _ _ => some g

/-- `union_members_data`, `graph/node.rs:160-164`. -/
def Node.union : Node → Option UnionData
  | .type _ _ _ (some (.union u)) => some u
  | _ => none

/-- `FieldMove`, `graph/edge.rs:35-45`. `override_from` is not used by the planner. -/
structure FieldMove where
  name : String
  typeName : String
  isLeaf : Bool := false
  isList : Bool := false
  join : Option JoinField := none
  requires : Option Req := none
  move : Overrides.FieldMove := ⟨none, none⟩

/-- `Edge`, `graph/edge.rs:153-181`. -/
inductive Weight where
  | entry (subgraph : String) (kind : OpKind)
  | field (f : FieldMove)
  | reentry (name typeName : String) (isList : Bool)
  | entity (key : String) (req : Req) (isInterface : Bool)
  | abstract (type : String)
  | selfie (type : String)
  | ioType (type : String) (req : Req)

/-- `Edge::requirements`, `graph/edge.rs:263-270`. -/
def Weight.requires : Weight → Option Req
  | .entity _ r _ => some r
  | .ioType _ r => some r
  | .field f => f.requires
  | _ => none

/-- `Edge::cost`, `graph/edge.rs:272-284`, with `SelectionSet::cost`, `ast/selection_set.rs:62-70`. -/
def Weight.cost (w : Weight) : Nat :=
  (match w with
    | .field _ => 1
    | _ => 1000) +
  (match w.requires with
    | some r => 1 + selsCost r.items
    | none => 0)

/-- An edge of the graph with its index and its ends (`petgraph`'s `EdgeReference`). -/
structure Edge where
  id : Nat
  src : Nat
  dst : Nat
  weight : Weight

/-- `Graph`, `graph/mod.rs:114-121`: nodes and edges by index, the roots. -/
structure Moves where
  nodes : List Node
  edges : List Edge
  queryRoot : Nat := 0
  mutationRoot : Option Nat := none
  subscriptionRoot : Option Nat := none

/-- `Graph::node`, `graph/mod.rs:144-148`. -/
def Moves.node (G : Moves) (n : Nat) : Option Node := G.nodes[n]?

/-- `edges_from`, `graph/mod.rs:508-510`: `petgraph` gives the edges that were added last first. -/
def Moves.edgesFrom (G : Moves) (n : Nat) : List Edge := G.edges.reverse.filter (·.src == n)

end Verif.Graph
