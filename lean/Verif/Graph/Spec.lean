import Verif.Graph.Build

/-!
# What a supergraph says

Words for stating what a graph of moves should be, without the functions that build it.
-/

namespace Verif.Graph

mutual
/-- The type conditions in a selection. -/
def condsOf : Sel → List String
  | .field _ ss => condsOfAll ss
  | .frag g ss => g.cond :: condsOfAll ss
  | .spread _ => []
/-- Of several selections. -/
def condsOfAll : List Sel → List String
  | [] => []
  | x :: r => condsOf x ++ condsOfAll r
end

/-- A well-formed supergraph: definitions are found under their names, each once; a type has a field once,
and no field is called `__typename`; what objects implement are not objects; and the type conditions in
`@provides` are objects. -/
structure Proper (S : Super) : Prop where
  names : ∀ x ∈ S.defs, x.2.name = x.1
  once : (S.defs.map (·.1)).Nodup
  fields : ∀ x ∈ S.defs, (x.2.fields.map (·.1)).Nodup
  typename : ∀ x ∈ S.defs, ∀ f ∈ x.2.fields, f.1 ≠ "__typename"
  interfaces : ∀ x ∈ S.defs, ∀ i ∈ x.2.implements, ∀ y ∈ S.defs, y.1 = i.2 → y.2.kind ≠ .object
  provides : ∀ x ∈ S.defs, ∀ f ∈ x.2.fields, ∀ j ∈ f.2.joins, ∀ p, j.provides = some p →
    ∀ t ∈ condsOfAll p.2, ∀ y ∈ S.defs, y.1 = t → y.2.kind = .object

/-- No type is an interface object. -/
def NoInterfaceObjects (S : Super) : Prop :=
  ∀ x ∈ S.defs, ∀ j ∈ x.2.joinTypes, j.interfaceObject = false

/-- The type of a field of a type. -/
def HasField (S : Super) (type field result : String) : Prop :=
  ∃ d fd, (type, d) ∈ S.defs ∧ (field, fd) ∈ d.fields ∧ fd.typeName = result

/-- The subgraph of this name resolves the field, and needs this for it: the type is in the subgraph, and the
field has no `@join__field`, or one for the subgraph that is not external or that says what it requires. -/
def Resolves (S : Super) (type field graph : String) (needs : Option (List Sel)) : Prop :=
  ∃ d fd id, (type, d) ∈ S.defs ∧ (field, fd) ∈ d.fields ∧ S.graphName id = some graph ∧
    (∃ j ∈ d.joinTypes, j.graph = id) ∧
    ((fd.joins = [] ∧ needs = none) ∨
      ∃ j ∈ fd.joins, j.graph = some id ∧ (j.external = false ∨ j.requires.isSome = true) ∧
        needs = j.requires.map (·.2))

/-- The field of the subgraph is overridden, or overrides, as the move says. -/
def Moved (S : Super) (type field graph : String) (m : Overrides.FieldMove) : Prop :=
  ∃ d fd id, (type, d) ∈ S.defs ∧ (field, fd) ∈ d.fields ∧ S.graphName id = some graph ∧
    (m.overriddenBy = none → ∀ j ∈ fd.joins, j.overrideFrom ≠ some graph) ∧
    (∀ o l, m.overriddenBy = some (o, l) → ∃ j ∈ fd.joins, j.overrideFrom = some graph ∧ j.label = l) ∧
    ((fd.joins = [] ∧ m.label = none) ∨ ∃ j ∈ fd.joins, j.graph = some id ∧ m.label = j.label)

/-- A selection on a type has the field of the other type in it. -/
inductive Shows (S : Super) : String → List Sel → String → String → Prop
  | here (t f ss sels) : .field f ss ∈ sels → Shows S t sels t f.name
  | deeper (t f ss sels r t' f') : .field f ss ∈ sels → HasField S t f.name r → Shows S r ss t' f' →
      Shows S t sels t' f'
  | on (t g ss sels t' f') : .frag g ss ∈ sels → Shows S g.cond ss t' f' → Shows S t sels t' f'

/-- Some field of the subgraph provides the field. -/
def Provided (S : Super) (type field graph : String) : Prop :=
  ∃ x ∈ S.defs, ∃ f ∈ x.2.fields, ∃ j ∈ f.2.joins, ∃ id p, j.graph = some id ∧
    S.graphName id = some graph ∧ j.provides = some p ∧ Shows S f.2.typeName p.2 type field

/-- What provides something is resolved by the subgraph that provides it. -/
def ProvidesOwn (S : Super) : Prop :=
  ∀ x ∈ S.defs, ∀ f ∈ x.2.fields, ∀ j ∈ f.2.joins, j.provides.isSome = true →
    j.external = false ∨ j.requires.isSome = true

/-- The subgraph of this name resolves objects of the type by the key. -/
def KeyOf (S : Super) (type graph key : String) (items : List Sel) : Prop :=
  ∃ d, (type, d) ∈ S.defs ∧ ∃ j ∈ d.joinTypes, S.graphName j.graph = some graph ∧
    j.resolvable = true ∧ j.key = some (key, items)

/-- The node stands for what a `@provides` shows of a type. -/
def Node.isView : Node → Bool
  | .type _ _ _ (some (.provides _)) => true
  | _ => false

/-- What a move is for. From a type in a subgraph a field leads to what the supergraph says it is, in the
same subgraph, which resolves or provides the field. With a key one goes from a type to the same type in a
subgraph that resolves it by the key. -/
def Says (S : Super) (a b : Node) : Weight → Prop
  | .entry g _ => b.graph = some g ∧ b.name = a.name
  | .field m => ∃ g, a.graph = some g ∧ b.graph = some g ∧
      ((m.name = "__typename" ∧ b.name = "String" ∧ m.requires = none) ∨
        (HasField S a.name m.name b.name ∧
          ((∃ needs, Resolves S a.name m.name g needs ∧
              m.requires = needs.map (⟨a.name, ·⟩) ∧
              (b.isView = false → b.union = none → Moved S a.name m.name g m.move)) ∨
            (a.isView = true ∧ m.requires = none ∧ Provided S a.name m.name g))))
  | .reentry f _ _ => ∃ g needs, a.graph = some g ∧ HasField S a.name f b.name ∧
      Resolves S a.name f g needs
  | .entity k r _ => ∃ g, b.graph = some g ∧ b.name = a.name ∧ r.typeName = b.name ∧
      KeyOf S b.name g k r.items
  | .abstract t => b.graph = a.graph ∧ b.name = t
  | .selfie t => b.graph = a.graph ∧ b.name = a.name ∧ a.name = t
  | .ioType _ _ => False

/-- A field has at most one `@join__field` for a subgraph. -/
def JoinsOnce (S : Super) : Prop :=
  ∀ x ∈ S.defs, ∀ f ∈ x.2.fields, ∀ j ∈ f.2.joins, ∀ j' ∈ f.2.joins, j.graph = j'.graph →
    j.graph.isSome = true → j = j'

/-- The node stands for all a subgraph has of a type. -/
def Plain (type graph : String) (n : Node) : Prop := ∃ i, n = .type type graph i none

/-- The type is in the subgraph of this name. -/
def InGraph (S : Super) (type graph : String) : Prop :=
  ∃ d, (type, d) ∈ S.defs ∧ ∃ j ∈ d.joinTypes, S.graphName j.graph = some graph

/-- Subgraphs have different names. -/
def GraphNames (S : Super) : Prop :=
  ∀ a b n, S.graphName a = some n → S.graphName b = some n → a = b

/-- The type is a union that has no members in the subgraph, or the field is said to be of one type there. -/
def EmptyUnion (S : Super) (type graph : String) : Prop :=
  ∃ d, (type, d) ∈ S.defs ∧ d.kind = .union ∧
    ∀ m ∈ d.members, S.graphName m.1 ≠ some graph

/-- There is a move between the nodes. -/
def Moves.moves (G : Moves) (from_ to : Node → Prop) (w : Weight → Prop) : Prop :=
  ∃ e ∈ G.edges, ∃ a b, G.node e.src = some a ∧ G.node e.dst = some b ∧ from_ a ∧ to b ∧ w e.weight

end Verif.Graph
