import Verif.Graph.Super

/-!
# Building the graph of moves

`Graph::graph_from_supergraph_state`, `query_planner/graph/mod.rs:123-1256`.

The code inserts nodes and edges one after another; every insertion puts in the two ends of an edge (unless
they are there) and then the edge (unless an equal one is there). Here the insertions are a list of links,
and the graph is what inserting them one by one gives. Simplifications, for the whole file:

* nodes are told apart by what their display names are made of, not by the text of the names
  (`graph/node.rs:62-90`; the texts would clash for subgraphs with a `/` or a space in their names);
* ids of subgraphs that are not known, and overriding fields without a subgraph, are looked for before the
  links are made; the code fails when it comes upon them;
* vectors of directives are sorted when they are read (`supergraph_state.rs:679-696`), so the sorting in
  `subgraphs` (`supergraph_state.rs:1007-1015`) and of members of unions (`mod.rs:746`) changes nothing.
-/

namespace Verif.Graph

open Verif.Overrides (Label)

/-! ## Nodes and edges -/

/-- What is left of a specialization in the display name, `graph/node.rs:70-84`. -/
inductive KeySpec where
  | view (n : Nat)
  | union (typeName fieldName member : String)
  deriving DecidableEq

/-- What the display name of a node is made of, `graph/node.rs:62-90`. -/
inductive NodeKey where
  | root (name : String)
  | type (name graph : String) (spec : Option KeySpec)
  deriving DecidableEq

/-- `display_name`, `graph/node.rs:62-90`. -/
def Node.key : Node → NodeKey
  | .root _ n => .root n
  | .type n g _ none => .type n g none
  | .type n g _ (some (.provides v)) => .type n g (some (.view v))
  | .type n g _ (some (.union u)) => .type n g (some (.union u.typeName u.fieldName u.member))

/-- `upsert_node`, `graph/mod.rs:220-232`. -/
def upsertNode (nodes : List Node) (n : Node) : List Node × Nat :=
  match nodes.findIdx? (fun m => m.key == n.key) with
  | some i => (nodes, i)
  | none => (nodes ++ [n], nodes.length)

/-- Equality of optional texts that come with what they were parsed into. -/
def textEq (a b : Option (String × List Sel)) : Bool := a.map (·.1) == b.map (·.1)

/-- `PartialEq for JoinFieldDirective`, `federation_spec/join_field.rs:10-20`. -/
def JoinField.eqb (a b : JoinField) : Bool :=
  a.graph == b.graph && textEq a.requires b.requires && textEq a.provides b.provides &&
    a.typeInGraph == b.typeInGraph && a.external == b.external && a.overrideFrom == b.overrideFrom &&
    decide (a.label = b.label) && a.usedOverridden == b.usedOverridden

/-- `PartialEq for Option<JoinFieldDirective>`. -/
def joinEq : Option JoinField → Option JoinField → Bool
  | none, none => true
  | some a, some b => a.eqb b
  | _, _ => false

/-- `PartialEq for Option<TypeAwareSelection>`. -/
def reqEq : Option Req → Option Req → Bool
  | none, none => true
  | some a, some b => a.eqb b
  | _, _ => false

/-- `PartialEq for FieldMove`, `graph/edge.rs:34-45`. -/
def FieldMove.eqb (a b : FieldMove) : Bool :=
  a.name == b.name && a.typeName == b.typeName && a.isLeaf == b.isLeaf && a.isList == b.isList &&
    joinEq a.join b.join && reqEq a.requires b.requires && decide (a.move.label = b.move.label) &&
    decide (a.move.overriddenBy = b.move.overriddenBy)

/-- `PartialEq for Edge`, `graph/edge.rs:370-398`: a `Selfie` is equal to nothing. -/
def Weight.eqb : Weight → Weight → Bool
  | .entry a _, .entry b _ => a == b
  | .field a, .field b => a.eqb b
  | .reentry a b c, .reentry a' b' c' => a == a' && b == b' && c == c'
  | .entity k _ _, .entity k' _ _ => k == k'
  | .abstract a, .abstract b => a == b
  | .ioType a _, .ioType b _ => a == b
  | _, _ => false

/-- `upsert_edge`, `graph/mod.rs:234-253`. -/
def upsertEdge (edges : List Edge) (h t : Nat) (w : Weight) : List Edge :=
  if edges.any fun e => e.src == h && e.dst == t && e.weight.eqb w then edges
  else edges ++ [⟨edges.length, h, t, w⟩]

/-- An edge to put into the graph. -/
structure Link where
  head : Node
  tail : Node
  weight : Weight

/-- Both ends, then the edge. -/
def link (G : Moves) (l : Link) : Moves :=
  let (ns1, h) := upsertNode G.nodes l.head
  let (ns2, t) := upsertNode ns1 l.tail
  { G with nodes := ns2, edges := upsertEdge G.edges h t l.weight }

/-! ## What the supergraph says -/

/-- `resolve_graph_id`, `supergraph_state.rs:236-241`; ids are checked beforehand. -/
def Super.name (S : Super) (id : String) : String := (S.graphName id).getD ""

/-- `maybe_root_type`, `supergraph_state.rs:224-234`. -/
def Super.rootKind (S : Super) (type : String) : Option OpKind :=
  if S.queryType == type then some .query
  else if S.mutationType == some type then some .mutation
  else if S.subscriptionType == some type then some .subscription
  else none

/-- `try_into_root_type`, `supergraph_state.rs:958-963`, with `root_type` as it is set in
`supergraph_state.rs:601-615`. -/
def Super.rootOf (S : Super) (d : Def) : Option OpKind :=
  if d.kind = .object then S.rootKind d.name else none

/-- `is_interface_object_in_subgraph`, `supergraph_state.rs:272-276`, with
`create_interface_object_in_subgraph`, 292-316. -/
def Super.isIo (S : Super) (type graph : String) : Bool :=
  match S.def? type with
  | some d => decide (d.kind = .interface) && d.joinTypes.any fun j => j.graph == graph && j.interfaceObject
  | none => false

/-- `is_scalar_type`, `supergraph_state.rs:260-266`. -/
def Super.isScalar (S : Super) (type : String) : Bool :=
  ["String", "Int", "Float", "Boolean", "ID"].contains type || S.scalars.contains type

/-- `subgraphs`, `supergraph_state.rs:1007-1015`. -/
def Def.graphs (d : Def) : List String := d.joinTypes.map (·.graph)

/-- `check_field_subgraph_availability`, `federation_spec/mod.rs:168-199`: nothing if the field is not
available, else its `@join__field` for the subgraph. -/
def available (fd : FieldDef) (g : String) (d : Def) : Option (Option JoinField) :=
  if fd.joins.isEmpty then
    if d.graphs.contains g then some none else none
  else
    match fd.joins.find? (fun j => j.graph == some g) with
    | some j => some (some j)
    | none => none

/-- The overriding subgraph and its label, `graph/mod.rs:653-670`. -/
def overriddenBy (S : Super) (fd : FieldDef) (gname : String) : Option (String × Option Label) :=
  (fd.joins.find? fun j => j.overrideFrom == some gname).map
    fun j => (((j.graph.map S.name).getD ""), j.label)

/-- `members_for_field_in_graph`, `graph/mod.rs:85-112`, with `UnionDefinitions::new`, 49-74. -/
def unionMembers (S : Super) (fd : FieldDef) (g : String) : List String :=
  let all := match S.def? fd.typeName with
    | some d => ((d.members.filter (·.1 == g)).map (·.2)).eraseDups
    | none => []
  match fd.joins.find? (fun j => j.graph == some g) with
  | some j =>
    match j.typeInGraph with
    | some t => if t != fd.typeName then [t] else all
    | none => all
  | none => all

/-- `UnionDefinitions::contains`, `graph/mod.rs:76-80`. -/
def Super.isUnion (S : Super) (type : String) : Bool :=
  match S.def? type with
  | some d => decide (d.kind = .union)
  | none => false

/-! ## The links -/

/-- A type in a subgraph, `Node::new_node`, `graph/node.rs:113-121`. -/
def Super.at (S : Super) (type g : String) : Node := .type type (S.name g) (S.isIo type g) none

/-- `__typename`, `create_field_move(..)` in `graph/mod.rs:608-622`. -/
def typenameMove (type : String) : Weight := .field { name := "__typename", typeName := type, isLeaf := true }

/-- The scalar `String` in a subgraph, `graph/mod.rs:600-606`. -/
def Super.string (S : Super) (g : String) : Node := .type "String" (S.name g) false none

/-- `link_root_edges`, `graph/mod.rs:513-563`, for one definition. -/
def rootLinks (S : Super) (name : String) (d : Def) : List Link :=
  match S.rootOf d with
  | none => []
  | some k =>
    (d.graphs.filter fun g => d.fields.any fun f => (available f.2 g d).isSome).map fun g =>
      ⟨.root k name, .type name (S.name g) false none, .entry (S.name g) k⟩

/-- The entry points of a root, `get_entrypoints`, `planner/walker/utils.rs:10-28`: the edges put in by
`link_root_edges`. -/
def entries (S : Super) (k : OpKind) : List Node :=
  ((S.defs.flatMap fun x => rootLinks S x.1 x.2).filterMap fun l =>
    match l.weight with
    | .entry _ k' => if k' = k then some l.tail else none
    | _ => none).eraseDups

/-- A field that leads to a root type also leads into the other subgraphs that have it,
`graph/mod.rs:889-930`. -/
def reentryLinks (S : Super) (name g fname : String) (fd : FieldDef) : List Link :=
  match S.rootKind fd.typeName with
  | none => []
  | some k =>
    ((entries S k).filter fun n => n.graph != some (S.name g)).map fun n =>
      ⟨S.at name g, n, .reentry fname name fd.isList⟩

/-- The links of a field whose type is a union, `graph/mod.rs:728-845`, for one member. -/
def unionLinks (S : Super) (name g fname : String) (fd : FieldDef) (req : Option Req)
    (over : Option (String × Option Label)) (members : List String) (m : String) : List Link :=
  let tail := Node.type fd.typeName (S.name g) (S.isIo fd.typeName g)
    (some (.union ⟨name, fname, m, members⟩))
  [⟨tail, S.string g, typenameMove fd.typeName⟩,
   ⟨S.at name g, tail, .field {
      name := fname, typeName := name, isLeaf := S.isScalar fd.typeName, isList := fd.isList,
      requires := req, move := ⟨none, over⟩ }⟩,
   ⟨tail, S.at m g, .abstract m⟩]

/-- The links of a field of a type in a subgraph, `graph/mod.rs:633-932`. -/
def fieldLinks (S : Super) (name : String) (d : Def) (g fname : String) (fd : FieldDef) : List Link :=
  match available fd g d with
  | none => []
  | some mj =>
    let over := overriddenBy S fd (S.name g)
    if mj.any fun j => j.external && j.requires.isNone then []
    else
      let req := (mj.bind (·.requires)).map fun r => (⟨name, r.2⟩ : Req)
      if S.isUnion fd.typeName then
        let members := unionMembers S fd g
        members.flatMap (unionLinks S name g fname fd req over members)
      else
        ⟨S.at name g, S.at fd.typeName g, .field {
          name := fname, typeName := name, isLeaf := S.isScalar fd.typeName, isList := fd.isList,
          join := mj.map fun j => { j with provides := none }, requires := req,
          move := ⟨mj.bind (·.label), over⟩ }⟩ :: reentryLinks S name g fname fd

/-- The links of a type in a subgraph, `graph/mod.rs:569-934`. -/
def typeLinks (S : Super) (name : String) (d : Def) (g : String) : List Link :=
  (if (d.kind = .object || d.kind = .union || d.kind = .interface) &&
      !(d.joinTypes.any fun j => j.graph == g && j.interfaceObject) then
    [⟨.type name (S.name g) false none, S.string g, typenameMove name⟩]
   else []) ++
  ⟨S.at name g, S.at name g, .selfie name⟩ ::
    d.fields.flatMap fun f => fieldLinks S name d g f.1 f.2

/-- `build_interface_implementation_edges`, `graph/mod.rs:440-484`. -/
def implLinks (S : Super) (name : String) (d : Def) : List Link :=
  if d.kind = .object then
    d.implements.map fun x =>
      ⟨.type x.2 (S.name x.1) false none, .type name (S.name x.1) false none, .abstract d.name⟩
  else []

/-- `build_entity_reference_edges`, `graph/mod.rs:262-316`: the same type in two subgraphs, or twice in
one. -/
def keyLinks (S : Super) (name : String) (d : Def) (j1 j2 : JoinType) : List Link :=
  let head := Node.type name (S.name j1.graph) j1.interfaceObject none
  if j1.graph != j2.graph then
    match j2.resolvable, j2.key with
    | true, some k =>
      [⟨head, .type name (S.name j2.graph) j2.interfaceObject none,
        .entity k.1 ⟨name, k.2⟩ (decide (d.kind = .interface))⟩]
    | _, _ => []
  else
    match j1.resolvable, j1.key with
    | true, some k => [⟨head, head, .entity k.1 ⟨name, k.2⟩ (decide (d.kind = .interface))⟩]
    | _, _ => []

/-- `build_entity_reference_edges`, `graph/mod.rs:318-432`: from objects that implement an interface to the
interface object, and from it to them. -/
def ioLinks (S : Super) (name : String) (d : Def) (j1 : JoinType) : List Link :=
  match j1.interfaceObject, j1.resolvable, j1.key with
  | true, true, some k =>
    let tail := Node.type name (S.name j1.graph) true none
    (S.defs.filter fun o => o.2.kind = .object && o.2.implements.any (·.2 == name)).flatMap fun o =>
      ⟨tail, tail, .ioType o.1 ⟨name, [.field { name := "__typename" } []]⟩⟩ ::
        (o.2.joinTypes.filter fun j2 => j1.graph != j2.graph).map fun j2 =>
          ⟨.type o.1 (S.name j2.graph) j2.interfaceObject none, tail,
            .entity k.1 ⟨name, k.2⟩ (decide (d.kind = .interface))⟩
  | _, _, _ => []

/-- `build_entity_reference_edges`, `graph/mod.rs:256-437`, for one definition. -/
def entityLinks (S : Super) (name : String) (d : Def) : List Link :=
  d.joinTypes.flatMap fun j1 => d.joinTypes.flatMap (keyLinks S name d j1) ++ ioLinks S name d j1

/-- Why building fails, `graph/error.rs`, or a panic. -/
inductive BuildErr where
  | subgraphNotFound | fieldNotFound (f t : String) | defNotFound (t : String) | panic
  deriving DecidableEq

/-- From a type that a subgraph provides a part of to other subgraphs, `graph/mod.rs:949-982`, and
1223-1249. -/
def viewKeyLinks (S : Super) (d : Def) (g : String) (head : Node) : List Link :=
  d.joinTypes.flatMap fun j =>
    match j.resolvable, j.key with
    | true, some k =>
      if j.graph != g then
        [⟨head, .type d.name (S.name j.graph) j.interfaceObject none,
          .entity k.1 ⟨d.name, k.2⟩ (decide (d.kind = .interface))⟩]
      else []
    | _, _ => []

/-- A type in a subgraph as a `@provides` shows it. -/
def Super.view (S : Super) (type g : String) (v : Nat) : Node :=
  .type type (S.name g) (S.isIo type g) (some (.provides v))

mutual
/-- One item of `handle_viewed_selection_set`, `graph/mod.rs:984-1097`. -/
def viewSel (S : Super) (g : String) (v : Nat) (d : Def) (head : Node) :
    Sel → Except BuildErr (List Link)
  | .field f ss =>
    match d.fields.lookup f.name with
    | none => .error (.fieldNotFound f.name d.name)
    | some fd =>
      let tail := S.view fd.typeName g v
      let here : List Link := [⟨tail, tail, .selfie fd.typeName⟩,
        ⟨head, tail, .field {
          name := f.name, typeName := d.name, isLeaf := S.isScalar d.name, isList := fd.isList }⟩]
      if ss.isEmpty then .ok here
      else
        match S.def? fd.typeName with
        | none => .error (.defNotFound fd.typeName)
        | some d' =>
          match viewSels S g v d' tail ss with
          | .error e => .error e
          | .ok r => .ok (here ++ viewKeyLinks S d' g tail ++ r)
  | .frag c ss =>
    match S.def? c.cond with
    | none => .error (.defNotFound c.cond)
    | some d' =>
      let tail := S.view c.cond g v
      match viewSels S g v d' tail ss with
      | .error e => .error e
      | .ok r => .ok ([⟨tail, tail, .selfie c.cond⟩, ⟨head, tail, .abstract c.cond⟩] ++
          viewKeyLinks S d' g tail ++ r)
  | .spread _ => .error .panic
/-- The loop of `handle_viewed_selection_set`, `graph/mod.rs:984-1097`. -/
def viewSels (S : Super) (g : String) (v : Nat) (d : Def) (head : Node) :
    List Sel → Except BuildErr (List Link)
  | [] => .ok []
  | x :: r =>
    match viewSel S g v d head x with
    | .error e => .error e
    | .ok a =>
      match viewSels S g v d head r with
      | .error e => .error e
      | .ok b => .ok (a ++ b)
end

/-- One field with `@provides`, `graph/mod.rs:1121-1216`. -/
def providesLinks (S : Super) (name : String) (d : Def) (g : String) (v : Nat) (fname : String)
    (fd : FieldDef) (j : JoinField) (items : List Sel) : Except BuildErr (List Link) :=
  let head := S.at d.name g
  let tail := S.view fd.typeName g v
  match S.def? fd.typeName with
  | none => .error (.defNotFound fd.typeName)
  | some d' =>
    match viewSels S g v d' tail items with
    | .error e => .error e
    | .ok r =>
      .ok ([⟨tail, tail, .selfie fd.typeName⟩,
        ⟨head, tail, .field {
          name := fname, typeName := name, isLeaf := S.isScalar fd.typeName, isList := fd.isList,
          join := some j, requires := j.requires.map fun r => ⟨name, r.2⟩,
          move := ⟨j.label, none⟩ }⟩] ++ viewKeyLinks S d' g tail ++ r)

/-- The fields of a type that provide something in a subgraph, in the order they are numbered,
`graph/mod.rs:1112-1129`. -/
def provisions (d : Def) (g : String) : List (String × FieldDef × JoinField × List Sel) :=
  d.fields.flatMap fun f => f.2.joins.filterMap fun j =>
    if j.graph == some g then j.provides.map fun p => (f.1, f.2, j, p.2) else none

/-- Number them from one, `graph/mod.rs:1106, 1131`. -/
def viewsFrom (S : Super) (name : String) (d : Def) (g : String) : Nat →
    List (String × FieldDef × JoinField × List Sel) → Except BuildErr (List Link)
  | _, [] => .ok []
  | v, (fname, fd, j, items) :: r =>
    match providesLinks S name d g v fname fd j items with
    | .error e => .error e
    | .ok a =>
      match viewsFrom S name d g (v + 1) r with
      | .error e => .error e
      | .ok b => .ok (a ++ b)

/-- `build_viewed_field_edges`, `graph/mod.rs:1105-1252`, for one `@join__type`. -/
def viewLinks (S : Super) (name : String) (d : Def) (g : String) : Except BuildErr (List Link) :=
  match provisions d g with
  | [] => .ok []
  | p :: ps =>
    match viewsFrom S name d g 1 (p :: ps) with
    | .error e => .error e
    | .ok a => .ok (a ++ viewKeyLinks S { d with name := name } g (S.at d.name g))

/-- The results of a list of computations, in order. -/
def joinAll {α β : Type} (f : α → Except BuildErr (List β)) : List α → Except BuildErr (List β)
  | [] => .ok []
  | x :: r =>
    match f x with
    | .error e => .error e
    | .ok a =>
      match joinAll f r with
      | .error e => .error e
      | .ok b => .ok (a ++ b)

/-- `build_viewed_field_edges`, `graph/mod.rs:1103-1255`. -/
def allViewLinks (S : Super) : Except BuildErr (List Link) :=
  joinAll (fun x => joinAll (viewLinks S x.1 x.2) x.2.graphs) S.defs

/-- All that is put into the graph, `build_graph`, `graph/mod.rs:169-185`. -/
def links (S : Super) : Except BuildErr (List Link) :=
  match allViewLinks S with
  | .error e => .error e
  | .ok views =>
    .ok (S.defs.flatMap (fun x => rootLinks S x.1 x.2) ++
      S.defs.flatMap (fun x => x.2.graphs.flatMap (typeLinks S x.1 x.2)) ++
      S.defs.flatMap (fun x => implLinks S x.1 x.2) ++
      S.defs.flatMap (fun x => entityLinks S x.1 x.2) ++ views)

/-- The subgraphs that are mentioned are known. -/
def idsKnown (S : Super) : Bool :=
  S.defs.all fun x =>
    x.2.joinTypes.all (fun j => (S.graphName j.graph).isSome) &&
    (decide (x.2.kind ≠ .object) || x.2.implements.all fun i => (S.graphName i.1).isSome) &&
    x.2.fields.all fun f => f.2.joins.all fun j =>
      j.overrideFrom.isNone || (j.graph.bind S.graphName).isSome

/-- `build_root_nodes`, `graph/mod.rs:205-218`. -/
def roots (S : Super) : Moves :=
  let (n1, q) := upsertNode [] (.root .query S.queryType)
  let (n2, m) := match S.mutationType with
    | none => (n1, none)
    | some t => let (n, i) := upsertNode n1 (.root .mutation t); (n, some i)
  let (n3, s) := match S.subscriptionType with
    | none => (n2, none)
    | some t => let (n, i) := upsertNode n2 (.root .subscription t); (n, some i)
  ⟨n3, [], q, m, s⟩

/-- `graph_from_supergraph_state`, `graph/mod.rs:123-142`. -/
def build (S : Super) : Except BuildErr Moves :=
  if idsKnown S then
    match links S with
    | .error e => .error e
    | .ok ls => .ok (ls.foldl link (roots S))
  else .error .subgraphNotFound

end Verif.Graph
