import Verif.Fetch.Sels

/-!
# From query trees to fetch steps

Models `query_planner/planner/fetch/fetch_graph.rs` up to the optimizations, the query trees it starts from
(`planner/tree/query_tree_node.rs`, `planner/tree/query_tree.rs`) and `fetch/fetch_step_data.rs`.

Simplifications, for the whole file:
* the steps of a `StableDiGraph` are a list with holes, its edges a list with the newest first, which is the
  order in which `edges_directed` gives them;
* a rewrite of inputs is the name of the type `__typename` is set to: the builder makes no others;
* ids of steps and the usages of variables are left out.
-/

namespace Verif.Fetch

open Verif.Graph (OpKind Moves Edge Weight FieldMove Req)
open Verif.Walker (Cond Env)

/-! ## Query trees -/

/-- What `PartialEq for QueryTreeNode` compares, `query_tree_node.rs:35-43`. -/
structure Label where
  node : Nat
  edge : Option Nat := none
  attrs : Option (Option String × Args) := none
  pos : Option Nat := none
  cond : Cond := (none, none)
  deriving DecidableEq

/-- `QueryTreeNode`, `query_tree_node.rs:16-30`. -/
inductive Tree where
  | mk (label : Label) (reqs children : List Tree)

namespace Tree
/-- The part that is compared. -/
def label : Tree → Label
  | .mk l _ _ => l
/-- `requirements`. -/
def reqs : Tree → List Tree
  | .mk _ r _ => r
/-- `children`. -/
def children : Tree → List Tree
  | .mk _ _ c => c
end Tree

/-- The `find` and its update, or the `push`, `query_tree_node.rs:53-66`. -/
def insertTree (f : Tree → Tree) (s : Tree) : List Tree → List Tree
  | [] => [s]
  | x :: r => if x.label = s.label then f x :: r else x :: insertTree f s r

mutual
/-- `merge_nodes`, `query_tree_node.rs:104-107`. -/
def mergeTree : Tree → Tree → Tree
  | .mk l rs cs, .mk _ rs' cs' => .mk l (mergeTrees rs rs') (mergeTrees cs cs')
/-- `merge_query_tree_node_list`, `query_tree_node.rs:45-68`. -/
def mergeTrees : List Tree → List Tree → List Tree
  | t, [] => t
  | t, s :: r => mergeTrees (insertTree (fun x => mergeTree x s) s t) r
end

/-- `merge_trees`, `query_tree.rs:51-68`, and `from_paths`, `query_tree_node.rs:109-133`. -/
def mergeAll : List Tree → List Tree
  | [] => []
  | t :: r => [r.foldl mergeTree t]

mutual
/-- `QueryTree::from_path`, `query_tree.rs:27-45`, `create_root_for_path_sequences`,
`query_tree_node.rs:200-228`. -/
def pathTree (pos : Option Nat) : Walker.Path → Tree
  | .mk root segs _ _ => .mk { node := root } [] (segsTree pos segs)
/-- `from_path_segment_sequences`, `query_tree_node.rs:138-193`. -/
def segsTree (pos : Option Nat) : List (Walker.Seg Walker.Path) → List Tree
  | [] => []
  | ⟨e, t, _, rs, a, c⟩ :: r => [.mk ⟨t, some e, a, pos, c⟩ (mergeAll (reqTrees rs)) (segsTree none r)]
/-- The trees that are merged to the requirement tree of a segment, `query_tree_node.rs:109-133`. -/
def reqTrees : List Walker.Path → List Tree
  | [] => []
  | p :: r => pathTree none p :: reqTrees r
end

/-! ## Steps -/

/-- `FetchStepData`, `fetch_step_data.rs:34-50`. -/
structure Step where
  service : String
  path : MPath := []
  input : Selections
  output : Selections
  entity : Bool
  kind : OpKind := .query
  forRequires : Bool := false
  forType : Bool := false
  cond : Cond := (none, none)
  pos : Option Nat := none
  rewrites : List String := []
  aliases : List (String × Aliases) := []

/-- `FetchGraph`, `fetch_graph.rs:43-48`. -/
structure Graph where
  steps : List (Option Step) := []
  edges : List (Nat × Nat) := []
  root : Option Nat := none
  kind : OpKind := .query

namespace Graph

/-- `get_step_data`. -/
def get (g : Graph) (n : Nat) : Except Err Step :=
  match g.steps[n]? with
  | some (some s) => .ok s
  | _ => .error (.missingStep n)

/-- `get_step_data_mut` and a change. -/
def set (g : Graph) (n : Nat) (s : Step) : Graph := { g with steps := g.steps.set n (some s) }

/-- `add_step`. Nothing is removed before the last step is added. -/
def add (g : Graph) (s : Step) : Graph := { g with steps := g.steps ++ [some s] }

/-- `connect`. -/
def connect (g : Graph) (a b : Nat) : Graph :=
  if g.edges.contains (a, b) then g else { g with edges := (a, b) :: g.edges }

/-- The targets of `children_of`. -/
def children (g : Graph) (n : Nat) : List Nat := (g.edges.filter (·.1 == n)).map (·.2)

/-- The sources of `parents_of`. -/
def parents (g : Graph) (n : Nat) : List Nat := (g.edges.filter (·.2 == n)).map (·.1)

/-- Is there a step. -/
def has (g : Graph) (n : Nat) : Bool :=
  match g.steps[n]? with
  | some (some _) => true
  | _ => false

/-- `step_indices`. -/
def indices (g : Graph) : List Nat := (List.range g.steps.length).filter g.has

/-- The nodes that can be reached in a number of steps. -/
def reachN (g : Graph) : Nat → List Nat → List Nat
  | 0, l => l
  | n + 1, l => g.reachN n ((l ++ l.flatMap g.children).eraseDups)

/-- What `Bfs` visits from a node, itself included. -/
def reach (g : Graph) (n : Nat) : List Nat := g.reachN g.steps.length [n]

/-- `find_graph_roots`, `fetch_graph.rs:1977-1991`. -/
def roots (g : Graph) : List Nat := g.indices.filter fun n => (g.parents n).isEmpty

end Graph

/-- `is_ancestor_of_condition`, `fetch_graph.rs:163-182`. -/
def aboveCond (g : Graph) (n : Nat) (c : Cond) : Bool :=
  decide (c ≠ (none, none)) && (g.reach n).any fun m =>
    match g.steps[m]? with
    | some (some s) => decide (s.cond = c)
    | _ => false

/-- `create_noop_fetch_step`, `fetch_graph.rs:292-320`. -/
def noop (req : Bool) : Step :=
  { service := "*", input := [], output := [], entity := false, forRequires := req }

/-- `create_fetch_step_for_entity_call`, `fetch_graph.rs:322-361`. -/
def entityStep (service inType outType : String) (path : MPath) (c : Cond) (req : Bool) : Step :=
  { service, path, input := [(inType, [typename])], output := [(outType, [])], entity := true,
    forRequires := req, cond := c }

/-- `create_fetch_step_for_root_move`, `fetch_graph.rs:363-397`. -/
def rootStep (service type : String) (kind : OpKind) (pos : Option Nat) (path : MPath) (c : Cond) : Step :=
  { service, path, input := [(type, [])], output := [(type, [])], entity := false, kind, pos, cond := c }

/-- `SelectionSet::contains`, `selection_set.rs:76-78`, of the selections of a type. -/
def inputHas (s : Step) (r : Req) : Bool :=
  match s.input with
  | (t, ss) :: _ => t == r.typeName && subsetItems ss r.items
  | [] => false

/-- `input.definition_name() == type`. -/
def inputIs (s : Step) (t : String) : Bool :=
  match s.input with
  | (k, _) :: _ => k == t
  | [] => false

/-- The child `ensure_fetch_step_for_subgraph` looks for, `fetch_graph.rs:414-460`. -/
def reusable (service inType : String) (path : MPath) (key : Req) (c : Cond) (s : Step) : Bool :=
  s.service == service && inputIs s inType && decide (s.path = path) && decide (s.cond = c) &&
    inputHas s key && !s.forRequires

/-- The child `ensure_fetch_step_for_requirement` looks for, `fetch_graph.rs:512-542`. -/
def reusableReq (service type : String) (path : MPath) (c : Cond) (r : Req) (s : Step) : Bool :=
  s.service == service && decide (s.cond = c) && inputIs s type && decide (s.path = path) && inputHas s r

/-- The first child that fits. -/
def findChild (g : Graph) (parent : Nat) (p : Step → Bool) : Option Nat :=
  (g.children parent).find? fun n =>
    match g.steps[n]? with
    | some (some s) => p s
    | _ => false

/-- Change a step. -/
def Graph.modify (g : Graph) (n : Nat) (u : Step → Except Err Step) : Except Err Graph :=
  match g.get n with
  | .error e => .error e
  | .ok s =>
    match u s with
    | .error e => .error e
    | .ok s => .ok (g.set n s)

/-- `step.input.add(..)`. -/
def addInput (items : List Sel) (s : Step) : Except Err Step :=
  match addRoot items s.input with
  | .error e => .error e
  | .ok i => .ok { s with input := i }

/-- `step.output.add_at_path(..)` and `step.output.add_selection_typename(..)`. -/
def addOutput (path : MPath) (items : List Sel) (first : Bool) (s : Step) : Except Err Step :=
  match addPath path items first s.output with
  | .error e => .error e
  | .ok o => .ok { s with output := o }

/-- `add_input_rewrite`, `fetch_step_data.rs:105-111`. -/
def addRewrite (t : String) (s : Step) : Step :=
  if s.rewrites.contains t then s else { s with rewrites := s.rewrites ++ [t] }

/-- `ensure_fetch_step_for_subgraph`, `fetch_graph.rs:400-501`, which is never called with `requires`. -/
def ensureStep (g : Graph) (parent : Nat) (service inType outType : String) (path : MPath) (key : Req)
    (c : Cond) (req : Bool) : Except Err (Graph × Nat) :=
  match findChild g parent (reusable service inType path key c) with
  | some n => .ok (g, n)
  | none =>
    match addInput key.items (entityStep service inType outType path c req) with
    | .error e => .error e
    | .ok s => .ok (g.add s, g.steps.length)

/-- `ensure_fetch_step_for_requirement`, `fetch_graph.rs:503-570`. -/
def ensureReqStep (g : Graph) (parent : Nat) (service type : String) (path : MPath) (c : Cond) (r : Req) :
    Graph × Nat :=
  match findChild g parent (reusableReq service type path c r) with
  | some n => (g, n)
  | none => (g.add (entityStep service type type path c true), g.steps.length)

/-! ## Processing a tree -/

/-- The arguments of `process_query_node` and the functions it calls. -/
structure Ctx where
  parent : Option Nat := none
  resp : MPath := []
  fetch : MPath := []
  requiring : Option Nat := none
  cond : Cond := (none, none)
  fromReq : Bool := false

/-- `query_node.condition.as_ref().or(condition)`, `fetch_graph.rs:1832`. -/
def orCond (a b : Cond) : Cond := if a = (none, none) then b else a

/-- Is a condition that of a segment, `fetch_graph.rs:1377-1386`. -/
def segHas (c : Cond) : Seg → Bool
  | .field _ _ _ d => decide (d = c)
  | .type _ d => decide (d = c)
  | .list => false

/-- `condition_in_path`, `fetch_graph.rs:1101-1110, 1377-1386`. -/
def inPath (c : Cond) (p : MPath) : Bool := decide (c ≠ (none, none)) && p.any (segHas c)

/-- `should_strip_condition`, `fetch_graph.rs:1112-1117, 1388-1393`: what is left of the condition. -/
def stripped (g : Graph) (parent : Nat) (c : Cond) (p : MPath) : Cond :=
  if inPath c p || aboveCond g parent c then (none, none) else c

/-- The alias of a node of the tree. -/
def Label.aliasOf (l : Label) : Option String := (l.attrs.map (·.1)).join
/-- The arguments of a node of the tree. -/
def Label.argsOf (l : Label) : Args := (l.attrs.map (·.2)).join

/-- The field a node of the tree stands for. -/
def fieldOf (name : String) (l : Label) (c : Cond) : FieldInfo :=
  { name, alias := l.aliasOf, args := l.argsOf, skipIf := c.1, includeIf := c.2 }

/-- The segment of a field, with `List` if it is a list, `fetch_graph.rs:1437-1451`. -/
def fieldSegs (name : String) (l : Label) (args : Args) (c : Cond) (isList : Bool) : MPath :=
  .field name l.aliasOf args c :: if isList then [.list] else []

/-- What is to be done after a node was entered. -/
inductive Todo where
  /-- No requirements are looked at. -/
  | nothing
  /-- `process_requirements_for_fetch_steps`. -/
  | all (c : Ctx)
  /-- The first requirement; what it ends in is connected with a step. -/
  | first (c : Ctx) (to : Nat)

/-- A stable sort by descending cost, `fetch_graph.rs:1786`. -/
def insertCost (e : Edge) : List Edge → List Edge
  | [] => [e]
  | f :: r => if f.weight.cost ≤ e.weight.cost then e :: f :: r else f :: insertCost e r

/-- `sort_by_key`. -/
def sortCost : List Edge → List Edge
  | [] => []
  | e :: r => insertCost e (sortCost r)

/-- `Edge::EntityMove`. -/
def isEntity (e : Edge) : Bool :=
  match e.weight with
  | .entity _ _ _ => true
  | _ => false

/-- `can_satisfy_edge` with direct paths only, `fetch_graph.rs:1788-1806`. -/
def satDirect (env : Env) (e : Edge) (p : Walker.Path) : Except Walker.Err (Option (List Walker.Path)) :=
  Walker.checkReqs env (Walker.canSatisfy env env.G.edges.length [(p.tail, e.id)]) true e p {}

/-- The loop of `find_satisfiable_key`, `fetch_graph.rs:1788-1812`. -/
def firstKey (env : Env) (node : Nat) : List Edge → Except Err Req
  | [] => .error .internal
  | e :: r =>
    match satDirect env e (.mk node [] 0 none) with
    | .error _ => .error .walk
    | .ok none => firstKey env node r
    | .ok (some _) =>
      match e.weight.requires with
      | some q => .ok q
      | none => .error .internal

/-- `find_satisfiable_key`, `fetch_graph.rs:1763-1816`. -/
def findKey (env : Env) (node : Nat) : Except Err Req :=
  firstKey env node (sortCost ((env.G.edgesFrom node).filter isEntity))

/-- The name and subgraph of a `SubgraphType` node. -/
def typeNode (G : Moves) (n : Nat) : Except Err (String × String × Bool) :=
  match G.node n with
  | some (.type name graph io _) => .ok (name, graph, io)
  | some (.root _ _) => .error .expectedSubgraphType
  | none => .error .graph

/-- `process_subgraph_entrypoint_edge`, `fetch_graph.rs:1013-1068`. -/
def enterEntry (G : Moves) (l : Label) (e : Edge) (service : String) (kind : OpKind) (parent : Nat) (c : Ctx)
    (g : Graph) : Except Err (Graph × Todo × Ctx) :=
  match G.node e.dst with
  | none => .error .graph
  | some n =>
    .ok ((g.add (rootStep service n.name kind l.pos [] (none, none))).connect parent g.steps.length, .nothing,
      { parent := some g.steps.length, fromReq := c.fromReq })

/-- `process_entity_move_edge`, `fetch_graph.rs:709-836`. -/
def enterEntity (G : Moves) (e : Edge) (key : Req) (isInterface : Bool) (parent : Nat) (c : Ctx) (g : Graph) :
    Except Err (Graph × Todo × Ctx) :=
  match typeNode G e.src, typeNode G e.dst with
  | .error x, _ => .error x
  | _, .error x => .error x
  | .ok (inType, _, _), .ok (outType, service, _) =>
    match ensureStep g parent service inType outType c.resp key c.cond c.fromReq with
    | .error x => .error x
    | .ok (g, n) =>
      match g.modify n (addInput key.items) with
      | .error x => .error x
      | .ok g =>
        match g.modify n (fun s => .ok (if isInterface then
            { addRewrite outType s with forType := true } else s)) with
        | .error x => .error x
        | .ok g =>
          match g.modify parent (addOutput c.fetch [typename] true) with
          | .error x => .error x
          | .ok g =>
            .ok (g.connect parent n,
              .all { c with parent := some parent, requiring := some n, fromReq := true },
              { c with parent := some n, fetch := [] })

/-- `process_interface_object_type_move_edge`, `fetch_graph.rs:845-1003`, up to its requirement. -/
def enterIoType (env : Env) (req : Option Nat) (e : Edge) (object : String) (r : Req) (parent : Nat) (c : Ctx)
    (g : Graph) : Except Err (Graph × Todo × Ctx) :=
  if (g.parents parent).length ≠ 1 then .error (.nonSingleParent parent)
  else
    match typeNode env.G e.src, typeNode env.G e.dst, req with
    | .error x, _, _ => .error x
    | _, .error x, _ => .error x
    | _, _, none => .error .panic
    | .ok (_, headGraph, _), .ok (iface, service, _), some rn =>
      match ensureStep g parent service object iface c.resp r c.cond c.fromReq with
      | .error x => .error x
      | .ok (g, n) =>
        match findKey env rn with
        | .error x => .error x
        | .ok key =>
          match g.modify n (addInput r.items) with
          | .error x => .error x
          | .ok g =>
            match g.modify n (addInput key.items) with
            | .error x => .error x
            | .ok g =>
              match g.modify n (fun s => .ok (addRewrite iface s)) with
              | .error x => .error x
              | .ok g =>
                match g.modify parent (addOutput c.fetch [typename] true) with
                | .error x => .error x
                | .ok g =>
                  match addInput key.items (entityStep headGraph object iface c.resp c.cond false) with
                  | .error x => .error x
                  | .ok s =>
                    .ok ((g.add s).connect parent g.steps.length,
                      .first { parent := some g.steps.length, resp := c.resp, cond := c.cond,
                               fromReq := true } n,
                      { c with parent := some n, fetch := [] })

/-- `process_subgraph_reentry`, `fetch_graph.rs:1074-1180`. -/
def enterReentry (G : Moves) (l : Label) (e : Edge) (name : String) (isList : Bool) (parent : Nat) (c : Ctx)
    (g : Graph) : Except Err (Graph × Todo × Ctx) :=
  match typeNode G e.dst with
  | .error x => .error x
  | .ok (type, service, _) =>
    match g.modify parent (addOutput c.fetch
        [.field (fieldOf name l (stripped g parent c.cond c.fetch)) [typename]] false) with
    | .error x => .error x
    | .ok g =>
      let path := c.resp ++ fieldSegs name l none (none, none) isList
      .ok ((g.add (rootStep service type .query l.pos path c.cond)).connect parent g.steps.length, .nothing,
        { c with parent := some g.steps.length, resp := path, fetch := [], cond := (none, none) })

/-- `process_selfie_edge`, `fetch_graph.rs:1192-1262`. -/
def enterSelfie (type : String) (parent : Nat) (c : Ctx) (g : Graph) : Except Err (Graph × Todo × Ctx) :=
  let k := if aboveCond g parent c.cond then (none, none) else c.cond
  match g.modify parent (addOutput c.fetch
      [.frag { cond := type, skipIf := k.1, includeIf := k.2 } []] false) with
  | .error x => .error x
  | .ok g =>
    .ok (g, .nothing, { c with parent := some parent, resp := c.resp ++ [.type [type] k],
                               fetch := c.fetch ++ [.type [type] k], fromReq := false })

/-- `process_abstract_edge`, `fetch_graph.rs:1274-1337`. -/
def enterAbstract (type : String) (parent : Nat) (c : Ctx) (g : Graph) : Except Err (Graph × Todo × Ctx) :=
  match g.modify parent (addOutput c.fetch [typename, .frag { cond := type } []] false) with
  | .error x => .error x
  | .ok g =>
    .ok (g, .nothing, { c with parent := some parent, resp := c.resp ++ [.type [type] (none, none)],
                               fetch := c.fetch ++ [.type [type] (none, none)], fromReq := false })

/-- `process_plain_field_edge`, `fetch_graph.rs:1350-1469`. -/
def enterField (l : Label) (m : FieldMove) (parent : Nat) (c : Ctx) (g : Graph) :
    Except Err (Graph × Todo × Ctx) :=
  let g := match c.requiring with
    | some r => g.connect parent r
    | none => g
  let k := stripped g parent c.cond c.fetch
  match g.modify parent (addOutput c.fetch [.field (fieldOf m.name l k) []] false) with
  | .error x => .error x
  | .ok g =>
    let segs := fieldSegs m.name l l.argsOf k m.isList
    .ok (g, .nothing, { c with parent := some parent, resp := c.resp ++ segs, fetch := c.fetch ++ segs })

/-- `output.is_selecting_definition`, `selections.rs:294-296`. -/
def outputHas (s : Step) (t : String) : Bool := s.output.any (·.1 == t)

/-- `process_requires_field_edge`, `fetch_graph.rs:1476-1738`, up to its requirement. -/
def enterRequires (env : Env) (req : Option Nat) (l : Label) (e : Edge) (m : FieldMove) (r : Req)
    (parent : Nat) (c : Ctx) (g : Graph) : Except Err (Graph × Todo × Ctx) :=
  match g.parents parent, req with
  | [grand], some rn =>
    match typeNode env.G e.src with
    | .error x => .error x
    | .ok (type, service, io) =>
      match findKey env rn, g.get parent with
      | .error x, _ => .error x
      | _, .error x => .error x
      | .ok key, .ok ps =>
        let real := if outputHas ps type then grand else parent
        let (g, n) := ensureReqStep g real service type c.resp c.cond r
        match g.modify n (addOutput [] [.field (fieldOf m.name l (none, none)) []] false) with
        | .error x => .error x
        | .ok g =>
          match g.modify n (fun s => .ok (if io then addRewrite type s else s)) with
          | .error x => .error x
          | .ok g =>
            match g.modify n (addInput r.items) with
            | .error x => .error x
            | .ok g =>
              match g.modify n (addInput key.items) with
              | .error x => .error x
              | .ok g =>
                match addInput key.items (entityStep service type type c.resp c.cond true) with
                | .error x => .error x
                | .ok s =>
                  match (g.add s).get real with
                  | .error x => .error x
                  | .ok rs =>
                    if rs.path.length > c.resp.length then .error .internal
                    else
                      match (g.add s).modify real
                          (addOutput (c.resp.drop rs.path.length) key.items false) with
                      | .error x => .error x
                      | .ok g' =>
                        match g'.modify real (addOutput (c.resp.drop rs.path.length) [typename] true) with
                        | .error x => .error x
                        | .ok g' =>
                          .ok (g'.connect real g.steps.length,
                            .first { parent := some g.steps.length, resp := c.resp, cond := c.cond,
                                     fromReq := true } n,
                            { c with parent := some n,
                                     resp := c.resp ++ fieldSegs m.name l l.argsOf (none, none) m.isList,
                                     fetch := fieldSegs m.name l l.argsOf (none, none) m.isList })
  | [_], none => .error .panic
  | _, _ => .error (.nonSingleParent parent)

/-- `process_noop_edge`, `fetch_graph.rs:671-703`. -/
def enterNoop (c : Ctx) (g : Graph) : Graph × Todo × Ctx :=
  match c.parent with
  | some _ => (g, .nothing, c)
  | none => (g.add (noop c.fromReq), .nothing, { c with parent := some g.steps.length })

/-- `process_query_node`, `fetch_graph.rs:1820-1975`, up to requirements and children. `req` is the graph
node of the first requirement. -/
def enter (env : Env) (req : Option Nat) (l : Label) (c : Ctx) (g : Graph) :
    Except Err (Graph × Todo × Ctx) :=
  let c := { c with cond := orCond l.cond c.cond }
  match l.edge with
  | none => .ok (enterNoop c g)
  | some id =>
    match c.parent with
    | none => .error .indexNone
    | some parent =>
      match Walker.Moves.edge? env.G id with
      | none => .error .graph
      | some e =>
        match e.weight with
        | .entry service kind => enterEntry env.G l e service kind parent c g
        | .entity _ key isInterface => enterEntity env.G e key isInterface parent c g
        | .reentry name _ isList => enterReentry env.G l e name isList parent c g
        | .field m =>
          match m.requires with
          | some r => enterRequires env req l e m r parent c g
          | none => enterField l m parent c g
        | .selfie t => enterSelfie t parent c g
        | .abstract t => enterAbstract t parent c g
        | .ioType object r => enterIoType env req e object r parent c g

/-- Every leaf is connected with a step, `fetch_graph.rs:978-987, 1706-1716`. -/
def connectAll (from' : Nat) (to : Nat) (leafs : List Nat) (g : Graph) : Graph :=
  match leafs with
  | [] => g.connect from' to
  | ls => ls.foldl (fun g n => g.connect n to) g

mutual
/-- `process_query_node`, `fetch_graph.rs:1820-1975`: the steps the node ends in. -/
def process (env : Env) : Tree → Ctx → Graph → Except Err (Graph × List Nat)
  | .mk l rs cs, c, g =>
    match enter env (rs.head?.map (·.label.node)) l c g with
    | .error x => .error x
    | .ok (g, todo, c') =>
      match todo with
      | .nothing => processKids env cs c' g
      | .all c'' =>
        match processReqs env rs c'' g with
        | .error x => .error x
        | .ok g => processKids env cs c' g
      | .first c'' to =>
        match processFirst env rs c'' g with
        | .error x => .error x
        | .ok (g, leafs) => processKids env cs c' (connectAll (c''.parent.getD 0) to leafs g)
/-- `process_requirements_for_fetch_steps`, `fetch_graph.rs:631-668`. -/
def processReqs (env : Env) : List Tree → Ctx → Graph → Except Err Graph
  | [], _, g => .ok g
  | t :: r, c, g =>
    match process env t c g with
    | .error x => .error x
    | .ok (g, _) => processReqs env r c g
/-- `requirements.first().unwrap()`. -/
def processFirst (env : Env) : List Tree → Ctx → Graph → Except Err (Graph × List Nat)
  | [], _, _ => .error .panic
  | t :: _, c, g => process env t c g
/-- `process_children_for_fetch_steps`, `fetch_graph.rs:581-620`. -/
def processKids (env : Env) : List Tree → Ctx → Graph → Except Err (Graph × List Nat)
  | [], c, g => .ok (g, c.parent.toList)
  | [t], c, g => process env t c g
  | t :: r, c, g =>
    match process env t c g with
    | .error x => .error x
    | .ok (g, a) =>
      match processKids env r c g with
      | .error x => .error x
      | .ok (g, b) => .ok (g, a ++ b)
end

/-- `build_fetch_graph_from_query_tree` before `optimize`, `fetch_graph.rs:1997-2043`. -/
def buildTree (env : Env) (t : Tree) (kind : OpKind) : Except Err Graph :=
  match process env t {} { kind } with
  | .error x => .error x
  | .ok (g, _) =>
    match g.roots with
    | [r] => .ok { g with root := some r }
    | l => .error (.nonSingleRoot l.length)

end Verif.Fetch
