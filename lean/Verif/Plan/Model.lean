import Verif.Core.DecEq
import Verif.Core.Value
import Verif.Keys.Model

/-!
# Query plans

From a graph of fetch steps to a query plan, `query_planner/planner/query_plan.rs`, the rewriting of
the plan, `query_planner/planner/query_plan/optimize.rs`, the nodes of a plan,
`query_planner/planner/plan_nodes.rs`, and how the executor walks them,
`executor/execution/plan.rs:828-868`, 899-1071, 1706-1719.
-/

namespace Verif.Plan

open Verif.Keys (VarDef TypeNode Word optWords condWords fieldEnd)

deriving instance DecidableEq for VarDef

/-- `FlattenNodePath`, `plan_nodes.rs:465`; its segments as text. -/
abbrev Path := List String

/-- `Option<Vec<FetchRewrite>>`; a rewrite as text. The planner only copies and compares them. -/
abbrev Rewrites := Option (List String)

/-- The field `_entities` of an operation: the variable with the representations, and the selections,
in which fragment spreads are replaced by the fragments (`optimize.rs:362-371`). -/
structure Call where
  repVar : String
  sels : List Sel

/-- `FetchNode`, `plan_nodes.rs:101-120`. The operation is its variables, its call of `_entities`, if
it has one that takes its argument from a variable, and `text`, all the rest. -/
structure Fetch where
  id : Nat
  service : String
  usages : Option (List String)
  vars : List VarDef
  call : Option Call
  text : String
  requires : Option (List Sel)
  inputRw : Rewrites
  outputRw : Rewrites

/-- `EntityBatchAlias`, `plan_nodes.rs:328-340`. -/
structure Alias where
  alias : String
  repVar : String
  paths : List Path
  requires : List Sel
  inputRw : Rewrites
  outputRw : Rewrites

/-- A field `alias: _entities(representations: $repVar) { sels }`, `optimize.rs:154-172`. -/
structure Field where
  alias : String
  repVar : String
  sels : List Sel

/-- `BatchFetchNode`, `plan_nodes.rs:122-135`; the operation is `vars` and `fields`. -/
structure Batch where
  id : Nat
  service : String
  usages : List String
  vars : List VarDef
  fields : List Field
  aliases : List Alias

/-- `PlanNode`, `plan_nodes.rs:32-44`. A `Flatten` node has a fetch inside: for others
`optimize_node` fails, `optimize.rs:452-459`. There is no `Defer`: no code makes such nodes. -/
inductive Node where
  | fetch (f : Fetch)
  | batch (b : Batch)
  | seq (ns : List Node)
  | par (ns : List Node)
  | flatten (path : Path) (f : Fetch)
  | cond (v : String) (onTrue onFalse : Option Node)
  | subscription (f : Fetch)

/-! ## From steps to nodes -/

/-- `Condition`, `query_planner/ast/merge_path.rs`. -/
inductive Cond where
  | incl (v : String)
  | skip (v : String)
  | skipIncl (s i : String)

/-- `FetchStepData`, `fetch/fetch_step_data.rs:34-50`, as far as nodes are made of it. -/
structure Step where
  id : Nat
  service : String
  path : Path
  input : List Sel
  output : List Sel
  entity : Bool
  subscription : Bool
  cond : Option Cond
  usages : Option (List String)
  vars : Option (List VarDef)
  inputRw : Rewrites
  outputRw : Rewrites
  text : String

/-- `[_Any!]!`. -/
def anyType : TypeNode := .nonNull (.list (.nonNull (.named "_Any")))

/-- `FetchNode::from_fetch_step`, `plan_nodes.rs:703-757`, with `create_output_operation`, 657-701.
The selections of the step are those that are put in the operation. -/
def Fetch.ofStep (s : Step) : Fetch :=
  if s.entity then
    { id := s.id, service := s.service, usages := s.usages,
      vars := ⟨"representations", anyType, none⟩ :: s.vars.getD [],
      call := some ⟨"representations", s.output⟩, text := "", requires := some s.input,
      inputRw := s.inputRw, outputRw := s.outputRw }
  else
    { id := s.id, service := s.service, usages := s.usages, vars := s.vars.getD [],
      call := none, text := s.text, requires := none,
      inputRw := s.inputRw, outputRw := s.outputRw }

/-- The node without the condition, `plan_nodes.rs:764-775`. -/
def Node.bare (s : Step) : Node :=
  if s.path = [] then
    if s.entity = false ∧ s.subscription = true then .subscription (Fetch.ofStep s)
    else .fetch (Fetch.ofStep s)
  else .flatten s.path (Fetch.ofStep s)

/-- `PlanNode::from_fetch_step`, `plan_nodes.rs:759-804`. -/
def Node.ofStep (s : Step) : Node :=
  match s.cond with
  | none => Node.bare s
  | some (.incl v) => .cond v (some (Node.bare s)) none
  | some (.skip v) => .cond v none (some (Node.bare s))
  | some (.skipIncl sk i) => .cond sk none (some (.cond i (some (Node.bare s)) none))

/-! ## The waves -/

/-- `FetchGraph`, `fetch/fetch_graph.rs`: the indices of the steps, the edges, the root, and the data
of the steps. -/
structure Graph where
  nodes : List Nat
  edges : List (Nat × Nat)
  root : Option Nat
  step : Nat → Step

/-- `children_of`, `fetch_graph.rs:95-97`, in some order. -/
def Graph.children (g : Graph) (n : Nat) : List Nat := (g.edges.filter (·.1 = n)).map (·.2)

/-- The in-degree at first, `query_plan.rs:38-50`: the number of parents that are not the root. The
code has it for the steps that can be reached from the root; others are not looked up. -/
def Graph.degree (g : Graph) (root n : Nat) : Nat :=
  (g.edges.filter fun e => e.2 = n ∧ e.1 ≠ root).length

inductive Err where
  | noRoot
  | rootChild
  | rootVisited
  /-- `panic!`, `query_plan.rs:62`. -/
  | inDegreeZero
  | cycle
  | empty
  | outOfFuel
  deriving DecidableEq

/-- `mark_as_processed`, `query_plan.rs:55-71`, over the children. -/
def markAll : List Nat → (Nat → Nat) → Except Err (Nat → Nat)
  | [], st => .ok st
  | c :: cs, st =>
    if st c = 0 then .error .inDegreeZero
    else markAll cs fun m => if m = c then st c - 1 else st m

/-- The loop over the children of a step, `query_plan.rs:125-137`: those that are fulfilled. -/
def pushes (root : Nat) (st : Nat → Nat) : List Nat → Except Err (List Nat)
  | [] => .ok []
  | c :: cs =>
    if c = root then .error .rootVisited
    else do
      let rest ← pushes root st cs
      return if st c = 0 then c :: rest else rest

/-- The steps of one wave, `query_plan.rs:112-138`: the state after them and the next wave. -/
def runWave (g : Graph) (root : Nat) : List Nat → (Nat → Nat) → Except Err ((Nat → Nat) × List Nat)
  | [], st => .ok (st, [])
  | n :: ns, st => do
    let st ← markAll (g.children n) st
    let new ← pushes root st (g.children n)
    let (st', next) ← runWave g root ns st
    return (st', new ++ next)

/-- `while !queue.is_empty()`, `query_plan.rs:108-153`: all waves. `fuel` bounds the number of
waves. -/
def runWaves (g : Graph) (root : Nat) : Nat → List Nat → (Nat → Nat) → Except Err (List (List Nat))
  | _, [], _ => .ok []
  | 0, _ :: _, _ => .error .outOfFuel
  | fuel + 1, n :: ns, st => do
    let (st', next) ← runWave g root (n :: ns) st
    let rest ← runWaves g root fuel next st'
    return (n :: ns) :: rest

/-- The children of the root, `query_plan.rs:96-106`. -/
def firstWave (g : Graph) (root : Nat) : List Nat → Except Err (List Nat)
  | [] => .ok []
  | c :: cs =>
    if g.degree root c = 0 then do return c :: (← firstWave g root cs)
    else .error .rootChild

/-- `build_query_plan_from_fetch_graph` up to the number of planned steps, `query_plan.rs:90-162`. -/
def Graph.waves (g : Graph) : Except Err (List (List Nat)) :=
  match g.root with
  | none => .error .noRoot
  | some root => do
    let first ← firstWave g root (g.children root)
    let ws ← runWaves g root g.nodes.length first (g.degree root)
    if ws.flatten.length = (g.nodes.filter (· ≠ root)).length then return ws
    else .error .cycle

/-! ## Rewriting of sequences -/

/-- `flatten_sequence`, `plan_nodes.rs:606-611`. -/
def Node.flattenSeq : Node → List Node
  | .seq ns => ns
  | n => [n]

/-- `flatten_parallel`, `plan_nodes.rs:614-623`, for one node. -/
def Node.flattenPar : Node → List Node
  | .par ns => ns
  | n => [n]

/-- `PlanNode::sequence`, `plan_nodes.rs:625-631`. -/
def mkSeq : List Node → Node
  | [n] => n
  | ns => .seq ns

/-- `PlanNode::parallel`, `plan_nodes.rs:633-639`. -/
def mkPar : List Node → Node
  | [n] => n
  | ns => .par ns

/-- `ConditionNode::take_inner_nodes`, `plan_nodes.rs:395-401`. -/
def innerNodes (onTrue onFalse : Option Node) : List Node :=
  match onTrue, onFalse with
  | some n, _ => n.flattenSeq
  | none, some n => n.flattenSeq
  | none, none => []

/-- `can_merge_with` and `merge`, `plan_nodes.rs:366-393`: the node for two neighbours, if they can be
merged. -/
def mergeCond : Node → Node → Option Node
  | .cond v t e, .cond v' t' e' =>
    if v = v' ∧ ((e.isNone ∧ e'.isNone) ∨ (t.isNone ∧ t'.isNone)) then
      if t.isSome then some (.cond v (some (mkSeq (innerNodes t e ++ innerNodes t' e'))) e)
      else some (.cond v t (some (mkSeq (innerNodes t e ++ innerNodes t' e'))))
    else none
  | _, _ => none

/-- The fold over the nodes, `optimize.rs:842-857`; `acc` is the accumulator from its end. -/
def mergeLoop : List Node → List Node → List Node
  | acc, [] => acc.reverse
  | [], n :: ns => mergeLoop [n] ns
  | a :: acc, n :: ns =>
    match mergeCond a n with
    | some m => mergeLoop (m :: acc) ns
    | none => mergeLoop (n :: a :: acc) ns

/-- `optimize_plan_sequence`, `optimize.rs:824-858`. -/
def optSeq (ns : List Node) : List Node := mergeLoop [] (ns.flatMap Node.flattenSeq)

/-! ## Batching -/

mutual
/-- `impl PartialEq for SelectionSet`, `selection_set.rs:34-38`, and `SelectionItem`,
`selection_item.rs:201-218`: aliases, arguments and conditions do not count. -/
def selEq : List Sel → List Sel → Bool
  | [], [] => true
  | a :: as, b :: bs => itemEq a b && selEq as bs
  | _, _ => false

def itemEq : Sel → Sel → Bool
  | .field f s, .field g t => f.name == g.name && selEq s t
  | .frag f s, .frag g t => f.cond == g.cond && selEq s t
  | _, _ => false
end

/-- What is fed to the hasher for the hashes of the items, `query_planner/ast/hash.rs:128-145`. -/
def setWords (hs : List Nat) : List Word :=
  [.num (hs.foldl (· ^^^ ·) 0), .num (hs.foldl (· + ·) 0 % 2 ^ 64), .num (hs.length % 2 ^ 64)]

/-- The hashes of the items of a selection set, `hash.rs:133-141`, 158-174, 198-221, 234-250. The
spreads are gone before. -/
def itemHashes (fx : List Word → Nat) : List Sel → List Nat
  | [] => []
  | .field f s :: rest =>
    fx (.str f.name :: (optWords f.alias ++ (setWords (itemHashes fx s) ++ fieldEnd fx f))) ::
      itemHashes fx rest
  | .frag g s :: rest =>
    fx (.str g.cond :: (setWords (itemHashes fx s) ++
      (condWords "@include" g.includeIf ++ condWords "@skip" g.skipIf))) :: itemHashes fx rest
  | .spread _ :: rest => fx [] :: itemHashes fx rest

/-- `RepresentationsInputKey`, `optimize.rs:92-97`. -/
structure RepKey where
  requires : List Sel
  inputRw : Rewrites
  paths : List Path

/-- The hash functions: `FxHasher`, `Xxh3` for selections and for rewrites, and that of the
`HashMap`. All are arbitrary. -/
structure Hashers where
  fx : List Word → Nat
  xxh : List Word → Nat
  rw : Rewrites → Nat
  std : RepKey → Nat

/-- `EntityFetch`, `optimize.rs:312-325`. `vars` are the variables but the one with the
representations. -/
structure Cand where
  index : Nat
  path : Path
  fetch : Fetch
  requires : List Sel
  sels : List Sel
  vars : List VarDef

/-- `EntityFetch::from_node`, `optimize.rs:339-417`. -/
def Cand.ofNode (index : Nat) : Node → Option Cand
  | .flatten path f =>
    match f.call, f.requires with
    | some c, some r => some ⟨index, path, f, r, c.sels, f.vars.filter (·.name ≠ c.repVar)⟩
    | _, _ => none
  | _ => none

/-- `ShapeKey`, `optimize.rs:83-89`, 390-402. -/
def Cand.key (H : Hashers) (c : Cand) : Nat × Nat × Nat × Nat :=
  (H.xxh (setWords (itemHashes H.fx c.requires)), H.xxh (setWords (itemHashes H.fx c.sels)),
    H.rw c.fetch.inputRw, H.rw c.fetch.outputRw)

/-- `eq_shape`, `optimize.rs:331-337`. -/
def eqShape (H : Hashers) (a b : Cand) : Bool :=
  a.key H == b.key H && selEq a.requires b.requires && selEq a.sels b.sels &&
    a.fetch.inputRw == b.fetch.inputRw && a.fetch.outputRw == b.fetch.outputRw

/-- One step of `partition_by_shape`, `optimize.rs:663-683`: the first group with the shape takes the
candidate. The code looks only at groups with the same key, in their order. -/
def addShape (H : Hashers) (c : Cand) : List (List Cand) → List (List Cand)
  | [] => [[c]]
  | [] :: gs => [] :: addShape H c gs
  | (a :: as) :: gs => if eqShape H a c then (a :: (as ++ [c])) :: gs else (a :: as) :: addShape H c gs

/-- `partition_by_shape`, `optimize.rs:659-685`. -/
def byShape (H : Hashers) (cs : List Cand) : List (List Cand) :=
  cs.foldl (fun gs c => addShape H c gs) []

/-- `can_merge_variable_definitions`, `optimize.rs:734-753`, with `VariableDefinition::can_merge`,
`query_planner/ast/operation.rs:220-226`. -/
def canMergeVars (vs : List VarDef) : List VarDef → Bool
  | [] => true
  | o :: os =>
    match vs.find? (fun v => v.name == o.name) with
    | none => canMergeVars vs os
    | some v => if v.name = o.name ∧ v.type = o.type ∧ v.default = o.default then canMergeVars vs os else false

/-- `merge_variable_definitions`, `optimize.rs:755-769`. -/
def mergeVars (vs : List VarDef) : List VarDef → List VarDef
  | [] => vs
  | o :: os => if vs.any (fun v => v.name == o.name) then mergeVars vs os else mergeVars (vs ++ [o]) os

/-- One step of `partition_by_variables_compatibility`, `optimize.rs:712-729`. -/
def addVars (c : Cand) : List (List Cand × List VarDef) → List (List Cand × List VarDef)
  | [] => [([c], c.vars)]
  | (cs, vs) :: gs =>
    if canMergeVars vs c.vars then (cs ++ [c], mergeVars vs c.vars) :: gs else (cs, vs) :: addVars c gs

/-- `partition_by_variables_compatibility`, `optimize.rs:703-732`. -/
def byVars (cs : List Cand) : List (List Cand × List VarDef) := cs.foldl (fun gs c => addVars c gs) []

/-- `collect_merge_paths`, `optimize.rs:194-206`. -/
def mergePaths (paths : List Path) : List Path → List Path
  | [] => paths
  | p :: ps => if paths.contains p then mergePaths paths ps else mergePaths (paths ++ [p]) ps

/-- `__batch_reps_{n}`. -/
def repName (n : Nat) : String := "__batch_reps_" ++ Nat.repr n

/-- `next_unique_representations_var_name`, `optimize.rs:634-646`: the number of the name. At most
`used.length` names are taken; `fuel` counts them down. -/
def nextRep (used : List String) : Nat → Nat → Nat
  | 0, n => n
  | fuel + 1, n => if used.contains (repName n) then nextRep used fuel (n + 1) else n

/-- `BatchFetchBuilder`, `optimize.rs:99-109`. -/
structure Builder where
  varDefs : List VarDef
  fields : List Field
  aliases : List Alias
  used : List String
  next : Nat
  usages : List String
  reps : List (RepKey × String)

/-- Whether a key is found in the map at another one: equal hashes, then `PartialEq`. -/
def RepKey.matches (H : Hashers) (a b : RepKey) : Bool :=
  H.std a == H.std b && selEq a.requires b.requires && a.inputRw == b.inputRw && a.paths == b.paths

/-- `get_or_create_representations_var`, `optimize.rs:208-253`. -/
def Builder.repVar (H : Hashers) (b : Builder) (k : RepKey) : Builder × String :=
  match b.reps.find? (fun kv => kv.1.matches H k) with
  | some kv => (b, kv.2)
  | none =>
    let n := nextRep b.used b.used.length b.next
    ({ b with
        used := repName n :: b.used
        next := n + 1
        varDefs := b.varDefs ++ [⟨repName n, anyType, none⟩]
        reps := b.reps ++ [(k, repName n)] }, repName n)

/-- `add_shape_group`, `optimize.rs:133-192`. An empty group is an error there; there is none. -/
def Builder.add (H : Hashers) (b : Builder) (index : Nat) : List Cand → Builder
  | [] => b
  | r :: cs =>
    let usages := b.usages ++ (r :: cs).flatMap fun c => c.fetch.usages.getD []
    let paths := mergePaths [] ((r :: cs).map (·.path))
    let (b, v) := ({ b with usages := usages } : Builder).repVar H ⟨r.requires, r.fetch.inputRw, paths⟩
    let alias := "_e" ++ Nat.repr index
    { b with
      fields := b.fields ++ [⟨alias, v, r.sels⟩]
      aliases := b.aliases ++ [⟨alias, v, paths, r.requires, r.fetch.inputRw, r.fetch.outputRw⟩] }

/-- The loop of `build_batched_fetch_node`, `optimize.rs:817-819`. -/
def addGroups (H : Hashers) : Nat → Builder → List (List Cand) → Builder
  | _, b, [] => b
  | i, b, g :: gs => addGroups H (i + 1) (b.add H i g) gs

/-- `build_batched_fetch_node`, `optimize.rs:802-822`, with `BatchFetchBuilder::finish`, 255-297. -/
def buildBatch (H : Hashers) (first : Cand) (groups : List (List Cand)) (vars : List VarDef) : Batch :=
  let b := addGroups H 0 ⟨[], [], [], vars.map (·.name), 0, [], []⟩ groups
  { id := first.fetch.id
    service := first.fetch.service
    usages := b.usages
    vars := b.varDefs ++ vars
    fields := b.fields
    aliases := b.aliases }

/-- The candidates of a parallel node, `optimize.rs:609-616`. -/
def candsFrom : Nat → List Node → List Cand
  | _, [] => []
  | i, n :: ns =>
    match Cand.ofNode i n with
    | some c => c :: candsFrom (i + 1) ns
    | none => candsFrom (i + 1) ns

/-- The services, each once. -/
def services : List Cand → List String
  | [] => []
  | c :: cs => c.fetch.service :: (services cs).filter (· ≠ c.fetch.service)

/-- The batches of a parallel node, `optimize.rs:537-571`: the candidate whose place it takes, the
candidates and the batch. The order of the services does not matter. -/
def batches (H : Hashers) (ns : List Node) : List (Cand × List Cand × Batch) :=
  let cands := candsFrom 0 ns
  (services cands).flatMap fun s =>
    let cs := cands.filter (·.fetch.service = s)
    if cs.length < 2 then []
    else (byVars cs).filterMap fun g =>
      if g.1.length < 2 then none
      else
        match byShape H g.1 with
        | (first :: rest) :: groups =>
          some (first, g.1, buildBatch H first ((first :: rest) :: groups) g.2)
        | _ => none

/-- The second loop of `optimize_parallel_node`, `optimize.rs:580-599`. -/
def replaceFrom (bs : List (Cand × List Cand × Batch)) : Nat → List Node → List Node
  | _, [] => []
  | i, n :: ns =>
    match bs.find? (fun b => b.1.index == i) with
    | some b => .batch b.2.2 :: replaceFrom bs (i + 1) ns
    | none =>
      if bs.any (fun b => b.2.1.any fun c => c.index == i) then replaceFrom bs (i + 1) ns
      else n :: replaceFrom bs (i + 1) ns

/-- `optimize_parallel_node`, `optimize.rs:525-602`. -/
def optPar (H : Hashers) (ns : List Node) : List Node := replaceFrom (batches H ns) 0 ns

/-- `is_fetching_node`, `plan_nodes.rs:641-649`. -/
def Node.fetching : Node → Bool
  | .fetch _ | .batch _ | .flatten _ _ => true
  | _ => false

mutual
/-- `optimize_node`, `optimize.rs:449-503`. Its errors, about fragments that are not defined, are left
out. -/
def optimize (H : Hashers) : Node → Node
  | .fetch f => .fetch f
  | .batch b => .batch b
  | .flatten p f => .flatten p f
  | .seq ns => mkSeq (optSeq (optimizeAll H ns))
  | .par ns =>
    mkPar (optPar H ((if ns.all Node.fetching then ns else optimizeAll H ns).flatMap Node.flattenPar))
  | .cond v t e => .cond v (optimizeOpt H t) (optimizeOpt H e)
  | .subscription f => .subscription f

def optimizeAll (H : Hashers) : List Node → List Node
  | [] => []
  | n :: ns => optimize H n :: optimizeAll H ns

def optimizeOpt (H : Hashers) : Option Node → Option Node
  | none => none
  | some n => some (optimize H n)
end

/-- The node of a wave, `query_plan.rs:140-152`. -/
def waveNode (g : Graph) : List Nat → Node
  | [n] => Node.ofStep (g.step n)
  | ns => .par (ns.map fun n => Node.ofStep (g.step n))

/-- The root node, `query_plan.rs:178-188`. -/
def rootNode (ns : List Node) : Node :=
  match optSeq ns with
  | [n] => n
  | ns => .seq ns

/-- `build_query_plan_from_fetch_graph`, `query_plan.rs:84-194`. -/
def Graph.plan (H : Hashers) (g : Graph) : Except Err Node := do
  let ws ← g.waves
  if ws = [] then .error .empty
  else return optimize H (rootNode (ws.map (waveNode g)))

/-! ## Execution -/

/-- A piece of work: an operation of a subgraph whose result is put at a path, or a call for the
entities at a path. -/
inductive Work where
  | op (f : Fetch) (path : Option Path)
  | entities (service : String) (path : Path) (requires : List Sel) (inputRw : Rewrites)
      (sels : List Sel) (outputRw : Rewrites)

/-- What happens to it: the request is made from the data there is, and the result is merged into the
data. -/
inductive Event where
  | start (w : Work)
  | done (w : Work)

/-- The work of a fetch at a path, `plan.rs:959-1066`. -/
def Fetch.work (path : Path) (f : Fetch) : Work :=
  match f.call, f.requires with
  | some c, some r => .entities f.service path r f.inputRw c.sels f.outputRw
  | _, _ => .op f (some path)

/-- The alias of a field of a batch, and the first alias with the variable, whose entities the
variable has: `prepare_batch_fetch_job_state`, `plan.rs:1489-1598`. -/
def Batch.fieldWork (b : Batch) (f : Field) : List Work :=
  match b.aliases.find? (fun a => a.alias == f.alias), b.aliases.find? (fun a => a.repVar == f.repVar) with
  | some a, some src =>
    if src.paths = a.paths then
      a.paths.map fun p => .entities b.service p src.requires src.inputRw f.sels a.outputRw
    else []
  | _, _ => []

/-- The work of a batch. -/
def Batch.work (b : Batch) : List Work := b.fields.flatMap b.fieldWork

/-- `condition_node_by_variables`, `plan.rs:1706-1719`: whether the variable is `true`, if it is
there. -/
def truth (vars : Option (List (String × Value))) (v : String) : Option Bool :=
  match vars with
  | none => none
  | some m =>
    match lookup v m with
    | none => none
    | some (.bool true) => some true
    | some _ => some false

/-- `prepare_job_future`, `plan.rs:899-1071`: the work of a request. Requests for no entities are not
sent; here they are requests like others. -/
def jobOf (vars : Option (List (String × Value))) : Node → Option (List Work)
  | .fetch f => some [.op f none]
  | .batch b => some b.work
  | .flatten p f => some [f.work p]
  | .cond v t e =>
    match truth vars v with
    | none => none
    | some true => jobOfOpt vars t
    | some false => jobOfOpt vars e
  | .seq _ => none
  | .par _ => none
  | .subscription _ => none
where
  jobOfOpt (vars : Option (List (String × Value))) : Option Node → Option (List Work)
    | none => none
    | some n => jobOf vars n

/-- The events of requests that are made together and end in some order, `plan.rs:831-844`. -/
def Together (jobs : List (List Work)) (t : List Event) : Prop :=
  ∃ order : List (List Work), order.Perm jobs ∧
    t = jobs.flatMap (·.map .start) ++ order.flatMap (·.map .done)

mutual
/-- `execute_plan_node`, `plan.rs:828-868`: the events of an execution. -/
def exec (vars : Option (List (String × Value))) : Node → List Event → Prop
  | .par ns => fun t => Together (ns.filterMap (jobOf vars)) t
  | .seq ns => execSeq vars ns
  | .cond v t e =>
    match truth vars v with
    | none => fun ev => ev = []
    | some true => execOpt vars t
    | some false => execOpt vars e
  | .fetch f => fun t => Together [[.op f none]] t
  | .batch b => fun t => Together [b.work] t
  | .flatten p f => fun t => Together [[f.work p]] t
  | .subscription _ => fun t => t = []

def execSeq (vars : Option (List (String × Value))) : List Node → List Event → Prop
  | [] => fun t => t = []
  | n :: ns => fun t => ∃ a b, exec vars n a ∧ execSeq vars ns b ∧ t = a ++ b

def execOpt (vars : Option (List (String × Value))) : Option Node → List Event → Prop
  | none => fun t => t = []
  | some n => exec vars n
end

end Verif.Plan
