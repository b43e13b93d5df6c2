/-!
# The choice among the ways to resolve an operation

Models `bin/router/src/query_planner/planner/best.rs` and the query trees it works on
(`planner/tree/query_tree_node.rs`, `planner/tree/query_tree.rs`).

Simplifications, for the whole file:
* costs are natural numbers (the code adds `u64` values, which would need 2^54 nodes to overflow);
  `u64::MAX`, where the code uses it as "no cost yet", is `maxU64`;
* the laziness of trees and costs is left out: both are functions of the path;
* the errors of looking up a graph edge that does not exist are left out: paths are made of edges of
  the graph.
-/
namespace Verif.Best

/-- `u64::MAX`. -/
def maxU64 : Nat := 18446744073709551615

/-- What `PartialEq for QueryTreeNode` compares (query_tree_node.rs 34-42): the graph node, the edge, the
alias and arguments (printed), the conditions, the position of the mutation field. -/
structure Label where
  node : Nat
  edge : Option Nat
  attrs : Option (Option String × Option String)
  pos : Option Nat
  cond : Option (Option String × Option String)
deriving DecidableEq, Repr

/-- `QueryTreeNode` (query_tree_node.rs 17-30). -/
inductive Node where
  | mk (label : Label) (requirements children : List Node)

namespace Node
/-- The part that is compared. -/
def label : Node → Label
  | .mk l _ _ => l
/-- `requirements`. -/
def reqs : Node → List Node
  | .mk _ r _ => r
/-- `children`. -/
def children : Node → List Node
  | .mk _ _ c => c
end Node

/-- The graph: is an edge a `SubgraphEntrypoint`, and where does it lead. -/
structure Graph where
  entry : Nat → Bool
  tail : Nat → Nat

/-! ## Trees -/

/-- `find` of an equal node and its update, or `push` (query_tree_node.rs 53-66). -/
def insertWith (f : Node → Node) (s : Node) : List Node → List Node
  | [] => [s]
  | x :: r => if x.label = s.label then f x :: r else x :: insertWith f s r

mutual
/-- `merge_nodes` (query_tree_node.rs 104-107). -/
def mergeNode : Node → Node → Node
  | .mk l trs tcs, .mk _ rs cs => .mk l (mergeList trs rs) (mergeList tcs cs)
/-- `merge_query_tree_node_list` (query_tree_node.rs 44-68). -/
def mergeList : List Node → List Node → List Node
  | t, [] => t
  | t, s :: r => mergeList (insertWith (fun x => mergeNode x s) s t) r
end

/-- `PathSegment` (walker/path.rs 32-42), as far as trees use it. -/
structure Segment where
  edge : Nat
  requirement : Option Node
  attrs : Option (Option String × Option String)
  cond : Option (Option String × Option String)

/-- `from_path_segment_sequences` (query_tree_node.rs 137-193); the position is that of the first
node. -/
def fromSegments (g : Graph) : List Segment → Option Nat → Option Node
  | [], _ => none
  | s :: r, pos =>
    some (.mk ⟨g.tail s.edge, some s.edge, s.attrs, pos, s.cond⟩ s.requirement.toList
      (fromSegments g r none).toList)

/-- `OperationPath`: the root and the segments (`get_segments`). -/
structure Path where
  root : Nat
  segments : List Segment

/-- `QueryTree::from_path`, `create_root_for_path_sequences` (query_tree.rs 28-44,
query_tree_node.rs 199-226). -/
def fromPath (g : Graph) (p : Path) (pos : Option Nat) : Node :=
  .mk ⟨p.root, none, none, none, none⟩ [] (fromSegments g p.segments pos).toList

mutual
/-- `calculate_cost_of_tree` (best.rs 353-377). -/
def cost (g : Graph) : Node → Nat
  | .mk _ rs cs => 1 + costChildren g cs + costReqs g rs
/-- The loop over children (best.rs 357-368). -/
def costChildren (g : Graph) : List Node → Nat
  | [] => 0
  | c :: r =>
    (match c.label.edge with
      | some e => if g.entry e then 1000 else 0
      | none => 0) + cost g c + costChildren g r
/-- The loop over requirements (best.rs 370-373). -/
def costReqs (g : Graph) : List Node → Nat
  | [] => 0
  | c :: r => 1000 + cost g c + costReqs g r
end

/-! ## Alternatives -/

/-- `ResolvedOperation`: is it a mutation; for each root field, for each leaf below, the paths. -/
structure Resolved where
  mutation : Bool
  groups : List (List (List Path))

/-- The alternatives of the leaves of the root fields from an index on (best.rs 120-134). -/
def leavesFrom (g : Graph) (mutation : Bool) : Nat → List (List (List Path)) → List (List Node)
  | _, [] => []
  | i, f :: r =>
    f.map (fun paths => paths.map (fun p => fromPath g p (if mutation then some i else none)))
      ++ leavesFrom g mutation (i + 1) r

/-- One step of a stable sort. -/
def insertBy (key : α → Nat) (x : α) : List α → List α
  | [] => [x]
  | y :: r => if key x ≤ key y then x :: y :: r else y :: insertBy key x r

/-- `sort_by_key`: stable. -/
def sortBy (key : α → Nat) : List α → List α
  | [] => []
  | x :: r => insertBy key x (sortBy key r)

/-- `prepare_alternatives` (best.rs 117-140). -/
def prepare (g : Graph) (op : Resolved) : List (List Node) :=
  sortBy List.length (leavesFrom g op.mutation 0 op.groups)

/-- The best case of a leaf (best.rs 148-158). -/
def minCost (g : Graph) : List Node → Nat → Nat
  | [], acc => acc
  | c :: r, acc => minCost g r (min acc (cost g c))

/-- `calculate_min_remaining_costs` (best.rs 142-172). -/
def minRemaining (g : Graph) : List (List Node) → List Nat
  | [] => [0]
  | l :: r => ((minRemaining g r).headD 0 + minCost g l maxU64) :: minRemaining g r

/-- `sort_candidates_by_cost` (best.rs 174-182). -/
def sortCandidates (g : Graph) (ls : List (List Node)) : List (List Node) :=
  ls.map (sortBy (cost g))

/-- The tree after adding a candidate (best.rs 252-259, 325-332). -/
def addTree : Option Node → Node → Node
  | some t, c => mergeNode t c
  | none, c => c

/-- The inner loop of `find_initial_plan` (best.rs 246-266): the smallest increase, and the plan. -/
def bestNext (g : Graph) (tree : Option Node) (current : Nat) :
    List Node → Nat → Option (Nat × Node) → Option (Nat × Node)
  | [], _, next => next
  | c :: r, delta, next =>
    let t := addTree tree c
    if cost g t - current < delta then bestNext g tree current r (cost g t - current) (some (cost g t, t))
    else bestNext g tree current r delta next

/-- `find_initial_plan` (best.rs 234-277). -/
def initialPlan (g : Graph) : List (List Node) → Option Node → Nat → Option (Nat × Node)
  | [], tree, current => tree.map (fun t => (current, t))
  | l :: r, tree, current =>
    match bestNext g tree current l maxU64 none with
    | some (c, t) => initialPlan g r (some t) c
    | none => none

/-- `QueryPlanError`. -/
inductive Error where
  | emptyPlan | cancelled
deriving DecidableEq, Repr

/-- `ExplorationState` (best.rs 279-282), and how often the cancellation token was looked at. -/
structure State where
  bestCost : Nat
  bestTree : Option Node
  polls : Nat

/-- A loop that may fail. -/
def loop (f : Node → State → Except Error State) : List Node → State → Except Error State
  | [], st => .ok st
  | c :: r, st =>
    match f c st with
    | .ok st => loop f r st
    | .error e => .error e

/-- `explore_plan_combinations` (best.rs 286-351). `token n` is the answer of the cancellation token when
it is asked for the `n`-th time. -/
def explore (g : Graph) (token : Nat → Bool) :
    List (List Node) → List Nat → Option Node → Nat → State → Except Error State
  | groups, mins, tree, current, st =>
    if token st.polls then .error .cancelled
    else
      let st := { st with polls := st.polls + 1 }
      if current + mins.headD 0 ≥ st.bestCost then .ok st
      else
        match groups with
        | [] => .ok (if current < st.bestCost then { st with bestCost := current, bestTree := tree } else st)
        | l :: rest =>
          loop (fun c st =>
            let t := addTree tree c
            if cost g t ≥ st.bestCost then .ok st
            else explore g token rest mins.tail (some t) (cost g t) st) l st

/-- `find_best_combination` (best.rs 184-230). -/
def findBest (g : Graph) (token : Nat → Bool) (op : Resolved) : Except Error Node :=
  if op.groups.isEmpty || op.groups.any (fun f => f.any List.isEmpty) then .error .emptyPlan
  else if (prepare g op).isEmpty then .error .emptyPlan
  else
    let leaves := prepare g op
    let mins := minRemaining g leaves
    let leaves := sortCandidates g leaves
    let st : State := match initialPlan g leaves none 0 with
      | some (c, t) => if c < maxU64 then ⟨c, some t, 0⟩ else ⟨maxU64, none, 0⟩
      | none => ⟨maxU64, none, 0⟩
    match explore g token leaves mins none 0 st with
    | .error e => .error e
    | .ok st =>
      match st.bestTree with
      | some t => .ok t
      | none => .error .emptyPlan

end Verif.Best
