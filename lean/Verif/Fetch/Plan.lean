import Verif.Fetch.Optimize
import Verif.Graph.Build

/-!
# From an operation to its fetch graph

Models the way from the paths `walk_operation` finds to the fetch graph, `query_planner/planner/mod.rs:86-116`,
`planner/best.rs` and `planner/tree/query_tree.rs`. Which path is taken for each leaf, and in which order the
leaves are merged if they have different numbers of paths, is decided in `best.rs`
(see `Verif/Best`); here any choice of one path for each leaf is looked at, in the order of the operation.
-/

namespace Verif.Fetch

open Verif.Graph (OpKind Super)
open Verif.Walker (Env)

/-- All ways to take one of each. -/
def combos {α : Type} : List (List α) → List (List α)
  | [] => [[]]
  | l :: r => l.flatMap fun x => (combos r).map (x :: ·)

/-- The trees of the paths of the root fields, with their positions for mutations, `best.rs:88-117`. -/
def rootTrees (kind : OpKind) : Nat → List (List Walker.Path) → List Tree
  | _, [] => []
  | i, ps :: r => ps.map (pathTree (if kind = .mutation then some i else none)) ++ rootTrees kind (i + 1) r

/-- One fetch graph before it is optimized, from one path for each leaf, `best.rs:31-85`,
`planner/mod.rs:100-112`, `fetch_graph.rs:1997-2043`. -/
def draftOf (env : Env) (kind : OpKind) (chosen : List (List Walker.Path)) : Except Err Graph :=
  match mergeAll (rootTrees kind 0 chosen) with
  | [] => .error .internal
  | t :: _ => buildTree env t kind

/-- The fetch graph, `fetch_graph.rs:1997-2043`. -/
def planOf (env : Env) (fuel : Nat) (kind : OpKind) (chosen : List (List Walker.Path)) : Except Err Graph :=
  match draftOf env kind chosen with
  | .error e => .error e
  | .ok g => optimize env.S fuel g

/-- The fetch graphs of an operation before they are optimized, one for each choice of paths. -/
def drafts (S : Super) (ctx : Overrides.Context) (kind : OpKind) (sels : List Sel) : List (Except Err Graph) :=
  match Verif.Graph.build S with
  | .error _ => []
  | .ok G =>
    match Walker.walk ⟨G, S, ctx⟩ kind sels with
    | .error _ => []
    | .ok roots => (combos (roots.map combos)).map (draftOf ⟨G, S, ctx⟩ kind)

/-- The fetch graphs of an operation, `planner/mod.rs:86-116`: one for each choice of paths. -/
def plans (S : Super) (ctx : Overrides.Context) (fuel : Nat) (kind : OpKind) (sels : List Sel) :
    List (Except Err Graph) :=
  match Verif.Graph.build S with
  | .error _ => []
  | .ok G =>
    match Walker.walk ⟨G, S, ctx⟩ kind sels with
    | .error _ => []
    | .ok roots => (combos (roots.map combos)).map (planOf ⟨G, S, ctx⟩ fuel kind)

end Verif.Fetch
