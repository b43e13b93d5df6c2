/-!
# Extensions of subgraphs' responses

Files are under bin/router/src/executor/extensions.
-/

namespace Verif.Extensions

/-- `ExtensionsMergeStrategy` (plan.rs:3-8). -/
inductive Strategy where
  | first
  | last
  | append
deriving DecidableEq

/-- `ExtensionsPlan`, `ExtensionsPropagatePlan` (plan.rs:10-20, compile.rs:6-21): the option is whether to
propagate at all. The configuration is compiled to the same. -/
structure Plan where
  strategy : Strategy
  allow : Option (List String)

/-- The `extensions` of a subgraph's response: an object, whose values are opaque, or something else. -/
inductive Ext (α : Type) where
  | object (entries : List (String × α))
  | other

/-- `RESERVED_KEY` (aggregator.rs:10). -/
def reservedKey : String := "queryPlan"

/-- `ExtensionsAggregator` (aggregator.rs:12-14): a map, of which nothing depends on the order. -/
abbrev Agg (α : Type) := List (String × (Strategy × List α))

/-- `get_mut`. -/
def find {β : Type} (m : List (String × β)) (k : String) : Option β := (m.find? (fun p => p.1 = k)).map (·.2)

/-- The entry of the key gets the value. -/
def put {β : Type} (m : List (String × β)) (k : String) (b : β) : List (String × β) :=
  m.map (fun p => if p.1 = k then (k, b) else p)

/-- `write` (aggregator.rs:25-43). -/
def write {α : Type} (m : Agg α) (k : String) (v : α) (s : Strategy) : Agg α :=
  match find m k with
  | none => m ++ [(k, (s, [v]))]
  | some (s0, vs) =>
    match s with
    | .first => m
    | .last => put m k (s0, [v])
    | .append => put m k (s0, vs ++ [v])

/-- The entries of one response (aggregator.rs:82-92). -/
def applyEntries {α : Type} (p : Plan) (m : Agg α) : List (String × α) → Agg α
  | [] => m
  | (k, v) :: es =>
    if k = reservedKey then applyEntries p m es
    else if p.allow.any (fun ks => !ks.contains k) then applyEntries p m es
    else applyEntries p (write m k v p.strategy) es

/-- `apply_subgraph_extensions` (aggregator.rs:69-93). -/
def applyOne {α : Type} (p : Option Plan) (m : Agg α) : Ext α → Agg α
  | .other => m
  | .object es =>
    match p with
    | none => m
    | some p => applyEntries p m es

/-- The extensions of a response to a client: a value, or a list of them. -/
inductive Out (α : Type) where
  | one (v : α)
  | many (vs : List α)
deriving DecidableEq

/-- What becomes of an entry (aggregator.rs:49-61). There always is a first value (`C117_some`); the code
stops with a panic if there is none, here the entry is left out. -/
def out {α : Type} : Strategy × List α → Option (Out α)
  | (.append, vs) => some (.many vs)
  | (_, v :: _) => some (.one v)
  | (_, []) => none

/-- `merge_into` (aggregator.rs:47-64): keys that are there stay. -/
def mergeInto {α : Type} (target : List (String × Out α)) : Agg α → List (String × Out α)
  | [] => target
  | (k, e) :: m =>
    match find target k, out e with
    | none, some o => mergeInto (target ++ [(k, o)]) m
    | _, _ => mergeInto target m

/-- Responses in the order in which they are handled (execution/plan.rs:1138-1144), then 611-614. `own` are the
extensions that the router and its plugins set. -/
def extensions {α : Type} (p : Option Plan) (own : List (String × Out α)) (es : List (Ext α)) :
    List (String × Out α) :=
  mergeInto own (es.foldl (applyOne p) [])

end Verif.Extensions
