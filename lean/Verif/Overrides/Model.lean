import Verif.Keys.Model

/-!
# Progressive overrides

`@override(from:, label:)`: which subgraph a field is resolved in, request by request.
`query_planner/graph/edge.rs`, `query_planner/graph/mod.rs`, `query_planner/state/supergraph_state.rs`,
`pipeline/progressive_override.rs`.
-/

namespace Verif.Overrides

open Verif.Keys

/-- `OverrideLabel`, `edge.rs:143-147`. A percentage is multiplied by `scale`. -/
inductive Label where
  | custom (name : String)
  | percentage (p : Nat)
  deriving DecidableEq

/-- `PERCENTAGE_SCALE_FACTOR`, `edge.rs:141`. -/
def scale : Nat := 100000000

/-- `JoinFieldDirective`, `federation_spec/join_field.rs:9-20`, as far as it is about overrides.
Subgraphs have one name here; in the code an enum value and a name that stands for it. -/
structure JoinField where
  graph : String
  overrideFrom : Option String := none
  label : Option Label := none

/-- A field of the supergraph: where it is defined, and whether its type is a union. -/
structure Field where
  joins : List JoinField
  isUnion : Bool := false

/-- `FieldMove`, `edge.rs:34-45`: what is kept about overrides. -/
structure FieldMove where
  label : Option Label
  overriddenBy : Option (String × Option Label)

/-- The field's `overridden_by` in a subgraph, `graph/mod.rs:655-670`. -/
def overriddenBy (joins : List JoinField) (g : String) : Option (String × Option Label) :=
  joins.findSome? fun j => if j.overrideFrom = some g then some (j.graph, j.label) else none

/-- The edge for the field in a subgraph, `graph/mod.rs:634-890` with
`check_field_subgraph_availability`, `federation_spec/mod.rs:169-200`, and `create_field_move`,
`edge.rs:212-235`. Edges of fields of a union type are built without the `@join__field`
(`graph/mod.rs:816-828`). Fields without `@join__field` have no overrides and are not modelled. -/
def fieldMove (f : Field) (g : String) : Option FieldMove :=
  match f.joins.find? (·.graph == g) with
  | none => none
  | some j =>
    some { label := if f.isUnion then none else j.label, overriddenBy := overriddenBy f.joins g }

/-- `PlannerOverrideContext`, `edge.rs:96-99`, and `RequestOverrideContext`,
`progressive_override.rs:49-56`. -/
structure Context where
  flags : List String
  dice : Nat

/-- `PlannerOverrideContext::is_in_range`, `edge.rs:127-129`. -/
def Context.inRange (c : Context) (p : Nat) : Bool := c.dice < p

/-- `check_progressive_override`, `edge.rs:76-91`. -/
def checkLabel (c : Context) (overriding : Bool) : Label → Bool
  | .custom name => overriding == c.flags.contains name
  | .percentage p => overriding == c.inRange p

/-- `satisfies_override_rules`, `edge.rs:56-74`. -/
def satisfies (m : FieldMove) (c : Context) : Bool :=
  match m.overriddenBy with
  | some (_, some l) => checkLabel c false l
  | some (_, none) => false
  | none =>
    match m.label with
    | some l => checkLabel c true l
    | none => true

/-- The field can be resolved in the subgraph: there is an edge and the walker may take it,
`planner/walker/pathfinder.rs:574-581`. -/
def resolvable (f : Field) (g : String) (c : Context) : Bool :=
  match fieldMove f g with
  | some m => satisfies m c
  | none => false

/-- The dice, `progressive_override.rs:92-98`: `random_range(0..=100 * PERCENTAGE_SCALE_FACTOR)`. -/
def diceRange : List Nat := List.range (100 * scale + 1)

/-! ## What a plan depends on -/

/-- `extract_progressive_overrides`, `supergraph_state.rs:337-356`: the labels. -/
def labelsOf (fields : List Field) : List Label := fields.flatMap fun f => f.joins.filterMap (·.label)

def flagsOf (fields : List Field) : List String :=
  (labelsOf fields).filterMap fun | .custom n => some n | .percentage _ => none

def percentagesOf (fields : List Field) : List Nat :=
  (labelsOf fields).filterMap fun | .custom _ => none | .percentage p => some p

/-- `BTreeMap<u64, _>::insert`. -/
def insertNat {α : Type} (k : Nat) (v : α) : List (Nat × α) → List (Nat × α)
  | [] => [(k, v)]
  | (k', v') :: rest =>
    if k < k' then (k, v) :: (k', v') :: rest
    else if k = k' then (k, v) :: rest
    else (k', v') :: insertNat k v rest

/-- `StableOverrideContext::new`, `progressive_override.rs:139-159`. The sets of the supergraph are
lists in any order. -/
def stable (fields : List Field) (c : Context) : Overrides where
  flags := (flagsOf fields).foldl (fun m n => insertKey n (c.flags.contains n) m) []
  percentages := (percentagesOf fields).foldl (fun m p => insertNat p (decide (c.dice < p)) m) []

/-! ## Which labels are active, `progressive_override.rs:167-261` -/

/-- The result of an expression: a boolean, another value, or a failure. -/
inductive Outcome where
  | bool (b : Bool)
  | other
  | fails

/-- `OverrideLabelsEvaluator`, with the expressions already applied to the request. -/
structure Evaluator where
  static : List String
  expressions : List (String × Outcome)

/-- `LabelOverrideValue`, `config/override_labels.rs`. -/
inductive ConfigValue where
  | bool (b : Bool)
  | expression (o : Outcome)

/-- `OverrideLabelsEvaluator::from_config`, `progressive_override.rs:171-199`. Expressions that do not
compile are an error before any request and are not modelled. -/
def Evaluator.ofConfig (config : List (String × ConfigValue)) : Evaluator where
  static := config.filterMap fun
    | (l, .bool true) => some l
    | _ => none
  expressions := config.filterMap fun
    | (l, .expression o) => some (l, o)
    | _ => none

/-- The loop over the expressions, `progressive_override.rs:227-258`; `none` is an error. -/
def evalLoop : List (String × Outcome) → List String → Option (List String)
  | [], active => some active
  | (l, o) :: rest, active =>
    if active.contains l then evalLoop rest active
    else match o with
      | .bool true => evalLoop rest (l :: active)
      | .bool false => evalLoop rest active
      | .other => none
      | .fails => none

/-- `OverrideLabelsEvaluator::evaluate`, `progressive_override.rs:201-261`. -/
def evaluate (e : Evaluator) (resolved : Option (List String)) : Option (List String) :=
  evalLoop e.expressions (resolved.getD [] ++ e.static)

end Verif.Overrides
