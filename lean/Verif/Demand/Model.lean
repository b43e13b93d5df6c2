/-!
# Demand control

Models `bin/router/src/pipeline/demand_control/formula.rs` (the cost formula of an operation, its
evaluation), `pipeline/demand_control/runtime.rs` (the cache of formulas, the decision), and the check
in front of a subgraph call (`executor/executors/map.rs` 291-330).

Simplifications, for the whole file:
* `u64` and `usize` values are natural numbers below 2^64, with the arithmetic the code uses: saturating
  or, for `.sum()` in a release build, wrapping;
* values of literals that carry no cost and no size (strings, floats, enums, booleans, `null`) are one;
* maps are lists of pairs, first match; no arguments is the same as an empty map;
* telemetry, metrics, exposed headers and the plan for the actual cost are left out.
-/
namespace Verif.Demand

abbrev Name := String

/-- `u64::MAX`. -/
def maxU64 : Nat := 18446744073709551615

/-- `u64::saturating_add`. -/
def satAdd (a b : Nat) : Nat := min (a + b) maxU64

/-- `u64::saturating_mul`. -/
def satMul (a b : Nat) : Nat := min (a * b) maxU64

/-- `u64 + u64` in a release build. -/
def wrapAdd (a b : Nat) : Nat := (a + b) % (maxU64 + 1)

/-- `TypeNode` (query_planner/state/supergraph_state.rs). -/
inductive TypeNode where
  | named (n : Name)
  | list (t : TypeNode)
  | nonNull (t : TypeNode)
deriving Repr, DecidableEq

namespace TypeNode
/-- supergraph_state.rs 1108-1113. -/
def unwrapNonNull : TypeNode → TypeNode
  | .nonNull t => t.unwrapNonNull
  | t => t
/-- supergraph_state.rs 1115-1121. -/
def isList : TypeNode → Bool
  | .list _ => true
  | .nonNull t => t.isList
  | .named _ => false
/-- supergraph_state.rs 1123-1129. -/
def inner : TypeNode → Name
  | .list t => t.inner
  | .nonNull t => t.inner
  | .named n => n
end TypeNode

/-- `ast::value::Value`. -/
inductive Value where
  | var (n : Name)
  | int (i : Int)
  | list (l : List Value)
  | obj (fs : List (Name × Value))
  | other

/-- The values of variables. `other` is strings and numbers that are no integers. -/
inductive Json where
  | null
  | bool (b : Bool)
  | int (i : Int)
  | arr (l : List Json)
  | obj (fs : List (Name × Json))
  | other

/-- `CoerceVariablesPayload.variables_map`. -/
abbrev Vars := List (Name × Json)

/-- `variable_equals_true` (executor/execution/plan.rs 110-116). -/
def varTrue (σ : Vars) (n : Name) : Bool :=
  match σ.lookup n with
  | some (.bool b) => b
  | _ => false

/-- `ListSizeDirective` (federation_spec/demand_control.rs 57-68). A slicing argument is the name of
an argument and a path into its value. -/
structure ListSize where
  assumed : Option UInt64
  slicing : Option (List (Name × List Name))
  sized : Option (List (List Name))
  requireOne : Bool

/-- A field of an object or interface: type, `@cost`, `@cost` of arguments, types of arguments,
`@listSize`. -/
structure FieldDef where
  ty : TypeNode
  cost : Option UInt64 := none
  argCosts : List (Name × UInt64) := []
  argTypes : List (Name × TypeNode) := []
  listSize : Option ListSize := none

/-- A field of an input object. -/
structure InputField where
  ty : TypeNode
  cost : Option UInt64 := none

/-- `SupergraphDefinition`. -/
inductive Def where
  | object (cost : Option UInt64) (fields : List (Name × FieldDef))
  | interface (fields : List (Name × FieldDef))
  | union
  | enum (cost : Option UInt64)
  | scalar (cost : Option UInt64)
  | input (fields : List (Name × InputField))

/-- `SupergraphDefinition::fields`: only objects and interfaces have output fields. -/
def Def.fields : Def → List (Name × FieldDef)
  | .object _ fs => fs
  | .interface fs => fs
  | _ => []

/-- `OperationKind`; an absent one is a query. -/
inductive Kind where
  | query | mutation | subscription
deriving DecidableEq

/-- `SupergraphState`. -/
structure Schema where
  defs : List (Name × Def)
  root : Kind → Name

/-- The cost of a directive, if any. -/
def weight (c : Option UInt64) (default : Nat) : Nat :=
  match c with
  | some w => w.toNat
  | none => default

/-- `demand_control_definition_cost` (executor/execution/demand_control/mod.rs 660-673). -/
def typeCost (S : Schema) (n : Name) : Nat :=
  match S.defs.lookup n with
  | none => 0
  | some (.object c _) => weight c 1
  | some (.interface _) => 1
  | some .union => 1
  | some (.enum c) => weight c 0
  | some (.scalar c) => weight c 0
  | some (.input _) => 0

/-- `supergraph_state.definitions.get(parent).and_then(|d| d.fields().get(name))`. -/
def fieldDef (S : Schema) (P n : Name) : Option FieldDef :=
  match S.defs.lookup P with
  | some d => d.fields.lookup n
  | none => none

/-- The input object of a name. -/
def inputDef (S : Schema) (n : Name) : Option (List (Name × InputField)) :=
  match S.defs.lookup n with
  | some (.input fs) => some fs
  | _ => none

/-- `is_input_object_typed` (formula.rs 793-803). -/
def isInput (S : Schema) (t : TypeNode) : Bool := (inputDef S t.inner).isSome

/-! ## Cost of input values -/

/-- The fields of the input object a value is for (formula.rs 763-771). -/
def inputFieldsOf (S : Schema) (t : TypeNode) : Option (List (Name × InputField)) :=
  match t.unwrapNonNull with
  | .named n => inputDef S n
  | _ => none

/-- The type of the items of a list value (formula.rs 705-713, 730-736). -/
def itemType (t : TypeNode) : Option TypeNode :=
  match t.unwrapNonNull with
  | .list i => some i
  | _ => none

mutual
/-- `estimate_input_json_value_cost` (formula.rs 719-750) with `estimate_input_object_cost`
(752-791). -/
def jsonCost (S : Schema) : Json → TypeNode → Nat
  | .arr l, t =>
    match itemType t with
    | some i => jsonItems S l i
    | none => 0
  | .obj fs, t =>
    match inputFieldsOf S t with
    | some ds => satAdd (jsonFields S fs ds) 1
    | none => 0
  | _, _ => 0
/-- The sum over the items (formula.rs 732-735). -/
def jsonItems (S : Schema) : List Json → TypeNode → Nat
  | [], _ => 0
  | x :: r, t => wrapAdd (jsonCost S x t) (jsonItems S r t)
/-- The sum over the known fields (formula.rs 773-785). -/
def jsonFields (S : Schema) : List (Name × Json) → List (Name × InputField) → Nat
  | [], _ => 0
  | (k, v) :: r, ds =>
    match ds.lookup k with
    | some d => wrapAdd (satAdd (weight d.cost 0) (jsonCost S v d.ty)) (jsonFields S r ds)
    | none => jsonFields S r ds
end

mutual
/-- `estimate_input_value_cost` (formula.rs 679-717). -/
def valueCost (S : Schema) (σ : Vars) : Value → TypeNode → Nat
  | .var n, t =>
    match σ.lookup n with
    | some j => jsonCost S j t
    | none => 0
  | .list l, t =>
    match itemType t with
    | some i => valueItems S σ l i
    | none => 0
  | .obj fs, t =>
    match inputFieldsOf S t with
    | some ds => satAdd (valueFields S σ fs ds) 1
    | none => 0
  | _, _ => 0
/-- The sum over the items (formula.rs 706-711). -/
def valueItems (S : Schema) (σ : Vars) : List Value → TypeNode → Nat
  | [], _ => 0
  | x :: r, t => wrapAdd (valueCost S σ x t) (valueItems S σ r t)
/-- The sum over the known fields (formula.rs 773-785). -/
def valueFields (S : Schema) (σ : Vars) : List (Name × Value) → List (Name × InputField) → Nat
  | [], _ => 0
  | (k, v) :: r, ds =>
    match ds.lookup k with
    | some d => wrapAdd (satAdd (weight d.cost 0) (valueCost S σ v d.ty)) (valueFields S σ r ds)
    | none => valueFields S σ r ds
end

/-! ## Sizes -/

/-- `as_u64`, `as_i64` and the length of an array (formula.rs 848-861). -/
def jsonInt : Json → Option Nat
  | .int i =>
    if 0 ≤ i ∧ i ≤ (maxU64 : Int) then some i.toNat
    else if -9223372036854775808 ≤ i ∧ i < 0 then some 0
    else none
  | .arr l => some l.length
  | _ => none

/-- `resolve_integer_from_json_value` (formula.rs 841-862). -/
def resolveJson : List Name → Json → Option Nat
  | [], v => jsonInt v
  | h :: t, .obj fs =>
    match fs.lookup h with
    | some v => resolveJson t v
    | none => none
  | _ :: _, _ => none

/-- `resolve_integer_value` (formula.rs 805-839). -/
def resolveInt (σ : Vars) : List Name → Value → Option Nat
  | p, .var n =>
    match σ.lookup n with
    | some j => resolveJson p j
    | none => none
  | [], .int i => some i.toNat
  | [], .list l => some l.length
  | h :: t, .obj fs =>
    match fs.lookup h with
    | some v => resolveInt σ t v
    | none => none
  | _, _ => none

/-! ## Formulas -/

/-- `CostExpr` (formula.rs 33-58). -/
inductive CostExpr where
  | const (n : Nat)
  | add (l : List CostExpr)
  | mul (a b : CostExpr)
  | cond (v : Name) (t e : CostExpr)
  | listSize (field : Name) (args : List (Value × List Name)) (requireOne : Bool) (default : Nat)
  | inputArg (v : Value) (t : TypeNode)

/-- `ClientPipelineError::CostInvalidSlicingArguments`. -/
structure SlicingError where
  field : Name
  found : Nat
deriving DecidableEq, Repr

/-- Is the formula the constant 0 (formula.rs 529, 540, 601). -/
def CostExpr.isZero : CostExpr → Bool
  | .const 0 => true
  | _ => false

/-- The sum of the constants (formula.rs 65-69). -/
def constTotal : List CostExpr → Nat → Nat
  | [], acc => acc
  | .const n :: r, acc => constTotal r (satAdd acc n)
  | _ :: r, acc => constTotal r acc

/-- The formulas that are no constants (formula.rs 70-73). -/
def nonConst : List CostExpr → List CostExpr
  | [] => []
  | .const _ :: r => nonConst r
  | e :: r => e :: nonConst r

/-- `CostExpr::add_nonzero` (formula.rs 61-83). -/
def addNonzero (l : List CostExpr) : CostExpr :=
  let fs := nonConst l ++ (if constTotal l 0 > 0 then [.const (constTotal l 0)] else [])
  match fs with
  | [] => .const 0
  | [e] => e
  | fs => .add fs

/-- `CostExpr::mul` (formula.rs 86-94). -/
def mulExpr (a b : CostExpr) : CostExpr :=
  match a, b with
  | .const 0, _ => .const 0
  | _, .const 0 => .const 0
  | .const 1, b => b
  | a, .const 1 => a
  | .const m, .const n => .const (satMul m n)
  | a, b => .mul a b

/-- The sizes of the slicing arguments that resolve (formula.rs 290-298, 320-328). -/
def resolvedSizes (σ : Vars) (args : List (Value × List Name)) : List Nat :=
  args.filterMap (fun a => resolveInt σ a.2 a.1)

/-- The greatest of them (formula.rs 319-328). -/
def maxOf : List Nat → Option Nat
  | [] => none
  | x :: r => some (r.foldl max x)

mutual
/-- `eval_cost_expr` (formula.rs 251-335). -/
def eval (S : Schema) (σ : Vars) : CostExpr → Except SlicingError Nat
  | .const n => .ok n
  | .add l => evalSum S σ l 0
  | .mul a b => do
    let a ← eval S σ a
    let b ← eval S σ b
    .ok (satMul a b)
  | .cond v t e => if varTrue σ v then eval S σ t else eval S σ e
  | .listSize f args one d =>
    if one then
      match resolvedSizes σ args with
      | [n] => .ok n
      | l => .error ⟨f, l.length⟩
    else .ok ((maxOf (resolvedSizes σ args)).getD d)
  | .inputArg v t => .ok (valueCost S σ v t)
/-- The loop over a sum (formula.rs 258-265). -/
def evalSum (S : Schema) (σ : Vars) : List CostExpr → Nat → Except SlicingError Nat
  | [], acc => .ok acc
  | e :: r, acc => do
    let n ← eval S σ e
    evalSum S σ r (satAdd acc n)
end

/-! ## Compilation -/

/-- A selection of a subgraph operation (`ast::selection_item::SelectionItem`); aliases are left out,
they have no cost. -/
inductive Sel where
  | field (name : Name) (args : List (Name × Value)) (skipIf includeIf : Option Name)
      (sub : List Sel)
  | frag (cond : Name) (skipIf includeIf : Option Name) (sub : List Sel)
  | spread (name : Name)

/-- `FragmentDefinition`. -/
structure Frag where
  name : Name
  cond : Name
  sels : List Sel

/-- `SizeOverrides` (formula.rs 26-28). -/
abbrev Overrides := List (List Name × CostExpr)

/-- The override of a field itself (formula.rs 384-387). -/
def selfOverride (inh : Overrides) (n : Name) : Option CostExpr :=
  (inh.find? (fun o => o.1 == [n])).map (·.2)

/-- The overrides for what is below a field (formula.rs 388-392). -/
def childOverrides (inh : Overrides) (n : Name) : Overrides :=
  inh.filterMap fun o =>
    match o.1 with
    | h :: t :: r => if h == n then some (t :: r, o.2) else none
    | _ => none

/-- `apply_field_conditions` (formula.rs 608-625). -/
def applyConditions (skipIf includeIf : Option Name) (e : CostExpr) : CostExpr :=
  let e := match includeIf with
    | some v => .cond v e (.const 0)
    | none => e
  match skipIf with
  | some v => .cond v (.const 0) e
  | none => e

/-- The slicing arguments that are given (formula.rs 639-647). -/
def slicingArgs (segs : List (Name × List Name)) (args : List (Name × Value)) :
    List (Value × List Name) :=
  segs.filterMap fun s => (args.lookup s.1).map (fun v => (v, s.2))

/-- `compile_cost_expr_for_list_size` (formula.rs 627-664). -/
def listSizeExpr (d : ListSize) (field : Name) (args : List (Name × Value)) (dl : UInt64) : CostExpr :=
  match d.assumed with
  | some n => .const n.toNat
  | none =>
    match d.slicing with
    | none => .const dl.toNat
    | some segs =>
      if !d.requireOne && (slicingArgs segs args).isEmpty then .const dl.toNat
      else .listSize field (slicingArgs segs args) d.requireOne dl.toNat

/-- The cost of a field and of the arguments it is given (formula.rs 484-489). -/
def baseCost (d : FieldDef) : List (Name × Value) → Nat → Nat
  | [], acc => acc
  | (k, _) :: r, acc =>
    match d.argCosts.lookup k with
    | some w => baseCost d r (satAdd acc w.toNat)
    | none => baseCost d r acc

/-- The formulas of input object arguments (formula.rs 490-501). -/
def inputParts (S : Schema) (d : FieldDef) : List (Name × Value) → List CostExpr
  | [] => []
  | (k, v) :: r =>
    match d.argTypes.lookup k with
    | some t => if isInput S t then .inputArg v t :: inputParts S d r else inputParts S d r
    | none => inputParts S d r

/-- What is known of a field before its selections are compiled. -/
structure FieldInfo where
  base : List CostExpr
  size : Option CostExpr
  ret : Name
  inh : Overrides

/-- The first part of `compile_cost_expr_for_field_selection` (formula.rs 470-526). -/
def fieldInfo (S : Schema) (dl : UInt64) (P n : Name) (args : List (Name × Value))
    (own : Option CostExpr) (inh : Overrides) : FieldInfo :=
  match fieldDef S P n with
  | none => ⟨[], own, P, inh⟩
  | some d =>
    let b := baseCost d args (weight d.cost 0)
    let base := (if b > 0 then [.const b] else []) ++ inputParts S d args
    let (own, inh) := match d.listSize with
      | none => (own, inh)
      | some ls =>
        let e := listSizeExpr ls n args dl
        match ls.sized with
        | some paths => (own, inh ++ paths.map (fun p => (p, e)))
        | none => (if d.ty.isList && own.isNone then some e else own, inh)
    let own := if own.isNone && d.ty.isList then some (.const dl.toNat) else own
    ⟨base, own, d.ty.inner, inh⟩

/-- The type of the returned objects and their selections (formula.rs 535-543, 548-554,
595-603). -/
def perItem (tc : Nat) (children : CostExpr) : List CostExpr :=
  (if tc > 0 then [.const tc] else []) ++ (if children.isZero then [] else [children])

/-- The second part (formula.rs 528-561). -/
def fieldExpr (i : FieldInfo) (tc : Nat) (children : CostExpr) : CostExpr :=
  match i.size with
  | some e => addNonzero [addNonzero i.base, mulExpr e (addNonzero (perItem tc children))]
  | none => addNonzero (i.base ++ perItem tc children)

/-- The greatest cost of the types of the fragments of `_entities` (formula.rs 578-590). -/
def entityTypeCost (S : Schema) : List Sel → Nat
  | [] => 0
  | .frag c _ _ _ :: r => max (typeCost S c) (entityTypeCost S r)
  | _ :: r => entityTypeCost S r

/-- What the compilation of a spread does: the fragments being compiled, the overrides, the name;
`none` is `continue`. -/
abbrev OnSpread := List Name → Overrides → Name → Option CostExpr

mutual
/-- One selection (formula.rs 381-447); `compile_cost_expr_for_field_selection` (450-562) and
`compile_cost_expr_for_entities_field_selection` (564-606) are the field case. The conditions of an
inline fragment are not looked at. -/
def compileSel (S : Schema) (dl : UInt64) (spread : OnSpread) (P : Name) (vis : List Name)
    (inh : Overrides) : Sel → Option CostExpr
  | .field n args si ii sub =>
    if n = "__typename" then some (applyConditions si ii (.const 0))
    else if n = "_entities" then
      some (applyConditions si ii (mulExpr (.const (max dl.toNat 1))
        (addNonzero (perItem (entityTypeCost S sub)
          (addNonzero (compileSet S dl spread P vis [] sub))))))
    else
      let i := fieldInfo S dl P n args (selfOverride inh n) (childOverrides inh n)
      some (applyConditions si ii (fieldExpr i (typeCost S i.ret)
        (addNonzero (compileSet S dl spread i.ret vis i.inh sub))))
  | .frag c _ _ sub => some (addNonzero (compileSet S dl spread c vis inh sub))
  | .spread n => spread vis inh n
/-- `compile_cost_expr_for_selection_set` (formula.rs 369-448), before the final sum. -/
def compileSet (S : Schema) (dl : UInt64) (spread : OnSpread) (P : Name) (vis : List Name)
    (inh : Overrides) : List Sel → List CostExpr
  | [] => []
  | x :: r =>
    match compileSel S dl spread P vis inh x with
    | some e => e :: compileSet S dl spread P vis inh r
    | none => compileSet S dl spread P vis inh r
end

/-- `fragments_cache` (formula.rs 422-426): a later definition replaces an earlier one. -/
def getFrag (frs : List Frag) (n : Name) : Option Frag := frs.reverse.find? (fun f => f.name == n)

/-- The spread case (formula.rs 418-446). The counter bounds the nesting; the fragments being
compiled are all different, so the number of fragments is enough. -/
def onSpread (S : Schema) (dl : UInt64) (frs : List Frag) : Nat → OnSpread
  | 0, _, _, _ => none
  | k + 1, vis, inh, n =>
    if vis.contains n then none
    else match getFrag frs n with
      | none => none
      | some f => some (addNonzero (compileSet S dl (onSpread S dl frs k) f.cond (n :: vis) inh f.sels))

/-- A subgraph operation: kind, fragments, selections. -/
structure Op where
  kind : Kind
  frags : List Frag
  sels : List Sel

/-- `compile_cost_expr_for_operation` (formula.rs 337-366). -/
def compileOp (S : Schema) (dl : UInt64) (op : Op) : CostExpr :=
  let e := addNonzero (compileSet S dl (onSpread S dl op.frags op.frags.length) (S.root op.kind) [] []
    op.sels)
  if op.kind = .mutation then addNonzero [.const 10, e] else e

/-! ## Plans -/

/-- A subgraph call of a plan. -/
structure Fetch where
  service : Name
  op : Op

/-- `PlanNode`. A batch fetch is a fetch here; the parts of `@defer` without a node are left out. -/
inductive PlanNode where
  | fetch (f : Fetch)
  | flatten (n : PlanNode)
  | sequence (l : List PlanNode)
  | parallel (l : List PlanNode)
  | condition (v : Name) (t e : Option PlanNode)
  | subscription (f : Fetch)
  | defer (primary : Option PlanNode) (deferred : List PlanNode)

/-- `FormulaPlanNode` (formula.rs 156-164). -/
inductive Formula where
  | fetch (service : Name) (e : CostExpr)
  | aggregate (l : List Formula)
  | condition (v : Name) (t e : Option Formula)

/-- `DemandControlConfig` (config/demand_control.rs). -/
structure Config where
  max : UInt64
  enforce : Bool
  listSizeAll : Option UInt64
  listSizes : List (Name × UInt64)
  budgetEnforce : Bool
  budgetAll : Option UInt64
  budgets : List (Name × UInt64)

/-- `default_list_size_for_subgraph` (runtime.rs 204-214). -/
def defaultListSize (cfg : Config) (s : Name) : UInt64 :=
  match cfg.listSizes.lookup s with
  | some n => n
  | none => cfg.listSizeAll.getD 0

/-- `compile_formula_fetch_node` (runtime.rs 297-326). -/
def compileFetch (S : Schema) (cfg : Config) (f : Fetch) : Formula :=
  .fetch f.service (compileOp S (defaultListSize cfg f.service) f.op)

mutual
/-- `compile_formula_plan_node` (runtime.rs 328-432). -/
def compileNode (S : Schema) (cfg : Config) : PlanNode → Formula
  | .fetch f => compileFetch S cfg f
  | .flatten n => compileNode S cfg n
  | .sequence l => .aggregate (compileNodes S cfg l)
  | .parallel l => .aggregate (compileNodes S cfg l)
  | .condition v t e => .condition v (compileOpt S cfg t) (compileOpt S cfg e)
  | .subscription f => compileFetch S cfg f
  | .defer p l => .aggregate ((compileOpt S cfg p).toList ++ compileNodes S cfg l)
/-- `map` over nodes. -/
def compileNodes (S : Schema) (cfg : Config) : List PlanNode → List Formula
  | [] => []
  | n :: r => compileNode S cfg n :: compileNodes S cfg r
/-- `map` over an optional node. -/
def compileOpt (S : Schema) (cfg : Config) : Option PlanNode → Option Formula
  | some n => some (compileNode S cfg n)
  | none => none
end

/-- `compile_demand_control_plan` (runtime.rs 254-282): a plan without a node has no fetches. -/
def compilePlan (S : Schema) (cfg : Config) : Option PlanNode → Formula
  | some n => compileNode S cfg n
  | none => .aggregate []

/-- `DemandControlEvaluation`. -/
structure Evaluation where
  estimated : Nat
  perSubgraph : List (Name × Nat)
deriving DecidableEq, Repr

/-- The entry of a subgraph (formula.rs 211-215). A new one is the cost, a `u64`, itself: added to 0
here. -/
def addTo (m : List (Name × Nat)) (s : Name) (c : Nat) : List (Name × Nat) :=
  match m with
  | [] => [(s, satAdd 0 c)]
  | (k, v) :: r => if k = s then (k, satAdd v c) :: r else (k, v) :: addTo r s c

mutual
/-- `evaluate_formula_plan_node` (formula.rs 193-249). -/
def evalNode (S : Schema) (σ : Vars) : Formula → Evaluation → Except SlicingError Evaluation
  | .fetch s e, acc => do
    let c ← eval S σ e
    .ok ⟨satAdd acc.estimated c, addTo acc.perSubgraph s c⟩
  | .aggregate l, acc => evalNodes S σ l acc
  | .condition v t e, acc => if varTrue σ v then evalOpt S σ t acc else evalOpt S σ e acc
/-- The loop over children (formula.rs 217-227). -/
def evalNodes (S : Schema) (σ : Vars) : List Formula → Evaluation → Except SlicingError Evaluation
  | [], acc => .ok acc
  | n :: r, acc => do
    let acc ← evalNode S σ n acc
    evalNodes S σ r acc
/-- The branch taken, if there is one (formula.rs 233-246). -/
def evalOpt (S : Schema) (σ : Vars) : Option Formula → Evaluation → Except SlicingError Evaluation
  | some n, acc => evalNode S σ n acc
  | none, acc => .ok acc
end

/-- `evaluate_formula_plan` (formula.rs 171-191). -/
def evalPlan (S : Schema) (σ : Vars) (f : Formula) : Except SlicingError Evaluation :=
  evalNode S σ f ⟨0, []⟩

/-! ## The decision -/

/-- The limit of a subgraph (runtime.rs 228-237). -/
def budgetOf (cfg : Config) (s : Name) : Option UInt64 :=
  match cfg.budgets.lookup s with
  | some n => some n
  | none => cfg.budgetAll

/-- `list_blocked_subgraphs` (runtime.rs 221-252). -/
def blocked (cfg : Config) (e : Evaluation) : List (Name × Nat) :=
  e.perSubgraph.filterMap fun p =>
    match budgetOf cfg p.1 with
    | some m => if p.2 > m.toNat then some (p.1, m.toNat) else none
    | none => none

/-- `DemandControlExecutionContext`, as far as it decides about execution. -/
structure Context where
  evaluation : Evaluation
  blocked : List (Name × Nat)

/-- Why an operation is refused. -/
inductive Refusal where
  | slicing (e : SlicingError)
  | tooExpensive
deriving DecidableEq, Repr

/-- The decision of `evaluate`, from the formula on (runtime.rs 122-199). -/
def decide' (cfg : Config) (S : Schema) (σ : Vars) (f : Formula) : Except Refusal Context :=
  match evalPlan S σ f with
  | .error e => .error (.slicing e)
  | .ok ev =>
    if ev.estimated > cfg.max.toNat && cfg.enforce then .error .tooExpensive
    else .ok ⟨ev, blocked cfg ev⟩

/-- The cache of formulas, by the hash of the normalized operation (runtime.rs 39). Entries are not
dropped here: a dropped one is compiled again. -/
abbrev Cache := List (Nat × Formula)

/-- `formula_cache.entry(hash).or_insert_with(..)` (runtime.rs 108-120). -/
def cached (S : Schema) (cfg : Config) (cache : Cache) (hash : Nat) (plan : Option PlanNode) :
    Formula × Cache :=
  match cache.lookup hash with
  | some f => (f, cache)
  | none => (compilePlan S cfg plan, (hash, compilePlan S cfg plan) :: cache)

/-- `DemandControlRuntime::evaluate` (runtime.rs 98-200). -/
def evaluate (S : Schema) (cfg : Config) (cache : Cache) (σ : Vars) (hash : Nat)
    (plan : Option PlanNode) : Except Refusal Context × Cache :=
  let (f, cache) := cached S cfg cache hash plan
  (decide' cfg S σ f, cache)

/-- The check in front of a subgraph call (executor/executors/map.rs 299-330): may the request be
sent. -/
def maySend (cfg : Config) (ctx : Context) (s : Name) : Bool :=
  match ctx.blocked.lookup s with
  | some _ => !cfg.budgetEnforce
  | none => true

end Verif.Demand
