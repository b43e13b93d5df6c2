import Verif.Projection.Response
import Verif.Normalize.Model

/-!
# From the operation to the projection plan

`bin/router/src/executor/projection/plan.rs:232-1060`: `FieldProjectionPlan::from_operation` turns the
normalized operation into the plan by which `Verif/Projection/Response.lean` writes the response. The
conditions are those of `Verif/Projection/Cond.lean`, the operation is the planner's tree of
`Verif/Normalize/Model.lean`. `Arc`, tracing and warnings are left out.
-/

namespace Verif.Builder

open Verif.Projection
open Verif.Normalize (Item)

/-- `SchemaMetadata`, `executor/introspection/schema.rs:68-79`. -/
structure Meta extends Schema where
  enums : List (String × List String)
  objects : List String
  scalars : List String
  unions : List String
  interfaces : List String
  query : Option String
  mutation : Option String
  subscription : Option String

/-- `PossibleTypes::get_possible_types`, `schema.rs:147-151`: the type itself is among them. -/
def Meta.possibleSet (S : Meta) (n : String) : List String :=
  setInsert ((S.possible.lookup n).getD []) n

/-- The type condition of a fragment, `plan.rs:983-992`. -/
def fragCond (S : Meta) (c : String) : TypeCond :=
  if S.objects.contains c then .exact c else .oneOf (S.possibleSet c)

/-- The type condition of a field's value, `plan.rs:866-877`. -/
def fieldCond (S : Meta) (t : String) : TypeCond :=
  if S.objects.contains t || S.scalars.contains t then .exact t else .oneOf (S.possibleSet t)

/-- The field's type, `plan.rs:834-864`; `__typename` is `String!`. None: the field is passed over
with a warning. -/
def fieldInfo (S : Meta) (P n : String) : Option FieldType :=
  if n = "__typename" then some ⟨"String", .leaf true⟩ else S.field P n

/-- `SelectionVariants`, `plan.rs:110-117`: an `IndexMap` keeps the order of insertion. -/
abbrev Variants := List (String × List Plan)

/-- `entry(key).or_default().push(plan)`, `plan.rs:733-737`. -/
def pushVariant (p : Plan) : Variants → Variants
  | [] => [(p.info.responseKey, [p])]
  | (k, vs) :: m => if k = p.info.responseKey then (k, vs ++ [p]) :: m else (k, vs) :: pushVariant p m

/-- The map of the existing children, `plan.rs:731-738`. -/
def group (ps : List Plan) : Variants := ps.foldl (fun m p => pushVariant p m) []

/-- The search for a variant of the same guard, `plan.rs:675-683`. -/
def mergeVariant (mm : Plan → Plan → Plan) (p : Plan) : List Plan → List Plan
  | [] => [p]
  | v :: vs => if guardEq v.info.guard p.info.guard then mm v p :: vs else v :: mergeVariant mm p vs

/-- `merge_plan`, `plan.rs:664-684`. `mm` is `merge_matching` for the parent type. -/
def mergePlan (mm : Plan → Plan → Plan) (p : Plan) : Variants → Variants
  | [] => [(p.info.responseKey, [p])]
  | (k, vs) :: m =>
    if k = p.info.responseKey then (k, mergeVariant mm p vs) :: m else (k, vs) :: mergePlan mm p m

/-- A plan with another guard. -/
def setGuard (g : TypeCond) : Plan → Plan
  | .null i => .null { i with guard := some g }
  | .leaf i => .leaf { i with guard := some g }
  | .node i cs => .node { i with guard := some g } cs

/-- Does the guard of a variant match the type, `plan.rs:402-405`. -/
def matchesType (t : String) (p : Plan) : Bool :=
  match p.info.guard with
  | none => true
  | some g => g.accepts t

/-- `merge_variants_for_type`, `plan.rs:393-418`, from a plan merged so far. -/
def mergeForTypeFrom (mm : Plan → Plan → Plan) (t : String) : Option Plan → List Plan → Option Plan
  | acc, [] => acc
  | acc, v :: vs =>
    if matchesType t v then
      match acc with
      | none => mergeForTypeFrom mm t (some (setGuard (.exact t) v)) vs
      | some e => mergeForTypeFrom mm t (some (mm e (setGuard (.exact t) v))) vs
    else mergeForTypeFrom mm t acc vs

/-- `merge_variants_for_type`, `plan.rs:393-418`. -/
def mergeForType (mm : Plan → Plan → Plan) (t : String) (vs : List Plan) : Option Plan :=
  mergeForTypeFrom mm t none vs

/-- Is the guard one type, `plan.rs:358`. -/
def isExact (p : Plan) : Bool :=
  match p.info.guard with
  | some (.exact _) => true
  | _ => false

/-- `already_exclusive`, `plan.rs:354-358`. -/
def alreadyExclusive (vs : List Plan) : Bool := vs.length == 1 || vs.all isExact

/-- `concrete_types`, `plan.rs:364-373`: the possible object types, sorted. -/
def concreteTypes (S : Meta) (P : String) : List String :=
  Normalize.sortKey id ((S.possibleSet P).filter (fun t => S.objects.contains t))

/-- The variants of one response key, `plan.rs:353-384`. -/
def resolveKey (S : Meta) (mm : Plan → Plan → Plan) (P : String) (vs : List Plan) : List Plan :=
  if alreadyExclusive vs then vs
  else (concreteTypes S P).filterMap (fun t => mergeForType mm t vs)

/-- `resolve_variants`, `plan.rs:337-388`. -/
def resolve (S : Meta) (mm : Plan → Plan → Plan) (P : String) (m : Variants) : List Plan :=
  m.flatMap (fun e => resolveKey S mm P e.2)

/-- `type_names_from`, `plan.rs:443-449`. -/
def namesOf : TypeCond → List String
  | .exact a => [a]
  | .oneOf s => s

/-- `field_output_type`, `plan.rs:420-441`. The names of a hash set come in no particular order. -/
def fieldOutputType (S : Meta) (P : String) (g : Option TypeCond) (n : String) : Option String :=
  if n = "__typename" then none
  else match g with
    | some g => (namesOf g).findSome? (fun t => (S.field t n).map (·.out))
    | none => (S.field P n).map (·.out)

/-- The existing plan's own part after a merge, `plan.rs:696-701`. -/
def mergedInfo (e n : PlanInfo) : PlanInfo :=
  { e with conditions := mergeConds e.guard e.conditions e.guard n.conditions }

/-- `merge_matching`, `plan.rs:688-767`. The first argument bounds the height of the plans. -/
def mergeMatching (S : Meta) : Nat → String → Plan → Plan → Plan
  | _, _, .null i, .null j => .null (mergedInfo i j)
  | _, _, .null i, q => .null (mergedInfo i q.info)
  | _, _, p, .null j => .null (mergedInfo p.info j)
  | _, _, .leaf i, .leaf j => .leaf (mergedInfo i j)
  | _, _, .leaf i, .node j ns => .node (mergedInfo i j) ns
  | _, _, .node i es, .leaf j => .node (mergedInfo i j) es
  | 0, _, .node i es, .node j _ => .node (mergedInfo i j) es
  | k + 1, P, .node i es, .node j ns =>
    let c := (fieldOutputType S P i.guard i.fieldName).getD P
    .node (mergedInfo i j)
      (resolve S (mergeMatching S k c) c
        (ns.foldl (fun m p => mergePlan (mergeMatching S k c) p m) (group es)))

/-- The pattern of `plan.rs:908-913`. -/
def onlyOmitted : List Item → Bool
  | [.field _ _ _ _ _ true _] => true
  | _ => false

/-- The parent's condition for the selections below a field, `plan.rs:880-894`. -/
def childCondition (S : Meta) (pc : Option Cond) (out : String) (si ii : Option String) :
    Option Cond :=
  applyDirectives (andOpt (pc.bind childConds)
    ((pc.bind typeGuard).map (fun _ => .parent (fieldCond S out)))) ii si

/-- Whether the type is a union or an interface, `plan.rs:896-897`. -/
def isAbstract (S : Meta) (t : String) : Bool := S.unions.contains t || S.interfaces.contains t

/-- The field's own conditions, `plan.rs:896-927`. -/
def fieldConditions (S : Meta) (pc : Option Cond) (out : String) (si ii : Option String) :
    Option Cond :=
  let c := if isAbstract S out then andOpt pc (some (.field (fieldCond S out))) else pc
  let c := applyDirectives c ii si
  let c := match S.enums.lookup out with
    | some vals => andOpt c (some (.enum vals))
    | none => c
  c.bind (fun c => simplify c (pc.bind typeGuard))

/-- The plan of a field but for its selections, `plan.rs:934-968`. -/
def planInfo (S : Meta) (pc : Option Cond) (als : Option String) (n : String) (ft : FieldType)
    (si ii : Option String) : PlanInfo where
  fieldName := n
  responseKey := als.getD n
  isTypename := n == "__typename"
  nullability := ft.nullability
  guard := pc.bind typeGuard
  conditions := fieldConditions S pc ft.out si ii

/-- The plan of a field with its selections: no plans below it mean that there is no selection set,
`plan.rs:303-318, 941-966`. -/
def mkPlan (i : PlanInfo) (omitted : Bool) (cs : List Plan) : Plan :=
  if omitted then .node i [] else if cs.isEmpty then .leaf i else .node i cs

/-- The condition for the selections of a fragment, `plan.rs:994-1005`. -/
def fragmentCondition (S : Meta) (pc : Option Cond) (c : String) (si ii : Option String) :
    Option Cond :=
  applyDirectives (andOpt pc (some (.parent (fragCond S c)))) ii si

mutual
/-- `process_field`, `plan.rs:824-968`, and `process_inline_fragment`, `:976-1027`. `k` bounds the
height of the plans. A fragment spread is not expected here: the code panics, this passes it
over. -/
def addItem (S : Meta) (k : Nat) (P : String) (pc : Option Cond) (m : Variants) : Item → Variants
  | .field als n _ si ii _ sub =>
    match fieldInfo S P n with
    | none => m
    | some ft =>
      mergePlan (mergeMatching S k P)
        (mkPlan (planInfo S pc als n ft si ii) (onlyOmitted sub)
          (resolve S (mergeMatching S k ft.out) ft.out
            (addItems S k ft.out (childCondition S pc ft.out si ii) [] sub))) m
  | .frag c si ii sub =>
    ((resolve S (mergeMatching S k c) c
        (addItems S k c (fragmentCondition S pc c si ii) [] sub)).map
      (setGuard (fragCond S c))).foldl (fun m p => mergePlan (mergeMatching S k P) p m) m
  | .spread _ => m
/-- The loop of `from_selection_set`, `plan.rs:277-307`. -/
def addItems (S : Meta) (k : Nat) (P : String) (pc : Option Cond) (m : Variants) :
    List Item → Variants
  | [] => m
  | x :: r => addItems S k P pc (addItem S k P pc m x) r
end

/-- `from_selection_set`, `plan.rs:271-319`; no plans stand for `None`. -/
def fromSelectionSet (S : Meta) (k : Nat) (P : String) (pc : Option Cond) (s : List Item) :
    List Plan :=
  resolve S (mergeMatching S k P) P (addItems S k P pc [] s)

/-- `possible_child_types`, `plan.rs:475-487`. -/
def childTypes (S : Meta) (i : PlanInfo) : Option (List String) :=
  i.guard.map (fun g =>
    setExtend [] ((namesOf g).filterMap (fun t => (S.field t i.fieldName).map (·.out))))

/-- `is_redundant`, `plan.rs:495-505`. -/
def redundant (poss : List String) : TypeCond → Bool
  | .exact t => poss.length == 1 && poss.contains t
  | .oneOf l => l.length == poss.length && l.all poss.contains

/-- A child's guard is dropped if it is redundant, `plan.rs:489-510`. -/
def dropGuard (poss : Option (List String)) (i : PlanInfo) : PlanInfo :=
  match i.guard, poss with
  | some g, some poss => if redundant poss g then { i with guard := none } else i
  | _, _ => i

mutual
/-- The loop body of `remove_redundant_child_guards`, `plan.rs:489-513`, with the call to itself:
the possible types come from the parent. -/
def tidy (S : Meta) (poss : Option (List String)) : Plan → Plan
  | .null i => .null (dropGuard poss i)
  | .leaf i => .leaf (dropGuard poss i)
  | .node i cs => .node (dropGuard poss i) (tidyAll S (childTypes S (dropGuard poss i)) cs)
/-- `remove_redundant_child_guards`, `plan.rs:461-514`. -/
def tidyAll (S : Meta) (poss : Option (List String)) : List Plan → List Plan
  | [] => []
  | p :: ps => tidy S poss p :: tidyAll S poss ps
end

mutual
/-- Nesting depth of one item. -/
def depth1 : Item → Nat
  | .field _ _ _ _ _ _ sub => depth sub + 1
  | .frag _ _ _ sub => depth sub + 1
  | .spread _ => 1
/-- Nesting depth: the bound on the height of the plans. -/
def depth : List Item → Nat
  | [] => 0
  | x :: r => max (depth1 x) (depth r)
end

/-- The root type, `plan.rs:236-249`; the code panics if there is none. -/
def rootOf (S : Meta) : Normalize.Kind → Option String
  | .query => S.query
  | .mutation => S.mutation
  | .subscription => S.subscription

/-- `from_operation`, `plan.rs:233-264`. -/
def fromOperation (S : Meta) (root : String) (s : List Item) : List Plan :=
  tidyAll S none (fromSelectionSet S (depth s) root none s)

end Verif.Builder
