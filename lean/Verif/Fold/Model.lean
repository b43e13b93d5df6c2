import Verif.Fetch.Keep

/-!
# Folding fragments on objects into one on an interface

A fetch that asks all objects of an interface for the same fields, each in a fragment of its own, can ask the
interface. Models `query_planner/planner/fetch/optimize/fold_concrete_selections_to_interfaces.rs` and
`query_planner/ast/semantic_eq.rs`.

Not modelled: `rewrite_root_output` (lines 137-177), and whether something was changed.
-/

namespace Verif.Fold

open Verif.Fetch
open Verif.Walker (Cond)

/-- Kinds of types, `SubgraphDefinition`, `state/subgraph_state.rs`. -/
inductive Kind where
  | object
  | interface
  | other
deriving DecidableEq

/-- What is asked of the schemas of a subgraph and the supergraph. -/
structure Schema where
  /-- The types of the subgraph, `subgraph.definitions`. -/
  kind : String → Option Kind
  /-- The inner type of a field in the subgraph, `definition.field(..)`. -/
  fieldTy : String → String → Option String
  /-- The objects of the supergraph, `supergraph_state.rs:321-324`. -/
  objects : List String
  /-- The interfaces an object implements in the subgraph: `join_implements` with its `graph_id`, in order and
  without duplicates (`fold_concrete_selections_to_interfaces.rs:337-345`). -/
  impls : String → List String
  /-- `field_return_type_name`, `supergraph_state.rs:282-290`. -/
  ret : String → String → Option String

/-- `object_is_interface_member_in_subgraph`, `fold_concrete_selections_to_interfaces.rs:573-590`. -/
def Schema.impl (S : Schema) (t i : String) : Bool :=
  S.objects.contains t && (S.kind t).isSome && (S.impls t).contains i

/-- `interface_object_members_in_subgraph`, lines 558-570, with `interface_members`,
`supergraph_state.rs:278-280, 318-336`: an interface that no object implements has none. -/
def Schema.members (S : Schema) (i : String) : List String := S.objects.filter fun t => S.impl t i

/-- The first item that fits is taken out. -/
def takeFirst (p : Sel → Bool) : List Sel → Option (List Sel)
  | [] => none
  | x :: r => if p x then some r else (takeFirst p r).map (x :: ·)

mutual
/-- `semantic_eq` of items, `semantic_eq.rs:34-69`. -/
def semI : Sel → Sel → Bool
  | .field f ss, .field g ts =>
    f.name == g.name && decide (f.alias = g.alias) && decide (argsOf f = argsOf g) &&
      decide (condOf f = condOf g) && f.omitted == g.omitted && semL ss ts
  | .frag f ss, .frag g ts => f.cond == g.cond && decide (fragCond f = fragCond g) && semL ss ts
  | .spread a, .spread b => a == b
  | _, _ => false
/-- `semantic_eq` of selection sets, `semantic_eq.rs:10-32`: each item takes the first one that is left and equal
to it. That both have the same number of items is that none is left. -/
def semL : List Sel → List Sel → Bool
  | [], ts => ts.isEmpty
  | s :: r, ts =>
    match takeFirst (semI s) ts with
    | some ts' => semL r ts'
    | none => false
end

/-- `fragment_type_is_valid_for_parent_type`, lines 519-533. -/
def Schema.fragOk (S : Schema) (parent t : String) : Bool :=
  parent == t || (decide (S.kind parent = some .interface) && S.impl t parent)

mutual
/-- `selection_set_is_valid_for_type` for an item, lines 475-511. There are no spreads: they were an error
before, in `rewrite_selection_set`. -/
def validI (S : Schema) (t : String) : Sel → Bool
  | .field f ss =>
    f.name == "__typename" ||
      match S.fieldTy t f.name with
      | some u => (ss.isEmpty || (S.kind u).isSome) && validL S u ss
      | none => false
  | .frag g ss => S.fragOk t g.cond && (ss.isEmpty || (S.kind g.cond).isSome) && validL S g.cond ss
  | .spread _ => false
/-- The loop over the items. -/
def validL (S : Schema) (t : String) : List Sel → Bool
  | [] => true
  | s :: r => validI S t s && validL S t r
end

/-- `selection_set_is_valid_for_type`, lines 461-514. -/
def valid (S : Schema) (t : String) (ss : List Sel) : Bool :=
  (ss.isEmpty || (S.kind t).isSome) && validL S t ss

mutual
/-- `selected_fields_exist_on_interface` for an item, lines 443-458: fields, and those in fragments on the same
type (`iter_fields_and_fragments_of_same_type`, `ast/selection_set.rs:108-140`). -/
def onIfaceI (S : Schema) (i t : String) : Sel → Bool
  | .field f _ => f.name == "__typename" || (S.fieldTy i f.name).isSome
  | .frag g ss => if g.cond = t then onIfaceL S i t ss else true
  | .spread _ => true
/-- `selected_fields_exist_on_interface`, lines 443-458. -/
def onIfaceL (S : Schema) (i t : String) : List Sel → Bool
  | [] => true
  | s :: r => onIfaceI S i t s && onIfaceL S i t r
end

/-- The branches: all inline fragments, lines 246-262. -/
def branches : List Sel → List (FragInfo × List Sel)
  | [] => []
  | .frag g ss :: r => (g, ss) :: branches r
  | _ :: r => branches r

/-- What is not a branch, lines 270-283: all fragments are branches, and all branches are removed. -/
def others : List Sel → List Sel
  | [] => []
  | .frag _ _ :: r => others r
  | s :: r => s :: others r

/-- `try_fold_into_interface`, lines 356-440: the selection set that takes the place of the branches, and its
condition. `local_interface`, lines 536-555, is the test of kind and members. -/
def foldInto (S : Schema) (i : String) : List (FragInfo × List Sel) → Option (List Sel × Cond)
  | [] => none
  | [_] => none
  | b :: r =>
    if S.kind i = some .interface ∧ (S.members i).isEmpty = false ∧
        ((b :: r).all fun x => decide (fragCond x.1 = fragCond b.1) && decide (S.kind x.1.cond = some .object)) ∧
        ((b :: r).all fun x => (S.members i).contains x.1.cond) ∧
        ((S.members i).all fun t => (b :: r).any fun x => x.1.cond == t) ∧
        (r.all fun x => semL b.2 x.2) ∧ onIfaceL S i b.1.cond b.2 ∧ valid S i b.2 then
      some (b.2, fragCond b.1)
    else none

/-- The first interface that works, lines 347-353. -/
def firstFold (S : Schema) (bs : List (FragInfo × List Sel)) : List String → Option (String × List Sel × Cond)
  | [] => none
  | i :: r =>
    match foldInto S i bs with
    | some x => some (i, x)
    | none => firstFold S bs r

/-- `try_fold`, lines 306-319, and `try_fold_into_any_matching_interface`, lines 321-354. `any` is
`experimental_abstract_type_folding`. -/
def tryFold (S : Schema) (any : Bool) (cur : String) (bs : List (FragInfo × List Sel)) :
    Option (String × List Sel × Cond) :=
  if any then
    match bs with
    | [] => none
    | b :: _ => firstFold S bs (if S.objects.contains b.1.cond then S.impls b.1.cond else [])
  else firstFold S bs [cur]

/-- `rewrite_inline_fragments`, lines 240-304. -/
def foldFrags (S : Schema) (any : Bool) (cur : String) (ss : List Sel) : List Sel :=
  match tryFold S any cur (branches ss) with
  | none => ss
  | some (i, sub, c) =>
    if c = (none, none) ∧ i = cur then mergeSels false sub (others ss)
    else others ss ++ [.frag { cond := i, skipIf := c.1, includeIf := c.2 } sub]

mutual
/-- An item, lines 206-236. -/
def rewriteI (S : Schema) (any : Bool) (cur : String) : Sel → Option Sel
  | .field f ss =>
    match S.ret cur f.name with
    | none => none
    | some c => (rewriteL S any c ss).map fun x => .field f (foldFrags S any c x)
  | .frag g ss => (rewriteL S any g.cond ss).map fun x => .frag g (foldFrags S any g.cond x)
  | .spread _ => none
/-- The loop over the items, lines 205-236. -/
def rewriteL (S : Schema) (any : Bool) (cur : String) : List Sel → Option (List Sel)
  | [] => some []
  | s :: r =>
    match rewriteI S any cur s with
    | none => none
    | some s' => (rewriteL S any cur r).map (s' :: ·)
end

/-- `rewrite_selection_set`, lines 198-238; an error is `none`. -/
def rewrite (S : Schema) (any : Bool) (cur : String) (ss : List Sel) : Option (List Sel) :=
  (rewriteL S any cur ss).map (foldFrags S any cur)

/-- `rewrite_nested_output`, lines 184-196: the selections of a step, each with its type. -/
def rewriteStep (S : Schema) (any : Bool) : Selections → Option Selections
  | [] => some []
  | (t, ss) :: r =>
    match rewrite S any t ss with
    | none => none
    | some ss' => (rewriteStep S any r).map ((t, ss') :: ·)

end Verif.Fold
