/-!
# Normalization of operations

Models `bin/router/src/query_planner/ast/normalization/`, the chain of passes that turns the
operation of a client into the one the planner and the projection work on, and the conversion of
the parser's tree into the planner's own (`ast/selection_item.rs` 221-318,
`ast/operation.rs` 240-296, `normalization/mod.rs` 28-178).

Simplifications, for the whole file:
* positions are left out; operation level directives and variable definitions are left out (no
  pass reads them);
* argument values other than variables and booleans are opaque numbers;
* the type definition handed down by the passes is always the one the supergraph has under its
  name, so the model hands down the name;
* `subgraph_name` is `None`, as for every operation of a client (`normalize_operation`, 58-65);
* the passes that feed their own result to themselves take a step counter, which the callers set
  to one more than the depth of the selection set.
-/
namespace Verif.Normalize

/-- Names of types, fields, variables, fragments. -/
abbrev Name := String

/-- `graphql_tools::parser::query::Value`, literals other than booleans made opaque. -/
inductive Val where
  | var (n : Name)
  | bool (b : Bool)
  | other (i : Nat)
deriving DecidableEq, Repr

abbrev Args := List (Name × Val)

/-- `graphql_tools::parser::query::Directive`. -/
structure Dir where
  name : Name
  args : Args
deriving DecidableEq, Repr

/-- `graphql_tools::parser::query::Selection`. -/
inductive Sel where
  | field (als : Option Name) (name : Name) (args : Args) (dirs : List Dir) (sub : List Sel)
  | frag (cond : Option Name) (dirs : List Dir) (sub : List Sel)
  | spread (name : Name) (dirs : List Dir)
deriving Repr

/-- `FragmentDefinition`. -/
structure Frag where
  name : Name
  cond : Name
  sels : List Sel
deriving Repr

inductive Kind where
  | query | mutation | subscription
deriving DecidableEq, Repr

/-- `OperationDefinition`; the shorthand `{ ... }` is a query without a name. -/
structure Op where
  kind : Kind
  name : Option Name
  sels : List Sel
deriving Repr

/-- `Document`: operations and fragments, each in the order of the text. -/
structure Doc where
  ops : List Op
  frags : List Frag
deriving Repr

/-! ## The supergraph -/

/-- `JoinFieldDirective`: what `type_expand` reads of it (type_expand.rs 256-262). -/
structure JoinField where
  graph : Option Name
  external : Bool
  usedOverridden : Bool
  overrideFrom : Option Name
deriving DecidableEq, Repr

/-- `SupergraphField`: the inner type name and the `@join__field` directives. -/
structure FieldDef where
  ty : Name
  join : List JoinField
deriving DecidableEq, Repr

/-- `SupergraphDefinition`. For an object: the interfaces of its `@join__implements`, its fields.
For an interface: `@join__type` as pairs of graph and `isInterfaceObject`, its fields. -/
inductive Def where
  | object (impls : List Name) (fields : List (Name × FieldDef))
  | interface (joinTypes : List (Name × Bool)) (fields : List (Name × FieldDef))
  | union (members : List Name)
  | leaf
deriving DecidableEq, Repr

/-- `SupergraphState`: the parts read by normalization. -/
structure Schema where
  defs : List (Name × Def)
  query : Name
  mutation : Option Name
  subscription : Option Name
  subgraphs : List Name
deriving Repr

/-- `state.definitions.get(name)`. -/
def Schema.get (S : Schema) (n : Name) : Option Def := S.defs.lookup n

/-- `SupergraphDefinition::fields` (state/supergraph_state.rs 995-1004). -/
def Def.fields : Def → List (Name × FieldDef)
  | .object _ fs => fs
  | .interface _ fs => fs
  | _ => []

/-- `parent_type_def.fields().get(name)` and `field_type.inner_type()`. -/
def Schema.fieldTy (S : Schema) (P n : Name) : Option Name :=
  match S.get P with
  | some d => (d.fields.lookup n).map (·.ty)
  | none => none

/-- Interface or union. -/
def Schema.isAbstract (S : Schema) (n : Name) : Bool :=
  match S.get n with
  | some (.interface _ _) => true
  | some (.union _) => true
  | _ => false

def Schema.isObject (S : Schema) (n : Name) : Bool :=
  match S.get n with
  | some (.object _ _) => true
  | _ => false

/-- `is_composite_type` (state/supergraph_state.rs 963-970). -/
def Schema.isComposite (S : Schema) (n : Name) : Bool := S.isAbstract n || S.isObject n

/-- Does the object `O` implement the interface `I`. -/
def Schema.implements (S : Schema) (O I : Name) : Bool :=
  match S.get O with
  | some (.object impls _) => impls.contains I
  | _ => false

/-- `build_possible_types_map` (flatten_fragments.rs 77-144, and again type_expand.rs 31-67)
without a subgraph: the entry of one type. -/
def Schema.possible (S : Schema) (n : Name) : Option (List Name) :=
  match S.get n with
  | some (.union ms) => some ms
  | some (.interface _ _) => some ((S.defs.map (·.1)).filter (fun o => S.implements o n))
  | _ => none

/-- `NormalizationError`, the `expect` of the conversion as `panic`, and the end of the step
counter as `fuel`. -/
inductive Err where
  | opNotFound
  | fragmentNotFound (n : Name)
  | cyclic (n : Name)
  | fieldNotFound (t f : Name)
  | typeNotFound (t : Name)
  | possibleNotFound (t : Name)
  | noRoot
  | panic
  | fuel
deriving DecidableEq, Repr

/-- A loop that pushes what each item yields and stops at the first error. -/
def concatM {α β : Type} (f : α → Except Err (List β)) : List α → Except Err (List β)
  | [] => .ok []
  | a :: r => do
    let b ← f a
    let c ← concatM f r
    .ok (b ++ c)

/-- A loop with a state that stops at the first error. -/
def foldM {α σ : Type} (f : σ → α → Except Err σ) : σ → List α → Except Err σ
  | acc, [] => .ok acc
  | acc, a :: r => do
    let acc ← f acc a
    foldM f acc r

/-- `starts_with("__")`. -/
def isIntro (n : Name) : Bool := ['_', '_'].isPrefixOf n.toList

/-! ## drop_unused_operations -/

/-- `drop_unused_operations` (drop_unused_operations.rs 8-62): the operation that is kept. -/
def chooseOp (opName : Option Name) (ops : List Op) : Option Op :=
  match opName with
  | none => ops.head?
  | some n => ops.find? (fun o => o.name == some n)

/-! ## drop_skipped_fields -/

/-- The `if` argument when it is a boolean (drop_skipped_fields.rs 103-112). -/
def literalIf : Args → Option Bool
  | [] => none
  | (n, .bool b) :: r => if n == "if" then some b else literalIf r
  | _ :: r => literalIf r

/-- `extract_condition_directive` (drop_skipped_fields.rs 95-114). -/
def extractCondition (dn : Name) : List Dir → Option Bool
  | [] => none
  | d :: r =>
    if d.name != dn then extractCondition dn r
    else match literalIf d.args with
      | some b => some b
      | none => extractCondition dn r

/-- `should_keep` (drop_skipped_fields.rs 82-92). -/
def shouldKeep (ds : List Dir) : Bool :=
  !(extractCondition "skip" ds == some true) && !(extractCondition "include" ds == some false)

mutual
/-- `handle_selection_set` (drop_skipped_fields.rs 38-79), one item. -/
def dropSkipped1 : Sel → List Sel
  | .field a n args ds sub =>
    if shouldKeep ds then [.field a n args ds (dropSkipped sub)] else []
  | .frag c ds sub => if shouldKeep ds then [.frag c ds (dropSkipped sub)] else []
  | .spread n ds => if shouldKeep ds then [.spread n ds] else []
/-- `handle_selection_set` (drop_skipped_fields.rs 38-79). -/
def dropSkipped : List Sel → List Sel
  | [] => []
  | x :: r => dropSkipped1 x ++ dropSkipped r
end

/-! ## normalize_fields -/

/-- Insertion into a list ordered by key, before the first greater key: `sort_by` is stable. -/
def insertKey {α : Type} (key : α → Name) (x : α) : List α → List α
  | [] => [x]
  | y :: r => if key x < key y then x :: y :: r else y :: insertKey key x r

/-- `sort_by(|a, b| key(a).cmp(key(b)))`. -/
def sortKey {α : Type} (key : α → Name) (l : List α) : List α :=
  l.foldl (fun acc x => insertKey key x acc) []

/-- `drop_name_equal_alias` (normalize_fields.rs 61-75). -/
def dropAlias (a : Option Name) (n : Name) : Option Name := if a == some n then none else a

mutual
/-- `normalize_selection_set` (normalize_fields.rs 37-58), one item: a field's own selections are
not visited. -/
def normalize1 : Sel → Sel
  | .field a n args ds sub =>
    .field (dropAlias a n) n (sortKey (·.1) args) (sortKey Dir.name ds) sub
  | .frag c ds sub => .frag c (sortKey Dir.name ds) (normalizeFields sub)
  | .spread n ds => .spread n ds
/-- `normalize_selection_set` (normalize_fields.rs 37-58). -/
def normalizeFields : List Sel → List Sel
  | [] => []
  | x :: r => normalize1 x :: normalizeFields r
end

/-! ## inline_fragment_spreads -/

/-- `fragment_map` (inline_fragment_spreads.rs 14-19): a later definition replaces an earlier one
of its name. -/
def fragMap (frs : List Frag) : List Frag :=
  frs.foldl (fun m f => f :: m.filter (fun g => g.name != f.name)) []

/-- `fragment_map.get(name)`. -/
def getFrag (fm : List Frag) (n : Name) : Option Frag := fm.find? (fun f => f.name == n)

/-- The single spread a fragment consists of (inline_fragment_spreads.rs 139-141). -/
def onlySpread : List Sel → Option (Name × List Dir)
  | [.spread n ds] => some (n, ds)
  | _ => none

/-- The walk along a chain of spreads (inline_fragment_spreads.rs 104-153): the counter is what is
left of `max_chain`. The result is the directives of the last spread and its fragment. -/
def walkChain (fm : List Frag) (pc : Option Name) :
    Nat → Name → List Dir → Except Err (List Dir × Frag)
  | left, n, ds =>
    match getFrag fm n with
    | none => .error (.fragmentNotFound n)
    | some d =>
      if pc = some d.cond ∧ ds = [] then
        match onlySpread d.sels with
        | some (n', ds') =>
          match left with
          | 0 => .error (.cyclic n)
          | left + 1 => walkChain fm pc left n' ds'
        | none => .ok (ds, d)
      else .ok (ds, d)

/-- One item of `handle_selection_set` (inline_fragment_spreads.rs 87-211). `rec` is the call to
itself: the type condition around, the fragments being expanded, the selections. -/
def inlineItem (fm : List Frag) (rec : Option Name → List Name → List Sel → Except Err (List Sel))
    (pc : Option Name) (active : List Name) : Sel → Except Err (List Sel)
  | .field a n args ds sub => do
    let sub ← rec none active sub
    .ok [.field a n args ds sub]
  | .spread n ds => do
    let (ds, d) ← walkChain fm pc fm.length n ds
    if active.contains d.name then .error (.cyclic d.name)
    else if pc = some d.cond ∧ ds = [] then rec pc (d.name :: active) d.sels
    else do
      let sub ← rec (some d.cond) (d.name :: active) d.sels
      .ok [.frag (some d.cond) ds sub]
  | .frag c ds sub => do
    let sub ← rec c active sub
    .ok [.frag c ds sub]

/-- `handle_selection_set` (inline_fragment_spreads.rs 78-215). -/
def inlineSet (fm : List Frag) :
    Nat → Option Name → List Name → List Sel → Except Err (List Sel)
  | 0, _, _, _ => .error .fuel
  | k + 1, pc, active, s => concatM (inlineItem fm (inlineSet fm k) pc active) s

mutual
/-- Nesting depth of one selection. -/
def depth1 : Sel → Nat
  | .field _ _ _ _ sub => depth sub + 1
  | .frag _ _ sub => depth sub + 1
  | .spread _ _ => 1
/-- Nesting depth of a selection set. -/
def depth : List Sel → Nat
  | [] => 0
  | x :: r => max (depth1 x) (depth r)
end

/-- Greatest depth of the fragments. -/
def fragDepth : List Frag → Nat
  | [] => 0
  | f :: r => max (depth f.sels) (fragDepth r)

/-- `inline_fragment_spreads` (inline_fragment_spreads.rs 13-73): the fragment definitions are
expanded as well, so a cycle in any of them is an error. -/
def inlineSpreads (frs : List Frag) (s : List Sel) : Except Err (List Sel) := do
  let fm := fragMap frs
  let fuel := (fm.length + 1) * (fragDepth fm + 1) + depth s + 1
  let s ← inlineSet fm fuel none [] s
  let _ ← concatM (fun f => inlineSet fm ((fm.length + 1) * (fragDepth fm + 1) + depth f.sels + 1)
    (some f.cond) [] f.sels) frs
  .ok s

/-! ## flatten_fragments -/

/-- `fragment_applies_to_object` (flatten_fragments.rs 528-540). -/
def appliesToObject (S : Schema) (c : Option Name) (o : Name) : Bool :=
  match c with
  | none => true
  | some c => c == o || (match S.possible c with
    | some l => l.contains o
    | none => false)

/-- Is the selection a field. -/
def isField : Sel → Bool
  | .field .. => true
  | _ => false

/-- The child fragments that apply to an object: directives and selections
(flatten_fragments.rs 379-391). -/
def subFragments (S : Schema) (o : Name) : List Sel → List (List Dir × List Sel)
  | [] => []
  | .frag c ds sub :: r =>
    if appliesToObject S c o then (ds, sub) :: subFragments S o r else subFragments S o r
  | _ :: r => subFragments S o r

/-- What becomes of the directives of the outer fragment (flatten_fragments.rs 438-459): `none`
when a wrapper is needed, otherwise those to add. -/
def directivesToMerge (inner : List Dir) : List Dir → Option (List Dir)
  | [] => some []
  | p :: r =>
    match inner.find? (fun d => d.name == p.name) with
    | some e => if e.args = p.args then directivesToMerge inner r else none
    | none => (directivesToMerge inner r).map (fun l => p :: l)

/-- One child fragment of an expanded fragment (flatten_fragments.rs 433-487). -/
def expandChild (rec : Name → List Sel → Except Err (List Sel)) (o : Name) (ds : List Dir)
    (f : List Dir × List Sel) : Except Err (List Sel) := do
  let sub ← rec o f.2
  if sub.isEmpty then .ok []
  else match directivesToMerge f.1 ds with
    | none => .ok [.frag (some o) ds [.frag (some o) f.1 sub]]
    | some extra => .ok [.frag (some o) (f.1 ++ extra) sub]

/-- One object type of an expanded fragment (flatten_fragments.rs 362-524). -/
def expandFor (S : Schema) (rec : Name → List Sel → Except Err (List Sel)) (ds : List Dir)
    (sub : List Sel) (o : Name) : Except Err (List Sel) :=
  if (S.get o).isNone then .error (.typeNotFound o)
  else if (subFragments S o sub).any (fun f => !f.1.isEmpty) then do
    let inherited ← rec o (sub.filter isField)
    let rest ← concatM (expandChild rec o ds) (subFragments S o sub)
    .ok ((if inherited.isEmpty then [] else [.frag (some o) ds inherited]) ++ rest)
  else do
    let all ← rec o (sub.filter isField ++ (subFragments S o sub).flatMap (·.2))
    .ok (if all.isEmpty then []
      else [.frag (some o) (ds ++ (subFragments S o sub).flatMap (·.1)) all])

/-- `possible_types.get(name)` or the error. -/
def possibleOf (S : Schema) (n : Name) : Except Err (List Name) :=
  match S.possible n with
  | some l => .ok l
  | none => .error (.possibleNotFound n)

/-- `object_types_of_parent_type` (flatten_fragments.rs 343-354). -/
def parentObjects (S : Schema) (P : Name) : Except Err (List Name) :=
  if S.isAbstract P then possibleOf S P else .ok [P]

/-- The intersection as a set, then sorted (flatten_fragments.rs 356-360). -/
def intersect (a b : List Name) : List Name := sortKey id ((a.filter (fun x => b.contains x)).eraseDups)

/-- `expand_abstract_fragment` (flatten_fragments.rs 323-526). -/
def expandAbstract (S : Schema) (rec : Name → List Sel → Except Err (List Sel)) (P C : Name)
    (ds : List Dir) (sub : List Sel) : Except Err (List Sel) := do
  let cs ← possibleOf S C
  let ps ← parentObjects S P
  concatM (expandFor S rec ds sub) (intersect cs ps)

/-- `expand_fragment_with_type_condition` (flatten_fragments.rs 273-318). -/
def expandCond (S : Schema) (rec : Name → List Sel → Except Err (List Sel)) (P C : Name)
    (ds : List Dir) (sub : List Sel) : Except Err (List Sel) :=
  if (S.get C).isNone then .error (.typeNotFound C)
  else if S.isAbstract C then expandAbstract S rec P C ds sub
  else if S.isObject C then
    if S.isObject P && P != C then .ok []
    else do
      let sub ← rec C sub
      .ok [.frag (some C) ds sub]
  else .ok []

/-- `process_inline_fragment` (flatten_fragments.rs 215-269). -/
def flattenFrag (S : Schema) (rec : Name → List Sel → Except Err (List Sel)) (P : Name)
    (c : Option Name) (ds : List Dir) (sub : List Sel) : Except Err (List Sel) :=
  match c with
  | none => do
    let sub ← rec P sub
    if ds.isEmpty then .ok sub
    else if S.isAbstract P then expandAbstract S rec P P ds sub
    else .ok [.frag (some P) ds sub]
  | some C =>
    if C = P then do
      let sub ← rec P sub
      if ds.isEmpty then .ok sub else .ok [.frag (some C) ds sub]
    else expandCond S rec P C ds sub

/-- The type of a field's selections, or the error (flatten_fragments.rs 192-204,
merge_inline_fragments.rs 96-110). -/
def childType (S : Schema) (P n : Name) : Except Err Name :=
  match S.fieldTy P n with
  | none => .error (.fieldNotFound P n)
  | some A => if (S.get A).isNone then .error (.typeNotFound A) else .ok A

/-- `process_field` (flatten_fragments.rs 182-212) and the loop body (157-174). -/
def flattenItem (S : Schema) (rec : Name → List Sel → Except Err (List Sel)) (P : Name) :
    Sel → Except Err (List Sel)
  | .field a n args ds sub =>
    if isIntro n || sub.isEmpty then .ok [.field a n args ds sub]
    else do
      let A ← childType S P n
      let sub ← rec A sub
      .ok [.field a n args ds sub]
  | .frag c ds sub => flattenFrag S rec P c ds sub
  | .spread _ _ => .ok []

/-- `handle_selection_set` (flatten_fragments.rs 147-178). -/
def flattenSet (S : Schema) : Nat → Name → List Sel → Except Err (List Sel)
  | 0, _, _ => .error .fuel
  | k + 1, P, s => concatM (flattenItem S (flattenSet S k) P) s

/-! ## type_expand -/

/-- Does a subgraph's implementation of the field ask for expansion (type_expand.rs 254-264). -/
def expandsFor (S : Schema) (f : Name) (o : Name) : Bool :=
  match S.get o with
  | some (.object _ fs) =>
    match fs.lookup f with
    | none => true
    | some fd => fd.join.any (fun j => j.external || j.usedOverridden ||
        (match j.overrideFrom with
          | some g => S.subgraphs.contains g
          | none => false))
  | _ => true

/-- The case of an interface of several subgraphs (type_expand.rs 267-333). -/
def expandsAcross (joinTypes : List (Name × Bool)) (fs : List (Name × FieldDef)) (f : Name) : Bool :=
  let withInterface := (joinTypes.filter (fun j => !j.2)).length
  if withInterface ≤ 1 then false
  else match fs.lookup f with
    | none => false
    | some fd =>
      if fd.join.isEmpty then false
      else
        let objs := (joinTypes.filter (fun j => j.2)).map (·.1)
        if fd.join.all (fun j => j.graph.isNone) ||
            fd.join.any (fun j => !j.external && (match j.graph with
              | some g => objs.contains g
              | none => false)) then false
        else if (fd.join.filter (fun j => !j.external && j.graph.isSome)).length ≥ withInterface
          then false
        else true

/-- `should_expand` of `handle_type_expansion_candidate` (type_expand.rs 240-333): the objects to
expand to. -/
def expansion (S : Schema) (P f : Name) : Except Err (Option (List Name)) :=
  match S.get P with
  | some (.interface jts fs) => do
    let os ← possibleOf S P
    if os.any (fun o => !S.isObject o) then .error (.typeNotFound P)
    else if os.any (expandsFor S f) || expandsAcross jts fs f then
      .ok (some (sortKey id os.eraseDups))
    else .ok none
  | _ => .ok none

/-- One object of an expanded field (type_expand.rs 340-367): the directives stay on the field and
are put on the fragment too. -/
def expandFieldFor (S : Schema) (rec : Name → List Sel → Except Err (List Sel))
    (a : Option Name) (n : Name) (args : Args) (ds : List Dir) (sub : List Sel) (o : Name) :
    Except Err (List Sel) :=
  if sub.isEmpty then .ok [.frag (some o) ds [.field a n args ds sub]]
  else match S.fieldTy o n with
    | none => .ok [.frag (some o) ds [.field a n args ds sub]]
    | some A =>
      if (S.get A).isNone then .error (.typeNotFound A)
      else do
        let sub ← rec A sub
        .ok [.frag (some o) ds [.field a n args ds sub]]

/-- The loop body (type_expand.rs 157-224). -/
def typeExpandItem (S : Schema) (rec : Name → List Sel → Except Err (List Sel)) (P : Name) :
    Sel → Except Err (List Sel)
  | .field a n args ds sub =>
    if isIntro n then .ok [.field a n args ds sub]
    else match S.fieldTy P n with
      | none => .error (.fieldNotFound P n)
      | some A => do
        match ← expansion S P n with
        | some os => concatM (expandFieldFor S rec a n args ds sub) os
        | none =>
          if sub.isEmpty then .ok [.field a n args ds sub]
          else if (S.get A).isNone then .error (.typeNotFound A)
          else do
            let sub ← rec A sub
            .ok [.field a n args ds sub]
  | .frag c ds sub =>
    match c with
    | none => do
      let sub ← rec P sub
      .ok [.frag none ds sub]
    | some C =>
      if (S.get C).isNone then .ok [.frag (some C) ds sub]
      else do
        let sub ← rec C sub
        .ok [.frag (some C) ds sub]
  | .spread n ds => .ok [.spread n ds]

/-- `handle_selection_set` (type_expand.rs 125-228). -/
def typeExpandSet (S : Schema) : Nat → Name → List Sel → Except Err (List Sel)
  | 0, _, _ => .error .fuel
  | k + 1, P, s => concatM (typeExpandItem S (typeExpandSet S k) P) s

/-! ## merge_inline_fragments -/

/-- `flatten_redundant_nested_inline_fragments` with `can_flatten_into_parent`
(merge_inline_fragments.rs 187-211). -/
def flattenNested (c : Option Name) (ds : List Dir) : List Sel → List Sel
  | [] => []
  | .frag c' ds' sub :: r =>
    if c' = c ∧ (ds' = [] ∨ ds' = ds) then sub ++ flattenNested c ds r
    else .frag c' ds' sub :: flattenNested c ds r
  | x :: r => x :: flattenNested c ds r

/-- The search for an equal fragment and the merge into it (merge_inline_fragments.rs 135-154,
171-184); `none` when there is none. -/
def mergeIntoFrag (rec : List Sel → Except Err (List Sel)) (c : Option Name) (ds : List Dir)
    (sub : List Sel) : List Sel → Except Err (Option (List Sel))
  | [] => .ok none
  | .frag c' ds' sub' :: r =>
    if c = c' ∧ ds = ds' then do
      let m ← rec (sub' ++ sub)
      .ok (some (.frag c' ds' m :: r))
    else do
      let o ← mergeIntoFrag rec c ds sub r
      .ok (o.map (fun l => .frag c' ds' sub' :: l))
  | x :: r => do
    let o ← mergeIntoFrag rec c ds sub r
    .ok (o.map (fun l => x :: l))

/-- The type below a fragment (merge_inline_fragments.rs 117-125). -/
def belowFrag (S : Schema) (P : Name) : Option Name → Name
  | some C => if (S.get C).isSome then C else P
  | none => P

/-- The loop body (merge_inline_fragments.rs 87-164). -/
def mergeFragItem (S : Schema) (rec : Name → List Sel → Except Err (List Sel)) (P : Name)
    (acc : List Sel) : Sel → Except Err (List Sel)
  | .field a n args ds sub =>
    if isIntro n || sub.isEmpty then .ok (acc ++ [.field a n args ds sub])
    else do
      let A ← childType S P n
      let sub ← rec A sub
      .ok (acc ++ [.field a n args ds sub])
  | .frag c ds sub => do
    let sub ← rec (belowFrag S P c) sub
    let sub := flattenNested c ds sub
    match ← mergeIntoFrag (rec (belowFrag S P c)) c ds sub acc with
    | some acc => .ok acc
    | none => .ok (acc ++ [.frag c ds sub])
  | .spread _ _ => .ok acc

/-- `handle_selection_set` (merge_inline_fragments.rs 79-168). -/
def mergeFragSet (S : Schema) : Nat → Name → List Sel → Except Err (List Sel)
  | 0, _, _ => .error .fuel
  | k + 1, P, s => foldM (mergeFragItem S (mergeFragSet S k) P) [] s

/-! ## flatten_matching_object_fragments -/

/-- Is the selection `__typename` (matching_object_fragment.rs 19-24). -/
def isTypename : Sel → Bool
  | .field _ n _ _ _ => n == "__typename"
  | _ => false

/-- `flatten_field_selection_set` (flatten_matching_object_fragments.rs 145-164) with
`can_flatten_matching_object_fragment` (matching_object_fragment.rs 4-25). -/
def flattenMatching (o : Name) : List Sel → List Sel
  | [] => []
  | .frag c ds sub :: r =>
    if ds = [] ∧ c = some o ∧ sub.any isTypename = false then sub ++ flattenMatching o r
    else .frag c ds sub :: flattenMatching o r
  | x :: r => x :: flattenMatching o r

/-- One item: `process_field` and the fragment case
(flatten_matching_object_fragments.rs 85-142). -/
def matchingItem (S : Schema) (rec : Name → List Sel → Except Err (List Sel)) (P : Name) :
    Sel → Except Err (List Sel)
  | .field a n args ds sub =>
    if isIntro n || sub.isEmpty then .ok [.field a n args ds sub]
    else do
      let A ← childType S P n
      let sub ← rec A sub
      .ok [.field a n args ds (if S.isObject A then flattenMatching A sub else sub)]
  | .frag c ds sub => do
    let sub ← rec (belowFrag S P c) sub
    .ok [.frag c ds sub]
  | .spread n ds => .ok [.spread n ds]

/-- `handle_selection_set` (flatten_matching_object_fragments.rs 80-108). -/
def matchingSet (S : Schema) : Nat → Name → List Sel → Except Err (List Sel)
  | 0, _, _ => .error .fuel
  | k + 1, P, s => concatM (matchingItem S (matchingSet S k) P) s

/-! ## merge_fields -/

/-- The search for an equal field and the merge into it (merge_fields.rs 37-55, 70-83). -/
def mergeIntoField (rec : List Sel → Except Err (List Sel)) (a : Option Name) (n : Name)
    (args : Args) (ds : List Dir) (sub : List Sel) : List Sel → Except Err (Option (List Sel))
  | [] => .ok none
  | .field a' n' args' ds' sub' :: r =>
    if a = a' ∧ n = n' ∧ args = args' ∧ ds = ds' then do
      let m ← rec (sub' ++ sub)
      .ok (some (.field a' n' args' ds' m :: r))
    else do
      let o ← mergeIntoField rec a n args ds sub r
      .ok (o.map (fun l => .field a' n' args' ds' sub' :: l))
  | x :: r => do
    let o ← mergeIntoField rec a n args ds sub r
    .ok (o.map (fun l => x :: l))

/-- The loop body (merge_fields.rs 64-97). -/
def mergeFieldItem (rec : List Sel → Except Err (List Sel)) (acc : List Sel) :
    Sel → Except Err (List Sel)
  | .field a n args ds sub => do
    let sub ← rec sub
    match ← mergeIntoField rec a n args ds sub acc with
    | some acc => .ok acc
    | none => .ok (acc ++ [.field a n args ds sub])
  | .frag c ds sub => do
    let sub ← rec sub
    .ok (acc ++ [.frag c ds sub])
  | .spread _ _ => .ok acc

/-- `handle_selection_set` (merge_fields.rs 58-101). -/
def mergeFieldSet : Nat → List Sel → Except Err (List Sel)
  | 0, _ => .error .fuel
  | k + 1, s => foldM (mergeFieldItem (mergeFieldSet k)) [] s

/-! ## drop_duplicated_fields -/

/-- `are_fields_shallow_equal` (drop_duplicated_fields.rs 38-56). -/
def shallowEqual : Sel → Sel → Bool
  | .field a n args ds sub, .field a' n' args' ds' sub' =>
    n == n' && a == a' && args == args' && ds == ds' && sub.isEmpty && sub'.isEmpty
  | _, _ => false

mutual
/-- A fragment, with its own selections handled (drop_duplicated_fields.rs 84-89); a field's own
selections are not visited. -/
def dedup1 : Sel → Sel
  | .frag c ds sub => .frag c ds (if sub.length ≤ 1 then sub else dedupLoop [] sub)
  | x => x
/-- The loop (drop_duplicated_fields.rs 69-97): what is kept so far, the rest. -/
def dedupLoop (acc : List Sel) : List Sel → List Sel
  | [] => acc
  | x :: r =>
    if isField x && acc.any (shallowEqual x) then dedupLoop acc r
    else dedupLoop (acc ++ [dedup1 x]) r
end

/-- `handle_selection_set` (drop_duplicated_fields.rs 59-102): a set of one item is left alone. -/
def dropDuplicates (s : List Sel) : List Sel := if s.length ≤ 1 then s else dedupLoop [] s

/-! ## The pipeline -/

/-- `RootTypes` (context.rs 7-32, 42-50). -/
def rootType (S : Schema) : Kind → Except Err Name
  | .query => .ok S.query
  | .mutation => match S.mutation with
    | some n => .ok n
    | none => .error .noRoot
  | .subscription => match S.subscription with
    | some n => .ok n
    | none => .error .noRoot

/-- `normalize_operation_mut` (mod.rs 28-56), on the selections of the chosen operation. -/
def normalizeSels (S : Schema) (frs : List Frag) (R : Name) (s : List Sel) :
    Except Err (List Sel) := do
  let frs := frs.map (fun f => { f with sels := dropSkipped f.sels })
  let s := dropSkipped s
  let frs := frs.map (fun f => { f with sels := normalizeFields f.sels })
  let s := normalizeFields s
  let s ← inlineSpreads frs s
  if (S.get R).isNone then .error (.typeNotFound R)
  else do
    let s ← flattenSet S (depth s + 1) R s
    let s ← typeExpandSet S (depth s + 1) R s
    let s ← mergeFragSet S (depth s + 1) R s
    let s ← matchingSet S (depth s + 1) R s
    let s ← mergeFieldSet (depth s + 1) s
    .ok (dropDuplicates s)

/-! ## The planner's tree -/

/-- `ast::selection_item::SelectionItem`; the arguments are a map. Fragment spreads are not
produced any more at this point. -/
inductive Item where
  | field (als : Option Name) (name : Name) (args : Args) (skipIf includeIf : Option Name)
      (om : Bool) (sub : List Item)
  | frag (cond : Name) (skipIf includeIf : Option Name) (sub : List Item)
  | spread (name : Name)
deriving Repr

/-- `directive.arguments.iter().find_map(name == "if")` and `Value::Variable`
(selection_item.rs 249-257). -/
def variableIf (args : Args) : Option Name :=
  match args.lookup "if" with
  | some (.var v) => some v
  | _ => none

/-- `ConditionsPair::from` (selection_item.rs 241-279) for one of the two directives: the last
one with a variable counts. -/
def conditionVar (dn : Name) (ds : List Dir) : Option Name :=
  ds.foldl (fun acc d => if d.name == dn then (match variableIf d.args with
    | some v => some v
    | none => acc) else acc) none

/-- `BTreeMap::insert`. -/
def insertArg (m : Args) (a : Name × Val) : Args :=
  insertKey (·.1) a (m.filter (fun x => x.1 != a.1))

/-- `ArgumentsMap::from` (ast/arguments.rs 55-66): a map ordered by name, a later value replaces
an earlier one. -/
def argMap (args : Args) : Args := args.foldl insertArg []

mutual
/-- `SelectionItem::from` (selection_item.rs 221-233, 281-318); the `expect` on a missing type
condition is `panic`. -/
def convert1 : Sel → Except Err Item
  | .field a n args ds sub => do
    let sub ← convert sub
    .ok (.field a n (argMap args) (conditionVar "skip" ds) (conditionVar "include" ds) false sub)
  | .frag c ds sub =>
    match c with
    | none => .error .panic
    | some c => do
      let sub ← convert sub
      .ok (.frag c (conditionVar "skip" ds) (conditionVar "include" ds) sub)
  | .spread n _ => .ok (.spread n)
/-- `SelectionSet::from` (selection_set.rs 22-32). -/
def convert : List Sel → Except Err (List Item)
  | [] => .ok []
  | x :: r => do
    let x ← convert1 x
    let r ← convert r
    .ok (x :: r)
end

/-- `FieldSelection::new_skipped_typename` (selection_set.rs 254-264). -/
def skippedTypename : Item := .field none "__typename" [] none none true []

mutual
/-- `inject_skipped_typename_for_selection_set` (mod.rs 128-178), one item. -/
def inject1 (S : Schema) (P : Name) : Item → Item
  | .field a n args si ii om sub =>
    match S.fieldTy P n with
    | none => .field a n args si ii om sub
    | some A =>
      if S.isComposite A then
        .field a n args si ii om (if sub.isEmpty then [skippedTypename] else inject S A sub)
      else .field a n args si ii om sub
  | .frag c si ii sub => .frag c si ii (inject S c sub)
  | .spread n => .spread n
/-- `inject_skipped_typename_for_selection_set` (mod.rs 128-178). The code fills an empty set after
the recursive call, which leaves an empty set empty and never empties one. -/
def inject (S : Schema) (P : Name) : List Item → List Item
  | [] => []
  | x :: r => inject1 S P x :: inject S P r
end

/-- `normalize_operation` (mod.rs 58-104): the kind and the selections of the result. -/
def normalizeOperation (S : Schema) (doc : Doc) (opName : Option Name) :
    Except Err (Kind × List Item) :=
  match chooseOp opName doc.ops with
  | none => .error .opNotFound
  | some op => do
    let R ← rootType S op.kind
    let s ← normalizeSels S doc.frags R op.sels
    let items ← convert s
    .ok (op.kind, inject S R items)

end Verif.Normalize
