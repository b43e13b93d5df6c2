import Verif.Fetch.Build

/-!
# The optimizations of the fetch graph

Models `query_planner/planner/fetch/optimize/*.rs`, except for
`fold_concrete_selections_to_interfaces.rs` and `type_mismatches.rs`, and the parts of
`fetch/fetch_step_data.rs` they use.

Simplifications, for the whole file: loops that the code does not bound take a number of steps, and
`Err.fuel` says that they would go on; the cancellation token is left out.
-/

namespace Verif.Fetch

open Verif.Graph (OpKind Super)
open Verif.Walker (Cond Env)

/-! ## Merging two steps -/

/-- `MergePath::slice_from`, `merge_path.rs:171-175`: it panics if there is less. -/
def sliceFrom (p : MPath) (n : Nat) : Except Err MPath :=
  if n ≤ p.length then .ok (p.drop n) else .error .panic

/-- `starts_with`, `merge_path.rs:241-246`. -/
def startsWith (p q : MPath) : Bool := decide (p.take q.length = q)

/-- `is_fetching_multiple_types`, `fetch_step_data.rs:122-126`. -/
def multi (s : Step) : Bool := decide (1 < s.input.length) || decide (1 < s.output.length)

/-- The types of a segment. -/
def segTypes : Seg → List String
  | .type ns _ => ns
  | _ => []

/-- `type_condition_types_from_response_path`, `fetch_step_data.rs:130-149`. -/
def pathTypes (p : MPath) : List String := p.flatMap segTypes

/-- `scope_condition_to_output`, `fetch_step_data.rs:157-175`. -/
def scopeCond (byType : Bool) (s : Step) : Step :=
  if s.cond = (none, none) then s
  else { s with
    cond := (none, none)
    output := if byType && !(pathTypes s.path).isEmpty then wrapFor s.cond (pathTypes s.path) s.output
      else wrap s.cond s.output }

/-- `scope_fetch_conditions_before_merge`, `fetch_step_data.rs:177-203`: target and source. -/
def scopeBoth (t s : Step) : Step × Step :=
  if t.entity then
    let byType := multi t || multi s
    let t := if t.cond ≠ (none, none) && multi t && !(pathTypes t.path).isEmpty then scopeCond true t else t
    if t.cond = s.cond then (t, s) else (scopeCond byType t, scopeCond byType s)
  else (t, s)

/-- `lift_shared_output_condition_to_fetch`, `fetch_step_data.rs:205-213`. -/
def liftCond (s : Step) : Step :=
  if s.cond = (none, none) then
    match takeShared s.output with
    | some (c, o) => { s with cond := c, output := o }
    | none => s
  else s

/-- Is the condition that of the last segment, `utils.rs:53-57`. -/
def lastHas (c : Cond) (p : MPath) : Bool :=
  match p.getLast? with
  | some s => segHas c s
  | none => false

/-- `merge_source_condition_into_non_entity_target`, `utils.rs:26-64`. -/
def condIntoTarget (t s : Step) : Except Err (Option Step) :=
  if s.cond = (none, none) || t.entity then .ok none
  else
    match migrate s.input [] s.output with
    | .error e => .error e
    | .ok o => .ok (some { s with output := if lastHas s.cond s.path then o else wrap s.cond o })

/-- The steps before their outputs are merged, `utils.rs:83-86`. -/
def scopeSteps (t s : Step) : Except Err (Step × Step) :=
  match condIntoTarget t s with
  | .error e => .error e
  | .ok (some s) => .ok (t, s)
  | .ok none => .ok (scopeBoth t s)

/-- The merge of the inputs, `utils.rs:114-131`. -/
def mergeInputs (force : Bool) (t s : Step) : Except Err Selections :=
  if force then migrate s.input [] t.input
  else if sameTypes t.input s.input then
    if t.path = s.path then migrate s.input [] t.input else .error .mismatchedPath
  else .ok t.input

/-- What the target becomes, `utils.rs:83-136`. -/
def mergeSteps (force : Bool) (t s : Step) : Except Err Step :=
  match scopeSteps t s with
  | .error e => .error e
  | .ok (t, s) =>
    match sliceFrom s.path t.path.length with
    | .error e => .error e
    | .ok path =>
      match safeMigrate (t.forRequires, s.forRequires) s.output path t.output with
      | .error e => .error e
      | .ok (o, al) =>
        match mergeInputs force t s with
        | .error e => .error e
        | .ok i =>
          .ok (liftCond { s.rewrites.foldl (fun t r => addRewrite r t) t with
            input := i, output := o, aliases := t.aliases ++ al })

/-- `remove_step`. -/
def Graph.remove (g : Graph) (n : Nat) : Graph :=
  { g with steps := g.steps.set n none, edges := g.edges.filter fun e => e.1 != n && e.2 != n }

/-- The edges after a merge, `utils.rs:138-163`. -/
def rewire (t s : Nat) (g : Graph) : Graph :=
  let cs := g.children s
  let ps := (g.parents s).filter (· != t)
  (ps.foldl (fun g p => g.connect p t) (cs.foldl (fun g c => g.connect t c) g)).remove s

/-- `get_pair_of_steps_mut`, `fetch_graph.rs:202-231`. -/
def getPair (g : Graph) (a b : Nat) : Except Err (Step × Step) :=
  if a = b then .error .sameIndex
  else
    match g.get a, g.get b with
    | .error e, _ => .error e
    | _, .error e => .error e
    | .ok x, .ok y => .ok (x, y)

/-- `perform_fetch_step_merge`, `utils.rs:66-166`. -/
def performMerge (force : Bool) (t s : Nat) (g : Graph) : Except Err Graph :=
  match getPair g t s with
  | .error e => .error e
  | .ok (x, y) =>
    match mergeSteps force x y with
    | .error e => .error e
    | .ok z => .ok (rewire t s (g.set t z))

/-- `has_arguments_conflicts_with`, `utils.rs:272-288`. -/
def conflicts (a b : Step) : Bool :=
  a.input.any fun x => b.input.any fun y => x.1 == y.1 && argConflicts x.2 y.2

/-- `can_merge`, `utils.rs:216-270`. -/
def canMerge (g : Graph) (a b : Nat) : Bool :=
  match g.get a, g.get b with
  | .ok x, .ok y =>
    a != b && x.service == y.service && !(x.entity && y.entity && decide (x.cond ≠ y.cond)) &&
      (if x.entity && y.entity then decide (x.path = y.path) else startsWith y.path x.path) &&
      !conflicts x y &&
      (decide (g.parents b = [a]) || (g.parents a).all fun p => (g.parents b).contains p)
  | _, _ => false

/-! ## Passes that go down from the root -/

/-- `HashMap<NodeIndex, NodeIndex>`. -/
abbrev Rep := List (Nat × Nat)

/-- Merge the pairs that were found, `merge_passthrough_child.rs:69-85`,
`merge_children_with_parents.rs:57-73`, `merge_siblings.rs:88-111`. -/
def runMerges (merge : Nat → Nat → Graph → Except Err Graph) :
    List (Nat × Nat) → Rep → Graph → Except Err (Rep × Graph)
  | [], rep, g => .ok (rep, g)
  | (a, b) :: r, rep, g =>
    match rep.lookup a, rep.lookup b with
    | some a', some b' =>
      match merge a' b' g with
      | .error e => .error e
      | .ok g => runMerges merge r ((b', a') :: rep) g
    | _, _ => .error .indexLost

/-- The loop of `merge_passthrough_child`, `merge_passthrough_child.rs:37-88`, and of
`merge_children_with_parents`, `merge_children_with_parents.rs:24-74`. -/
def downLoop (can : Graph → Nat → Nat → Bool) (merge : Nat → Nat → Graph → Except Err Graph) :
    Nat → List Nat → Rep → Graph → Except Err Graph
  | 0, _, _, _ => .error .fuel
  | _ + 1, [], _, g => .ok g
  | n + 1, p :: q, rep, g =>
    match rep.lookup p with
    | none => .error .indexLost
    | some p =>
      match g.get p with
      | .error e => .error e
      | .ok _ =>
        let cs := g.children p
        let pairs := (cs.filter (can g p)).map fun c => (p, c)
        match runMerges merge pairs ((cs.map fun c => (c, c)) ++ (p, p) :: rep) g with
        | .error e => .error e
        | .ok (rep, g) => downLoop can merge n (q ++ cs) rep g

/-- `self.root_index.ok_or(..)`. -/
def Graph.start (g : Graph) : Except Err Nat :=
  match g.root with
  | some r => .ok r
  | none => .error (.nonSingleRoot 0)

/-- `can_merge_passthrough_child`, `merge_passthrough_child.rs:93-134`. -/
def canPass (g : Graph) (a b : Nat) : Bool :=
  match g.get b with
  | .ok y =>
    a != b && !y.forType && decide (g.parents b = [a]) &&
      y.output.any fun o => y.input.any fun i => i.1 == o.1 && subsetItems i.2 o.2
  | .error _ => false

/-- `perform_passthrough_child_merge`, `merge_passthrough_child.rs:137-191`. -/
def passMerge (t s : Nat) (g : Graph) : Except Err Graph :=
  match getPair g t s with
  | .error e => .error e
  | .ok (x, y) =>
    match sliceFrom y.path x.path.length with
    | .error e => .error e
    | .ok path =>
      match migrate y.output path x.output with
      | .error e => .error e
      | .ok o => .ok (rewire t s (g.set t { x with output := o }))

/-- `merge_passthrough_child`, `merge_passthrough_child.rs:25-91`. -/
def mergePassthrough (fuel : Nat) (g : Graph) : Except Err Graph :=
  match g.start with
  | .error e => .error e
  | .ok r => downLoop canPass passMerge fuel [r] [(r, r)] g

/-- `merge_children_with_parents`, `merge_children_with_parents.rs:13-77`. -/
def mergeChildren (fuel : Nat) (g : Graph) : Except Err Graph :=
  match g.start with
  | .error e => .error e
  | .ok r => downLoop canMerge (performMerge false) fuel [r] [(r, r)] g

/-! ## Siblings -/

/-- The order of `Option<usize>`. -/
def posLe : Option Nat → Option Nat → Bool
  | none, _ => true
  | some _, none => false
  | some a, some b => decide (a ≤ b)

/-- One step of a stable sort. -/
def insertPos {α : Type} (key : α → Option Nat) (x : α) : List α → List α
  | [] => [x]
  | y :: r => if posLe (key x) (key y) then x :: y :: r else y :: insertPos key x r

/-- `sort_by_key`: stable. -/
def sortPos {α : Type} (key : α → Option Nat) : List α → List α
  | [] => []
  | x :: r => insertPos key x (sortPos key r)

/-- The position of a step. -/
def Graph.pos (g : Graph) (n : Nat) : Option Nat :=
  match g.get n with
  | .ok s => s.pos
  | .error _ => none

/-- `is_ancestor_or_descendant`, `fetch_graph.rs:100-103`. -/
def related (g : Graph) (a b : Nat) : Bool := (g.reach a).contains b || (g.reach b).contains a

/-- May positions be merged, `merge_siblings.rs:124-135`. -/
def posNear : Option Nat → Option Nat → Bool
  | some i, some j => i == j || i + 1 == j || j + 1 == i
  | _, _ => true

/-- `can_merge_siblings`, `merge_siblings.rs:113-143`. -/
def canSiblings (g : Graph) (a b : Nat) : Bool :=
  posNear (g.pos a) (g.pos b) && !related g a b && canMerge g a b

/-- For each sibling the first later one it can be merged with, `merge_siblings.rs:53-86`. -/
def siblingPairs (g : Graph) : List Nat → List (Nat × Nat)
  | [] => []
  | a :: r =>
    match r.find? (canSiblings g a) with
    | some b => (a, b) :: siblingPairs g r
    | none => siblingPairs g r

/-- Both of every pair, `merge_siblings.rs:76-78`. -/
def repOf (pairs : List (Nat × Nat)) : Rep := pairs.flatMap fun p => [(p.1, p.1), (p.2, p.2)]

/-- The loop of `merge_siblings`, `merge_siblings.rs:22-111`. -/
def siblingLoop : Nat → List Nat → Graph → Except Err Graph
  | 0, _, _ => .error .fuel
  | _ + 1, [], g => .ok g
  | n + 1, p :: q, g =>
    let cs := sortPos g.pos (g.children p)
    match runMerges (performMerge false) (siblingPairs g cs) (repOf (siblingPairs g cs)) g with
    | .error e => .error e
    | .ok (_, g) => siblingLoop n (q ++ cs) g

/-- `merge_siblings`, `merge_siblings.rs:13-113`. -/
def mergeSiblings (fuel : Nat) (g : Graph) : Except Err Graph :=
  match g.start with
  | .error e => .error e
  | .ok r => siblingLoop fuel [r] g

/-! ## Leafs -/

/-- `can_merge_leafs`, `merge_leafs.rs:9-61`. -/
def canLeafs (g : Graph) (a b : Nat) : Bool :=
  match g.get a, g.get b with
  | .ok x, .ok y =>
    a != b && x.service == y.service && decide (x.path = y.path) && sameTypes x.input y.input &&
      decide (x.cond = y.cond) && decide (x.pos = y.pos) && (g.children b).isEmpty &&
      !(g.reach a).contains b && !conflicts x y
  | _, _ => false

/-- The nodes that are not the root, `merge_leafs.rs:78-82`. -/
def Graph.others (g : Graph) : List Nat := g.indices.filter fun n => g.root != some n

/-- `find_merge_candidate`, `merge_leafs.rs:77-102`. -/
def findLeaf (g : Graph) : Option (Nat × Nat) :=
  g.others.findSome? fun a => (g.others.find? (canLeafs g a)).map fun b => (a, b)

/-- `merge_leafs`, `merge_leafs.rs:64-75`. -/
def mergeLeafs : Nat → Graph → Except Err Graph
  | 0, _ => .error .fuel
  | n + 1, g =>
    match findLeaf g with
    | none => .ok g
    | some (a, b) =>
      match performMerge false a b g with
      | .error e => .error e
      | .ok g => mergeLeafs n g

/-! ## Pruning -/

/-- May a step be removed, `deduplicate_and_prune_fetch_steps.rs:25-41`. -/
def useless (g : Graph) (n : Nat) : Bool :=
  match g.get n with
  | .ok s => (Selections.none s.output || (g.parents n).isEmpty) && (g.children n).isEmpty
  | .error _ => false

/-- The nodes from which one can be reached. -/
def Graph.upN (g : Graph) : Nat → List Nat → List Nat
  | 0, l => l
  | n + 1, l => g.upN n ((l ++ l.flatMap g.parents).eraseDups)

/-- `is_reachable_via_alternative_upstream_path`, `utils.rs:168-213`. -/
def detour (g : Graph) (child parent : Nat) : Bool :=
  (g.upN g.steps.length ((g.parents child).filter (· != parent))).contains parent

/-- `deduplicate_and_prune_fetch_steps`, `deduplicate_and_prune_fetch_steps.rs:22-71`. -/
def prune (g : Graph) : Graph :=
  let g := (g.indices.filter (useless g)).foldl Graph.remove g
  { g with edges := g.edges.filter fun e => !detour g e.2 e.1 }

/-! ## Batches of several types -/

/-- Is a segment a type condition. -/
def isType : Seg → Bool
  | .type _ _ => true
  | _ => false

/-- `without_type_castings`, `merge_path.rs:248-257`. -/
def noTypes (p : MPath) : MPath := p.filter fun s => !isType s

/-- The condition of a type condition. -/
def typeCond : Seg → Option Cond
  | .type _ c => some c
  | _ => none

/-- `can_be_batched_with`, `batch_multi_type.rs:415-488`. -/
def canBatch (a b : Step) : Bool :=
  a.entity && b.entity && a.service == b.service && decide (noTypes a.path = noTypes b.path) &&
    decide (a.path.length = b.path.length) && decide (a.path.map isType = b.path.map isType) &&
    decide (a.path.map typeCond = b.path.map typeCond) && !conflicts a b && a.forRequires == b.forRequires

/-- The types siblings ask for at a place: the path without types, the number of segments before it that are
not types, and the types. `requested_type_condition_types_by_position`,
`batch_multi_type.rs:162-217`. -/
abbrev Requested := List (MPath × Nat × List String)

/-- The places of a path, `batch_multi_type.rs:185-212`. -/
def places (key : MPath) : Nat → List String → MPath → Requested
  | i, pending, [] => if pending.isEmpty then [] else [(key, i, pending)]
  | i, pending, .type ns _ :: p => places key i (pending ++ ns) p
  | i, pending, _ :: p =>
    if pending.isEmpty then places key (i + 1) [] p else (key, i, pending) :: places key (i + 1) [] p

/-- All siblings together. -/
def requested (g : Graph) (siblings : List Nat) : Requested :=
  siblings.flatMap fun n =>
    match g.get n with
    | .ok s => places (noTypes s.path) 0 [] s.path
    | .error _ => []

/-- The types asked for at a place. -/
def requestedAt (rq : Requested) (key : MPath) (i : Nat) : List String :=
  (rq.filter fun x => x.1 == key && x.2.1 == i).flatMap (·.2.2)

/-- A set of names, in order. -/
def insertName (n : String) : List String → List String
  | [] => [n]
  | m :: r => if n < m then n :: m :: r else if n = m then m :: r else m :: insertName n r

/-- A `BTreeSet`. -/
def nameSet (l : List String) : List String := l.foldr insertName []

/-- `merged_type_condition_segment`, `batch_multi_type.rs:262-316`. -/
def mergedType (rq : Requested) (key : MPath) (i : Nat) (mine theirs : Option (List String)) : MPath :=
  match mine, theirs with
  | some a, some b =>
    if nameSet (a ++ b) = [] then []
    else if nameSet a = nameSet b then [.type (nameSet (a ++ b)) (none, none)]
    else if nameSet (requestedAt rq key i) = nameSet (a ++ b) then []
    else [.type (nameSet (a ++ b)) (none, none)]
  | _, _ => []

/-- `consume_type_conditions`, `batch_multi_type.rs:246-260`. -/
def consume : MPath → Option (List String) × MPath
  | .type ns _ :: p => (some (ns ++ (consume p).1.getD []), (consume p).2)
  | p => (none, p)

/-- The loop of `merge_batched_response_paths`, `batch_multi_type.rs:333-385`; it ends with the paths. -/
def mergePathLoop (rq : Requested) (key : MPath) : Nat → Nat → MPath → MPath → Option MPath
  | 0, _, _, _ => none
  | n + 1, i, a, b =>
    let x := consume a
    let y := consume b
    match x.2, y.2 with
    | [], [] => some (mergedType rq key i x.1 y.1)
    | s :: a', t :: b' =>
      if s = t then (mergePathLoop rq key n (i + 1) a' b').map fun r => mergedType rq key i x.1 y.1 ++ s :: r
      else none
    | _, _ => none

/-- `merge_batched_response_paths`, `batch_multi_type.rs:220-388`. -/
def mergePaths (rq : Requested) (a b : MPath) : MPath :=
  if noTypes a = noTypes b then (mergePathLoop rq (noTypes a) (a.length + 1) 0 a b).getD a else a

/-- `declare_known_type` in a loop. -/
def declareAll (types : List String) (s : Selections) : Selections := types.foldl (fun s t => declareType t s) s

/-- The merged step afterwards, `batch_multi_type.rs:126-152`. -/
def afterBatch (path : MPath) (s : Step) : Step :=
  let s := { s with path := path }
  if multi s && decide (s.cond ≠ (none, none)) && !(pathTypes s.path).isEmpty then
    { s with output := wrapFor s.cond (pathTypes s.path) s.output, cond := (none, none) }
  else s

/-- One batch, `batch_multi_type.rs:94-158`. -/
def batchMerge (rq : Requested) (t s : Nat) (g : Graph) : Except Err (Option Graph) :=
  if t = s || related g t s then .ok none
  else
    match getPair g t s with
    | .error e => .error e
    | .ok (x, y) =>
      if canBatch x y then
        match performMerge true t s (g.set t { x with
            input := declareAll (y.input.map (·.1)) x.input
            output := declareAll (y.output.map (·.1)) x.output }) with
        | .error e => .error e
        | .ok g =>
          match g.modify t (fun z => .ok (afterBatch (mergePaths rq x.path y.path) z)) with
          | .error e => .error e
          | .ok g => .ok (some g)
      else .ok none

/-- The batches of siblings, `batch_multi_type.rs:81-158`. -/
def runBatches (rq : Requested) : List (Nat × Nat) → Rep → Graph → Except Err Graph
  | [], _, g => .ok g
  | (a, b) :: r, rep, g =>
    match rep.lookup a, rep.lookup b with
    | some a', some b' =>
      match batchMerge rq a' b' g with
      | .error e => .error e
      | .ok none => runBatches rq r rep g
      | .ok (some g) => runBatches rq r ((b', a') :: rep) g
    | _, _ => .error .indexLost

/-- Can two steps be batched. -/
def canBatchAt (g : Graph) (a b : Nat) : Bool :=
  match g.get a, g.get b with
  | .ok x, .ok y => canBatch x y
  | _, _ => false

/-- All pairs of siblings that can be batched, `batch_multi_type.rs:53-79`. -/
def batchPairs (g : Graph) : List Nat → List (Nat × Nat)
  | [] => []
  | a :: r => (r.filter (canBatchAt g a)).map (fun b => (a, b)) ++ batchPairs g r

/-- The loop of `batch_multi_type`, `batch_multi_type.rs:39-159`. -/
def batchLoop : Nat → List Nat → Graph → Except Err Graph
  | 0, _, _ => .error .fuel
  | _ + 1, [], g => .ok g
  | n + 1, p :: q, g =>
    let cs := g.children p
    match runBatches (requested g cs) (batchPairs g cs) (repOf (batchPairs g cs)) g with
    | .error e => .error e
    | .ok g => batchLoop n (q ++ cs) g

/-- `batch_multi_type`, `batch_multi_type.rs:32-162`. -/
def batchTypes (fuel : Nat) (g : Graph) : Except Err Graph :=
  match g.start with
  | .error e => .error e
  | .ok r => batchLoop fuel [r] g

/-! ## Normalizing -/

/-- `field_return_type_name`, `supergraph_state.rs:282-290`. -/
def fieldType (S : Super) (type field : String) : Option String :=
  if field = "__typename" then some "String"
  else
    match S.def? type with
    | none => none
    | some d => (d.fields.lookup field).map (·.typeName)

mutual
/-- One item: the item, or what is merged with the items before it, `normalize_selection_sets.rs:58-96`. -/
def normSel (S : Super) (type : String) : Sel → Except Err (Sel ⊕ List Sel)
  | .field f ss =>
    match fieldType S type f.name with
    | none => .error .internal
    | some t =>
      match normSels S t ss [] with
      | .error e => .error e
      | .ok ss => .ok (.inl (.field f ss))
  | .frag g ss =>
    match normSels S g.cond ss [] with
    | .error e => .error e
    | .ok ss =>
      if g.cond = type ∧ fragCond g = (none, none) then .ok (.inr ss) else .ok (.inl (.frag g ss))
  | .spread _ => .error .internal
/-- `normalize_selection_set`, `normalize_selection_sets.rs:49-101`. -/
def normSels (S : Super) (type : String) : List Sel → List Sel → Except Err (List Sel)
  | [], acc => .ok acc
  | x :: r, acc =>
    match normSel S type x with
    | .error e => .error e
    | .ok (.inl y) => normSels S type r (acc ++ [y])
    | .ok (.inr ys) => normSels S type r (mergeSels false ys acc)
end

/-- `normalize_step`, `normalize_selection_sets.rs:38-47`. -/
def normAll (S : Super) : Selections → Except Err Selections
  | [] => .ok []
  | (t, ss) :: r =>
    match normSels S t ss [], normAll S r with
    | .error e, _ => .error e
    | _, .error e => .error e
    | .ok ss, .ok r => .ok ((t, ss) :: r)

/-- The steps, one after another. -/
def normSteps (S : Super) : List (Option Step) → Except Err (List (Option Step))
  | [] => .ok []
  | none :: r => (normSteps S r).map (none :: ·)
  | some s :: r =>
    match normAll S s.output, normSteps S r with
    | .error e, _ => .error e
    | _, .error e => .error e
    | .ok o, .ok r => .ok (some { s with output := o } :: r)

/-- `normalize_selection_sets`, `normalize_selection_sets.rs:15-29`. -/
def normalize (S : Super) (g : Graph) : Except Err Graph :=
  match normSteps S g.steps with
  | .error e => .error e
  | .ok l => .ok { g with steps := l }

/-! ## The order of mutations -/

/-- The first root fields of mutations, `turn_mutations_into_sequence.rs:29-37`. -/
def withPos (g : Graph) : List Nat → Except Err (List (Nat × Nat))
  | [] => .ok []
  | n :: r =>
    match g.get n with
    | .error e => .error e
    | .ok s =>
      match s.pos, withPos g r with
      | none, _ => .error .noPosition
      | _, .error e => .error e
      | some i, .ok l => .ok ((n, i) :: l)

/-- The new edges, `turn_mutations_into_sequence.rs:41-51`. -/
def chain : List Nat → List (Nat × Nat)
  | a :: b :: r => (a, b) :: chain (b :: r)
  | _ => []

/-- `turn_mutations_into_sequence`, `turn_mutations_into_sequence.rs:14-66`. -/
def sequence (g : Graph) : Except Err Graph :=
  match g.start with
  | .error e => .error e
  | .ok root =>
    if g.kind ≠ .mutation then .ok g
    else
      match withPos g (g.children root) with
      | .error e => .error e
      | .ok l =>
        let order := (sortPos (fun x => some x.2) l).map (·.1)
        match order with
        | [] => .error .emptySteps
        | a :: _ =>
          .ok ((chain order).foldl (fun g e => g.connect e.1 e.2)
            ({ g with edges := g.edges.filter fun e => e.1 != root }.connect root a))

/-! ## Aliases -/

/-- The first field with the name and the arguments, `apply_internal_aliases_patching.rs:97-105`. -/
def patchFirst (name : String) (args : Args) (new : String) : List Sel → List Sel
  | [] => []
  | .field f ss :: r =>
    if f.name == name && decide (f.args = args) then
      .field { f with alias := some f.name, name := new } ss :: r
    else .field f ss :: patchFirst name args new r
  | x :: r => x :: patchFirst name args new r

/-- The first segment of the field, `apply_internal_aliases_patching.rs:123-152`. -/
def patchPath (name : String) (args : Args) (c : Cond) (new : String) : MPath → MPath
  | [] => []
  | .field n a b d :: r =>
    if n == name && decide (b = args) && decide (d = c) then .field new a b d :: r
    else .field n a b d :: patchPath name args c new r
  | s :: r => s :: patchPath name args c new r

/-- One alias in one step, `apply_internal_aliases_patching.rs:58-155`. -/
def patchStep (path : MPath) (new : String) (s : Step) : Except Err Step :=
  match sliceFrom s.path path.length with
  | .error e => .error e
  | .ok rel =>
    match path.getLast? with
    | some (.field name _ args c) =>
      match s.input.single with
      | none => .error .internal
      | some t =>
        match updateDef t (updateAt (fun ss => .ok (patchFirst name args new ss, ())) rel) s.input with
        | .ok i => .ok { s with input := i.1, path := patchPath name args c new s.path }
        | .error _ => .ok { s with path := patchPath name args c new s.path }
    | _ => .ok s

/-- All aliases in one step. -/
def patchAll : Aliases → Step → Except Err Step
  | [], s => .ok s
  | (p, n) :: r, s =>
    match patchStep p n s with
    | .error e => .error e
    | .ok s => patchAll r s

/-- The steps below one, `apply_internal_aliases_patching.rs:43-56`. -/
def patchBelow (al : Aliases) : List Nat → Graph → Except Err Graph
  | [], g => .ok g
  | n :: r, g =>
    match g.modify n (patchAll al) with
    | .error e => .error e
    | .ok g => patchBelow al r g

/-- The aliases of one step. -/
def patchFrom (n : Nat) : List (String × Aliases) → Graph → Except Err Graph
  | [], g => .ok g
  | (_, al) :: r, g =>
    match patchBelow al ((g.reach n).filter (· != n)) g with
    | .error e => .error e
    | .ok g => patchFrom n r g

/-- The aliases of all steps. -/
def patchNodes : List (Nat × List (String × Aliases)) → Graph → Except Err Graph
  | [], g => .ok g
  | (n, al) :: r, g =>
    match patchFrom n al g with
    | .error e => .error e
    | .ok g => patchNodes r g

/-- The aliases a step has made. -/
def Graph.aliases (g : Graph) (n : Nat) : List (String × Aliases) :=
  match g.get n with
  | .ok s => s.aliases
  | .error _ => []

/-- `apply_internal_aliases_patching`, `apply_internal_aliases_patching.rs:19-165`. -/
def patchAliases (g : Graph) : Except Err Graph :=
  patchNodes ((g.indices.reverse.map fun n => (n, g.aliases n)).filter fun x => !x.2.isEmpty) g

/-! ## All of them -/

/-- One round of `optimize`, `optimize/mod.rs:39-52`. -/
def round (S : Super) (fuel : Nat) (g : Graph) : Except Err Graph :=
  match mergePassthrough fuel g with
  | .error e => .error e
  | .ok g =>
    match mergeChildren fuel g with
    | .error e => .error e
    | .ok g =>
      match mergeSiblings fuel g with
      | .error e => .error e
      | .ok g =>
        match mergeLeafs fuel g with
        | .error e => .error e
        | .ok g =>
          match batchTypes fuel (prune g) with
          | .error e => .error e
          | .ok g => normalize S g

/-- The counts that are compared, `optimize/mod.rs:36-37, 53-54`. -/
def Graph.size (g : Graph) : Nat × Nat := (g.indices.length, g.edges.length)

/-- The loop of `optimize`, `optimize/mod.rs:33-60`. -/
def rounds (S : Super) (fuel : Nat) : Nat → Graph → Except Err Graph
  | 0, _ => .error .fuel
  | n + 1, g =>
    match round S fuel g with
    | .error e => .error e
    | .ok g' => if g.size = g'.size then .ok g' else rounds S fuel n g'

/-- `optimize`, `optimize/mod.rs:24-67`. -/
def optimize (S : Super) (fuel : Nat) (g : Graph) : Except Err Graph :=
  match rounds S fuel fuel g with
  | .error e => .error e
  | .ok g =>
    match sequence g with
    | .error e => .error e
    | .ok g => patchAliases g

end Verif.Fetch
