import Verif.Graph.Super

/-!
# Finding the ways to resolve an operation

Models `query_planner/planner/walker/{mod,pathfinder,path,best_path,excluded,utils}.rs`: for each leaf of
an operation, the walks through the graph of moves that resolve it.

Simplifications, for the whole file:
* costs are natural numbers (the code adds `u64` values);
* the cancellation token is left out: it can only turn an answer into an error;
* a requirement tree is the list of the paths it is made of (`QueryTreeNode::from_paths`, modelled in
  `Verif.Best`);
* loops and recursions that the code bounds only by its data take a number of steps, and `Err.fuel` says
  that they would go on; `Verif.Walker.Props` shows that they never do;
* sets are lists, and where the code looks things up in a set the order does not matter.
-/

namespace Verif.Walker

open Verif.Graph
open Verif.Overrides (Context)

/-! ## Paths -/

/-- `UnionContext`, `path.rs:43-50`. -/
structure UnionCtx where
  typeName : String
  fieldName : String
  graph : String
  member : String
  members : List String

/-- `SelectionAttributes`, `path.rs:18-23`. -/
abbrev Attrs := Option String × Option (List (String × Lit))

/-- `Option<Condition>`, `ast/merge_path.rs:51-56, 87-127`: the variables of `@skip` and `@include`. -/
abbrev Cond := Option String × Option String

/-- `PathSegment`, `path.rs:31-41`, with the paths of its requirement tree. -/
structure Seg (α : Type) where
  edge : Nat
  tail : Nat
  cost : Nat
  reqs : List α
  attrs : Option Attrs
  cond : Cond

/-- `OperationPath`, `path.rs:86-95`, with its segments from the first to the last (`get_segments`). -/
inductive Path where
  | mk (root : Nat) (segs : List (Seg Path)) (cost : Nat) (union : Option UnionCtx)

namespace Path

/-- `root_node`. -/
def root : Path → Nat
  | .mk r _ _ _ => r
/-- `get_segments`, `path.rs:222-232`. -/
def segs : Path → List (Seg Path)
  | .mk _ s _ _ => s
/-- `cost`. -/
def cost : Path → Nat
  | .mk _ _ c _ => c
/-- `union_context`. -/
def union : Path → Option UnionCtx
  | .mk _ _ _ u => u

end Path

/-- The tail of a walk that starts in a node. -/
def endOf (root : Nat) (segs : List (Seg Path)) : Nat :=
  match segs.getLast? with
  | none => root
  | some s => s.tail

/-- `OperationPath::tail`, `path.rs:216-220`. -/
def Path.tail (p : Path) : Nat := endOf p.root p.segs

/-- `NavigationTarget`, `pathfinder.rs:79-86`. -/
inductive Target where
  | field (f : FieldInfo) (sels : List Sel) (ids : Option (List String))
  | type (name : String) (cond : Cond)

/-- What the planner works with. -/
structure Env where
  G : Moves
  S : Super
  ctx : Context

/-- `WalkOperationError`, `error.rs`, a panic, or steps that do not end. -/
inductive Err where
  | graph | tailMissing | missingRoot | panic | fuel
  | typeNotFound (n : String)
  | fieldNotFound (f t : String)
  | noPaths (n : String)
  deriving DecidableEq

/-- `ExcludedFromLookup`, `excluded.rs:7-10`. -/
structure Excl where
  graphs : List String := []
  reqs : List Req := []

/-- `PathSegment::new_root`, `OperationPath::{new,new_entrypoint}`, `path.rs:72-84, 119-137`. -/
def entryPath (e : Edge) : Path :=
  .mk e.src [⟨e.id, e.dst, e.weight.cost, [], none, (none, none)⟩] e.weight.cost none

/-- The attributes and the condition of a step to a target, `path.rs:156-166`. -/
def Target.attrs : Target → Option Attrs
  | .field f _ _ => some (f.alias, f.args)
  | .type _ _ => none

/-- See `Target.attrs`. -/
def Target.cond : Target → Cond
  | .field f _ _ => (f.skipIf, f.includeIf)
  | .type _ c => c

/-- The union context after a step, `path.rs:170-197`. -/
def unionAfter (G : Moves) (p : Path) (e : Edge) : Option UnionCtx :=
  match e.weight with
  | .field _ =>
    match G.node e.dst with
    | some n =>
      match n.union, n.graph with
      | some u, some g => some ⟨u.typeName, u.fieldName, g, u.member, u.members⟩
      | _, _ => none
    | none => none
  | .abstract t => p.union.map fun u => { u with member := t, members := [t] }
  | .entity _ _ _ => none
  | .ioType _ _ => none
  | .reentry _ _ _ => none
  | _ => p.union

/-- `advance`, `path.rs:139-205`. -/
def advance (G : Moves) (p : Path) (e : Edge) (reqs : List Path) (t : Target) : Path :=
  .mk p.root
    (p.segs ++ [⟨e.id, e.dst, p.cost + e.weight.cost, reqs, t.attrs, t.cond⟩])
    (p.cost + e.weight.cost) (unionAfter G p e)

/-- `can_resolve_union_member`, `path.rs:207-214`, at the start of `find_direct_paths` and
`find_indirect_paths`, `pathfinder.rs:185-190, 474-479`. -/
def Path.allows (p : Path) : Target → Bool
  | .field _ _ _ => true
  | .type n _ =>
    match p.union with
    | none => true
    | some u => u.members.contains n

/-- How many segments two paths share, `path.rs:287-298`. -/
def commonLen : List (Seg Path) → List (Seg Path) → Nat
  | a :: as, b :: bs => if a.edge = b.edge then commonLen as bs + 1 else 0
  | _, _ => 0

/-- `build_requirement_continuation_path`, `path.rs:283-344`. -/
def continuation (p q : Path) : Path :=
  let k := commonLen p.segs q.segs
  let last := (q.segs.take k).getLast?
  let root := match last with
    | none => p.root
    | some s => s.tail
  let offset := match last with
    | none => 0
    | some s => s.cost
  let segs := (q.segs.drop k).map fun s => { s with cost := s.cost - offset }
  .mk root segs ((segs.getLast?.map (·.cost)).getD 0) q.union

/-! ## The best paths -/

/-- One step of `find_best_paths`, `best_path.rs:18-28`. -/
def bestStep (acc : Nat × List Path) (p : Path) : Nat × List Path :=
  if acc.1 = 0 then (p.cost, [p])
  else if acc.1 = p.cost then (acc.1, acc.2 ++ [p])
  else if acc.1 > p.cost then (p.cost, [p])
  else acc

/-- `find_best_paths`, `best_path.rs:14-31`. -/
def findBest (ps : List Path) : List Path := (ps.foldl bestStep (0, [])).2

/-- `BestPathTracker`, `best_path.rs:7-12`: a `BTreeMap` from subgraphs to the best cost and paths. -/
abbrev Tracker := List (String × Nat × List Path)

/-- `BestPathTracker::add`, `best_path.rs:48-69`. -/
def addBest (g : String) (p : Path) : Tracker → Tracker
  | [] => [(g, p.cost, [p])]
  | (k, c, ps) :: r =>
    if g < k then (g, p.cost, [p]) :: (k, c, ps) :: r
    else if g = k then
      if p.cost < c then (k, p.cost, [p]) :: r
      else if p.cost = c then (k, c, ps ++ [p]) :: r
      else (k, c, ps) :: r
    else (k, c, ps) :: addBest g p r

/-- `BestPathTracker::add` with the look-up of the subgraph, `best_path.rs:41-72`. -/
def track (G : Moves) (p : Path) (t : Tracker) : Except Err Tracker :=
  match G.node p.tail with
  | none => .error .graph
  | some n =>
    match n.graph with
    | none => .error .panic
    | some g => .ok (addBest g p t)

/-- `add` in a loop. -/
def trackAll (G : Moves) : List Path → Tracker → Except Err Tracker
  | [], t => .ok t
  | p :: r, t =>
    match track G p t with
    | .error e => .error e
    | .ok t => trackAll G r t

/-- `get_best_paths`, `best_path.rs:74-79`. -/
def Tracker.best (t : Tracker) : List Path := t.flatMap fun x => x.2.2

/-! ## The check whether a requirement depends on what is being looked for -/

/-- `type_condition_matches`, `pathfinder.rs:150-163, 922-930`. -/
def typeMatches (S : Super) (current cond : String) : Bool :=
  current == cond || S.implementsIn current cond

/-- `same_field_identity`, `pathfinder.rs:932-934`; hashes of arguments are taken to be equal only for
equal arguments. -/
def sameField (f g : FieldInfo) : Bool := f.name == g.name && decide (f.args = g.args)

mutual
/-- `selection_items_overlap` for a field on the side of the target, `pathfinder.rs:977-986`; `k` compares
the selections below it. -/
def overlapField (S : Super) (cur : String) (f : FieldInfo) (k : List Sel → Bool) : Sel → Bool
  | .field g rs => sameField f g && k rs
  | .frag g rs => typeMatches S cur g.cond && overlapFieldAny S cur f k rs
  | .spread _ => false
/-- The `any` of `overlapField`. -/
def overlapFieldAny (S : Super) (cur : String) (f : FieldInfo) (k : List Sel → Bool) : List Sel → Bool
  | [] => false
  | r :: rs => overlapField S cur f k r || overlapFieldAny S cur f k rs
end

mutual
/-- `selection_items_overlap`, `pathfinder.rs:973-1005`, target first. (For two fields the code swaps the
sides; the function is symmetric.) -/
def overlap (S : Super) (cur : String) : Sel → Sel → Bool
  | .field f ts, r => overlapField S cur f (fun rs => ts.isEmpty || rs.isEmpty || overlapAny S cur ts rs) r
  | .frag g ts, .field f rs => typeMatches S cur g.cond && overlapAny S cur ts [.field f rs]
  | .frag g ts, .frag h rs =>
    typeMatches S cur g.cond && typeMatches S cur h.cond &&
      (ts.isEmpty || rs.isEmpty || overlapAny S cur ts rs)
  | .frag _ _, .spread _ => false
  | .spread _, _ => false
/-- The `any`s of `selection_sets_overlap`, `pathfinder.rs:965-970`. -/
def overlapAny (S : Super) (cur : String) : List Sel → List Sel → Bool
  | [], _ => false
  | t :: ts, rs => rs.any (overlap S cur t) || overlapAny S cur ts rs
end

/-- `selection_sets_overlap`, `pathfinder.rs:961-971`. -/
def setsOverlap (S : Super) (cur : String) (req target : List Sel) : Bool :=
  target.isEmpty || req.isEmpty || overlapAny S cur target req

mutual
/-- `requirement_item_depends_on_target_field`, `pathfinder.rs:936-959`. -/
def dependsItem (S : Super) (cur : String) (f : FieldInfo) (ts : List Sel) : Sel → Bool
  | .field g rs => sameField f g && setsOverlap S cur rs ts
  | .frag g rs => typeMatches S cur g.cond && dependsAny S cur f ts rs
  | .spread _ => false
/-- The `any` over items. -/
def dependsAny (S : Super) (cur : String) (f : FieldInfo) (ts : List Sel) : List Sel → Bool
  | [] => false
  | r :: rs => dependsItem S cur f ts r || dependsAny S cur f ts rs
end

/-- `requirements_depend_on_target_field`, `pathfinder.rs:907-920`, where it is called
(`pathfinder.rs:254-267`). -/
def dependsOnTarget (S : Super) (cur : String) (w : Weight) : Target → Bool
  | .type _ _ => false
  | .field f ts _ =>
    match w.requires with
    | none => false
    | some r => typeMatches S cur r.typeName && dependsAny S cur f ts r.items

/-! ## Searching -/

/-- The check of an edge at the end of a path: `none`, or the paths to what it requires. -/
abbrev Sat := Edge → Path → Excl → Except Err (Option (List Path))

/-- A loop that keeps what is found. -/
def collect {α β : Type} (f : α → Except Err (Option β)) : List α → Except Err (List β)
  | [] => .ok []
  | x :: r =>
    match f x with
    | .error e => .error e
    | .ok o =>
      match collect f r with
      | .error e => .error e
      | .ok l => .ok (o.toList ++ l)

/-- `try_advance_direct_path`, `pathfinder.rs:374-411`. -/
def tryAdvance (G : Moves) (sat : Sat) (p : Path) (t : Target) (e : Edge) : Except Err (Option Path) :=
  match sat e p {} with
  | .error x => .error x
  | .ok none => .ok none
  | .ok (some rs) => .ok (some (advance G p e rs t))

/-- Does an edge lead to the target, `pathfinder.rs:481-497`. -/
def leadsTo (t : Target) (e : Edge) : Bool :=
  match t, e.weight with
  | .field f _ _, .field m => m.name == f.name
  | .field f _ _, .reentry n _ _ => n == f.name
  | .type n _, .abstract m => m == n
  | .type n _, .ioType m _ => m == n
  | _, _ => false

/-- `find_direct_paths`, `pathfinder.rs:465-511`. -/
def findDirect (G : Moves) (sat : Sat) (p : Path) (t : Target) : Except Err (List Path) :=
  if p.allows t then collect (tryAdvance G sat p t) ((G.edgesFrom p.tail).filter (leadsTo t))
  else .ok []

/-- An entry of `IndirectPathsLookupQueue`, `pathfinder.rs:33-39`. -/
structure Item where
  visited : List String
  keys : List Req
  path : Path

/-- `matches!(e.weight(), EntityMove | InterfaceObjectTypeMove)`, `pathfinder.rs:206-211`. -/
def isHop (e : Edge) : Bool :=
  match e.weight with
  | .entity _ _ _ => true
  | .ioType _ _ => true
  | _ => false

/-- `Edge::InterfaceObjectTypeMove`. -/
def isIoType (e : Edge) : Bool :=
  match e.weight with
  | .ioType _ _ => true
  | _ => false

/-- `target_subgraph_ids` of a target, `pathfinder.rs:221-227`. -/
def Target.within : Target → String → Bool
  | .field _ _ (some ids), g => ids.contains g
  | _, _ => true

/-- The reasons to leave an edge out, `pathfinder.rs:221-290`. `cur` and `source` are the type and the
subgraph of the node the search began in, `g` the subgraph the edge leads to. -/
def skipEdge (S : Super) (cur source : String) (t : Target) (it : Item) (g : String) (e : Edge) : Bool :=
  !t.within g || it.visited.contains g || (g == source && !isIoType e) ||
  dependsOnTarget S cur e.weight t ||
  (match e.weight.requires with
    | some r => it.keys.any (·.eqb r)
    | none => false)

/-- The loop over the edges of `find_indirect_paths`, `pathfinder.rs:213-356`. The queue is a stack. -/
def expand (G : Moves) (S : Super) (sat : Sat) (cur source : String) (t : Target) (it : Item) :
    List Edge → Tracker → List Item → Except Err (Tracker × List Item)
  | [], tr, q => .ok (tr, q)
  | e :: es, tr, q =>
    match G.node e.dst with
    | none => .error .graph
    | some n =>
      match n.graph with
      | none => .error .panic
      | some g =>
        if skipEdge S cur source t it g e then expand G S sat cur source t it es tr q
        else
          match sat e it.path ⟨g :: it.visited, it.keys⟩ with
          | .error x => .error x
          | .ok none => expand G S sat cur source t it es tr q
          | .ok (some rs) =>
            match findDirect G sat (advance G it.path e rs t) t with
            | .error x => .error x
            | .ok [] =>
              expand G S sat cur source t it es tr
                (⟨g :: it.visited, e.weight.requires.toList ++ it.keys, advance G it.path e rs t⟩ :: q)
            | .ok (d :: ds) =>
              match trackAll G (d :: ds) tr with
              | .error x => .error x
              | .ok tr => expand G S sat cur source t it es tr q

/-- The loop over the queue, `pathfinder.rs:192-357`. (The keys of `seen` also hold the target, which does
not change.) -/
def indirectLoop (G : Moves) (S : Super) (sat : Sat) (cur source : String) (t : Target) :
    Nat → List Item → List Nat → Tracker → Except Err Tracker
  | 0, _, _, _ => .error .fuel
  | _ + 1, [], _, tr => .ok tr
  | n + 1, it :: q, seen, tr =>
    if seen.contains it.path.tail then indirectLoop G S sat cur source t n q seen tr
    else
      match expand G S sat cur source t it ((G.edgesFrom it.path.tail).filter isHop) tr q with
      | .error x => .error x
      | .ok (tr, q) => indirectLoop G S sat cur source t n q (it.path.tail :: seen) tr

/-- `find_indirect_paths`, `pathfinder.rs:165-370`. -/
def findIndirect (G : Moves) (S : Super) (sat : Sat) (p : Path) (t : Target) (ex : Excl) :
    Except Err (List Path) :=
  match G.node p.tail with
  | none => .error .graph
  | some n =>
    match n.graph with
    | none => .error .tailMissing
    | some source =>
      if p.allows t then
        match indirectLoop G S sat n.name source t (G.edges.length + 2) [⟨ex.graphs, ex.reqs, p⟩] [] [] with
        | .error x => .error x
        | .ok tr => .ok tr.best
      else .ok []

/-- `field_target_subgraph_ids`, `mod.rs:758-793`; the ids of all the types the paths end in. -/
def idsOf (S : Super) (f : FieldInfo) (type : String) : List String :=
  match S.def? type with
  | none => []
  | some d =>
    match d.fields.lookup f.name with
    | none => []
    | some fd => (fd.resolvableIn d).filterMap S.graphName

/-- The names of the types the paths end in, `mod.rs:764-769`. -/
def tailNames (G : Moves) : List Path → Except Err (List String)
  | [] => .ok []
  | p :: r =>
    match G.node p.tail with
    | none => .error .graph
    | some n =>
      match tailNames G r with
      | .error e => .error e
      | .ok l => .ok (n.name :: l)

/-- `field_target_subgraph_ids`, `mod.rs:758-793`. -/
def targetIds (G : Moves) (S : Super) (f : FieldInfo) (ps : List Path) : Except Err (Option (List String)) :=
  match tailNames G ps with
  | .error e => .error e
  | .ok names =>
    match names.flatMap (idsOf S f) with
    | [] => .ok none
    | ids => .ok (some ids)

/-- The loops over the paths of a requirement: the direct and the indirect results of all of them. -/
def eachPath (f : Path → Except Err (List Path × List Path)) :
    List Path → Except Err (List Path × List Path)
  | [] => .ok ([], [])
  | p :: r =>
    match f p with
    | .error e => .error e
    | .ok (d, i) =>
      match eachPath f r with
      | .error e => .error e
      | .ok (ds, is) => .ok (d ++ ds, i ++ is)

/-- What `validate_field_requirement` finds from one path, `pathfinder.rs:718-745`. -/
def fieldFrom (G : Moves) (S : Super) (sat : Sat) (ex : Excl) (direct : Bool) (f : FieldInfo)
    (ss : List Sel) (ids : Option (List String)) (p : Path) : Except Err (List Path × List Path) :=
  match findDirect G sat p (.field f ss none) with
  | .error e => .error e
  | .ok ds =>
    if !direct && !(!ds.isEmpty && ss.isEmpty) then
      match findIndirect G S sat p (.field f ss ids) ex with
      | .error e => .error e
      | .ok is => .ok (ds, is)
    else .ok (ds, [])

/-- `validate_field_requirement`, `pathfinder.rs:700-789`: the next paths. -/
def validateField (G : Moves) (S : Super) (sat : Sat) (ex : Excl) (direct : Bool) (f : FieldInfo)
    (ss : List Sel) (ps : List Path) : Except Err (Option (List Path)) :=
  match targetIds G S f ps with
  | .error e => .error e
  | .ok ids =>
    match eachPath (fieldFrom G S sat ex direct f ss ids) ps with
    | .error e => .error e
    | .ok (ds, is) => if (ds ++ is).isEmpty then .ok none else .ok (some (ds ++ is))

/-- What `validate_fragment_requirement` finds from one path, `pathfinder.rs:804-832`. The code looks for
all the direct paths before the indirect ones. -/
def fragFrom (G : Moves) (S : Super) (sat : Sat) (ex : Excl) (type : String) (p : Path) :
    Except Err (List Path × List Path) :=
  match G.node p.tail with
  | none => .error .graph
  | some n =>
    match (if typeMatches S n.name type then .ok [p] else findDirect G sat p (.type type (none, none))) with
    | .error e => .error e
    | .ok ds =>
      match findIndirect G S sat p (.type type (none, none)) ex with
      | .error e => .error e
      | .ok is => .ok (ds, is)

/-- `validate_fragment_requirement`, `pathfinder.rs:794-875`. -/
def validateFrag (G : Moves) (S : Super) (sat : Sat) (ex : Excl) (type : String) (ps : List Path) :
    Except Err (Option (List Path)) :=
  match eachPath (fragFrom G S sat ex type) ps with
  | .error e => .error e
  | .ok (ds, is) => if (ds ++ is).isEmpty then .ok none else .ok (some (ds ++ is))

/-- `MoveRequirement`, `pathfinder.rs:687-691`. -/
structure Need where
  paths : List Path
  sel : Sel

/-- The loop of `check_edge_requirements`, `pathfinder.rs:592-681`. The deque is read at its back, here the
head of the list, and added to at its front. -/
def reqLoop (G : Moves) (S : Super) (sat : Sat) (ex : Excl) (direct : Bool) (p : Path) :
    Nat → List Need → List Path → Except Err (Option (List Path))
  | 0, _, _ => .error .fuel
  | _ + 1, [], acc => .ok (some acc)
  | n + 1, nd :: q, acc =>
    match nd.sel with
    | .field f ss =>
      match validateField G S sat ex direct f ss nd.paths with
      | .error e => .error e
      | .ok none => .ok none
      | .ok (some next) =>
        reqLoop G S sat ex direct p n (q ++ (ss.map (⟨next, ·⟩)).reverse)
          (if ss.isEmpty then acc ++ (findBest next).map (continuation p) else acc)
    | .frag g ss =>
      match validateFrag G S sat ex g.cond nd.paths with
      | .error e => .error e
      | .ok none => .ok none
      | .ok (some next) => reqLoop G S sat ex direct p n (q ++ (ss.map (⟨next, ·⟩)).reverse) acc
    | .spread _ => reqLoop G S sat ex direct p n q acc

/-- The field obeys the override rules of the request, `pathfinder.rs:575-581`. -/
def overrideOk (ctx : Context) : Weight → Bool
  | .field f => Overrides.satisfies f.move ctx
  | _ => true

/-- `check_edge_requirements`, `pathfinder.rs:563-684`. -/
def checkReqs (env : Env) (sat : Sat) (direct : Bool) (e : Edge) (p : Path) (ex : Excl) :
    Except Err (Option (List Path)) :=
  if overrideOk env.ctx e.weight then
    match e.weight.requires with
    | none => .ok (some [])
    | some r =>
      reqLoop env.G env.S sat ex direct p (selsCost r.items + 1) (r.items.map (⟨[p], ·⟩)) []
  else .ok none

/-- `can_satisfy_edge`, `pathfinder.rs:538-561`. `active` is `active_edge_checks`, which every call leaves
as it was. The number bounds how deep the checks nest. Everything below the first check may use indirect
paths (`pathfinder.rs:300, 387`). -/
def canSatisfy (env : Env) : Nat → List (Nat × Nat) → Sat
  | 0, _, _, _, _ => .error .fuel
  | n + 1, active, e, p, ex =>
    if active.contains (p.tail, e.id) then .ok none
    else checkReqs env (canSatisfy env n ((p.tail, e.id) :: active)) false e p ex

/-- The check a new `PathSearch` makes, `pathfinder.rs:105-130`. -/
def sat (env : Env) : Sat := canSatisfy env (env.G.edges.length + 1) []

/-! ## Walking the operation -/

/-- What is still to be resolved, and from where; and the groups of paths to leaves. -/
abbrev Out := List (Sel × List Path) × List (List Path)

/-- `find_self_referencing_direct_path`, `pathfinder.rs:414-446`. -/
def firstSelfie (env : Env) (p : Path) (type : String) (cond : Cond) : List Edge → Except Err Path
  | [] => .error (.noPaths type)
  | e :: r =>
    match tryAdvance env.G (sat env) p (.type type cond) e with
    | .error x => .error x
    | .ok (some q) => .ok q
    | .ok none => firstSelfie env p type cond r

/-- The edges it tries, `pathfinder.rs:426-431`. -/
def isSelfie (type : String) (e : Edge) : Bool :=
  match e.weight with
  | .selfie t => t == type
  | _ => false

/-- `find_self_referencing_direct_path`, `pathfinder.rs:414-446`. -/
def selfie (env : Env) (type : String) (cond : Cond) (p : Path) : Except Err Path :=
  firstSelfie env p type cond ((env.G.edgesFrom p.tail).filter (isSelfie type))

/-- `for path in paths { next_paths.push(..?) }`. -/
def mapPaths (f : Path → Except Err (List Path)) : List Path → Except Err (List Path)
  | [] => .ok []
  | p :: r =>
    match f p with
    | .error e => .error e
    | .ok l =>
      match mapPaths f r with
      | .error e => .error e
      | .ok ls => .ok (l ++ ls)

/-- The paths onto a type condition from one path, `mod.rs:314-365`: at most one direct and one indirect. -/
def ontoFrom (env : Env) (g : FragInfo) (loc : List String) (p : Path) : Except Err (List Path) :=
  match findDirect env.G (sat env) p (.type g.cond (g.skipIf, g.includeIf)) with
  | .error e => .error e
  | .ok ds =>
    if loc.isEmpty then
      match findIndirect env.G env.S (sat env) p (.type g.cond (g.skipIf, g.includeIf)) {} with
      | .error e => .error e
      | .ok is => .ok (ds.take 1 ++ is.take 1)
    else .ok (ds.take 1)

/-- `FieldSelection::new_typename`, `ast/selection_set.rs:241-251`. -/
def typename : FieldInfo := { name := "__typename" }

/-- The direct paths to `__typename` when there is no way onto the type, `mod.rs:370-398`. -/
def typenameFrom (env : Env) (p : Path) : Except Err (List Path) :=
  match findDirect env.G (sat env) p (.field typename [] none) with
  | .error e => .error e
  | .ok [] => .error (.noPaths "__typename")
  | .ok (d :: ds) => .ok (d :: ds)

/-- The group of paths to `__typename`, `mod.rs:367-407`. -/
def onlyTypename (env : Env) (ps : List Path) : Except Err Out :=
  match mapPaths (typenameFrom env) ps with
  | .error e => .error e
  | .ok l =>
    match trackAll env.G l [] with
    | .error e => .error e
    | .ok tr =>
      if tr.best.isEmpty then .error (.noPaths "__typename") else .ok ([], [findBest tr.best])

/-- `process_inline_fragment`, `mod.rs:199-418`; `k` is `process_selection_set` on its selections. -/
def fragStep (env : Env) (g : FragInfo) (k : List Path → Except Err Out) (ps : List Path)
    (loc : List String) : Except Err Out :=
  match ps with
  | [] => .error .panic
  | p :: _ =>
    if p.segs.isEmpty then .error .panic
    else
      match env.G.node p.tail with
      | none => .error .graph
      | some (.root _ _) => .error .panic
      | some (.type name _ _ _) =>
        if name == g.cond then
          if g.includeIf.isNone && g.skipIf.isNone then k ps
          else
            match mapPaths (fun p =>
                match selfie env g.cond (g.skipIf, g.includeIf) p with
                | .error e => .error e
                | .ok q => .ok [q]) ps with
            | .error e => .error e
            | .ok next => k next
        else
          match mapPaths (ontoFrom env g loc) ps with
          | .error e => .error e
          | .ok [] => onlyTypename env ps
          | .ok (n :: next) => k (n :: next)

/-- The paths to a field from one path, `mod.rs:555-620`. -/
def fieldPaths (env : Env) (f : FieldInfo) (ss : List Sel) (loc : List String)
    (ids : Option (List String)) (p : Path) : Except Err (List Path) :=
  match findDirect env.G (sat env) p (.field f ss none) with
  | .error e => .error e
  | .ok ds =>
    if !loc.contains f.name && !(!ds.isEmpty && ss.isEmpty) then
      match findIndirect env.G env.S (sat env) p (.field f ss ids) {} with
      | .error e => .error e
      | .ok is => .ok (ds ++ is)
    else .ok ds

/-- The distinct subgraphs of the union contexts with their members, `mod.rs:457-472`. -/
def membersPerGraph : List UnionCtx → List (String × List String) → List (String × List String)
  | [], acc => acc
  | u :: r, acc =>
    membersPerGraph r (if acc.any (·.1 == u.graph) then acc else acc ++ [(u.graph, u.members)])

/-- `min_by_key`, `mod.rs:478-482`: the first of the least. -/
def leastMembers : List (String × List String) → List String → List String
  | [], m => m
  | x :: r, m => leastMembers r (if x.2.length < m.length then x.2 else m)

/-- `narrow_partial_union_paths`, `mod.rs:431-515`. -/
def narrow (ps : List Path) : List Path :=
  match ps with
  | [] => ps
  | [_] => ps
  | p :: _ =>
    match p.union with
    | none => ps
    | some u =>
      if ps.all (fun q => match q.union with
          | some v => v.typeName == u.typeName && v.fieldName == u.fieldName
          | none => false) then
        match membersPerGraph (ps.filterMap Path.union) [] with
        | [] => ps
        | [_] => ps
        | m :: ms =>
          let shared := (leastMembers ms m.2).filter fun x => (m :: ms).all (·.2.contains x)
          if shared.isEmpty then []
          else ps.filterMap fun q =>
            match q with
            | .mk root segs cost (some v) =>
              if shared.contains v.member then some (.mk root segs cost (some { v with members := shared }))
              else none
            | .mk _ _ _ none => none
      else ps

/-- The number of inline fragments in a selection, `mod.rs:673-679`. -/
def fragCount (ss : List Sel) : Nat :=
  (ss.filter fun s => match s with
    | .frag _ _ => true
    | _ => false).length

/-- `Graph::edge`, `graph/mod.rs:150-154`: an edge by its index. -/
def Moves.edge? (G : Moves) (id : Nat) : Option Edge := G.edges.find? (·.id == id)

/-- Is the last step of the path a field move, `mod.rs:630-644`. -/
def lastFieldMove (G : Moves) (p : Path) : Option Edge :=
  match p.segs.getLast? with
  | none => none
  | some s =>
    match Moves.edge? G s.edge with
    | some e =>
      match e.weight with
      | .field _ => some e
      | _ => none
    | none => none

/-- The fields to be resolved from a single path, `mod.rs:628-688`. A set's size is that of a list without
repetitions. -/
def localFields (env : Env) (f : FieldInfo) (ss : List Sel) (next : List Path) :
    Except Err (List String) :=
  if ss.isEmpty then .ok []
  else
    match next.findSome? (lastFieldMove env.G) with
    | none => .ok []
    | some e =>
      match env.G.node e.src, env.G.node e.dst with
      | some head, some tail =>
        match env.S.def? head.name with
        | none => .error (.typeNotFound head.name)
        | some parent =>
          match parent.fields.lookup f.name with
          | none => .error (.fieldNotFound f.name head.name)
          | some fd =>
            match env.S.def? tail.name with
            | none => .error (.typeNotFound tail.name)
            | some out =>
              if out.kind = .interface && decide ((fd.resolvableIn parent).eraseDups.length > 1) &&
                  decide (fragCount ss > 1) then .ok (out.fields.map (·.1))
              else .ok []
      | _, _ => .error .graph

/-- The candidates all children can be resolved from, `mod.rs:696-738`. -/
def filterPaths (f : Path → Except Err Bool) : List Path → Except Err (List Path)
  | [] => .ok []
  | p :: r =>
    match f p with
    | .error e => .error e
    | .ok b =>
      match filterPaths f r with
      | .error e => .error e
      | .ok l => .ok (if b then p :: l else l)

/-- The result of `process_field` for the paths found, `mod.rs:628-755`; `ok` says whether all children
can be resolved from a path with the fields to be resolved locally. -/
def fieldOut (env : Env) (f : FieldInfo) (ss : List Sel) (ok : Path → List String → Except Err Bool)
    (next : List Path) : Except Err Out :=
  match localFields env f ss next with
  | .error e => .error e
  | .ok loc =>
    match (if loc.isEmpty then .ok next else filterPaths (ok · loc) next) with
    | .error e => .error e
    | .ok next =>
      if ss.isEmpty then .ok ([], [findBest next])
      else if next.isEmpty then .error (.noPaths f.name)
      else .ok (ss.map ((·, next)), [])

/-- `process_field`, `mod.rs:521-756`. -/
def fieldStep (env : Env) (f : FieldInfo) (ss : List Sel) (ok : Path → List String → Except Err Bool)
    (ps : List Path) (loc : List String) : Except Err Out :=
  match (if !ps.isEmpty && !loc.contains f.name then targetIds env.G env.S f ps else .ok none) with
  | .error e => .error e
  | .ok ids =>
    match mapPaths (fieldPaths env f ss loc ids) ps with
    | .error e => .error e
    | .ok found =>
      match trackAll env.G found [] with
      | .error e => .error e
      | .ok tr =>
        match narrow tr.best with
        | [] => .error (.noPaths f.name)
        | n :: next => fieldOut env f ss ok (n :: next)

mutual
/-- `process_selection`, `mod.rs:107-158`. -/
def processSel (env : Env) : Sel → List Path → List String → Except Err Out
  | .field f ss, ps, loc => fieldStep env f ss (fun c l => childrenOk env ss c l) ps loc
  | .frag g ss, ps, loc => fragStep env g (fun qs => processSels env ss qs loc) ps loc
  | .spread _, _, _ => .ok ([], [])
/-- `process_selection_set`, `mod.rs:161-194`. -/
def processSels (env : Env) : List Sel → List Path → List String → Except Err Out
  | [], _, _ => .ok ([], [])
  | x :: r, ps, loc =>
    match processSel env x ps loc with
    | .error e => .error e
    | .ok (s, g) =>
      match processSels env r ps loc with
      | .error e => .error e
      | .ok (s', g') => .ok (s ++ s', g ++ g')
/-- The check of a candidate, `mod.rs:699-729`. Errors mean no, except for those that are not values of
the code. -/
def childrenOk (env : Env) : List Sel → Path → List String → Except Err Bool
  | [], _, _ => .ok true
  | x :: r, c, loc =>
    match processSel env x [c] loc with
    | .error .fuel => .error .fuel
    | .error .panic => .error .panic
    | .error _ => .ok false
    | .ok (s, g) => if g.isEmpty && s.isEmpty then .ok false else childrenOk env r c loc
end

/-- The loop of `walk_operation` for one root selection, `mod.rs:74-96`. -/
def walkLoop (env : Env) : Nat → List (Sel × List Path) → List (List Path) →
    Except Err (List (List Path))
  | 0, _, _ => .error .fuel
  | _ + 1, [], acc => .ok acc
  | n + 1, (x, ps) :: st, acc =>
    match processSel env x ps [] with
    | .error e => .error e
    | .ok (s, g) => walkLoop env n (s ++ st) (acc ++ g)

/-- `get_entrypoints`, `utils.rs:10-26`: edges are added in the order of their ids. -/
def entrypoints (G : Moves) (kind : OpKind) : Except Err (List Edge) :=
  match (match kind with
    | .query => some G.queryRoot
    | .mutation => G.mutationRoot
    | .subscription => G.subscriptionRoot) with
  | none => .error .missingRoot
  | some r => .ok (G.edges.filter (·.src == r))

/-- The loop of `walk_operation` over the root selections, `mod.rs:69-99`. -/
def walkRoots (env : Env) (start : List Path) : List Sel → Except Err (List (List (List Path)))
  | [] => .ok []
  | x :: r =>
    match walkLoop env (selCost x + 1) [(x, start)] [] with
    | .error e => .error e
    | .ok g =>
      match walkRoots env start r with
      | .error e => .error e
      | .ok gs => .ok (g :: gs)

/-- `walk_operation`, `mod.rs:49-105`: for each root selection, the groups of paths of its leaves. -/
def walk (env : Env) (kind : OpKind) (sels : List Sel) : Except Err (List (List (List Path))) :=
  match entrypoints env.G kind with
  | .error e => .error e
  | .ok es => walkRoots env (es.map entryPath) sels

end Verif.Walker
