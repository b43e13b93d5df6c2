import Verif.Walker.Model

/-!
# Selections of fetch steps

Models the operations on selection sets the fetch graph is made with: `query_planner/ast/selection_set.rs`
(`merge_selection_set`, `find_selection_set_by_path_mut`, `selection_items_are_subset_of`,
`find_arguments_conflicts`), `query_planner/ast/safe_merge.rs`, `query_planner/ast/merge_path.rs` and
`query_planner/planner/fetch/selections.rs`.

Simplifications, for the whole file:
* hashes of arguments are taken to be equal only for equal arguments;
* `find_selection_set_by_path_mut` and the change made to what it finds are one function;
* `BTreeMap` is an association list in the order of its keys.
-/

namespace Verif.Fetch

open Verif.Walker (Cond)

/-- `ArgumentsMap`, `ast/arguments.rs`. -/
abbrev Args := Option (List (String × Lit))

/-- `Segment`, `ast/merge_path.rs:130-136`. -/
inductive Seg where
  | field (name : String) (alias : Option String) (args : Args) (cond : Cond)
  | list
  | type (names : List String) (cond : Cond)
  deriving DecidableEq

/-- `MergePath`, `ast/merge_path.rs:161-164`. -/
abbrev MPath := List Seg

/-- `FetchGraphError`, `fetch/error.rs`, `FetchStepSelectionsError`, `selections.rs:21-27`; `panic` is a
panic, and `fuel` is a loop that would go on. -/
inductive Err where
  | missingStep (n : Nat)
  | nonSingleParent (n : Nat)
  | nonSingleRoot (n : Nat)
  | unexpectedMissingDefinition (t : String)
  | missingPath
  | mismatchedPath
  | indexNone
  | indexLost
  | sameIndex
  | missingRequires
  | expectedSubgraphType
  | noPosition
  | emptySteps
  | internal
  | panic
  | graph
  | walk
  | fuel
  deriving DecidableEq

/-! ## Merging -/

/-- The condition of a field, `merge_path.rs:87-99`. -/
def condOf (f : FieldInfo) : Cond := (f.skipIf, f.includeIf)

/-- The condition of a fragment, `merge_path.rs:115-127`. -/
def fragCond (g : FragInfo) : Cond := (g.skipIf, g.includeIf)

/-- `FieldSelection::arguments`, `selection_set.rs:287-298`. -/
def argsOf (f : FieldInfo) : Args :=
  match f.args with
  | some [] => none
  | a => a

/-- `PartialEq for FieldSelection`, `selection_set.rs:196-202`. -/
def sameField (f g : FieldInfo) : Bool :=
  f.name == g.name && decide (f.alias = g.alias) && decide (argsOf f = argsOf g)

/-- Do two items merge, `selection_set.rs:496-532`. -/
def matches' : Sel → Sel → Bool
  | .field f _, .field g _ => sameField f g && decide (condOf f = condOf g)
  | .frag f _, .frag g _ => f.cond == g.cond && decide (fragCond f = fragCond g)
  | _, _ => false

/-- `merge_field_omit_from_response`, `selection_set.rs:552-558`. -/
def mergeOmit (target source : FieldInfo) : FieldInfo :=
  if target.name = "__typename" then { target with omitted := target.omitted && source.omitted } else target

/-- Change the first item that fits. -/
def updateFirst (p : Sel → Bool) (u : Sel → Sel) : List Sel → Option (List Sel)
  | [] => none
  | x :: r => if p x then some (u x :: r) else (updateFirst p u r).map (x :: ·)

/-- What is merged into the selections of an item. -/
def onSels (h : FieldInfo → FieldInfo) (u : List Sel → List Sel) : Sel → Sel
  | .field f ss => .field (h f) (u ss)
  | .frag g ss => .frag g (u ss)
  | .spread n => .spread n

/-- Pending items go first or last, `selection_set.rs:543-549`. -/
def place (first : Bool) (r : List Sel × List Sel) : List Sel := if first then r.2 ++ r.1 else r.1 ++ r.2

mutual
/-- The search for an item to merge with, `selection_set.rs:493-535`. -/
def mergeSel (first : Bool) : Sel → List Sel → Option (List Sel)
  | .field f ss, ts =>
    updateFirst (matches' (.field f ss))
      (onSels (mergeOmit · f) fun us => place first (mergeLoop first ss us)) ts
  | .frag g ss, ts =>
    updateFirst (matches' (.frag g ss)) (onSels id fun us => place first (mergeLoop first ss us)) ts
  | .spread _, _ => none
/-- The loop over the source, `selection_set.rs:494-541`: the target and the pending items. -/
def mergeLoop (first : Bool) : List Sel → List Sel → List Sel × List Sel
  | [], ts => (ts, [])
  | s :: r, ts =>
    match mergeSel first s ts with
    | some ts' => mergeLoop first r ts'
    | none => ((mergeLoop first r ts).1, s :: (mergeLoop first r ts).2)
end

/-- `merge_selection_set`, `selection_set.rs:488-550`. -/
def mergeSels (first : Bool) (ss ts : List Sel) : List Sel := place first (mergeLoop first ss ts)

/-! ## Paths -/

/-- Change the first item that fits, if what is to be changed is found in it. -/
def updateIn {α : Type} (p : Sel → Bool) (u : List Sel → Except Err (List Sel × α)) :
    List Sel → Except Err (List Sel × α)
  | [] => .error .missingPath
  | x :: r =>
    if p x then
      match x with
      | .field f ss => (u ss).map fun y => (.field f y.1 :: r, y.2)
      | .frag g ss => (u ss).map fun y => (.frag g y.1 :: r, y.2)
      | .spread _ => .error .missingPath
    else (updateIn p u r).map fun y => (x :: y.1, y.2)

/-- Is an item the one a segment of a path leads to, `selection_set.rs:575-627`. -/
def fits : Seg → Sel → Bool
  | .field n a args c, .field f _ =>
    f.key == a.getD n && decide (f.args = args) && decide (condOf f = c)
  | .type ns c, .frag g _ => ns.contains g.cond && decide (fragCond g = c)
  | _, _ => false

/-- `find_selection_set_by_path_mut`, `selection_set.rs:560-631`, and a change of what is found. -/
def updateAt {α : Type} (u : List Sel → Except Err (List Sel × α)) :
    MPath → List Sel → Except Err (List Sel × α)
  | [], ss => u ss
  | .list :: p, ss => updateAt u p ss
  | s :: p, ss => updateIn (fits s) (updateAt u p) ss

/-! ## Comparing -/

mutual
/-- `selection_item_is_subset_of`, `selection_set.rs:467-486`. -/
def subsetItem : Sel → Sel → Bool
  | .field f ss, .field g ts =>
    f.name == g.name && (ss.isEmpty == ts.isEmpty) && ts.all fun t => subsetAny ss t
  | _, _ => false
/-- An item of the target is in the source. -/
def subsetAny : List Sel → Sel → Bool
  | [], _ => false
  | s :: r, t => subsetItem s t || subsetAny r t
end

/-- `selection_items_are_subset_of`, `selection_set.rs:459-465`: all items of the target are in the source. -/
def subsetItems (ss ts : List Sel) : Bool := ts.all fun t => subsetAny ss t

/-- Do two fields have the same response key and different arguments, `selection_set.rs:684-706`. -/
def argClash : Sel → Sel → Bool
  | .field f _, .field g _ => f.key == g.key && !decide (f.args = g.args)
  | _, _ => false

/-- `!find_arguments_conflicts(..).is_empty()`, `selection_set.rs:674-715`. -/
def argConflicts (source other : List Sel) : Bool :=
  other.any fun o => source.any fun s => argClash s o

/-! ## Safe merging -/

/-- What was renamed, `AliasesRecords`, `safe_merge.rs:33`. -/
abbrev Aliases := List (MPath × String)

/-- Is a name taken, `safe_merge.rs:41-43`. -/
def taken (a : String) : Sel → Bool
  | .field f _ => f.name == a || f.alias == some a
  | _ => false

/-- `format!("_internal_qp_alias_{}", ..)`, `safe_merge.rs:38`. -/
def aliasName (c : Nat) : String := "_internal_qp_alias_" ++ Nat.repr c

/-- `safe_next_alias_name`, `safe_merge.rs:36-49`: the name and the next number. It is called with twice as
many steps as there are items: each item takes two names at most, so that the loop ends before. -/
def nextAlias (ts : List Sel) : Nat → Nat → String × Nat
  | 0, c => (aliasName c, c + 1)
  | n + 1, c => if ts.any (taken (aliasName c)) then nextAlias ts n (c + 1) else (aliasName c, c + 1)

/-- Same response key and conditions, `safe_merge.rs:90-96`. -/
def sameKey : Sel → Sel → Bool
  | .field f _, .field g _ => f.key == g.key && decide (condOf f = condOf g)
  | .frag f _, .frag g _ => f.cond == g.cond && decide (fragCond f = fragCond g)
  | _, _ => false

/-- Different arguments or aliases, `safe_merge.rs:97-99`. -/
def clashes : Sel → Sel → Bool
  | .field f _, .field g _ => !decide (f.args = g.args) || !decide (f.alias = g.alias)
  | _, _ => false

/-- The conflicts before the item to merge with, and is there one, `safe_merge.rs:88-170`. -/
def scan (s : Sel) : Nat → List Sel → List Nat × Bool
  | _, [] => ([], false)
  | i, t :: r =>
    if sameKey s t then
      if clashes s t then (i :: (scan s (i + 1) r).1, (scan s (i + 1) r).2) else ([], true)
    else scan s (i + 1) r

/-- `MergeAction`, `safe_merge.rs:22-32`. -/
inductive Action where
  | copy (s : Sel)
  | source (s : Sel)
  | target (i : Nat)

/-- The name a segment of an alias record has, `safe_merge.rs:108-112, 221-225`. -/
def recSeg (f : FieldInfo) : Seg := .field f.name none f.args (condOf f)

/-- Set the alias of an item. -/
def setAlias (a : String) : Sel → Sel
  | .field f ss => .field { f with alias := some a } ss
  | x => x

/-- The record of a renamed item. -/
def recOf (path : MPath) (a : String) : Sel → Aliases
  | .field f _ => [(path ++ [recSeg f], a)]
  | _ => []

/-- The loop over the pending actions, `safe_merge.rs:195-256`: the target, the next number and the
records. -/
def runActions (path : MPath) : List Action → List Sel → Nat → List Sel × Nat × Aliases
  | [], ts, c => (ts, c, [])
  | .copy s :: r, ts, c => runActions path r (ts ++ [s]) c
  | .source s :: r, ts, c =>
    let a := nextAlias ts (2 * ts.length) c
    let q := runActions path r (ts ++ [setAlias a.1 s]) a.2
    (q.1, q.2.1, recOf path a.1 s ++ q.2.2)
  | .target i :: r, ts, c =>
    let a := nextAlias ts (2 * ts.length) c
    let q := runActions path r (ts.modify i (setAlias a.1)) a.2
    (q.1, q.2.1, ((ts[i]?).map (recOf path a.1)).getD [] ++ q.2.2)

/-- What to do about conflicts, `safe_merge.rs:130-139, 171-190`: the one found last counts. `used` says
whether the steps of target and source are there for `@requires`. -/
def resolve (used : Bool × Bool) (s : Sel) (i : Nat) : Except Err (List Action) :=
  match used with
  | (true, false) => .ok [.copy s, .target i]
  | (false, true) => .ok [.source s]
  | (true, true) => .ok [.source s]
  | (false, false) => .error .panic

/-- Merge into the first item of the same key that does not clash. -/
def safeInto (s : Sel) (u : List Sel → Except Err (List Sel × Nat × Aliases)) :
    List Sel → Except Err (List Sel × Nat × Aliases)
  | ts => updateIn (fun t => sameKey s t && !clashes s t) u ts

/-- The segment an item adds to a path, `safe_merge.rs:106-112, 151-154`. -/
def itemSeg : Sel → MPath
  | .field f _ => [recSeg f]
  | .frag g _ => [.type [g.cond] (fragCond g)]
  | .spread _ => []

/-- The pending actions after the loop, `safe_merge.rs:194-257`. -/
def finish (path : MPath) :
    Except Err (List Sel × Nat × Aliases × List Action) → Except Err (List Sel × Nat × Aliases)
  | .error e => .error e
  | .ok (ts, c, al, acts) =>
    let q := runActions path acts ts c
    .ok (q.1, q.2.1, al ++ q.2.2)

mutual
/-- The loop over the source, `safe_merge.rs:84-192`: the target, the number, the records and the
actions. -/
def safeLoop (used : Bool × Bool) (path : MPath) :
    List Sel → List Sel → Nat → Except Err (List Sel × Nat × Aliases × List Action)
  | [], ts, c => .ok (ts, c, [], [])
  | s :: r, ts, c =>
    let look := scan s 0 ts
    if (used == (false, false)) && !look.1.isEmpty then .error .panic
    else if look.2 then
      match safeItem used path s ts c with
      | .error e => .error e
      | .ok (ts', c', al) =>
        match safeLoop used path r ts' c' with
        | .error e => .error e
        | .ok (ts'', c'', al', acts) => .ok (ts'', c'', al ++ al', acts)
    else
      let now := match look.1.getLast? with
        | none => Except.ok [Action.copy s]
        | some i => resolve used s i
      match now with
      | .error e => .error e
      | .ok now =>
        match safeLoop used path r ts c with
        | .error e => .error e
        | .ok (ts'', c'', al', acts) => .ok (ts'', c'', al', now ++ acts)
/-- `merge_selection_set_inner` for the selections of an item, `safe_merge.rs:114-121, 156-163`. -/
def safeItem (used : Bool × Bool) (path : MPath) :
    Sel → List Sel → Nat → Except Err (List Sel × Nat × Aliases)
  | .field f ss, ts, c =>
    safeInto (.field f ss) (fun us => finish (path ++ itemSeg (.field f ss))
      (safeLoop used (path ++ itemSeg (.field f ss)) ss us c)) ts
  | .frag g ss, ts, c =>
    safeInto (.frag g ss) (fun us => finish (path ++ itemSeg (.frag g ss))
      (safeLoop used (path ++ itemSeg (.frag g ss)) ss us c)) ts
  | .spread _, _, _ => .error .panic
end

/-- `merge_selection_set_inner`, `safe_merge.rs:71-258`. It is always called with `as_first` false. -/
def safeMerge (used : Bool × Bool) (path : MPath) (ss ts : List Sel) (c : Nat) :
    Except Err (List Sel × Nat × Aliases) := finish path (safeLoop used path ss ts c)

/-! ## The selections of a step -/

/-- `FetchStepSelections`, `selections.rs:29-32`. -/
abbrev Selections := List (String × List Sel)

/-- The item `__typename`, `selection_set.rs:241-252`. -/
def typename : Sel := .field { name := "__typename" } []

/-- `is_empty`, `selections.rs:298-304`. -/
def Selections.none (s : Selections) : Bool := s.all (·.2.isEmpty)

/-- `try_as_single`, `selections.rs:433-439`. -/
def Selections.single : Selections → Option String
  | [(t, _)] => some t
  | _ => Option.none

/-- Change the selections of a type, `selections.rs:326-331`. -/
def updateDef {α : Type} (t : String) (u : List Sel → Except Err (List Sel × α)) :
    Selections → Except Err (Selections × α)
  | [] => .error (.unexpectedMissingDefinition t)
  | (k, ss) :: r =>
    if k = t then (u ss).map fun y => ((k, y.1) :: r, y.2)
    else (updateDef t u r).map fun y => ((k, ss) :: y.1, y.2)

/-- `add_at_path_inner`, `selections.rs:337-361`. -/
def addAt (t : String) (path : MPath) (items : List Sel) (first : Bool) (s : Selections) :
    Except Err Selections :=
  (updateDef t (updateAt (fun ts => .ok (mergeSels first items ts, ())) path) s).map (·.1)

/-- `definition_name`, `selections.rs:231-236`: a panic without one. -/
def defName : Selections → Except Err String
  | [] => .error .panic
  | (t, _) :: _ => .ok t

/-- `add_at_path`, `selections.rs:254-262`, and `add_selection_typename`, 264-278. -/
def addPath (path : MPath) (items : List Sel) (first : Bool) (s : Selections) : Except Err Selections :=
  match defName s with
  | .error e => .error e
  | .ok t => addAt t path items first s

/-- `add`, `selections.rs:571-575`. -/
def addRoot (items : List Sel) : Selections → Except Err Selections
  | [] => .error .panic
  | (t, ss) :: r => .ok ((t, mergeSels false items ss) :: r)

/-- `selecting_same_types`, `selections.rs:402-414`. -/
def sameTypes (a b : Selections) : Bool :=
  a.length == b.length && a.all fun x => b.any (·.1 == x.1)

/-- `declare_known_type`, `selections.rs:448-450`. -/
def declareType (t : String) : Selections → Selections
  | [] => [(t, [])]
  | (k, ss) :: r => if t < k then (t, []) :: (k, ss) :: r else if t = k then (k, ss) :: r
      else (k, ss) :: declareType t r

/-- The loop of `migrate_from_another`, `selections.rs:467-474`. -/
def migrateAll (into : Option String) (path : MPath) : Selections → Selections → Except Err Selections
  | [], s => .ok s
  | (k, items) :: r, s =>
    match addAt (into.getD k) path items false s with
    | .error e => .error e
    | .ok s => migrateAll into path r s

/-- `migrate_from_another`, `selections.rs:462-475`. -/
def migrate (other : Selections) (path : MPath) (s : Selections) : Except Err Selections :=
  migrateAll s.single path other s

/-- The loop of `safe_migrate_from_another`, `selections.rs:485-513`. -/
def safeMigrateAll (used : Bool × Bool) (into : Option String) (path : MPath) :
    Selections → Selections → Except Err (Selections × List (String × Aliases))
  | [], s => .ok (s, [])
  | (k, items) :: r, s =>
    match updateDef (into.getD k)
        (updateAt (fun ts => (safeMerge used [] items ts 0).map fun q => (q.1, q.2.2)) path) s with
    | .error e => .error e
    | .ok (s, al) =>
      match safeMigrateAll used into path r s with
      | .error e => .error e
      | .ok (s, als) => .ok (s, if al.isEmpty then als else (into.getD k, al) :: als)

/-- `safe_migrate_from_another`, `selections.rs:477-516`. -/
def safeMigrate (used : Bool × Bool) (other : Selections) (path : MPath) (s : Selections) :
    Except Err (Selections × List (String × Aliases)) :=
  safeMigrateAll used s.single path other s

/-- `wrap_definition_selection_with_condition`, `selections.rs:365-400`. -/
def wrapDef (c : Cond) (t : String) (ss : List Sel) : List Sel :=
  [.frag { cond := t, skipIf := c.1, includeIf := c.2 } ss]

/-- `wrap_with_condition`, `selections.rs:518-522`. -/
def wrap (c : Cond) (s : Selections) : Selections := s.map fun x => (x.1, wrapDef c x.1 x.2)

/-- `wrap_with_condition_for_types`, `selections.rs:524-539`. -/
def wrapFor (c : Cond) (types : List String) (s : Selections) : Selections :=
  s.map fun x => (x.1, if types.contains x.1 then wrapDef c x.1 x.2 else x.2)

/-- The condition of a fragment on the type, `selections.rs:104-118`. -/
def topCond (t : String) : Sel → Option Cond
  | .frag g _ => if g.cond = t ∧ fragCond g ≠ (none, none) then some (fragCond g) else none
  | _ => none

/-- `shared_top_level_fragment_condition`, `selections.rs:98-129`. -/
def sharedTop (t : String) : List Sel → Option Cond
  | [] => none
  | [x] => topCond t x
  | x :: y :: r =>
    match topCond t x, sharedTop t (y :: r) with
    | some a, some b => if a = b then some a else none
    | _, _ => none

/-- `clear_top_level_fragment_conditions`, `selections.rs:131-143`. -/
def clearTop (t : String) : Sel → Sel
  | .frag g ss => if g.cond = t then .frag { g with skipIf := none, includeIf := none } ss else .frag g ss
  | x => x

/-- The condition all types share, `selections.rs:548-562`. -/
def sharedAll : Selections → Option Cond
  | [] => none
  | [(t, ss)] => sharedTop t ss
  | (t, ss) :: y :: r =>
    match sharedTop t ss, sharedAll (y :: r) with
    | some a, some b => if a = b then some a else none
    | _, _ => none

/-- `take_shared_top_level_fragment_condition`, `selections.rs:541-567`. -/
def takeShared (s : Selections) : Option (Cond × Selections) :=
  if Selections.none s then Option.none
  else (sharedAll s).map fun c => (c, s.map fun x => (x.1, x.2.map (clearTop x.1)))

end Verif.Fetch
