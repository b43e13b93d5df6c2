import Verif.Core.Value
/-
Model of /repo/bin/router/src/executor/execution/rewrites.rs.
-/
namespace Verif.Rewrites

/-- `FetchNodePathSegment`, query_planner/planner/plan_nodes.rs (`Key`, `TypenameEquals`). -/
inductive Seg where
  | key (name : String)
  | typenameEquals (conds : List String)

/-- `PossibleTypes::entity_satisfies_type_condition`, an arbitrary relation here. -/
abbrev Sat := String → String → Bool

/-- The `TypenameEquals` test, rewrites.rs:65-75 and 127-137: the first `__typename` entry if it is
a string must satisfy one of the conditions; without it the test succeeds. -/
def typeTest (sat : Sat) (fs : Fields) (conds : List String) : Bool :=
  match lookup "__typename" fs with
  | some (.str t) => conds.any fun c => sat t c
  | _ => true

mutual
/-- `KeyRenamer::apply_path`, rewrites.rs:49-96. `none` is the panic of `&path[0]` on an empty
path (line 55, evaluated before the value is looked at). -/
def rename (sat : Sat) (new : String) : List Seg → Value → Option Value
  | [], _ => none
  | path, .arr vs => (renameList sat new path vs).map .arr
  | .typenameEquals conds :: rest, .obj fs =>
    if typeTest sat fs conds then rename sat new rest (.obj fs) else some (.obj fs)
  | .key k :: rest, .obj fs =>
    if rest.isEmpty then
      if k ≠ new then some (.obj (renameFirst k new fs)) else some (.obj fs)
    else (renameIn sat new k rest fs).map .obj
  | _, v => some v
termination_by path v => (sizeOf v, path.length)

/-- the loop of rewrites.rs:59-61 -/
def renameList (sat : Sat) (new : String) (path : List Seg) : List Value → Option (List Value)
  | [] => some []
  | v :: vs =>
    match rename sat new path v, renameList sat new path vs with
    | some v', some vs' => some (v' :: vs')
    | _, _ => none
termination_by vs => (sizeOf vs, path.length)

/-- `obj.iter_mut().find(|r| r.0 == field_name)` and recursion into it, rewrites.rs:88-90 -/
def renameIn (sat : Sat) (new k : String) (rest : List Seg) : Fields → Option Fields
  | [] => some []
  | (k', v) :: fs =>
    if k' = k then (rename sat new rest v).map fun v' => (k', v') :: fs
    else (renameIn sat new k rest fs).map fun fs' => (k', v) :: fs'
termination_by fs => (sizeOf fs, rest.length)

/-- `find(|(key, _)| key == field_name)` then `*key = rename_key_to`, rewrites.rs:82-86. -/
def renameFirst (k new : String) : Fields → Fields
  | [] => []
  | (k', v) :: fs => if k' = k then (new, v) :: fs else (k', v) :: renameFirst k new fs
end

mutual
/-- `ValueSetter::apply_path`, rewrites.rs:104-151. -/
def setValue (sat : Sat) (s : String) : List Seg → Value → Value
  | [], _ => .str s
  | seg :: rest, .arr vs => .arr (setList sat s (seg :: rest) vs)
  | .typenameEquals conds :: rest, .obj fs =>
    if typeTest sat fs conds then setValue sat s rest (.obj fs) else .obj fs
  | .key k :: rest, .obj fs => .obj (setIn sat s k rest fs)
  | _, v => v
termination_by path v => (sizeOf v, path.length)

/-- the loop of rewrites.rs:117-119 -/
def setList (sat : Sat) (s : String) (path : List Seg) : List Value → List Value
  | [] => []
  | v :: vs => setValue sat s path v :: setList sat s path vs
termination_by vs => (sizeOf vs, path.length)

/-- `map.iter_mut().find(|r| r.0 == field_name)` and recursion, rewrites.rs:142-144 -/
def setIn (sat : Sat) (s k : String) (rest : List Seg) : Fields → Fields
  | [] => []
  | (k', v) :: fs =>
    if k' = k then (k', setValue sat s rest v) :: fs else (k', v) :: setIn sat s k rest fs
termination_by fs => (sizeOf fs, rest.length)
end

end Verif.Rewrites
