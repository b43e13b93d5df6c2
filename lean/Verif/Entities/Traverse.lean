import Verif.Core.Value
import Verif.Core.Schema

/-!
# Walking the data along a flatten path

`bin/router/src/executor/utils/traverse.rs`. The callbacks' captured state is threaded through as
`σ`; a callback of the mutating walk returns the new value of its target.
-/

namespace Verif.Entities

/-- `FlattenNodePathSegment`, `query_planner/planner/plan_nodes.rs:445-450`. -/
inductive Seg where
  | field (name : String)
  | cond (types : List String)
  | list
  deriving DecidableEq

/-- `GraphQLErrorPathSegment`, `executor/response/graphql_error.rs:231-234`. -/
inductive PSeg where
  | key (name : String)
  | idx (i : Nat)
  deriving DecidableEq

/-- `GraphQLErrorPath`, `graphql_error.rs:236-240`. -/
abbrev Pos := List PSeg

/-- `obj.binary_search_by_key(&"__typename").ok().and_then(|idx| obj[idx].1.as_str())`,
`traverse.rs:90-93`. -/
def typenameOf (fs : Fields) : Option String :=
  match getKey fs "__typename" with
  | some (.str t) => some t
  | _ => none

/-- The test of a type condition segment, `traverse.rs:11-19` and `:95-101`. -/
def condOk (S : Schema) (ts : List String) (fs : Fields) : Bool :=
  match typenameOf fs with
  | none => true
  | some t => ts.any (S.satisfies t)

/-! ## The reading walk -/

mutual
/-- The `TypeCondition` arm, `traverse.rs:162-184`; `k` is the walk along the rest of the path. -/
def walkCond {σ : Type} (S : Schema) (ts : List String) (k : Value → σ → σ) : Value → σ → σ
  | .obj fs, s => if condOk S ts fs then k (.obj fs) s else s
  | .arr vs, s => walkConds S ts k vs s
  | _, s => s
def walkConds {σ : Type} (S : Schema) (ts : List String) (k : Value → σ → σ) : List Value → σ → σ
  | [], s => s
  | v :: vs, s => walkConds S ts k vs (walkCond S ts k v s)
end

/-- `for item in arr.iter()`. -/
def walkItems {σ : Type} (k : Value → σ → σ) : List Value → σ → σ
  | [], s => s
  | v :: vs, s => walkItems k vs (k v s)

/-- The end of the path, `traverse.rs:137-146`. -/
def walkEnd {σ : Type} (cb : Value → σ → σ) : Value → σ → σ
  | .arr vs, s => walkItems cb vs s
  | v, s => cb v s

/-- The `List` arm, `traverse.rs:149-156`. -/
def walkList {σ : Type} (k : Value → σ → σ) : Value → σ → σ
  | .arr vs, s => walkItems k vs s
  | _, s => s

/-- The `Field` arm, `traverse.rs:157-161`. -/
def walkField {σ : Type} (name : String) (k : Value → σ → σ) : Value → σ → σ
  | .obj fs, s => match findKey fs name with
    | none => s
    | some i => match fs[i]? with
      | some kv => k kv.2 s
      | none => s
  | _, s => s

/-- `traverse_and_callback`, `traverse.rs:129-186`. -/
def walk {σ : Type} (S : Schema) (cb : Value → σ → σ) : List Seg → Value → σ → σ
  | [] => walkEnd cb
  | .list :: p => walkList (walk S cb p)
  | .field name :: p => walkField name (walk S cb p)
  | .cond ts :: p => walkCond S ts (walk S cb p)

/-! ## The writing walk -/

/-- What a step of the writing walk does to a value: the value in its place and the new state. The
error path is absent unless errors have to be placed. -/
abbrev Step (σ : Type) := Value → Option Pos → σ → Value × σ

/-- `current_error_path.as_ref().map(|p| p.concat(..))`. -/
def extend (ep : Option Pos) (q : PSeg) : Option Pos := ep.map (· ++ [q])

/-- `for (index, item) in arr.iter_mut().enumerate()`, counting from `i`. -/
def editItems {σ : Type} (k : Step σ) (ep : Option Pos) : Nat → List Value → σ → List Value × σ
  | _, [], s => ([], s)
  | i, v :: vs, s =>
    let r := k v (extend ep (.idx i)) s
    let rs := editItems k ep (i + 1) vs r.2
    (r.1 :: rs.1, rs.2)

mutual
/-- The `TypeCondition` arm, `traverse.rs:86-124`. -/
def editCond {σ : Type} (S : Schema) (ts : List String) (k : Step σ) :
    Value → Option Pos → σ → Value × σ
  | .obj fs, ep, s => if condOk S ts fs then k (.obj fs) ep s else (.obj fs, s)
  | .arr vs, ep, s =>
    let r := editConds S ts k ep 0 vs s
    (.arr r.1, r.2)
  | v, _, s => (v, s)
def editConds {σ : Type} (S : Schema) (ts : List String) (k : Step σ) (ep : Option Pos) :
    Nat → List Value → σ → List Value × σ
  | _, [], s => ([], s)
  | i, v :: vs, s =>
    let r := editCond S ts k v (extend ep (.idx i)) s
    let rs := editConds S ts k ep (i + 1) vs r.2
    (r.1 :: rs.1, rs.2)
end

/-- The end of the path, `traverse.rs:30-45`. -/
def editEnd {σ : Type} (cb : Step σ) : Step σ
  | .arr vs, ep, s =>
    let r := editItems cb ep 0 vs s
    (.arr r.1, r.2)
  | v, ep, s => cb v ep s

/-- The `List` arm, `traverse.rs:48-64`. -/
def editList {σ : Type} (k : Step σ) : Step σ
  | .arr vs, ep, s =>
    let r := editItems k ep 0 vs s
    (.arr r.1, r.2)
  | v, _, s => (v, s)

/-- The `Field` arm, `traverse.rs:65-85`. -/
def editField {σ : Type} (name : String) (k : Step σ) : Step σ
  | .obj fs, ep, s => match findKey fs name with
    | none => (.obj fs, s)
    | some i => match fs[i]? with
      | some kv =>
        let r := k kv.2 (extend ep (.key name)) s
        (.obj (fs.set i (kv.1, r.1)), r.2)
      | none => (.obj fs, s)
  | v, _, s => (v, s)

/-- `traverse_and_callback_mut`, `traverse.rs:21-127`. -/
def edit {σ : Type} (S : Schema) (cb : Step σ) : List Seg → Step σ
  | [] => editEnd cb
  | .list :: p => editList (edit S cb p)
  | .field name :: p => editField name (edit S cb p)
  | .cond ts :: p => editCond S ts (edit S cb p)

end Verif.Entities
