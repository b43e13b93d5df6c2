import Verif.Keys.Model

/-!
# Values of variables

`pipeline/coerce_variables.rs`, `executor/variables/mod.rs`, and the conversion of default values,
`query_planner/ast/value.rs:130-163`.

A JSON number is represented by the first of `as_i64`, `as_u64` and `as_f64` that has an answer, so
that `is_i64` and `is_f64` are the kinds `i64` and `f64`.
-/

namespace Verif.Variables

open Verif.Keys (TypeNode VarDef)

/-- `SchemaMetadata`, `executor/introspection/schema.rs:68-80`, as far as variables are validated
with it. `type_fields` has object and interface types, which cannot be the type of a variable in a
document that passed validation; that branch is in the model as well. -/
structure Schema where
  enumValues : List (String × List String)
  typeFields : List (String × List (String × String))

/-- `VariableCoercionError`, `variables/mod.rs:8-45`, without the texts of values. -/
inductive Err where
  | missing (name : String) (type : TypeNode)
  | unexpectedNull (type : TypeNode)
  | invalidEnum (value type : String)
  | expectedEnumString (type : String)
  | missingField (field type : String)
  | expectedObject (type : String)
  | expectedString | expectedId | expectedInt | expectedFloat | expectedBool
  deriving DecidableEq

/-- The built-in scalars, `variables/mod.rs:160-212`; other scalars take everything. -/
def checkScalar (name : String) (v : Value) : Except Err Unit :=
  if name = "String" then
    (match v with | .str _ => .ok () | _ => .error .expectedString)
  else if name = "ID" then
    (match v with | .str _ => .ok () | _ => .error .expectedId)
  else if name = "Int" then
    (match v with | .i64 _ => .ok () | _ => .error .expectedInt)
  else if name = "Float" then
    (match v with | .f64 _ => .ok () | .i64 _ => .ok () | _ => .error .expectedFloat)
  else if name = "Boolean" then
    (match v with | .bool _ => .ok () | _ => .error .expectedBool)
  else .ok ()

/-- An enum value, `variables/mod.rs:117-130`. -/
def checkEnum (name : String) (values : List String) : Value → Except Err Unit
  | .str s => if values.contains s then .ok () else .error (.invalidEnum s name)
  | _ => .error (.expectedEnumString name)

/-- The loop over the fields of the type, `variables/mod.rs:133-147`; `check` has for each member of
the object what checks it. -/
def checkFields (type : String) (check : List (String × (TypeNode → Except Err Unit))) :
    List (String × String) → Except Err Unit
  | [] => .ok ()
  | (f, t) :: rest =>
    match lookup f check with
    | none => .error (.missingField f type)
    | some c => do c (.named t); checkFields type check rest

/-- A value that is not null against a named type, `variables/mod.rs:116-213`. `members` is what
checks the members, if it is an object. -/
def checkNamed (S : Schema) (v : Value) (members : Option (List (String × (TypeNode → Except Err Unit))))
    (name : String) : Except Err Unit :=
  match lookup name S.enumValues with
  | some values => checkEnum name values v
  | none =>
    match lookup name S.typeFields with
    | some fields =>
      (match members with
      | some check => checkFields name check fields
      | none => .error (.expectedObject name))
    | none => checkScalar name v

/-- A value that is not null, with what checks its items if it is a list,
`variables/mod.rs:115`, 215-228. -/
def checkType (named : String → Except Err Unit) (items : Option (TypeNode → Except Err Unit)) :
    TypeNode → Except Err Unit
  | .named n => named n
  | .nonNull t => checkType named items t
  | .list t =>
    match items with
    | some f => f t
    | none => checkType named items t

/-- Null, `variables/mod.rs:106-114`. -/
def checkNull : TypeNode → Except Err Unit
  | .nonNull t => .error (.unexpectedNull (.nonNull t))
  | _ => .ok ()

mutual
/-- `validate_runtime_value`, `variables/mod.rs:100-231`. -/
def validate (S : Schema) : Value → TypeNode → Except Err Unit
  | .null => checkNull
  | .arr vs => checkType (checkNamed S (.arr vs) none) (some (validateItems S vs))
  | .obj fs => checkType (checkNamed S (.obj fs) (some (validateMembers S fs))) none
  | .bool b => checkType (checkNamed S (.bool b) none) none
  | .i64 i => checkType (checkNamed S (.i64 i) none) none
  | .u64 n => checkType (checkNamed S (.u64 n) none) none
  | .f64 b => checkType (checkNamed S (.f64 b) none) none
  | .str s => checkType (checkNamed S (.str s) none) none
  | .raw s => checkType (checkNamed S (.raw s) none) none

def validateItems (S : Schema) : List Value → TypeNode → Except Err Unit
  | [], _ => .ok ()
  | v :: vs, t => do validate S v t; validateItems S vs t

def validateMembers (S : Schema) : List (String × Value) → List (String × (TypeNode → Except Err Unit))
  | [] => []
  | (k, v) :: fs => (k, validate S v) :: validateMembers S fs
end

/-- `f64::is_finite`, on the bits. -/
def finite (b : Nat) : Bool := (b / 2 ^ 52) % 2 ^ 11 != 2047

mutual
/-- `impl From<&Value> for sonic_rs::Value`, `query_planner/ast/value.rs:130-163`. -/
def litValue : Lit → Value
  | .null => .null
  | .int i => .i64 i
  | .bool b => .bool b
  | .enum s => .str s
  | .float b => if finite b then .f64 b else .null
  | .list vs => .arr (litValues vs)
  | .obj fs => .obj (litMembers fs)
  | .str s => .str s
  | .var _ => .null

def litValues : List Lit → List Value
  | [] => []
  | v :: vs => litValue v :: litValues vs

def litMembers : List (String × Lit) → List (String × Value)
  | [] => []
  | (k, v) :: fs => (k, litValue v) :: litMembers fs
end

/-- `HashMap::remove`. -/
def remove (k : String) (m : List (String × Value)) : List (String × Value) := m.filter (·.1 ≠ k)

/-- `TypeNode::is_non_null`. -/
def isNonNull : TypeNode → Bool
  | .nonNull _ => true
  | _ => false

/-- The loop of `collect_variables`, `variables/mod.rs:58-91`. The map of what the client sent is its
entries. -/
def collectLoop (S : Schema) : List VarDef → List (String × Value) → Except Err (List (String × Value))
  | [], _ => .ok []
  | d :: ds, sent =>
    match lookup d.name sent with
    | some v => do
      validate S v d.type
      return (d.name, v) :: (← collectLoop S ds (remove d.name sent))
    | none =>
      match d.default with
      | some l => do
        validate S (litValue l) d.type
        return (d.name, litValue l) :: (← collectLoop S ds sent)
      | none =>
        if isNonNull d.type then .error (.missing d.name d.type)
        else collectLoop S ds sent

/-- `collect_variables`, `variables/mod.rs:48-97`. The resulting map is its entries. -/
def collect (S : Schema) (defs : Option (List VarDef)) (sent : List (String × Value)) :
    Except Err (Option (List (String × Value))) :=
  match defs with
  | none => .ok none
  | some ds => do
    let m ← collectLoop S ds sent
    return if m.isEmpty then none else some m

end Verif.Variables
