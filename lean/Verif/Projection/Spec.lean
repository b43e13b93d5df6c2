import Verif.Projection.Response
import Verif.Json.Grammar

/-!
# Specification of the response

Value completion as the GraphQL specification describes it (6.4.3 and 6.4.4), on values instead of
texts: `none` is the value `null`, which the enclosing position must deal with.
-/

namespace Verif.Projection

open Verif.Json

mutual
/-- The JSON value a response value stands for. -/
def toJson (ryu : Nat → List Char) (raw : String → Json) : Value → Json
  | .null => .null
  | .bool b => .bool b
  | .u64 n => .num (decimal n)
  | .i64 n => .num (decimalInt n)
  | .f64 n => if finite n then .num (ryu n) else .null
  | .str s => .str s.toList
  | .raw s => raw s
  | .arr vs => .arr (toJsons ryu raw vs)
  | .obj fs => .obj (toMembers ryu raw fs)
def toJsons (ryu : Nat → List Char) (raw : String → Json) : List Value → List Json
  | [] => []
  | v :: vs => toJson ryu raw v :: toJsons ryu raw vs
def toMembers (ryu : Nat → List Char) (raw : String → Json) :
    List (String × Value) → List (List Char × Json)
  | [] => []
  | (k, v) :: fs => (k.toList, toJson ryu raw v) :: toMembers ryu raw fs
end

/-- 6.4.4: `null` in a position that may be `null` stays; in one that may not it is an error, and the
enclosing value becomes `null`. -/
def settle (nonNull : Bool) : Option Json → Option Json
  | some j => some j
  | none => if nonNull then none else some .null

/-- Whether the items of a list may be `null`. -/
def itemNonNull : Nullability → Bool
  | .leaf _ => false
  | .list _ item => item.isNonNull

/-- The type of the items; a value that is a list although its type is not is read as a list of
nullable items. -/
def itemOf : Nullability → Nullability
  | .leaf b => .leaf b
  | .list _ item => item

mutual
/-- 6.4.3, completing a value, given how to complete an object. -/
def completeValue (ryu : Nat → List Char) (raw : String → Json)
    (object : Value → Fields → Except Err (Option Json)) (nb : Nullability) :
    Value → Except Err (Option Json)
  | .null => .ok none
  | .arr vs => (completeItems ryu raw object nb vs).map (Option.map Json.arr)
  | .obj fs => object (.obj fs) fs
  | .bool x => .ok (some (toJson ryu raw (.bool x)))
  | .u64 x => .ok (some (toJson ryu raw (.u64 x)))
  | .i64 x => .ok (some (toJson ryu raw (.i64 x)))
  | .f64 x => .ok (some (toJson ryu raw (.f64 x)))
  | .str x => .ok (some (toJson ryu raw (.str x)))
  | .raw x => .ok (some (toJson ryu raw (.raw x)))
/-- The items of a list; none if one of them is `null` and may not be. -/
def completeItems (ryu : Nat → List Char) (raw : String → Json)
    (object : Value → Fields → Except Err (Option Json)) (nb : Nullability) :
    List Value → Except Err (Option (List Json))
  | [] => .ok (some [])
  | v :: vs =>
    match completeValue ryu raw object (itemOf nb) v with
    | .error e => .error e
    | .ok r => match settle (itemNonNull nb) r with
      | none => .ok none
      | some j => (completeItems ryu raw object nb vs).map (Option.map (j :: ·))
end

mutual
/-- The value of a selected field of an object of type `parent`. -/
def completeField (ryu : Nat → List Char) (raw : String → Json) (S : Schema)
    (isTrue : String → Bool) : Plan → Fields → TypeName → Except Err (Option Json)
  | .null _, _, _ => .ok none
  | .leaf info, fs, parent =>
    if info.isTypename then parent.map fun t => some (.str t.toList)
    else match getKey fs info.responseKey with
      | none => .ok none
      | some v => completeValue ryu raw (fun v _ => .ok (some (toJson ryu raw v))) info.nullability v
  | .node info sels, fs, parent =>
    if info.isTypename then parent.map fun t => some (.str t.toList)
    else match getKey fs info.responseKey with
      | none => .ok none
      | some v =>
        completeValue ryu raw (fun v fs =>
          (completeFields ryu raw S isTrue sels fs (resolveTypeName S info (some v) parent)).map
            (Option.map Json.obj)) info.nullability v
/-- The fields of an object; none if one of them is `null` and may not be. -/
def completeFields (ryu : Nat → List Char) (raw : String → Json) (S : Schema)
    (isTrue : String → Bool) :
    List Plan → Fields → TypeName → Except Err (Option (List (List Char × Json)))
  | [], _, _ => .ok (some [])
  | p :: ps, fs, parent =>
    match verdict S isTrue p.info fs parent with
    | .error e => .error e
    | .ok .leaveOut => completeFields ryu raw S isTrue ps fs parent
    | .ok v =>
      match (match v with
        | .go => completeField ryu raw S isTrue p fs parent
        | _ => .ok none) with
      | .error e => .error e
      | .ok r => match settle p.info.nullability.isNonNull r with
        | none => .ok none
        | some j => (completeFields ryu raw S isTrue ps fs parent).map
            (Option.map ((p.info.responseKey.toList, j) :: ·))
end

/-- A text that needs no escaping, like every GraphQL name. -/
def Plain (s : String) : Prop := ∀ c ∈ s.toList, 0x20 ≤ c.toNat ∧ c ≠ '"' ∧ c ≠ '\\'

/-- Raw parts are JSON texts. -/
inductive RawOk (raw : String → Json) : Value → Prop
  | null : RawOk raw .null
  | bool (b) : RawOk raw (.bool b)
  | u64 (n) : RawOk raw (.u64 n)
  | i64 (n) : RawOk raw (.i64 n)
  | f64 (n) : RawOk raw (.f64 n)
  | str (s) : RawOk raw (.str s)
  | raw (s : String) : Denotes s.toList (raw s) → RawOk raw (.raw s)
  | arr (vs) : (∀ v ∈ vs, RawOk raw v) → RawOk raw (.arr vs)
  | obj (fs : Fields) : (∀ kv ∈ fs, RawOk raw kv.2) → RawOk raw (.obj fs)

/-- The data: raw parts are JSON texts, and type names are plain. -/
inductive Clean (raw : String → Json) : Value → Prop
  | null : Clean raw .null
  | bool (b) : Clean raw (.bool b)
  | u64 (n) : Clean raw (.u64 n)
  | i64 (n) : Clean raw (.i64 n)
  | f64 (n) : Clean raw (.f64 n)
  | str (s) : Clean raw (.str s)
  | raw (s : String) : Denotes s.toList (raw s) → Clean raw (.raw s)
  | arr (vs) : (∀ v ∈ vs, Clean raw v) → Clean raw (.arr vs)
  | obj (fs : Fields) : (∀ t, getKey fs "__typename" = some (.str t) → Plain t) →
      (∀ kv ∈ fs, Clean raw kv.2) → Clean raw (.obj fs)

mutual
/-- Response keys are plain. -/
def Plan.PlainKeys : Plan → Prop
  | .null i => Plain i.responseKey
  | .leaf i => Plain i.responseKey
  | .node i sels => Plain i.responseKey ∧ plainKeys sels
def plainKeys : List Plan → Prop
  | [] => True
  | p :: ps => p.PlainKeys ∧ plainKeys ps
end

/-- The names of types in the schema are plain. -/
def PlainSchema (S : Schema) : Prop :=
  ∀ t fields f ft, S.typeFields.lookup t = some fields → fields.lookup f = some ft → Plain ft.out

/-! ## Responses that respect the types -/

/-- No `null` where the type does not allow it, in a value and in the lists it consists of;
`object` says the same about objects. -/
def Respects (object : List (List Char × Json) → Prop) : Nullability → Json → Prop
  | .leaf nonNull, j => (j = .null → nonNull = false) ∧ ∀ ms, j = .obj ms → object ms
  | .list nonNull item, j => (j = .null → nonNull = false) ∧
      (∀ ms, j = .obj ms → object ms) ∧
      (∀ js, j = .arr js → ∀ x ∈ js, Respects object item x)

mutual
/-- The value of a field respects its type, down to the fields of the objects in it. -/
def Plan.Respected : Plan → Json → Prop
  | .null i => Respects (fun _ => False) i.nullability
  | .leaf i => Respects (fun _ => True) i.nullability
  | .node i sels => Respects (fun ms => ∀ m ∈ ms, respectedBy sels m) i.nullability
/-- A member of an object belongs to one of the plans and respects it. -/
def respectedBy : List Plan → List Char × Json → Prop
  | [], _ => False
  | p :: ps, m => (m.1 = p.info.responseKey.toList ∧ p.Respected m.2) ∨ respectedBy ps m
end

/-- No part is raw, and no number is infinite or not a number. -/
inductive Structured : Value → Prop
  | null : Structured .null
  | bool (b) : Structured (.bool b)
  | u64 (n) : Structured (.u64 n)
  | i64 (n) : Structured (.i64 n)
  | f64 (n) : finite n = true → Structured (.f64 n)
  | str (s) : Structured (.str s)
  | arr (vs) : (∀ v ∈ vs, Structured v) → Structured (.arr vs)
  | obj (fs : Fields) : (∀ kv ∈ fs, Structured kv.2) → Structured (.obj fs)

end Verif.Projection
