import Verif.Projection.Cond
import Verif.Json.EscapeProps

/-!
# Writing the response

`bin/router/src/executor/projection/response.rs`. The buffer is a list of characters: that writing
a string escapes it byte by byte to the same effect is `C11_characters`.
-/

namespace Verif.Projection

open Verif.Json (escChar)

abbrev Buf := List Char

/-- `itoa`, used by `write_u64`, `json_writer.rs:62-65`. -/
def decimal (n : Nat) : List Char :=
  if _h : n < 10 then [Char.ofNat (48 + n)] else decimal (n / 10) ++ [Char.ofNat (48 + n % 10)]

/-- `write_i64`, `json_writer.rs:67-70`. -/
def decimalInt : Int → List Char
  | .ofNat n => decimal n
  | .negSucc n => '-' :: decimal (n + 1)

/-- `f64::is_finite` on the bit pattern. -/
def finite (bits : Nat) : Bool := bits / 2 ^ 52 % 2048 != 2047

/-- `write_f64`, `json_writer.rs:50-60`. `ryu` formats finite numbers. -/
def writeF64 (ryu : Nat → List Char) (bits : Nat) : List Char :=
  if finite bits then ryu bits else ['n', 'u', 'l', 'l']

/-- `write_and_escape_string`, `json_writer.rs:8-10`, as `C11_characters` describes it. -/
def quoted (s : String) : List Char := '"' :: s.toList.flatMap escChar ++ ['"']

mutual
/-- `serialize_value_to_buffer`, `response.rs:169-206`. -/
def serialize (ryu : Nat → List Char) : Value → Buf → Buf
  | .null, b => b ++ ['n', 'u', 'l', 'l']
  | .bool true, b => b ++ ['t', 'r', 'u', 'e']
  | .bool false, b => b ++ ['f', 'a', 'l', 's', 'e']
  | .u64 n, b => b ++ decimal n
  | .i64 n, b => b ++ decimalInt n
  | .f64 n, b => b ++ writeF64 ryu n
  | .str s, b => b ++ quoted s
  | .raw s, b => b ++ s.toList
  | .obj fs, b => serializeMembers ryu true fs (b ++ ['{']) ++ ['}']
  | .arr vs, b => serializeItems ryu true vs (b ++ ['[']) ++ [']']
/-- The loop of `response.rs:197-203`. -/
def serializeItems (ryu : Nat → List Char) : Bool → List Value → Buf → Buf
  | _, [], b => b
  | first, v :: vs, b =>
    serializeItems ryu false vs (serialize ryu v (if first then b else b ++ [',']))
/-- The loop of `response.rs:182-192`. -/
def serializeMembers (ryu : Nat → List Char) : Bool → List (String × Value) → Buf → Buf
  | _, [], b => b
  | first, (k, v) :: fs, b =>
    serializeMembers ryu false fs
      (serialize ryu v ((if first then b else b ++ [',']) ++ quoted k ++ [':']))
end

/-- The fields of `FieldProjectionPlan`, `plan.rs:119-132`, but for the value. -/
structure PlanInfo where
  fieldName : String
  responseKey : String
  isTypename : Bool
  nullability : Nullability
  guard : Option TypeCond
  conditions : Option Cond

/-- `FieldProjectionPlan` by the kind of its `ProjectionValueSource`, `plan.rs:101-132`. -/
inductive Plan where
  | null (info : PlanInfo)
  | leaf (info : PlanInfo)
  | node (info : PlanInfo) (selections : List Plan)

def Plan.info : Plan → PlanInfo
  | .null i => i
  | .leaf i => i
  | .node i _ => i

/-- `TypeName`, `response.rs:41-90`: computed at once here, looked at only where the code calls
`get`. -/
abbrev TypeName := Except Err String

/-- The first half of `resolve_type_name`, `response.rs:579-588`. -/
def ownTypename : Option Value → Option String
  | some (.obj fs) => match getKey fs "__typename" with
    | some (.str t) => some t
    | _ => none
  | _ => none

/-- `resolve_type_name`, `response.rs:569-604`. -/
def resolveTypeName (S : Schema) (info : PlanInfo) (value : Option Value) (parent : TypeName) :
    TypeName :=
  if info.isTypename then .ok "String"
  else match ownTypename value with
    | some t => .ok t
    | none => match parent with
      | .error e => .error e
      | .ok p => match S.typeFields.lookup p with
        | none => .error (.missingType p)
        | some fields => match fields.lookup info.fieldName with
          | some f => .ok f.out
          | none => .error (.missingField p info.fieldName)

/-- What is written, how many errors were added, and whether the `null` written must propagate. -/
structure Out where
  buf : Buf
  errors : Nat
  propagate : Bool

/-- The same within an object, with the `first` flag. -/
structure ObjOut where
  buf : Buf
  errors : Nat
  first : Bool
  propagate : Bool

/-- `FieldNullability::list_item`, `schema.rs:57-62`. -/
def listItem : Nullability → Option Nullability
  | .leaf _ => none
  | .list _ item => some item

def nullText : List Char := ['n', 'u', 'l', 'l']

/-- What `project_selection_set` does with an object, `response.rs:249-300`: given by the plan. -/
abbrev OnObject := Value → Fields → Buf → Nat → Except Err Out

mutual
/-- `project_selection_set`, `response.rs:209-314`. The plan enters through `onObj`. -/
def projectValue (ryu : Nat → List Char) (onObj : OnObject) (nb : Nullability) :
    Value → Buf → Nat → Except Err Out
  | .arr vs, b, n => projectItems ryu onObj nb b.length true vs (b ++ ['[']) n
  | .obj fs, b, n => onObj (.obj fs) fs b n
  | .null, b, n => .ok ⟨b ++ nullText, n, true⟩
  | .bool x, b, n => .ok ⟨serialize ryu (.bool x) b, n, false⟩
  | .u64 x, b, n => .ok ⟨serialize ryu (.u64 x) b, n, false⟩
  | .i64 x, b, n => .ok ⟨serialize ryu (.i64 x) b, n, false⟩
  | .f64 x, b, n => .ok ⟨serialize ryu (.f64 x) b, n, false⟩
  | .str x, b, n => .ok ⟨serialize ryu (.str x) b, n, false⟩
  | .raw x, b, n => .ok ⟨serialize ryu (.raw x) b, n, false⟩
/-- The loop over a list, `response.rs:226-247`; `cp` is the length to truncate to. -/
def projectItems (ryu : Nat → List Char) (onObj : OnObject) (nb : Nullability) (cp : Nat) :
    Bool → List Value → Buf → Nat → Except Err Out
  | _, [], b, n => .ok ⟨b ++ [']'], n, false⟩
  | first, v :: vs, b, n =>
    match projectValue ryu onObj ((listItem nb).getD nb) v (if first then b else b ++ [',']) n with
    | .error e => .error e
    | .ok o =>
      if o.propagate && (listItem nb).any Nullability.isNonNull then
        .ok ⟨o.buf.take cp ++ nullText, o.errors, true⟩
      else projectItems ryu onObj nb cp false vs o.buf o.errors
end

/-- Writing the response key, `response.rs:367-377` and again `:421-431`, `:440-451`. The key is not
escaped. -/
def writeKey (first : Bool) (key : String) (b : Buf) : Buf :=
  (if first then b ++ ['{'] else b ++ [',']) ++ ['"'] ++ key.toList ++ ['"', ':']

/-- `parent_type_guard`, `response.rs:328-335`. -/
def guardPasses (parent : TypeName) : Option TypeCond → Except Err Bool
  | none => .ok true
  | some g => match parent with
    | .error e => .error e
    | .ok t => .ok (g.accepts t)

/-- What to do about a plan after the guard and the conditions, `response.rs:327-365` and the
arms of `:366-463`. -/
inductive Verdict where
  | go
  | leaveOut
  | writeNull (error : Bool)

/-- Guard and conditions of a plan, `response.rs:328-365`. -/
def verdict (S : Schema) (isTrue : String → Bool) (info : PlanInfo) (fs : Fields)
    (parent : TypeName) : Except Err Verdict :=
  match guardPasses parent info.guard with
  | .error e => .error e
  | .ok false => .ok .leaveOut
  | .ok true =>
    match checkOpt ⟨parent, resolveTypeName S info (getKey fs info.responseKey) parent,
        getKey fs info.responseKey, isTrue⟩ info.conditions with
    | .ok _ => .ok .go
    | .error (.fatal e) => .error e
    | .error .skip => .ok .leaveOut
    | .error .invalidParentType => .ok .leaveOut
    | .error .invalidEnumValue => .ok (.writeNull true)
    | .error .invalidFieldType => .ok (.writeNull false)

/-- What runs around the projection of an object's selections, `response.rs:251-286` and
`:110-137`: truncate on propagation, otherwise close the brace. -/
def finishObject (cp : Nat) (r : Except Err ObjOut) : Except Err Out :=
  match r with
  | .error e => .error e
  | .ok o =>
    if o.propagate then .ok ⟨o.buf.take cp ++ nullText, o.errors, true⟩
    else if o.first then .ok ⟨o.buf ++ ['{', '}'], o.errors, false⟩
    else .ok ⟨o.buf ++ ['}'], o.errors, false⟩

mutual
/-- The value of one plan after its key, `response.rs:379-407`. -/
def projectPlan (ryu : Nat → List Char) (S : Schema) (isTrue : String → Bool) :
    Plan → Fields → TypeName → Buf → Nat → Except Err Out
  | .null _, _, _, b, n => .ok ⟨b ++ nullText, n, true⟩
  | .leaf info, fs, parent, b, n =>
    if info.isTypename then
      match parent with
      | .error e => .error e
      | .ok t => .ok ⟨b ++ ['"'] ++ t.toList ++ ['"'], n, false⟩
    else match getKey fs info.responseKey with
      | some v =>
        projectValue ryu (fun v _ b n => .ok ⟨serialize ryu v b, n, false⟩) info.nullability v b n
      | none => .ok ⟨b ++ nullText, n, true⟩
  | .node info sels, fs, parent, b, n =>
    if info.isTypename then
      match parent with
      | .error e => .error e
      | .ok t => .ok ⟨b ++ ['"'] ++ t.toList ++ ['"'], n, false⟩
    else match getKey fs info.responseKey with
      | some v =>
        projectValue ryu (fun v fs b n => finishObject b.length
          (projectPlans ryu S isTrue sels fs (resolveTypeName S info (some v) parent) true b n))
          info.nullability v b n
      | none => .ok ⟨b ++ nullText, n, true⟩
/-- `project_selection_set_with_map`, `response.rs:318-464`. -/
def projectPlans (ryu : Nat → List Char) (S : Schema) (isTrue : String → Bool) :
    List Plan → Fields → TypeName → Bool → Buf → Nat → Except Err ObjOut
  | [], _, _, first, b, n => .ok ⟨b, n, first, false⟩
  | p :: ps, fs, parent, first, b, n =>
    match verdict S isTrue p.info fs parent with
    | .error e => .error e
    | .ok .leaveOut => projectPlans ryu S isTrue ps fs parent first b n
    | .ok (.writeNull err) =>
      let b := writeKey first p.info.responseKey b ++ nullText
      let n := if err then n + 1 else n
      if p.info.nullability.isNonNull then .ok ⟨b, n, false, true⟩
      else projectPlans ryu S isTrue ps fs parent false b n
    | .ok .go =>
      match projectPlan ryu S isTrue p fs parent (writeKey first p.info.responseKey b) n with
      | .error e => .error e
      | .ok o =>
        if o.propagate && p.info.nullability.isNonNull then .ok ⟨o.buf, o.errors, false, true⟩
        else projectPlans ryu S isTrue ps fs parent false o.buf o.errors
end

/-- A member of the body written with its comma, `response.rs:142-163`. -/
def bodyMember (name : String) : Option (List Char) → Buf → Buf
  | none, b => b
  | some t, b => b ++ [',', '"'] ++ name.toList ++ ['"', ':'] ++ t

/-- `project_by_operation`, `response.rs:95-167`. `errors` and `extensions` are the texts `sonic_rs`
gives for the errors (a function of how many were added) and the extensions, none if there are
none. -/
def projectByOperation (ryu : Nat → List Char) (S : Schema) (isTrue : String → Bool)
    (data : Value) (errors : Nat → Option (List Char)) (extensions : Option (List Char))
    (root : String) (plans : List Plan) : Except Err Buf :=
  let b := "{\"data\":".toList
  let r : Except Err Out := match data with
    | .obj fs => finishObject b.length (projectPlans ryu S isTrue plans fs (.ok root) true b 0)
    | _ => .ok ⟨b ++ nullText, 0, false⟩
  match r with
  | .error e => .error e
  | .ok o => .ok (bodyMember "extensions" extensions
      (bodyMember "errors" (errors o.errors) o.buf) ++ ['}'])

end Verif.Projection
