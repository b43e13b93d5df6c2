import Verif.Core.Ast
import Verif.Core.Feed
import Verif.Projection.Response
import Verif.Entities.Traverse

/-!
# Representations

`bin/router/src/executor/projection/request.rs` (what is sent for an entity) and
`to_hash` of `bin/router/src/executor/response/value.rs` (what makes two entities the same).
-/

namespace Verif.Entities

open Verif.Projection (Buf serialize nullText quoted)

/-! ## What is sent -/

/-- `write_response_key`, `request.rs:15-25`: the comma and, for a member, the key. -/
def startText (first : Bool) (key : Option String) : List Char :=
  (if first then [] else [',']) ++
    match key with
    | some k => '"' :: k.toList ++ ['"', ':']
    | none => []

/-- `write_typename_field`, `request.rs:28-31`. -/
def typenameText (t : String) : List Char := "\"__typename\":".toList ++ quoted t

/-- Whether the selection is just `__typename`, `request.rs:139-145`. -/
def onlyTypename : List Sel → Bool
  | [.field f _] => f.key == "__typename"
  | _ => false

/-- The early return for such a selection, `request.rs:147-156`: the buffer with the object begun. -/
def bareStart (sels : List Sel) (fs : Fields) (b : Buf) (first : Bool) (key : Option String) :
    Option Buf :=
  if onlyTypename sels then
    (typenameOf fs).map fun t => b ++ startText first key ++ ['{'] ++ typenameText t
  else none

/-- The early return, or else the loop. -/
def bareOr : Option Buf → Buf × Bool → Buf × Bool
  | some b, _ => (b, false)
  | none, r => r

/-- The value of a required field: by its name, otherwise by its response key,
`request.rs:168-176`. -/
def requiredValue (fs : Fields) (f : FieldInfo) : Option Value :=
  match getKey fs f.name with
  | some v => some v
  | none => getKey fs f.key

/-- Whether a fragment applies, `request.rs:226-239`: the object's own type name, if it is known,
must satisfy the condition or the other way round. -/
def fragApplies (S : Schema) (fs : Fields) (cond : String) : Bool :=
  let t := match lookup "__typename" fs with
    | some (.str t) => t
    | _ => cond
  S.satisfies t cond || S.satisfies cond t

/-- What the object arm of `project_requires` does, given the selection: the buffer, the comma flag
and the key in front of the object. -/
abbrev OnEntity := Fields → Buf → Bool → Option String → Buf × Bool

mutual
/-- `project_requires`, `request.rs:33-122`; `onObj` is its object arm. The result is the buffer and
whether something was written. -/
def sendValue (ryu : Nat → List Char) (onObj : OnEntity) :
    Value → Buf → Bool → Option String → Buf × Bool
  | .null, b, _, _ => (b, false)
  | .bool x, b, first, key => (serialize ryu (.bool x) (b ++ startText first key), true)
  | .f64 x, b, first, key => (serialize ryu (.f64 x) (b ++ startText first key), true)
  | .i64 x, b, first, key => (serialize ryu (.i64 x) (b ++ startText first key), true)
  | .u64 x, b, first, key => (serialize ryu (.u64 x) (b ++ startText first key), true)
  | .str x, b, first, key => (serialize ryu (.str x) (b ++ startText first key), true)
  | .raw x, b, first, key => (serialize ryu (.raw x) (b ++ startText first key), true)
  | .arr vs, b, first, key =>
    (sendItems ryu onObj vs (b ++ startText first key ++ ['[']) true ++ [']'], true)
  | .obj fs, b, first, key => onObj fs b first key
/-- The loop of `request.rs:74-88`. -/
def sendItems (ryu : Nat → List Char) (onObj : OnEntity) : List Value → Buf → Bool → Buf
  | [], b, _ => b
  | v :: vs, b, first =>
    let r := sendValue ryu onObj v b first none
    sendItems ryu onObj vs r.1 (if r.2 then false else first)
end

/-- The object arm of `project_requires`, `request.rs:90-119`, given the loop over the selection. -/
def sendObject (ryu : Nat → List Char) (sels : List Sel)
    (loop : Fields → Buf → Bool → Option String → Bool → Buf × Bool) : OnEntity :=
  fun fs b first key =>
    if sels.isEmpty then (serialize ryu (.obj fs) (b ++ startText first key), true)
    else if fs.isEmpty then (b, false)
    else
      let r := bareOr (bareStart sels fs b first key) (loop fs b true key first)
      if r.2 then (r.1, false) else (r.1 ++ ['}'], true)

/-- One required field, `request.rs:162-224`. `send` is `project_requires` for its value. -/
def sendField (fs : Fields) (f : FieldInfo)
    (send : Value → Buf → Bool → Option String → Buf × Bool)
    (b : Buf) (first : Bool) (key : Option String) (parentFirst : Bool) : Buf × Bool :=
  if f.key = "__typename" then (b, first)
  else match requiredValue fs f with
    | none => (b, first)
    | some v =>
      let b1 := if first then b ++ startText parentFirst key ++ ['{'] else b
      let (b2, first2) := if first then
        match typenameOf fs with
        | some t => (b1 ++ typenameText t, false)
        | none => (b1, true)
      else (b1, false)
      match v with
      | .null => (b2 ++ startText first2 (some f.key) ++ nullText, false)
      | v =>
        let r := send v b2 first2 (some f.key)
        if r.2 then (r.1, false)
        else if first2 then (r.1.take b.length, true)
        else (r.1, false)

/-- `project_requires_map_mut`, `request.rs:124-256`, after its early return. The result is the buffer
and the flag `first`. -/
def sendFields (ryu : Nat → List Char) (S : Schema) :
    List Sel → Fields → Buf → Bool → Option String → Bool → Buf × Bool
  | [], _, b, first, _, _ => (b, first)
  | .field f s :: rest, fs, b, first, key, pf =>
    let r := sendField fs f (sendValue ryu (sendObject ryu s (sendFields ryu S s))) b first key pf
    sendFields ryu S rest fs r.1 r.2 key pf
  | .frag g s :: rest, fs, b, first, key, pf =>
    let r := if fragApplies S fs g.cond then
        bareOr (bareStart s fs b pf key) (sendFields ryu S s fs b first key pf)
      else (b, first)
    sendFields ryu S rest fs r.1 r.2 key pf
  | .spread _ :: rest, fs, b, first, key, pf => sendFields ryu S rest fs b first key pf

/-- `project_requires(possible_types, requires, entity, buffer, first, None)` as the executor calls
it, `execution/plan.rs:1016-1023`. -/
def send (ryu : Nat → List Char) (S : Schema) (sels : List Sel) (v : Value) (b : Buf) (first : Bool) :
    Buf × Bool :=
  sendValue ryu (sendObject ryu sels (sendFields ryu S sels)) v b first none

/-! ## What is hashed -/

mutual
/-- The bytes `Hash for Value` feeds to the hasher, `value.rs:37-51`; slices begin with their
length. -/
def hashValue : Value → List Nat
  | .null => [0, 0, 0, 0]
  | .f64 n => le8 n
  | .i64 n => le8 (n % 2 ^ 64).toNat
  | .u64 n => le8 n
  | .bool b => [if b then 1 else 0]
  | .str s => hashStr s
  | .raw s => hashStr s
  | .arr vs => le8 vs.length ++ hashValues vs
  | .obj fs => le8 fs.length ++ hashMembers fs
def hashValues : List Value → List Nat
  | [] => []
  | v :: vs => hashValue v ++ hashValues vs
def hashMembers : List (String × Value) → List Nat
  | [] => []
  | (k, v) :: fs => hashStr k ++ hashValue v ++ hashMembers fs
end

mutual
/-- `hash_with_requires` for a selection that is not empty, `value.rs:93-105`, given what an object
feeds. -/
def feedValue (onObj : Fields → List Nat) : Value → List Nat
  | .obj fs => onObj fs
  | .arr vs => feedValues onObj vs
  | .null => hashValue .null
  | .f64 n => hashValue (.f64 n)
  | .i64 n => hashValue (.i64 n)
  | .u64 n => hashValue (.u64 n)
  | .bool b => hashValue (.bool b)
  | .str s => hashValue (.str s)
  | .raw s => hashValue (.raw s)
def feedValues (onObj : Fields → List Nat) : List Value → List Nat
  | [] => []
  | v :: vs => feedValue onObj v ++ feedValues onObj vs
end

/-- `hash_with_requires`, `value.rs:82-106`, given what an object feeds. -/
def feedBy (sels : List Sel) (onObj : Fields → List Nat) (v : Value) : List Nat :=
  if sels.isEmpty then hashValue v else feedValue onObj v

/-- `obj.binary_search_by_key(&"__typename").…as_str()).unwrap_or(type_condition)` and the test of
a fragment, `value.rs:130-136`: here only one way round. -/
def hashApplies (S : Schema) (fs : Fields) (cond : String) : Bool :=
  S.satisfies ((typenameOf fs).getD cond) cond

/-- `hash_object_with_requires`, `value.rs:108-150`. A spread would panic; there are none in
`requires`. -/
def feedFields (S : Schema) : List Sel → Fields → List Nat
  | [], _ => []
  | .field f s :: rest, fs =>
    (match getKey fs f.name with
      | some v => hashStr f.name ++ feedBy s (feedFields S s) v
      | none => []) ++ feedFields S rest fs
  | .frag g s :: rest, fs =>
    (if hashApplies S fs g.cond then feedFields S s fs else []) ++ feedFields S rest fs
  | .spread _ :: rest, fs => feedFields S rest fs

/-- The bytes `to_hash` feeds to the hasher, `value.rs:72-80`. -/
def feed (S : Schema) (sels : List Sel) (v : Value) : List Nat := feedBy sels (feedFields S sels) v

end Verif.Entities
