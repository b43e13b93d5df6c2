import Verif.Projection.Spec
import Verif.Entities.Requires

/-!
# What a representation should be

On values instead of texts: the representation of an entity has its type name and the required
fields it has, by their response keys, as the `_Any` scalar of the federation specification asks.
-/

namespace Verif.Entities

open Verif.Json
open Verif.Projection (toJson Plain)

/-- The type name an object states. -/
def typeOf (fs : Fields) : Option String :=
  match lookup "__typename" fs with
  | some (.str t) => some t
  | _ => none

/-- A fragment applies to objects that do not state their type, and to those whose type satisfies
the condition or the other way round. -/
def Applies (S : Schema) (fs : Fields) (cond : String) : Bool :=
  match typeOf fs with
  | none => true
  | some t => S.satisfies t cond || S.satisfies cond t

/-- The value an object has for a required field. -/
def found (fs : Fields) (f : FieldInfo) : Option Value :=
  match lookup f.name fs with
  | some v => some v
  | none => lookup f.key fs

mutual
/-- What is sent for a value, given what is sent for an object. There is nothing to send for
`null`. -/
def repValue (ryu : Nat → List Char) (raw : String → Json) (object : Fields → Option Json) :
    Value → Option Json
  | .null => none
  | .arr vs => some (.arr (repItems ryu raw object vs))
  | .obj fs => object fs
  | .bool x => some (toJson ryu raw (.bool x))
  | .u64 x => some (toJson ryu raw (.u64 x))
  | .i64 x => some (toJson ryu raw (.i64 x))
  | .f64 x => some (toJson ryu raw (.f64 x))
  | .str x => some (toJson ryu raw (.str x))
  | .raw x => some (toJson ryu raw (.raw x))
/-- Items for which there is nothing to send are left out. -/
def repItems (ryu : Nat → List Char) (raw : String → Json) (object : Fields → Option Json) :
    List Value → List Json
  | [] => []
  | v :: vs => (repValue ryu raw object v).toList ++ repItems ryu raw object vs
end

/-- Whether the object has one of the required fields besides `__typename`, or only `__typename` is
required of it. -/
def touched (S : Schema) (fs : Fields) : List Sel → Bool
  | [] => false
  | .field f _ :: rest => (f.key != "__typename" && (found fs f).isSome) || touched S fs rest
  | .frag g s :: rest => (Applies S fs g.cond && (onlyTypename s || touched S fs s)) || touched S fs rest
  | .spread _ :: rest => touched S fs rest

/-- The object that is sent for an object, given the members for its required fields. -/
def repObject (ryu : Nat → List Char) (raw : String → Json) (S : Schema) (sels : List Sel)
    (members : Fields → List (List Char × Json)) (fs : Fields) : Option Json :=
  if sels.isEmpty then some (toJson ryu raw (.obj fs))
  else match typeOf fs with
    | some t =>
      if onlyTypename sels then some (.obj [("__typename".toList, .str t.toList)])
      else if touched S fs sels then some (.obj (("__typename".toList, .str t.toList) :: members fs))
      else none
    | none => if (members fs).isEmpty then none else some (.obj (members fs))

/-- The member for a required field. -/
def repField (f : FieldInfo) (rep : Value → Option Json) (fs : Fields) : List (List Char × Json) :=
  if f.key = "__typename" then []
  else match found fs f with
    | none => []
    | some .null => [(f.key.toList, .null)]
    | some v => (rep v).toList.map fun j => (f.key.toList, j)

/-- The members for the required fields. -/
def members (ryu : Nat → List Char) (raw : String → Json) (S : Schema) :
    List Sel → Fields → List (List Char × Json)
  | [], _ => []
  | .field f s :: rest, fs =>
    repField f (repValue ryu raw (repObject ryu raw S s (members ryu raw S s))) fs ++
      members ryu raw S rest fs
  | .frag g s :: rest, fs =>
    (if Applies S fs g.cond then members ryu raw S s fs else []) ++ members ryu raw S rest fs
  | .spread _ :: rest, fs => members ryu raw S rest fs

/-- The representation of an entity, if there is one. -/
def rep (ryu : Nat → List Char) (raw : String → Json) (S : Schema) (sels : List Sel) (v : Value) :
    Option Json :=
  repValue ryu raw (repObject ryu raw S sels (members ryu raw S sels)) v

/-! ## Selections for which this is sent -/

mutual
/-- The selection has, not below a field, a fragment that is just `__typename`. -/
def mayBare : Sel → Bool
  | .field _ _ => false
  | .frag _ s => onlyTypename s || mayBares s
  | .spread _ => false
def mayBares : List Sel → Bool
  | [] => false
  | x :: xs => mayBare x || mayBares xs
end

/-- Not both conditions apply to an object of a type. -/
def Exclusive (S : Schema) (c d : String) : Prop :=
  ∀ t, ¬ ((S.satisfies t c || S.satisfies c t) = true ∧ (S.satisfies t d || S.satisfies d t) = true)

/-- Neither do the condition and the one of the selection, if it is a fragment. -/
def _root_.Verif.Sel.ExclusiveWith (S : Schema) (c : String) : Sel → Prop
  | .frag g _ => Exclusive S c g.cond
  | _ => True

/-- Nothing that may write a field comes before a fragment that is just `__typename` and applies to
the same object, at any depth; response keys are plain. -/
def Tidy (S : Schema) : List Sel → Prop
  | [] => True
  | .field f s :: rest => Plain f.key ∧ Tidy S s ∧ (f.key = "__typename" ∨ mayBares rest = false) ∧
      Tidy S rest
  | .frag g s :: rest => Tidy S s ∧ (∀ y ∈ rest, mayBare y = true → y.ExclusiveWith S g.cond) ∧
      Tidy S rest
  | .spread _ :: rest => Tidy S rest

/-! ## Representations that say no more than required -/

/-- `f` is selected by `sels`, possibly within fragments, and with the selection `s`. -/
inductive Selects : List Sel → FieldInfo → List Sel → Prop
  | here (f s rest) : Selects (.field f s :: rest) f s
  | frag (g s rest f t) : Selects s f t → Selects (.frag g s :: rest) f t
  | later (x rest f t) : Selects rest f t → Selects (x :: rest) f t

/-- `f` is selected by `sels` for an object, with the selection `s`: the fragments around it
apply. -/
inductive SelectsFor (S : Schema) (fs : Fields) : List Sel → FieldInfo → List Sel → Prop
  | here (f s rest) : SelectsFor S fs (.field f s :: rest) f s
  | frag (g s rest f t) : Applies S fs g.cond = true → SelectsFor S fs s f t →
      SelectsFor S fs (.frag g s :: rest) f t
  | later (x rest f t) : SelectsFor S fs rest f t → SelectsFor S fs (x :: rest) f t

/-- No `null` among the items of lists; a list may be within a list. -/
inductive NoNullItems : Value → Prop
  | arr (vs) : (∀ v ∈ vs, v ≠ .null) → (∀ v ∈ vs, NoNullItems v) → NoNullItems (.arr vs)
  | other (v) : (∀ vs, v ≠ .arr vs) → NoNullItems v

/-- The value has, besides type names, only selected fields, down to the fields without a selection
and to raw custom scalars. -/
inductive Within (raw : String → Json) : List Sel → Json → Prop
  | leaf (j) : Within raw [] j
  | raw (sels s) : Within raw sels (raw s)
  | null (sels) : Within raw sels .null
  | bool (sels b) : Within raw sels (.bool b)
  | num (sels t) : Within raw sels (.num t)
  | str (sels t) : Within raw sels (.str t)
  | arr (sels js) : (∀ j ∈ js, Within raw sels j) → Within raw sels (.arr js)
  | nothing (sels) : Within raw sels (.obj [])
  | typename (sels j ms) : Within raw sels (.obj ms) →
      Within raw sels (.obj (("__typename".toList, j) :: ms))
  | field (sels f s j ms) : Selects sels f s → Within raw s j → Within raw sels (.obj ms) →
      Within raw sels (.obj ((f.key.toList, j) :: ms))

end Verif.Entities
