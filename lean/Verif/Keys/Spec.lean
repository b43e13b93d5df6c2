import Verif.Keys.Model

/-!
# When two operations or requests are the same
-/

namespace Verif.Keys

/-- The argument lists in a selection. -/
def argLists : List Sel → List (List (String × Lit))
  | [] => []
  | .field f s :: rest => f.args.toList ++ (argLists s ++ argLists rest)
  | .frag _ s :: rest => argLists s ++ argLists rest
  | .spread _ :: rest => argLists rest

/-- The literals of an operation: argument values and defaults of variables. -/
def literals (op : Op) : List Lit :=
  (argLists op.sels).flatMap (·.map (·.2)) ++ (op.vars.getD []).filterMap (·.default)

/-- What may be selected at a place. -/
inductive Place where
  /-- anything -/
  | start
  /-- after a fragment: only further fragments -/
  | afterFrag
  /-- in a fragment: only fields -/
  | inFrag

def Place.fields : Place → Bool
  | .afterFrag => false
  | _ => true

def Place.frags : Place → Bool
  | .inFrag => false
  | _ => true

def isDirective (n : String) : Bool := n == "@include" || n == "@skip"

/-- Selections in which the fragments come after the fields, are not empty, have no conditions, and
are not directly in one another. Names are not `@include` or `@skip`. -/
def Tidy : Place → List Sel → Prop
  | _, [] => True
  | p, .field f s :: rest =>
    p.fields = true ∧ isDirective f.name = false ∧ Tidy .start s ∧ Tidy p rest
  | p, .frag g s :: rest =>
    p.frags = true ∧ isDirective g.cond = false ∧ s ≠ [] ∧ g.includeIf = none ∧ g.skipIf = none ∧
      Tidy .inFrag s ∧ Tidy .afterFrag rest
  | _, .spread _ :: _ => False

/-- Operations are the same: the kind and the selections, and the variable definitions up to their
order. -/
def SameOp (a b : Op) : Prop :=
  a.kind.getD .query = b.kind.getD .query ∧ a.sels = b.sels ∧
  (a.vars = none ↔ b.vars = none) ∧ ∀ v, v ∈ a.vars.getD [] ↔ v ∈ b.vars.getD []

/-- What is fed to the hasher of the arguments, argument by argument. -/
def argWords (args : List (String × Lit)) : List (List Word) :=
  args.map fun kv => .str kv.1 :: litWords kv.2

/-- The exclusive or of the hashes of streams. -/
def xorAll (fx : List Word → Nat) (streams : List (List Word)) : Nat :=
  streams.foldl (fun h s => h ^^^ fx s) 0

/-- The hash function has no accidental clash on two operations: where it gives the same number it
was fed the same, no exclusive or of hashes coincides, and hashes of arguments are not the numbers 0
and 1. -/
structure NoClash (fx : List Word → Nat) (a b : Op) : Prop where
  op : fx (opWords fx a) = fx (opWords fx b) → opWords fx a = opWords fx b
  args : ∀ m ∈ argLists a.sels, ∀ n ∈ argLists b.sels, xorAll fx (argWords m) = xorAll fx (argWords n) →
    argWords m = argWords n
  flag : ∀ m ∈ argLists a.sels ++ argLists b.sels, 2 ≤ xorAll fx (argWords m)
  vars : ∀ vs ws, a.vars = some vs → b.vars = some ws →
    xorAll fx (vs.map varWords) = xorAll fx (ws.map varWords) →
    ∀ x, x ∈ vs.map varWords ↔ x ∈ ws.map varWords

/-- No two literals of the operations are taken for one another. -/
def Unconfused (a b : Op) : Prop :=
  ∀ v ∈ literals a, ∀ w ∈ literals b, litWords v = litWords w → v = w

/-- A JSON value as it is read: a number is negative, zero or positive and small, or large, or has a
fraction. -/
inductive Readable : Value → Prop
  | null : Readable .null
  | bool (b) : Readable (.bool b)
  | i64 (i : Int) : -2 ^ 63 ≤ i → i < 2 ^ 63 → Readable (.i64 i)
  | u64 (n : Nat) : 2 ^ 63 ≤ n → n < 2 ^ 64 → Readable (.u64 n)
  | f64 (b : Nat) : b < 2 ^ 64 → Readable (.f64 b)
  | str (s) : Readable (.str s)
  | arr (vs : List Value) : vs.length < 2 ^ 64 → (∀ v ∈ vs, Readable v) → Readable (.arr vs)
  | obj (fs : Fields) : fs.length < 2 ^ 64 → (∀ kv ∈ fs, Readable kv.2) → Readable (.obj fs)

/-- A map of JSON values. -/
structure ReadableMap (m : List (String × Value)) : Prop where
  size : m.length < 2 ^ 64
  keys : (m.map (·.1)).Nodup
  values : ∀ kv ∈ m, Readable kv.2

/-- Maps are the same: the same values for the same keys. -/
def SameMap (m n : List (String × Value)) : Prop := ∀ k, lookup k m = lookup k n

/-- Both absent, or the same. -/
def SameOptMap : Option (List (String × Value)) → Option (List (String × Value)) → Prop
  | none, none => True
  | some m, some n => SameMap m n
  | _, _ => False

/-- The headers a policy selects: all, none, or those named. -/
def selected : HeaderPolicy → List (String × List Nat) → List (String × List Nat)
  | .all, headers => headers
  | .none, _ => []
  | .only names, headers => headers.filter fun h => decide (h.1 ∈ names)

/-- Header values made of the characters `HeaderValue::to_str` accepts. -/
def Textual (headers : List (String × List Nat)) : Prop :=
  ∀ h ∈ headers, ∀ b ∈ h.2, (32 ≤ b ∧ b < 127) ∨ b = 9

end Verif.Keys
