import Verif.Entities.Traverse

/-!
# Where a flatten path leads
-/

namespace Verif.Entities

/-- The value at a position. -/
def get : Value → Pos → Option Value
  | v, [] => some v
  | .obj fs, .key k :: p => match lookup k fs with
    | some v => get v p
    | none => none
  | .arr vs, .idx i :: p => match vs[i]? with
    | some v => get v p
    | none => none
  | _, _ => none

/-- An object passes a type condition if it does not say its type, or says one of those named or
possible for one of those named. -/
def Passes (S : Schema) (ts : List String) (fs : Fields) : Prop :=
  ∀ t, lookup "__typename" fs = some (.str t) → ∃ c ∈ ts, S.satisfies t c = true

/-- `Reaches S path v pos t`: the path leads from `v` to `t` at `pos`. A path that ends at a list
leads to its items; a type condition on a list is for its items, at any depth. -/
inductive Reaches (S : Schema) : List Seg → Value → Pos → Value → Prop
  | here (v : Value) : (∀ vs, v ≠ .arr vs) → Reaches S [] v [] v
  | item (vs : List Value) (i : Nat) (v : Value) : vs[i]? = some v →
      Reaches S [] (.arr vs) [.idx i] v
  | list (p : List Seg) (vs : List Value) (i : Nat) (v : Value) (pos : Pos) (t : Value) :
      vs[i]? = some v → Reaches S p v pos t → Reaches S (.list :: p) (.arr vs) (.idx i :: pos) t
  | field (p : List Seg) (fs : Fields) (name : String) (v : Value) (pos : Pos) (t : Value) :
      lookup name fs = some v → Reaches S p v pos t →
      Reaches S (.field name :: p) (.obj fs) (.key name :: pos) t
  | cond (p : List Seg) (fs : Fields) (ts : List String) (pos : Pos) (t : Value) :
      Passes S ts fs → Reaches S p (.obj fs) pos t → Reaches S (.cond ts :: p) (.obj fs) pos t
  | condItem (p : List Seg) (vs : List Value) (ts : List String) (i : Nat) (v : Value) (pos : Pos)
      (t : Value) : vs[i]? = some v → Reaches S (.cond ts :: p) v pos t →
      Reaches S (.cond ts :: p) (.arr vs) (.idx i :: pos) t

/-- Neither position is above the other. -/
def Apart (p q : Pos) : Prop := ¬ p <+: q ∧ ¬ q <+: p

end Verif.Entities
