/-!
# Operations after normalization

The executable-operation tree shared by every part of the model that walks an operation.
-/

namespace Verif

/-- GraphQL literal values. `query_planner/ast/value.rs:13-23`. Floats are represented by their
bit pattern, which is also how the code compares them (`value.rs:39`). Objects are `BTreeMap`s in
the code; here the entry list. -/
inductive Lit where
  | var (name : String)
  | int (i : Int)
  | float (bits : Nat)
  | str (s : String)
  | bool (b : Bool)
  | null
  | enum (s : String)
  | list (vs : List Lit)
  | obj (fs : List (String × Lit))
  deriving Inhabited

/-- The own attributes of a field selection, `query_planner/ast/selection_set.rs:158-…`
(everything but its nested selections). -/
structure FieldInfo where
  name : String
  alias : Option String := none
  args : Option (List (String × Lit)) := none
  skipIf : Option String := none
  includeIf : Option String := none
  omitted : Bool := false

/-- The own attributes of an inline fragment, `query_planner/ast/selection_set.rs:317-…`. -/
structure FragInfo where
  cond : String
  skipIf : Option String := none
  includeIf : Option String := none

/-- `SelectionItem`, `query_planner/ast/selection_item.rs:17-21`; a `SelectionSet`
(`selection_set.rs:18-20`) is a `List Sel`. -/
inductive Sel where
  | field (f : FieldInfo) (sels : List Sel)
  | frag (g : FragInfo) (sels : List Sel)
  | spread (name : String)

/-- `field.alias.as_deref().unwrap_or(field.name)`, e.g. `executor/operation_filter.rs:183`. -/
def FieldInfo.key (f : FieldInfo) : String := f.alias.getD f.name

/-- Induction over selection sets. -/
theorem Sels.ind {Q : List Sel → Prop} (nil : Q [])
    (field : ∀ f s rest, Q s → Q rest → Q (.field f s :: rest))
    (frag : ∀ g s rest, Q s → Q rest → Q (.frag g s :: rest))
    (spread : ∀ n rest, Q rest → Q (.spread n :: rest)) : ∀ xs, Q xs := by
  have h : ∀ x : Sel, ∀ rest, Q rest → Q (x :: rest) := by
    intro x
    refine Sel.rec (motive_1 := fun x => ∀ rest, Q rest → Q (x :: rest))
      (motive_2 := fun xs => Q xs) ?_ ?_ ?_ nil ?_ x
    · intro f s ih rest hr; exact field f s rest ih hr
    · intro g s ih rest hr; exact frag g s rest ih hr
    · intro n rest hr; exact spread n rest hr
    · intro x xs hx hxs; exact hx xs hxs
  intro xs
  induction xs with
  | nil => exact nil
  | cons x xs ih => exact h x xs ih

end Verif
