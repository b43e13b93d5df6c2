import Verif.Minify.Model
/-!
# What a document with fragments selects

A spread stands for the selections of the fragment it names. Here a spread is only read where the type
condition of the fragment is the type selected on, so that it applies to every object.
-/
namespace Verif.Minify
open Verif

/-- The type of a field. `_entities` is not in the supergraph; its items are of the union `_Entity`. -/
def fieldType (S : Schema) (t : String) (f : FieldInfo) : Option String :=
  if f.name = "_entities" then some "_Entity" else (S.defs.lookup t).bind (·.lookup f.name)

/-- Replacing spreads by what they stand for. Introspection fields are left alone. -/
inductive Expands (S : Schema) (D : List Frag) : String → List Sel → List Sel → Prop where
  | nil {t : String} : Expands S D t [] []
  | intro {t : String} {f : FieldInfo} {sub r r' : List Sel} : introspection f = true →
      Expands S D t r r' → Expands S D t (.field f sub :: r) (.field f sub :: r')
  | field {t u : String} {f : FieldInfo} {sub sub' r r' : List Sel} : introspection f = false →
      fieldType S t f = some u → Expands S D u sub sub' → Expands S D t r r' →
      Expands S D t (.field f sub :: r) (.field f sub' :: r')
  | frag {t : String} {g : FragInfo} {sub sub' r r' : List Sel} :
      Expands S D g.cond sub sub' → Expands S D t r r' →
      Expands S D t (.frag g sub :: r) (.frag g sub' :: r')
  | spread {t : String} {fr : Frag} {items' r r' : List Sel} : fr ∈ D → fr.cond = t → fr.items ≠ [] →
      Expands S D t fr.items items' → Expands S D t r r' →
      Expands S D t (.spread fr.name :: r) (items' ++ r')

/-- The same selections, up to the order of siblings. -/
inductive Same : List Sel → List Sel → Prop where
  | nil : Same [] []
  | field {f : FieldInfo} {a b r s : List Sel} : Same a b → Same r s →
      Same (.field f a :: r) (.field f b :: s)
  | frag {g : FragInfo} {a b r s : List Sel} : Same a b → Same r s → Same (.frag g a :: r) (.frag g b :: s)
  | spread {n : String} {r s : List Sel} : Same r s → Same (.spread n :: r) (.spread n :: s)
  | swap {x y : Sel} {r : List Sel} : Same (x :: y :: r) (y :: x :: r)
  | trans {a b c : List Sel} : Same a b → Same b c → Same a c

/-- An operation for a subgraph: fields exist, no spreads, below `_entities` only fragments (and
`__typename`). -/
inductive Valid (S : Schema) : String → List Sel → Prop where
  | nil {t : String} : Valid S t []
  | intro {t : String} {f : FieldInfo} {sub r : List Sel} : introspection f = true → Valid S t r →
      Valid S t (.field f sub :: r)
  | field {t u : String} {f : FieldInfo} {sub r : List Sel} : introspection f = false →
      f.name ≠ "_entities" → (∃ fs, S.defs.lookup t = some fs ∧ fs.lookup f.name = some u) →
      (sub = [] ∨ (S.defs.lookup u).isSome) → Valid S u sub → Valid S t r → Valid S t (.field f sub :: r)
  | entities {t : String} {f : FieldInfo} {sub r : List Sel} : introspection f = false →
      f.name = "_entities" → (∀ h s, Sel.field h s ∈ sub → introspection h = true) → Valid S "_Entity" sub →
      Valid S t r → Valid S t (.field f sub :: r)
  | frag {t : String} {g : FragInfo} {sub r : List Sel} : (sub = [] ∨ (S.defs.lookup g.cond).isSome) →
      Valid S g.cond sub → Valid S t r → Valid S t (.frag g sub :: r)

/-- The selection sets directly inside a selection set, with their types. -/
inductive Child (S : Schema) (t : String) (items : List Sel) : String → List Sel → Prop where
  | field {f : FieldInfo} {sub : List Sel} {u : String} : Sel.field f sub ∈ items → introspection f = false →
      f.name ≠ "_entities" → fieldType S t f = some u → Child S t items u sub
  | frag {g : FragInfo} {sub : List Sel} : Sel.frag g sub ∈ items → Child S t items g.cond sub
  | entities {f : FieldInfo} {sub : List Sel} {g : FragInfo} {s : List Sel} : Sel.field f sub ∈ items →
      introspection f = false → f.name = "_entities" → Sel.frag g s ∈ sub → Child S t items g.cond s

/-- The selection sets of a selection set, itself included. -/
inductive Part (S : Schema) (t : String) (items : List Sel) : String → List Sel → Prop where
  | refl : Part S t items t items
  | step {u v : String} {s w : List Sel} : Part S t items u s → Child S u s v w → Part S t items v w

/-- No accident with hashes: sets of the operation with the same id are of the same type and select the same. -/
def Faithful (H : Hashers) (S : Schema) (t : String) (items : List Sel) : Prop :=
  ∀ u s v w, Part S t items u s → Part S t items v w → selId H u s = selId H v w → u = v ∧ Same s w

/-- A selection without what is nested in it. -/
def bare : Sel → Sel
  | .field f _ => .field f []
  | .frag g _ => .frag g []
  | .spread n => .spread n

end Verif.Minify
