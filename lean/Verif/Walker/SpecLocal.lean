import Verif.Walker.Spec
import Verif.Graph.Spec

/-!
# Operations that one subgraph can resolve
-/

namespace Verif.Walker

open Verif.Graph
open Verif.Overrides (Context Label)

/-- No unions, and nothing is provided. -/
structure Simple (S : Super) : Prop where
  unions : ∀ x ∈ S.defs, x.2.kind ≠ .union
  provides : ∀ x ∈ S.defs, ∀ f ∈ x.2.fields, ∀ j ∈ f.2.joins, j.provides = none

/-- A field that has a label in a subgraph is taken over there, or is taken over from there. -/
def Labelled (S : Super) : Prop :=
  ∀ x ∈ S.defs, ∀ f ∈ x.2.fields, ∀ j ∈ f.2.joins, j.label.isSome = true → j.overrideFrom = none →
    ∀ id n, j.graph = some id → S.graphName id = some n → ∃ j' ∈ f.2.joins, j'.overrideFrom = some n

/-- An object or an interface of the subgraph. -/
def Composite (S : Super) (type graph : String) : Prop :=
  ∃ d, (type, d) ∈ S.defs ∧ (d.kind = .object ∨ d.kind = .interface) ∧
    ∃ j ∈ d.joinTypes, S.graphName j.graph = some graph

/-- On objects of this type the subgraph resolves the selection by itself: it resolves each field, needing
nothing for it, and may be asked for it in this request; and it says of the types in type conditions that
they implement the interface they are asked of. -/
inductive Alone (S : Super) (c : Context) (graph : String) : String → Sel → Prop
  | typename (type f) : f.name = "__typename" → Composite S type graph → Alone S c graph type (.field f [])
  | leaf (type f) : Graph.Resolves S type f.name graph none → MayAsk S c type f.name graph →
      Alone S c graph type (.field f [])
  | field (type f r x ss) : Graph.Resolves S type f.name graph none → MayAsk S c type f.name graph →
      HasField S type f.name r → (∃ d, (r, d) ∈ S.defs) → (∀ y ∈ x :: ss, Alone S c graph r y) →
      Alone S c graph type (.field f (x :: ss))
  | same (type h x ss) : h.cond = type → h.skipIf = none → h.includeIf = none →
      (∀ y ∈ x :: ss, Alone S c graph type y) → Alone S c graph type (.frag h (x :: ss))
  | narrower (type h x ss id d) : h.cond ≠ type → (h.cond, d) ∈ S.defs → d.kind = .object →
      (id, type) ∈ d.implements → S.graphName id = some graph →
      (∀ y ∈ x :: ss, Alone S c graph h.cond y) → Alone S c graph type (.frag h (x :: ss))

end Verif.Walker
