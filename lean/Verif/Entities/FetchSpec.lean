import Verif.Entities.Fetch
import Verif.Projection.Spec
import Verif.Entities.RequiresSpec
import Verif.Entities.TraverseSpec

/-!
# What an entity fetch should do
-/

namespace Verif.Entities

open Verif.Json
open Verif.Projection (RawOk)

/-- What is sent for a target of an entity fetch: nothing for `null`, else the representation once
the input rewrites are applied. -/
def repOf (ryu : Nat → List Char) (raw : String → Json) (S : Schema) (sels : List Sel)
    (rewrite : Value → Value) : Value → Option Json
  | .null => none
  | t => rep ryu raw S sels (rewrite t)

/-- The path leads to the same positions. -/
def SamePositions (S : Schema) (path : List Seg) (d d' : Value) : Prop :=
  ∀ pos, (∃ t, Reaches S path d pos t) ↔ ∃ t, Reaches S path d' pos t

/-- One of the paths leads to `t` at `pos`. -/
def Reached (S : Schema) (paths : List (List Seg)) (d : Value) (pos : Pos) (t : Value) : Prop :=
  ∃ p ∈ paths, Reaches S p d pos t

/-- Which of the representations that are sent is the one for a position: none for a target without a
representation, else one that is the representation of the target. Each is for some target. -/
structure Slots (S : Schema) (paths : List (List Seg)) (d : Value) (R : Value → Option Json)
    (reps : List Json) (slot : Pos → Option Nat) : Prop where
  none_sent : ∀ pos t, Reached S paths d pos t → R t = none → slot pos = none
  sent : ∀ pos t j, Reached S paths d pos t → R t = some j →
    ∃ i, slot pos = some i ∧ reps[i]? = some j
  used : ∀ i < reps.length, ∃ pos t, Reached S paths d pos t ∧ slot pos = some i

/-- The assumptions about a fetch: no clash of hashes, and the data of the targets is well formed. -/
structure Sound (raw : String → Json) (S : Schema) (paths : List (List Seg)) (data : Value)
    (rewrite : Value → Value) (hash : Value → Nat) (R : Value → Option Json) : Prop where
  data_wf : data.WF
  target_wf : ∀ pos t, Reached S paths data pos t → t ≠ .null → (rewrite t).WF
  target_raw : ∀ pos t, Reached S paths data pos t → t ≠ .null → RawOk raw (rewrite t)
  clash : ∀ p q t u, Reached S paths data p t → Reached S paths data q u → t ≠ .null → u ≠ .null →
    hash t = hash u → R t = R u

/-- What the target `t` becomes: it is merged with the entity returned for its representation, if
there is one. -/
def result (slot : Option Nat) (entities : List Value) (t : Value) : Value :=
  match slot with
  | none => t
  | some i => match entities[i]? with
    | some e => deepMerge t e
    | none => t

/-- The data `out` is `d` with the entities in their places, and otherwise the same. -/
def Filled (S : Schema) (path : List Seg) (slot : Pos → Option Nat) (entities : List Value)
    (d out : Value) : Prop :=
  (∀ pos t, Reaches S path d pos t → get out pos = some (result (slot pos) entities t)) ∧
    ∀ pos, (∀ q t, Reaches S path d q t → Apart q pos) → get out pos = get d pos

/-- An error of the subgraph with this path is about the `i`-th entity. -/
def AboutEntity (key : String) (e : GErr) (i : Nat) (rest : Pos) : Prop :=
  e.path = some (.key key :: .idx i :: rest)

/-- `e'` is `e` with the name of the subgraph, a code, and the path that is affected. -/
structure Told (subgraph : String) (affected : Option String) (e e' : GErr) : Prop where
  rest : e'.rest = e.rest
  service : e'.service = some (e.service.getD subgraph)
  code : e'.code = some (e.code.getD "DOWNSTREAM_SERVICE_ERROR")
  affected : e'.affected = affected.or e.affected

/-- The path of an error that is not about an entity: it is not changed, except that the key of a
batched fetch is told as `_entities`. -/
def keptPath (key : String) : Option Pos → Option Pos
  | some (.key k :: p) => some (.key (if k = key then "_entities" else k) :: p)
  | p => p

/-- The errors `out` are what is reported for `e`: one for each position whose representation was the
one that the error is about, and else one with the path of the error. -/
def Reported (S : Schema) (paths : List (List Seg)) (d : Value) (reps : List Json)
    (slot : Pos → Option Nat) (subgraph : String) (affected : Option String) (key : String) (e : GErr)
    (out : List GErr) : Prop :=
  (∀ e' ∈ out, Told subgraph affected e e') ∧
  (∀ i rest, AboutEntity key e i rest → i < reps.length →
    ∃ ps : List Pos, (paths.length = 1 → ps.Nodup) ∧
      (∀ p, p ∈ ps ↔ (∃ t, Reached S paths d p t) ∧ slot p = some i) ∧
      out.map (·.path) = ps.map fun p => some (p ++ rest)) ∧
  ((∀ i rest, AboutEntity key e i rest → ¬ i < reps.length) → ∃ e', out = [e'] ∧ e'.path = keptPath key e.path)

end Verif.Entities
