import Verif.Gate.Model

/-!
# What is expected of requests

Written without caches and without the code's loop over definitions.
-/

namespace Verif.Gate
open Verif.Keys (parseBytes normalizeBytes Kind)

variable {β : Type}

/-- The operations of a document, in order. -/
def operations : Doc β → List (Op β)
  | [] => []
  | .op o :: rest => o :: operations rest
  | .frag _ :: rest => operations rest

/-- The fragments of a document, in order. -/
def fragments : Doc β → List β
  | [] => []
  | .op _ :: rest => fragments rest
  | .frag b :: rest => b :: fragments rest

/-- The operation a client asks for: the first with the given name, or, with no name, the first. -/
inductive Chosen : Option String → List (Op β) → Op β → Prop
  | first (o : Op β) (rest : List (Op β)) : Chosen none (o :: rest) o
  | named (n : String) (before after : List (Op β)) (o : Op β) (hit : o.name = some n)
    (first : ∀ p ∈ before, p.name ≠ some n) : Chosen (some n) (before ++ o :: after) o

/-- An operation without the keyword `query` has no name; this is so for every parsed document. -/
def Parsed (doc : Doc β) : Prop :=
  ∀ o ∈ operations doc, o.shorthand = true → o.name = none ∧ o.kind = .query

/-- What the client and the coprocessor ask for: pairs of a text and an operation name. -/
def asked (r : Request) : List (Option String × Option String) :=
  (r.query, r.operationName) :: r.replaced.toList

/-- No two different inputs among those of these requests have the same hash. -/
structure NoClash (e : Engine β) (rs : List Request) : Prop where
  word : ∀ x, e.xxh x < 2 ^ 64
  schema : ∀ g, e.schemaHash g < 2 ^ 64
  rules : e.rulesHash < 2 ^ 64
  texts : ∀ r ∈ rs, ∀ s ∈ rs, ∀ p ∈ asked r, ∀ q ∈ asked s,
    e.xxh (parseBytes p.1) = e.xxh (parseBytes q.1) → parseBytes p.1 = parseBytes q.1
  operations : ∀ r ∈ rs, ∀ s ∈ rs, ∀ p ∈ asked r, ∀ q ∈ asked s,
    e.xxh (normalizeBytes p.1 p.2) = e.xxh (normalizeBytes q.1 q.2) →
      normalizeBytes p.1 p.2 = normalizeBytes q.1 q.2
  validations : ∀ r ∈ rs, ∀ s ∈ rs,
    e.xxh (validateBytes e r.graph (e.xxh (parseBytes r.query))) =
        e.xxh (validateBytes e s.graph (e.xxh (parseBytes s.query))) →
      validateBytes e r.graph (e.xxh (parseBytes r.query)) =
        validateBytes e s.graph (e.xxh (parseBytes s.query))

/-- The response a client is ready to read. -/
def Reads (r : Request) : Answer → Prop
  | .single => r.websocket = true ∨ r.acceptsSingle = true
  | .stream => r.websocket = true ∨ r.acceptsStream = true
  | .unsupported => True

/-- The text and the name that count: those of the client, unless a coprocessor changed them. -/
def final (r : Request) : Option String × Option String :=
  (if r.websocket then none else r.replaced).getD (r.query, r.operationName)

/-- The operation that runs for a request, told without caches: the text of the client is parsed and
found valid; the text that counts is parsed, and the operation asked for is taken from it and
normalized. -/
def Runs (e : Engine β) (r : Request) (x : Executed β) : Prop :=
  ∃ text doc, r.query = some text ∧ e.parse text = some doc ∧ e.valid r.graph doc = true ∧
    ∃ text' doc', (final r).1 = some text' ∧ e.parse text' = some doc' ∧
      normalizeDoc e r.graph doc' (final r).2 = some x

/-- What becomes of a request in a router that has no caches and no other requests. -/
def alone (e : Engine β) (r : Request) : Outcome β :=
  match negotiate e r with
  | none => .refused .accept
  | some .laboratory => .page
  | some m =>
    match r.query.bind e.parse with
    | none => .refused .syntax
    | some doc =>
      if e.valid r.graph doc then
        match (final r).1.bind e.parse with
        | none => .refused .syntax
        | some doc' =>
          match normalizeDoc e r.graph doc' (final r).2 with
          | none => .refused .operation
          | some x => gate e r m x
      else .refused .invalid

end Verif.Gate
