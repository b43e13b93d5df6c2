import Verif.Keys.Model

/-!
# From a request to the operation that runs

`pipeline/mod.rs:118-722`, `pipeline/parser.rs:93-284`, `pipeline/validation/mod.rs:27-164`,
`pipeline/normalize.rs:137-227`, `pipeline/websocket_server.rs:472-600`, `pipeline/header.rs:191-322`
and `query_planner/ast/normalization/pipeline/drop_unused_operations.rs`.

Many requests are served at a time. They share three caches, which may lose entries at any moment.
A request goes through its stages one at a time, in any interleaving with the others; the look-up of
an entry, and the computation and storage of a missing one, are one step (`moka`'s
`or_insert_with` runs one computation for a key at a time).

Plugins, telemetry and the sharing of responses between equal requests are not part of this model.
-/

namespace Verif.Gate
open Verif.Keys (parseBytes normalizeBytes Kind)

/-- An operation of a document: `query_ast::OperationDefinition`. A query that is only a selection set
is `shorthand`; such an operation has the kind `query` and no name. `β` is what a selection set,
together with variable definitions and directives, is. -/
structure Op (β : Type) where
  kind : Kind
  name : Option String
  shorthand : Bool
  body : β
  deriving DecidableEq

/-- `query_ast::Definition`. -/
inductive Def (β : Type) where
  | op (o : Op β)
  | frag (b : β)
  deriving DecidableEq

abbrev Doc (β : Type) := List (Def β)

/-- What is planned and executed: `GraphQLNormalizationPayload`, `pipeline/normalize.rs:30-42`. -/
structure Executed (β : Type) where
  kind : Kind
  name : Option String
  body : β
  deriving DecidableEq

/-- A request. `acceptsPage`, `acceptsSingle` and `acceptsStream` are the three results of the
negotiation of the `Accept` header, done by a library (`header.rs:297-311`). `graph` identifies the
supergraph selected for the request (`mod.rs:224`). `replaced` is what the coprocessor made of the
query and the operation name, if it changed the body (`mod.rs:319-330`). -/
structure Request where
  websocket : Bool
  get : Bool
  acceptsPage : Bool
  acceptsSingle : Bool
  acceptsStream : Bool
  graph : Nat
  query : Option String
  operationName : Option String
  replaced : Option (Option String × Option String)
  deriving DecidableEq

/-- What the stages are made of. All of these are arbitrary functions. `normalize` is the rest of
normalization, after `drop_unused_operations`. `admits` is everything that may still refuse an
operation before it is executed: JWT, variables, introspection policy, authorization, planning and
demand control. `subscribes` tells whether the plan of a subscription has a subscription node. -/
structure Engine (β : Type) where
  xxh : List Nat → Nat
  parse : String → Option (Doc β)
  schemaHash : Nat → Nat
  rulesHash : Nat
  valid : Nat → Doc β → Bool
  normalize : Nat → Doc β → Option β
  admits : Request → Executed β → Bool
  subscribes : Request → Executed β → Bool
  subscriptions : Bool
  laboratory : Bool

variable {β : Type}

/-! ## Response mode, `header.rs` -/

/-- `ResponseMode`, `header.rs:171-182`, without the content types. -/
inductive Mode where
  | singleOnly | streamOnly | dual | laboratory
  deriving DecidableEq

/-- `single_content_type`, `header.rs:204-210`. -/
def Mode.canSingle : Mode → Bool
  | .singleOnly => true
  | .dual => true
  | _ => false

/-- `can_stream` and `stream_content_type`, `header.rs:211-220`. -/
def Mode.canStream : Mode → Bool
  | .streamOnly => true
  | .dual => true
  | _ => false

/-- `negotiate`, `header.rs:249-322`; over a websocket, `websocket_server.rs:581-584`. -/
def negotiate (e : Engine β) (r : Request) : Option Mode :=
  if r.websocket then some .dual
  else if e.laboratory && r.get && r.acceptsPage then some .laboratory
  else if r.acceptsSingle then (if r.acceptsStream then some .dual else some .singleOnly)
  else if r.acceptsStream then some .streamOnly
  else none

/-! ## Choice of the operation, `drop_unused_operations.rs` -/

/-- Does the operation have the name asked for?  `drop_unused_operations.rs:28-36`. -/
def bingo (name : String) (o : Op β) : Bool := !o.shorthand && o.name == some name

/-- `retain_mut`, `drop_unused_operations.rs:16-46`: whether an operation was found, and what is
kept. -/
def retain (name : Option String) : Bool → Doc β → Bool × Doc β
  | found, [] => (found, [])
  | found, .frag b :: rest =>
    let (f, kept) := retain name found rest
    (f, .frag b :: kept)
  | found, .op o :: rest =>
    if found then retain name found rest
    else match name with
      | none =>
        let (f, kept) := retain name true rest
        (f, .op o :: kept)
      | some n =>
        if bingo n o then
          let (f, kept) := retain name true rest
          (f, .op o :: kept)
        else retain name found rest

/-- The first operation of a document, `normalization/mod.rs:66-69`. -/
def firstOp : Doc β → Option (Op β)
  | [] => none
  | .op o :: _ => some o
  | .frag _ :: rest => firstOp rest

/-- `normalize_operation`, `normalization/mod.rs:59-89`. The passes that follow
`drop_unused_operations` keep the kind and the name of the operation. -/
def normalizeDoc (e : Engine β) (graph : Nat) (doc : Doc β) (name : Option String) :
    Option (Executed β) :=
  let (found, kept) := retain name false doc
  if found then
    match firstOp kept with
    | none => none
    | some o => (e.normalize graph kept).map fun b => ⟨o.kind, name.or o.name, b⟩
  else none

/-! ## The caches -/

/-- The parse cache is shared by all supergraphs (`shared_state.rs`); the other two belong to the
runtime of one supergraph (`schema_state.rs`), so that its identity is part of the key. -/
structure Caches (β : Type) where
  parse : List (Nat × Doc β)
  validate : List ((Nat × Nat) × Bool)
  normalize : List ((Nat × Nat) × Executed β)

def Caches.empty : Caches β := ⟨[], [], []⟩

/-- A look-up. -/
def find {κ α : Type} [DecidableEq κ] (k : κ) : List (κ × α) → Option α
  | [] => none
  | (k', v) :: rest => if k = k' then some v else find k rest

/-- The key of a text, `parser.rs:133-137`. -/
def parseKey (e : Engine β) (query : Option String) : Nat := e.xxh (parseBytes query)

/-- What the key of a validation is made of, `validation/mod.rs:81-87`. -/
def validateBytes (e : Engine β) (graph : Nat) (key : Nat) : List Nat :=
  le8 (e.schemaHash graph) ++ (le8 e.rulesHash ++ le8 key)

/-- The key of a normalized operation, `normalize.rs:148-156`. -/
def normalizeKey (e : Engine β) (query name : Option String) : Nat :=
  match name with
  | some _ => e.xxh (normalizeBytes query name)
  | none => parseKey e query

/-- `parse_operation_with_cache`, `parser.rs:133-206`. A missing query is an error before the cache is
looked at (141); errors are not stored. -/
def parseCached (e : Engine β) (c : Caches β) (query : Option String) : Caches β × Option (Doc β) :=
  match query with
  | none => (c, none)
  | some text =>
    match find (parseKey e query) c.parse with
    | some doc => (c, some doc)
    | none =>
      match e.parse text with
      | none => (c, none)
      | some doc => ({ c with parse := (parseKey e query, doc) :: c.parse }, some doc)

/-- `validate_operation_with_cache`, `validation/mod.rs:81-158`. Failures are stored as well. `key` is
the key of the text in the parse cache. -/
def validateCached (e : Engine β) (c : Caches β) (graph : Nat) (key : Nat) (doc : Doc β) :
    Caches β × Bool :=
  let k := (graph, e.xxh (validateBytes e graph key))
  match find k c.validate with
  | some b => (c, b)
  | none => ({ c with validate := (k, e.valid graph doc) :: c.validate }, e.valid graph doc)

/-- `normalize_request_with_cache`, `normalize.rs:148-227`. Errors are not stored. -/
def normalizeCached (e : Engine β) (c : Caches β) (graph : Nat) (query name : Option String)
    (doc : Doc β) : Caches β × Option (Executed β) :=
  let k := (graph, normalizeKey e query name)
  match find k c.normalize with
  | some x => (c, some x)
  | none =>
    match normalizeDoc e graph doc name with
    | none => (c, none)
    | some x => ({ c with normalize := (k, x) :: c.normalize }, some x)

/-! ## The stages -/

/-- How the client is answered once its operation has run, `mod.rs:634-720`. `unsupported` is an error
response. -/
inductive Answer where
  | single | stream | unsupported
  deriving DecidableEq

/-- Why a request is refused without running an operation. -/
inductive Refusal where
  | accept | syntax | invalid | operation | mutationOverGet | subscription | other
  deriving DecidableEq

/-- What becomes of a request. -/
inductive Outcome (β : Type) where
  | page
  | refused (why : Refusal)
  | ran (x : Executed β) (answer : Answer)
  deriving DecidableEq

/-- The gates before execution, `mod.rs:379-402` and `websocket_server.rs:534-541`, and the answer
after it, `mod.rs:634-720`. -/
def gate (e : Engine β) (r : Request) (m : Mode) (x : Executed β) : Outcome β :=
  if !r.websocket && r.get && x.kind == .mutation then .refused .mutationOverGet
  else if x.kind == .subscription && (!e.subscriptions || !m.canStream) then .refused .subscription
  else if !e.admits r x then .refused .other
  else if x.kind == .subscription && e.subscribes r x then
    .ran x (if m.canStream then .stream else .unsupported)
  else .ran x (if m.canSingle then .single else .unsupported)

/-- How far a request is. -/
inductive Stage (β : Type) where
  | idle
  | arrived (r : Request)
  | negotiated (r : Request) (m : Mode)
  | parsed (r : Request) (m : Mode) (doc : Doc β)
  | validated (r : Request) (m : Mode) (doc : Doc β)
  | ready (r : Request) (m : Mode) (query name : Option String) (doc : Doc β)
  | normalized (r : Request) (m : Mode) (x : Executed β)
  | done (r : Request) (o : Outcome β)

/-- One stage of one request, in the order of `mod.rs:141-402` and `websocket_server.rs:472-541`. A
coprocessor sees requests over HTTP only; after it changed the body the text is parsed again
(`mod.rs:330-340`). -/
def advance (e : Engine β) (c : Caches β) : Stage β → Caches β × Stage β
  | .idle => (c, .idle)
  | .arrived r =>
    match negotiate e r with
    | none => (c, .done r (.refused .accept))
    | some .laboratory => (c, .done r .page)
    | some m => (c, .negotiated r m)
  | .negotiated r m =>
    match parseCached e c r.query with
    | (c', none) => (c', .done r (.refused .syntax))
    | (c', some doc) => (c', .parsed r m doc)
  | .parsed r m doc =>
    match validateCached e c r.graph (parseKey e r.query) doc with
    | (c', false) => (c', .done r (.refused .invalid))
    | (c', true) => (c', .validated r m doc)
  | .validated r m doc =>
    match (if r.websocket then none else r.replaced) with
    | none => (c, .ready r m r.query r.operationName doc)
    | some (q, n) =>
      match parseCached e c q with
      | (c', none) => (c', .done r (.refused .syntax))
      | (c', some doc') => (c', .ready r m q n doc')
  | .ready r m q n doc =>
    match normalizeCached e c r.graph q n doc with
    | (c', none) => (c', .done r (.refused .operation))
    | (c', some x) => (c', .normalized r m x)
  | .normalized r m x => (c, .done r (gate e r m x))
  | .done r o => (c, .done r o)

/-- The router with its requests. `history` lists the requests that have arrived. -/
structure World (β : Type) where
  caches : Caches β
  stages : Nat → Stage β
  history : List Request

/-- Replaces the stage of request `i`. -/
def put {α : Type} (f : Nat → α) (i : Nat) (a : α) : Nat → α := fun j => if j = i then a else f j

/-- One step: a request arrives, a request advances, or caches lose entries. -/
inductive Step (e : Engine β) : World β → World β → Prop
  | arrive (w : World β) (i : Nat) (r : Request) (free : w.stages i = .idle) :
    Step e w ⟨w.caches, put w.stages i (.arrived r), r :: w.history⟩
  | advance (w : World β) (i : Nat) :
    Step e w ⟨(advance e w.caches (w.stages i)).1,
      put w.stages i (advance e w.caches (w.stages i)).2, w.history⟩
  | forget (w : World β) (c : Caches β) (hp : ∀ x ∈ c.parse, x ∈ w.caches.parse)
    (hv : ∀ x ∈ c.validate, x ∈ w.caches.validate) (hn : ∀ x ∈ c.normalize, x ∈ w.caches.normalize) :
    Step e w ⟨c, w.stages, w.history⟩

/-- The states of a router that started with empty caches. -/
inductive Reachable (e : Engine β) : World β → Prop
  | start : Reachable e ⟨.empty, fun _ => .idle, []⟩
  | step {w w' : World β} (h : Reachable e w) (s : Step e w w') : Reachable e w'

end Verif.Gate
