/-!
# Subscriptions over HTTP callbacks

A subgraph sends the events of a subscription as requests to the router: `pipeline/http_callback.rs`,
`executor/executors/http_callback.rs`, `executor/executors/subscription_buffer.rs` and the enforcer of heartbeats in
`schema_state.rs`, all below `bin/router/src`. Requests of many subgraphs, the streams of many subscriptions and the
enforcer take their steps in any order.

Not modelled: the JSON of callbacks and of responses (a request has a parsed body or none; how a payload is read is a
parameter), how identifiers are drawn (`Ulid::generate()`; an identifier that was used before is not used again), and
the request that opens the subscription.
-/

namespace Verif.Callback

abbrev Id := String

/-- `CallbackAction`, `pipeline/http_callback.rs:27-34`. -/
inductive Action
  | check
  | next
  | complete
deriving DecidableEq, Repr

/-- `CallbackPayload`, `pipeline/http_callback.rs:36-48`. The payload is its raw text. -/
structure Body where
  action : Action
  id : Id
  verifier : String
  payload : Option String := none
  errors : Option (List String) := none
deriving DecidableEq, Repr

/-- A request to the callback endpoint: the value of the header `subscription-protocol`, the last part of the path, and
the body, if it can be parsed. -/
structure Request where
  protocol : Option String
  path : Id
  body : Option Body
deriving DecidableEq, Repr

/-- `CallbackMessage`, `executor/executors/http_callback.rs:52-56`. -/
inductive Message
  | next (payload : String)
  | complete (errors : Option (List String))
deriving DecidableEq, Repr

/-- `CallbackSubscription`, `executor/executors/http_callback.rs:31-45`, without the sender, which is found by the
identifier. -/
structure Sub where
  verifier : String
  created : Nat
  beat : Option Nat := none
deriving DecidableEq, Repr

/-- The channel of a subscription: there is none yet, it has messages, or the receiver was dropped. -/
inductive Chan
  | fresh
  | open (queue : List Message)
  | over
deriving DecidableEq, Repr

/-- `mpsc::channel::<CallbackMessage>(16)`, `executor/executors/http_callback.rs:184`. -/
def capacity : Nat := 16

/-- Everything there is. `subs` is the map of active subscriptions, `marked` the list `timed_out` of the enforcer, and
`removing` has the subscriptions that somebody is about to remove from the map. -/
structure World where
  now : Nat := 0
  subs : Id → Option Sub := fun _ => none
  chan : Id → Chan := fun _ => .fresh
  marked : List Id := []
  removing : List Id := []

/-- A map with one entry changed. -/
def set {α : Type} (f : Id → α) (i : Id) (a : α) : Id → α := fun j => if j = i then a else f j

/-- `mpsc::Sender::try_send`: what happens to the channel. -/
def send (c : Chan) (m : Message) : Chan :=
  match c with
  | .open q => if q.length < capacity then .open (q ++ [m]) else .open q
  | c => c

/-- What the router answers, that a subscription was opened, or what its stream yields: a response, an error because a
payload could not be read, the errors of the last message, that the stream has ended, and that the enforcer has
terminated it. -/
inductive Output (R : Type)
  | status (code : Nat)
  | opened (i : Id)
  | answer (i : Id) (r : R)
  | failed (i : Id)
  | errors (i : Id) (es : List String)
  | ended (i : Id)
  | evicted (i : Id)
deriving DecidableEq, Repr

/-- `handle_next`, `pipeline/http_callback.rs:152-194`. The removal from the map is a step of its own. -/
def handleNext (w : World) (b : Body) : World × Nat :=
  match b.payload with
  | none => (w, 400)
  | some p =>
    match w.chan b.id with
    | .open q => ({ w with chan := set w.chan b.id (send (.open q) (.next p)) }, 204)
    | _ => ({ w with removing := w.removing ++ [b.id] }, 404)

/-- `handle_complete`, `pipeline/http_callback.rs:196-210`. -/
def handleComplete (w : World) (b : Body) : World :=
  { w with chan := set w.chan b.id (send (w.chan b.id) (.complete b.errors)), removing := w.removing ++ [b.id] }

/-- `handler`, `pipeline/http_callback.rs:212-261`, with `validate_protocol` (116-127), `parse_payload` (129-131),
`validate_payload` (133-145), `handle_check` (147-150) and the status codes of errors (97-108). The entry is read-locked
from the lookup until the message is sent, so this is one step. -/
def handle (w : World) (r : Request) : World × Nat :=
  if r.protocol ≠ some "callback/1.0" then (w, 400) else
  match r.body with
  | none => (w, 400)
  | some b =>
    if b.id ≠ r.path then (w, 404) else
    match w.subs b.id with
    | none => (w, 404)
    | some s =>
      if s.verifier ≠ b.verifier then (w, 400) else
      match b.action with
      | .check => ({ w with subs := set w.subs b.id (some { s with beat := some w.now }) }, 204)
      | .next => handleNext w b
      | .complete => (handleComplete w b, 204)

/-- The stream ends or is dropped: the receiver is gone, and the guard is about to remove the entry,
`executor/executors/http_callback.rs:65-70`. -/
def close (w : World) (i : Id) : World :=
  { w with chan := set w.chan i .over, removing := w.removing ++ [i] }

/-- The stream of a subscription takes a message, `executor/executors/http_callback.rs:275-336`. The channel is closed
if it is empty and the entry, which has the only sender, is no longer in the map. -/
def recv {R : Type} (read : String → Option R) (w : World) (i : Id) : World × List (Output R) :=
  match w.chan i with
  | .open (.next p :: q) =>
    match read p with
    | some r => ({ w with chan := set w.chan i (.open q) }, [.answer i r])
    | none => (close w i, [.failed i, .ended i])
  | .open (.complete es :: _) =>
    match es with
    | none => (close w i, [.ended i])
    | some [] => (close w i, [.ended i])
    | some (e :: es) => (close w i, [.errors i (e :: es), .ended i])
  | .open [] =>
    match w.subs i with
    | none => (close w i, [.ended i])
    | some _ => (w, [])
  | _ => (w, [])

/-- `elapsed > deadline`, `schema_state.rs:1016-1030`. -/
def silent (limit now : Nat) (s : Sub) : Bool :=
  match s.beat with
  | none => decide (limit < now - s.created)
  | some t => decide (limit < now - t)

/-- The error of the enforcer, `schema_state.rs:1047-1050`. -/
def gone : String := "Subgraph gone due to heartbeat timeout"

/-- The steps. -/
inductive Event
  /-- `subscribe`, `executor/executors/http_callback.rs:173-203`. -/
  | subscribe (i : Id) (verifier : String)
  /-- A request to the callback endpoint. -/
  | request (r : Request)
  /-- Somebody removes the entry, who was about to. -/
  | remove (i : Id)
  /-- The stream is polled. -/
  | recv (i : Id)
  /-- The stream is dropped, or could not be started. -/
  | leave (i : Id)
  /-- Time passes, in milliseconds. -/
  | tick (ms : Nat)
  /-- One turn of the first loop of the enforcer, `schema_state.rs:1014-1033`. -/
  | look (i : Id)
  /-- One turn of the second loop, `schema_state.rs:1036-1052`. -/
  | evict (i : Id)
deriving DecidableEq, Repr

/-- One step. `limit` is the interval of heartbeats and the grace period, `schema_state.rs:1019-1024`. -/
def step {R : Type} (read : String → Option R) (limit : Nat) (w : World) : Event → World × List (Output R)
  | .subscribe i v =>
    match w.chan i with
    | .fresh => ({ w with subs := set w.subs i (some { verifier := v, created := w.now }),
                          chan := set w.chan i (.open []) }, [.opened i])
    | _ => (w, [])
  | .request r =>
    match handle w r with
    | (w, n) => (w, [.status n])
  | .remove i =>
    if i ∈ w.removing then ({ w with subs := set w.subs i none, removing := w.removing.erase i }, []) else (w, [])
  | .recv i => recv read w i
  | .leave i =>
    match w.chan i with
    | .open _ => (close w i, [])
    | _ => (w, [])
  | .tick n => ({ w with now := w.now + n }, [])
  | .look i =>
    match w.subs i with
    | some s => if silent limit w.now s then ({ w with marked := w.marked ++ [i] }, []) else (w, [])
    | none => (w, [])
  | .evict i =>
    if i ∈ w.marked then
      match w.subs i with
      | some _ => ({ w with subs := set w.subs i none, marked := w.marked.erase i,
                            chan := set w.chan i (send (w.chan i) (.complete (some [gone]))) }, [.evicted i])
      | none => ({ w with marked := w.marked.erase i }, [])
    else (w, [])

/-- What happened, in order: each step with what it put out. -/
abbrev Trace (R : Type) := List (Event × List (Output R))

/-- Many steps. -/
def run {R : Type} (read : String → Option R) (limit : Nat) (w : World) : List Event → World × Trace R
  | [] => (w, [])
  | e :: es =>
    match step read limit w e with
    | (w, o) =>
      match run read limit w es with
      | (w, t) => (w, (e, o) :: t)

end Verif.Callback
