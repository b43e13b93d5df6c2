/-!
# A client's WebSocket connection

Models `bin/router/src/pipeline/websocket_server.rs` and `bin/router/src/executor/executors/websocket_common.rs`:
one connection, from the upgrade to its end, as a state with the steps that the frame handler, the tasks of the
subscriptions and the timers can take in any order.

Not modelled here: what is in the messages beyond the names of the operations (the headers are in
`Verif.Socket.Headers`), the pipeline that turns an operation into an outcome (any outcome can come, at any time),
metrics and logs.
-/

namespace Verif.Socket

/-- The name that the client gives to an operation. -/
abbrev Id := String

/-- What is sent as data or as errors; what it says does not matter here. -/
abbrev Data := String

/-- `ClientMessage` (graphql_transport_ws.rs:144-157), without payloads. -/
inductive ClientMsg
  | init
  | subscribe (id : Id)
  | complete (id : Id)
  | ping
  | pong
deriving DecidableEq, Repr

/-- `ws::Frame` as `parse_frame_to_text` tells them apart (websocket_common.rs:154-202). `text none` is text
that is no message (`handle_text_frame`, websocket_server.rs:259-265), `noSupergraph` is text received when
no supergraph can be selected (websocket_server.rs:246-254), `badText` is text that is not UTF-8. -/
inductive Frame
  | text (m : Option ClientMsg)
  | noSupergraph
  | badText
  | ping
  | pong
  | binary
  | close
  | other
deriving DecidableEq, Repr

/-- `CloseCode` and the codes used directly (graphql_transport_ws.rs:18-29, websocket_common.rs:98, 169, 189). -/
inductive Close
  | subprotocol
  | initTimeout
  | tooManyInits
  | unauthorized
  | forbidden
  | badRequest
  | taken (id : Id)
  | internal
  | unsupported
  | protocol
deriving DecidableEq, Repr

/-- The numbers of the codes (graphql_transport_ws.rs:31-78; 1002 and 1003 are those of RFC 6455). -/
def Close.code : Close → Nat
  | .subprotocol => 4406
  | .initTimeout => 4408
  | .tooManyInits => 4429
  | .unauthorized => 4401
  | .forbidden => 4403
  | .badRequest => 4400
  | .taken _ => 4409
  | .internal => 4500
  | .unsupported => 1003
  | .protocol => 1002

/-- What the router sends. `op` numbers the operations of the connection in the order in which they were
accepted: it is not on the wire, it says for which operation the code sends the message. -/
inductive Out
  | ack
  | pong
  | wsPing
  | wsPong
  | next (op : Nat) (id : Id) (d : Data)
  | error (op : Nat) (id : Id) (d : Data)
  | complete (op : Nat) (id : Id)
  | close (c : Close)
deriving DecidableEq, Repr

/-- What the pipeline makes of an operation (websocket_server.rs:355-787): errors, a failed token, a failure
to read the answer of a plugin, one response, or a stream of them. -/
inductive Outcome
  | fails (d : Data)
  | forbidden (d : Data)
  | broken
  | single (d : Data)
  | stream
deriving DecidableEq, Repr

/-- What the receiver of a subscription yields (websocket_server.rs:737-761). -/
inductive Event
  | raw (d : Data)
  | error (d : Data)
  | lagged
  | closed
deriving DecidableEq, Repr

/-- A spawned task of a subscription (websocket_server.rs:730-776). -/
structure Task where
  op : Nat
  id : Id
deriving DecidableEq, Repr

/-- `WsState` (websocket_common.rs:14-39), with the handlers and tasks that run beside it.

* `handshake`, `acked`: `handshake_received`, and `acknowledged_tx` being `None`;
* `subs`: the map of subscriptions; the sender kept under a name is given by the number of its operation;
* `pending`: frame handlers that wait for the pipeline;
* `tasks`, `ending`: tasks in their loop, and tasks that have left it with their guard not yet dropped;
* `closed`: a close frame was sent or received, nothing is received or sent any more. -/
structure St where
  handshake : Bool := false
  acked : Bool := false
  subs : List (Id × Nat) := []
  pending : List Task := []
  tasks : List Task := []
  ending : List Task := []
  next : Nat := 0
  closed : Bool := false
  out : List Out := []
deriving DecidableEq, Repr

/-- Whether a message closes the connection. -/
def Out.isClose : Out → Bool
  | .close _ => true
  | _ => false

/-- `WsSink::send`: errors are ignored everywhere (`let _ = sink.send(..)`), so a message for a closed
connection is lost. Simplified: what is sent as data is JSON (else `ServerMessage::next` closes the connection,
graphql_transport_ws.rs:417-425). -/
def St.send (s : St) (o : Out) : St :=
  if s.closed then s else { s with out := s.out ++ [o], closed := o.isClose }

/-- `HashMap::remove`. -/
def St.drop (s : St) (id : Id) : St := { s with subs := s.subs.filter (fun e => !(e.1 == id)) }

/-- `HashMap::insert`. -/
def St.put (s : St) (id : Id) (op : Nat) : St :=
  { s with subs := (id, op) :: s.subs.filter (fun e => !(e.1 == id)) }

/-- `subscriptions.contains_key`. -/
def St.has (s : St) (id : Id) : Bool := s.subs.any (fun e => e.1 == id)

/-- The arms of `handle_text_frame` (websocket_server.rs:269-806). `complete` drops the sender, after putting
a message into its channel: both end the wait of the task (`cancel_rx.recv()`), so only the first is modelled. -/
def onMessage (s : St) : ClientMsg → St
  | .init =>
    if s.handshake then s.send (.close .tooManyInits)
    else { s with handshake := true, acked := true }.send .ack
  | .subscribe id =>
    if !s.acked then s.send (.close .unauthorized)
    else if s.has id then s.send (.close (.taken id))
    else { s with pending := s.pending ++ [⟨s.next, id⟩], next := s.next + 1 }
  | .complete id =>
    if !s.acked then s.send (.close .unauthorized)
    else s.drop id
  | .ping => s.send .pong
  | .pong => s

/-- The frame handler of `ws_service` (websocket_server.rs:158-193) with `parse_frame_to_text`
(websocket_common.rs:154-202). -/
def onFrame (s : St) : Frame → St
  | .text (some m) => onMessage s m
  | .text none => s.send (.close .badRequest)
  | .noSupergraph => s.send (.close .internal)
  | .badText => s.send (.close .unsupported)
  | .ping => s.send .wsPong
  | .pong => s
  | .binary => s.send (.close .unsupported)
  | .close => { s with closed := true }
  | .other => s

/-- What the handler of a subscribe message does with the outcome of the pipeline
(websocket_server.rs:355-385, 454-471, 624-659, 697-778). -/
def onOutcome (s : St) (t : Task) : Outcome → St
  | .fails d => s.send (.error t.op t.id d)
  | .forbidden d => (s.send (.error t.op t.id d)).send (.close .forbidden)
  | .broken => s.send (.close .internal)
  | .single d => (s.send (.next t.op t.id d)).send (.complete t.op t.id)
  | .stream => { s.put t.id t.op with tasks := s.tasks ++ [t] }

/-- A task leaves its loop without having been cancelled: `complete` is sent (websocket_server.rs:769-774);
its guard is dropped later. -/
def leave (s : St) (t : Task) : St :=
  { s.send (.complete t.op t.id) with tasks := s.tasks.erase t, ending := s.ending ++ [t] }

/-- The first arm of the loop of a subscription (websocket_server.rs:737-761). -/
def onEvent (s : St) (t : Task) : Event → St
  | .raw d => s.send (.next t.op t.id d)
  | .error d => leave (s.send (.error t.op t.id d)) t
  | .lagged => s
  | .closed => leave s t

/-- One step of the connection. -/
inductive Label
  /-- a frame is received -/
  | recv (f : Frame)
  /-- the pipeline answers for an operation -/
  | resolve (op : Nat) (r : Outcome)
  /-- the receiver of a subscription yields something -/
  | event (op : Nat) (e : Event)
  /-- a subscription finds that it was cancelled -/
  | cancel (op : Nat)
  /-- the guard of a subscription is dropped after its last message -/
  | finish (op : Nat)
  /-- the timer of the handshake -/
  | initTimer
  /-- the timer of the heartbeat; `late` when nothing was heard for too long -/
  | heartbeat (late : Bool)
  /-- the connection is gone -/
  | shutdown
deriving DecidableEq, Repr

/-- A step, where it can be taken.

* a frame is received as long as the connection is open; handlers of earlier frames may still be waiting;
* `cancel`: the second arm of the loop (websocket_server.rs:762-765), ready once the sender is not in the map
  any more; the guard is dropped with the task, and removes whatever is kept under the name (websocket_server.rs:218-223);
* `initTimer`: `handshake_timeout` (websocket_common.rs:120-140), stopped by the acknowledgement;
* `heartbeat`: websocket_common.rs:81-116;
* `shutdown`: `on_shutdown` (websocket_server.rs:195-207); handlers still waiting are dropped. -/
def step (s : St) : Label → Option St
  | .recv f => if s.closed then none else some (onFrame s f)
  | .resolve op r =>
    match s.pending.find? (fun t => t.op == op) with
    | none => none
    | some t => some (onOutcome { s with pending := s.pending.erase t } t r)
  | .event op e =>
    match s.tasks.find? (fun t => t.op == op) with
    | none => none
    | some t => some (onEvent s t e)
  | .cancel op =>
    match s.tasks.find? (fun t => t.op == op) with
    | none => none
    | some t =>
      if (t.id, t.op) ∈ s.subs then none
      else some ({ s with tasks := s.tasks.erase t }.drop t.id)
  | .finish op =>
    match s.ending.find? (fun t => t.op == op) with
    | none => none
    | some t => some ({ s with ending := s.ending.erase t }.drop t.id)
  | .initTimer =>
    if s.acked then none else if s.handshake then some s else some (s.send (.close .initTimeout))
  | .heartbeat late => some (s.send (if late then .close .protocol else .wsPing))
  | .shutdown => some { s with closed := true, subs := [], pending := [] }

/-- The start of a connection (`ws_service`, websocket_server.rs:114-122): it is closed at once when the client
does not offer the protocol. -/
def start (offered : Bool) : St :=
  if offered then {} else ({} : St).send (.close .subprotocol)

/-- The histories of a connection: the steps taken so far, and where they lead. -/
inductive Reach (offered : Bool) : List Label → St → Prop
  | start : Reach offered [] (start offered)
  | step {ls s l s'} : Reach offered ls s → step s l = some s' → Reach offered (ls ++ [l]) s'

/-- Where a list of steps leads, for examples. -/
def after (s : St) : List Label → Option St
  | [] => some s
  | l :: ls => (step s l).bind (fun s' => after s' ls)

theorem reach_after {b ls s} (h : Reach b ls s) : ∀ {ms s'}, Socket.after s ms = some s' → Reach b (ls ++ ms) s'
  | [], s', e => by simp only [Socket.after, Option.some.injEq] at e; subst e; simpa using h
  | m :: ms, s', e => by
    simp only [Socket.after] at e
    cases hm : step s m with
    | none => rw [hm] at e; simp at e
    | some s1 =>
      rw [hm] at e
      simpa using reach_after (Reach.step h hm) (ms := ms) e

end Verif.Socket
