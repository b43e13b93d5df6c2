import Verif.Pool.Model

/-!
# The connection to a subgraph

`bin/router/src/executor/executors/websocket_client.rs:145-556`: many operations on one connection. Each has a name on the
wire, a channel for its responses, and an entry in a map while it goes on; one task reads what comes from the server and
puts it into the channels.

Everything runs on one thread; a step is what happens between two `await`s. A `next` is a response that can be read, or
one that cannot.

Simplified: names are numbers, as the client writes them (`u64::to_string`); a name from the server that is not one of
these is a number never given out. Writing a message is one step (`sink.send`). Not modelled: the handshake, heartbeats,
frames below the level of messages.
-/

namespace Verif.Pool.Client

open Verif.Pool (upd)

/-- `WsClientError`, as far as the reader tells: the connection was closed, or reading failed. -/
inductive Err where
  | connectionClosed
  | dispatcherClosed
  deriving DecidableEq, Repr

/-- `ServerMessage`, and a text that is none. -/
inductive Msg where
  | next (id : Nat) (payload : Option Nat)
  | error (id : Nat) (payload : Nat)
  | complete (id : Nat)
  | ack
  | ping
  | pong
  | bad
  deriving DecidableEq, Repr

/-- What comes out of the stream of an operation: a response; `FailedToDeserializePayload`; the errors of the server; an
error of the connection. -/
inductive Item where
  | data (d : Nat)
  | unreadable
  | errors (d : Nat)
  | lost (e : Err)
  deriving DecidableEq, Repr

/-- A payload that can be read, or not: `websocket_client.rs:503-515`. -/
def readPayload : Option Nat → Item
  | some d => .data d
  | none => .unreadable

/-- What goes to the server. -/
inductive Out where
  | subscribe (id : Nat)
  | complete (id : Nat)
  | pong
  | close
  deriving DecidableEq, Repr

/-- The task that reads: it reads; it has sent a close frame and will stop; it has stopped. -/
inductive Reader where
  | reads
  | closes
  | stopped
  deriving DecidableEq, Repr

/-- What happened, for the specification. -/
inductive Ev where
  | opened (id : Nat)
  | got (m : Msg)
  | dropped (id : Nat)
  | lost (e : Err)
  deriving DecidableEq, Repr

structure St where
  /-- `state.subscriptions`. -/
  subs : List Nat := []
  /-- What was put into the channel of each operation. -/
  items : Nat → List Item := fun _ => []
  /-- The guards that are alive, with `send_complete`. -/
  guards : Nat → Option Bool := fun _ => none
  /-- `next_subscription_id`, and `u64::MAX`. -/
  next : Nat := 1
  max : Nat
  reader : Reader := .reads
  out : List Out := []
  hist : List Ev := []

def start (max : Nat) : St := { max := max }

/-- `sender.send` and, in the map, the entry stays. -/
def St.push (s : St) (id : Nat) (x : Item) : St := { s with items := upd s.items id (s.items id ++ [x]) }

/-- `handle_text_frame`, `websocket_client.rs:484-538`. The sender is dropped with the entry, and that ends the stream. -/
def St.handle (s : St) : Msg → St
  | .next id p =>
    if id ∈ s.subs then
      s.push id (readPayload p)
    else s
  | .error id d => if id ∈ s.subs then { s.push id (.errors d) with subs := s.subs.filter (· ≠ id) } else s
  | .complete id => { s with subs := s.subs.filter (· ≠ id) }
  | .ack => s
  | .ping => { s with out := s.out ++ [.pong] }
  | .pong => s
  -- `text_to_server_message`, `websocket_client.rs:540-550`, and `send_and_is_closed`, 478-482
  | .bad => { s with out := s.out ++ [.close], reader := .closes }

/-- `SubscriptionGuard::drop`, `websocket_client.rs:402-419`. -/
def St.unguard (s : St) (id : Nat) (sendComplete : Bool) : St :=
  { s with
    guards := upd s.guards id none
    subs := s.subs.filter (· ≠ id)
    out := if id ∈ s.subs ∧ sendComplete then s.out ++ [.complete id] else s.out
    hist := s.hist ++ [.dropped id] }

/-- What the reader does when it stops, `websocket_client.rs:287-291` and `DispatcherGuard::drop`, 467-476. -/
def St.drain (s : St) (e : Err) : St :=
  { s with
    items := fun i => if i ∈ s.subs then s.items i ++ [.lost e] else s.items i
    subs := []
    reader := .stopped
    hist := s.hist ++ [.lost e] }

inductive Label where
  /-- `subscribe` up to where it writes; it has written; it could not, or it was cancelled. -/
  | subscribe
  | written (id : Nat)
  | unwritten (id : Nat)
  /-- The stream is dropped, by its reader, or at its end. -/
  | drop (id : Nat)
  /-- A message comes; the reader stops. -/
  | recv (m : Msg)
  | stop (e : Err)

def step (s : St) : Label → Option St
  -- `websocket_client.rs:308-316`, 331-354: also when the reader has stopped
  | .subscribe =>
    if s.next = s.max then none
    else some { s with
      subs := s.subs ++ [s.next]
      guards := upd s.guards s.next (some false)
      next := s.next + 1
      hist := s.hist ++ [.opened s.next] }
  -- `websocket_client.rs:355-362`
  | .written id =>
    if s.guards id = some false then
      some { s with guards := upd s.guards id (some true), out := s.out ++ [.subscribe id] }
    else none
  | .unwritten id => if s.guards id = some false then some (s.unguard id false) else none
  | .drop id => if s.guards id = some true then some (s.unguard id true) else none
  -- `dispatch_loop`, `websocket_client.rs:422-460`
  | .recv m =>
    if s.reader = .reads then some { s.handle m with hist := s.hist ++ [.got m] } else none
  | .stop e => if s.reader = .stopped then none else some (s.drain e)

inductive Reach (max : Nat) : St → Prop where
  | start : Reach max (start max)
  | step {s s' : St} (l : Label) : Reach max s → step s l = some s' → Reach max s'

/-! ### What is said of it -/

/-- What the stream of the operation `i` should give, from what happened on the connection: from when it was opened what
the server said to it, in this order, until the server ends it, it is dropped, or the connection is lost. -/
def said (i : Nat) : Bool → List Ev → List Item
  | _, [] => []
  | false, .opened j :: h => said i (j = i) h
  | false, .got _ :: h | false, .dropped _ :: h | false, .lost _ :: h => said i false h
  | true, .opened _ :: h => said i true h
  | true, .got (.next j p) :: h =>
    if j = i then
      readPayload p :: said i true h
    else said i true h
  | true, .got (.error j d) :: h => if j = i then .errors d :: said i false h else said i true h
  | true, .got (.complete j) :: h => if j = i then said i false h else said i true h
  | true, .got .ack :: h | true, .got .ping :: h | true, .got .pong :: h | true, .got .bad :: h => said i true h
  | true, .dropped j :: h => if j = i then said i false h else said i true h
  | true, .lost e :: h => .lost e :: said i false h

/-- The stream of `i` has not come to its end: its channel is open. -/
def Goes (s : St) (i : Nat) : Prop := i ∈ s.subs

/-- What ends the operation `i`. -/
def Ends (i : Nat) (ev : Ev) : Prop :=
  (∃ d, ev = .got (.error i d)) ∨ ev = .got (.complete i) ∨ ev = .dropped i ∨ ∃ e, ev = .lost e

/-- The states after some steps. -/
inductive Steps : St → List Label → St → Prop where
  | nil (s : St) : Steps s [] s
  | cons {s t u : St} {l : Label} {ls : List Label} : step s l = some t → Steps t ls u → Steps s (l :: ls) u

end Verif.Pool.Client
