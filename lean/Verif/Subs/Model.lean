/-!
# Subscriptions: the buffer in front of a consumer and the broadcast to clients

`bin/router/src/executor/executors/subscription_buffer.rs`, `bin/router/src/pipeline/mod.rs:640-690`
(the pump), `bin/router/src/pipeline/active_subscriptions.rs`, `bin/router/src/shared_state.rs`
(`SharedRouterStreamResponse`).
-/

namespace Verif.Subs

/-! ## The bounded buffer -/

/-- A `tokio::sync::mpsc` channel of capacity `cap` with the task of `drain_into` on one side and
the consumer stream of `buffered` on the other. `emitted`, `delivered` and `dropped` are history:
the items taken from the source while the consumer was there, and what became of them. -/
structure Buf (α : Type) where
  cap : Nat
  queue : List α := []
  /-- the receiver has not been dropped -/
  rxOpen : Bool := true
  /-- the drainer task is running -/
  running : Bool := true
  emitted : List α := []
  delivered : List α := []
  dropped : List α := []
  /-- items taken from the source after the consumer had gone -/
  late : List α := []

/-- `SendOutcome`, lines 18-22. -/
inductive SendOutcome where
  | sent
  | dropped
  | closed
  deriving DecidableEq

/-- `try_send_or_drop`, lines 28-67 (`mpsc::Sender::try_send`: `Closed` if the receiver is gone,
`Full` if there are `cap` messages in the channel). -/
def trySendOrDrop (b : Buf α) (x : α) : SendOutcome × Buf α :=
  if b.rxOpen = false then (.closed, { b with late := b.late ++ [x] })
  else if b.queue.length < b.cap then
    (.sent, { b with queue := b.queue ++ [x], emitted := b.emitted ++ [x] })
  else (.dropped, { b with emitted := b.emitted ++ [x], dropped := b.dropped ++ [x] })

/-- One iteration of the loop of `drain_into` for an item of the source, lines 90-105. -/
def drainItem (b : Buf α) (x : α) : Buf α :=
  match trySendOrDrop b x with
  | (.closed, b) => { b with running := false }
  | (_, b) => b

/-- The steps of drainer and consumer, in any order. -/
inductive BStep {α : Type} : Buf α → Buf α → Prop where
  /-- `source.next()` yields an item -/
  | item (x : α) (h : b.running = true) : BStep b (drainItem b x)
  /-- the source ends, lines 91-93 -/
  | sourceEnd (h : b.running = true) : BStep b { b with running := false }
  /-- `tx.closed()`, line 107 -/
  | noticed (h : b.running = true) (hc : b.rxOpen = false) : BStep b { b with running := false }
  /-- `rx.recv()` yields a message, lines 148-152 -/
  | recv (ho : b.rxOpen = true) (hq : b.queue = x :: q) :
      BStep b { b with queue := q, delivered := b.delivered ++ [x] }
  /-- the consumer drops the stream -/
  | leave (ho : b.rxOpen = true) : BStep b { b with rxOpen := false, queue := [] }

/-- Reachable states of a buffer. -/
inductive BReach {α : Type} (cap : Nat) : Buf α → Prop where
  | init : BReach cap { cap := cap }
  | step : BReach cap b → BStep b b' → BReach cap b'

/-! ## The broadcast -/

/-- `SubscriptionEvent`, `active_subscriptions.rs:15-23`. -/
inductive Event (α : Type) where
  | raw (x : α)
  | error
  deriving DecidableEq

/-- A client's stream: `reading start next seen` was subscribed after `start` events, will be given
event number `next` and has been given `seen`. -/
inductive Reader (α : Type) where
  | absent
  | reading (start next : Nat) (seen : List (Event α))
  | ended (start : Nat) (seen : List (Event α))
  | left

/-- The broadcast channel of a subscription (`tokio::sync::broadcast` of capacity `cap`: it keeps the
newest `cap` events), the pump and the clients. `parked` says that the shared response in the cell
of the in-flight map holds a receiver. -/
structure Chan (α : Type) where
  cap : Nat
  dedupe : Bool
  sent : List (Event α) := []
  running : Bool := true
  parked : Bool
  reader : Nat → Reader α

/-- The state after `ActiveSubscriptions::register` (`active_subscriptions.rs:43-62`, called at
`pipeline/mod.rs:643`) and the construction of the shared response, `pipeline/mod.rs:693-698`.

Without deduplication the response, with its receiver, goes straight to the client
(`pipeline/mod.rs:511-513`): client 0 reads from the beginning. With deduplication it is put into
the cell (`get_or_try_init_with_guard`), which stays in the map until the guard inside the producer
handle is dropped; every client, the leader too, gets a clone of it (`Arc::unwrap_or_clone` at
`pipeline/mod.rs:510`, the cell being the second owner), and a clone has no receiver
(`shared_state.rs:166-175`). -/
def Chan.init {α : Type} (cap : Nat) (dedupe : Bool) : Chan α where
  cap := cap
  dedupe := dedupe
  parked := dedupe
  reader := fun c => if dedupe = false ∧ c = 0 then .reading 0 0 [] else .absent

def Chan.setReader (s : Chan α) (c : Nat) (r : Reader α) : Chan α :=
  { s with reader := fun d => if d = c then r else s.reader d }

/-- Does the channel have a receiver (`broadcast::Sender::send` fails iff not)? -/
def Chan.hasReceiver (s : Chan α) : Prop :=
  s.parked = true ∨ ∃ c start next seen, s.reader c = .reading start next seen

/-- The pump ends: the producer handle is dropped, and with it the guard, which removes the cell
from the map, and with it the parked receiver. -/
def Chan.stop (s : Chan α) : Chan α := { s with running := false, parked := false }

/-- The steps of pump and clients. -/
inductive CStep {α : Type} : Chan α → Chan α → Prop where
  /-- a chunk of the upstream is sent, `pipeline/mod.rs:658-665` -/
  | item (x : α) (h : s.running = true) (hr : s.hasReceiver) :
      CStep s { s with sent := s.sent ++ [.raw x] }
  /-- a chunk of the upstream cannot be sent: all receivers gone -/
  | itemUnheard (x : α) (h : s.running = true) (hr : ¬ s.hasReceiver) : CStep s s.stop
  /-- the upstream ends, line 667 -/
  | upstreamEnd (h : s.running = true) : CStep s s.stop
  /-- the supergraph is retired, lines 670-682 -/
  | retired (h : s.running = true) (hr : s.hasReceiver) :
      CStep s (Chan.stop { s with sent := s.sent ++ [.error] })
  | retiredUnheard (h : s.running = true) (hr : ¬ s.hasReceiver) : CStep s s.stop
  /-- a client (the leader too) gets the shared response and subscribes, `shared_state.rs:187` -/
  | attach (c : Nat) (h : s.reader c = .absent) (hd : s.dedupe = true) :
      CStep s (s.setReader c (.reading s.sent.length s.sent.length []))
  /-- `RecvError::Lagged`, `shared_state.rs:217-224`: the receiver moves to the oldest event kept -/
  | lagged (c start next : Nat) (seen : List (Event α)) (h : s.reader c = .reading start next seen)
      (hl : next + s.cap < s.sent.length) :
      CStep s (s.setReader c (.reading start (s.sent.length - s.cap) seen))
  /-- an event is received, lines 208-211 -/
  | recvRaw (c start next : Nat) (seen : List (Event α)) (x : α) (h : s.reader c = .reading start next seen)
      (hl : ¬ next + s.cap < s.sent.length) (hx : s.sent[next]? = some (.raw x)) :
      CStep s (s.setReader c (.reading start (next + 1) (seen ++ [.raw x])))
  /-- the error is received, lines 212-216 -/
  | recvError (c start next : Nat) (seen : List (Event α)) (h : s.reader c = .reading start next seen)
      (hl : ¬ next + s.cap < s.sent.length) (hx : s.sent[next]? = some .error) :
      CStep s (s.setReader c (.ended start (seen ++ [.error])))
  /-- `RecvError::Closed`, lines 225-228 -/
  | closed (c start next : Nat) (seen : List (Event α)) (h : s.reader c = .reading start next seen) (hr : s.running = false)
      (hn : next = s.sent.length) : CStep s (s.setReader c (.ended start seen))
  /-- the client disconnects -/
  | leave (c start next : Nat) (seen : List (Event α)) (h : s.reader c = .reading start next seen) : CStep s (s.setReader c .left)

/-- Reachable states. -/
inductive CReach {α : Type} (cap : Nat) (dedupe : Bool) : Chan α → Prop where
  | init : CReach cap dedupe (Chan.init cap dedupe)
  | step : CReach cap dedupe s → CStep s t → CReach cap dedupe t

end Verif.Subs
