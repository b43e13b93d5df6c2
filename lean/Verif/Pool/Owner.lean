import Verif.Pool.Model

/-!
# The owner of a connection to a subgraph

`bin/router/src/executor/executors/websocket_pool.rs:435-790`. Callers put commands into a bounded queue; one task, the
owner, takes them out, starts one operation after the other and counts those that run. It closes the connection when it
was idle for long enough, when the task that reads from the connection stops, or when nobody can send commands any more.

A step is what happens between two `await`s. Time passes between steps.

Not modelled: what is in the commands and in the responses (`Verif.Pool.Client` has the connection itself); logging and
metrics.
-/

namespace Verif.Pool.Owner

/-- `WsClientError`, as far as the owner tells them apart: the connection was closed, the reader is gone, or another. -/
inductive Err where
  | connectionClosed
  | dispatcherClosed
  | other (n : Nat)
  deriving DecidableEq, Repr

/-- What `submit` gives, `websocket_pool.rs:435-488`: the operation has started; an error from the owner; the queue is
closed; the request is no good. -/
inductive Answer where
  | started
  | error (e : Err)
  | refused
  | invalid
  deriving DecidableEq, Repr

inductive Caller where
  | waits
  | gone
  | has (a : Answer)
  deriving DecidableEq, Repr

/-- Where the owner is, `websocket_pool.rs:630-780`: in the outer `select!`; in `subscribe` for a command; past the loop,
with the error for the commands that are left; at the end. -/
inductive Phase where
  | listening
  | subscribing (w : Nat)
  | closing (e : Err)
  | done
  deriving DecidableEq, Repr

structure St where
  /-- `buffer_capacity` and `idle_timeout`. -/
  cap : Nat
  idle : Nat
  now : Nat := 0
  /-- When the idle timer fires. -/
  deadline : Nat
  /-- Callers in `reserve().await`; those with a permit that have not used it; the queue. -/
  asking : List Nat := []
  permits : List Nat := []
  queue : List Nat := []
  phase : Phase := .listening
  /-- `active_operations`; the tasks that run; the messages in `completed_rx`. -/
  active : Nat := 0
  ops : List Nat := []
  completed : Nat := 0
  callers : Nat → Option Caller := fun _ => none
  next : Nat := 0
  /-- What happened: the answers; the commands sent; the operations that ended, each with when. -/
  log : List (Nat × Answer) := []
  sent : List Nat := []
  ended : List (Nat × Nat) := []

/-- The start of `run`, `websocket_pool.rs:630-642`. -/
def start (cap idle : Nat) : St := { cap := cap, idle := idle, deadline := idle }

/-- The queue takes commands: `self.commands.close()` comes first after the loop, `websocket_pool.rs:739`. -/
def St.takes (s : St) : Bool :=
  match s.phase with
  | .listening | .subscribing _ => true
  | .closing _ | .done => false

/-- The caller is still there: `!responses.is_closed()`. -/
def St.there (s : St) (w : Nat) : Bool := s.callers w = some .waits

/-- `ready.send`, or `submit` returns: who went away gets nothing. -/
def St.answer (s : St) (w : Nat) (a : Answer) : St :=
  if s.there w then { s with callers := upd s.callers w (some (.has a)), log := s.log ++ [(w, a)] } else s

/-- `idle_timer.reset`. -/
def St.reset (s : St) : St := { s with deadline := s.now + s.idle }

inductive Label where
  /-- A caller calls `submit`. -/
  | submit
  /-- Its `reserve` goes on. -/
  | reserve (w : Nat)
  /-- It sends its command with its permit; or the request is no good. -/
  | send (w : Nat)
  | unable (w : Nat)
  /-- Its future is dropped. -/
  | goes (w : Nat)
  /-- The owner takes a command. -/
  | take
  /-- `subscribe` gives a stream; or an error; or the caller is gone; or the reader stops. -/
  | opened
  | refuses (e : Err)
  | leaves
  | stopsEarly (e : Err)
  /-- A running operation ends; the owner is told. -/
  | ends (w : Nat)
  | counted
  /-- The reader stops; the timer fires; nobody has the sending end any more. -/
  | stops (e : Err)
  | expires
  | unused
  /-- The owner answers what is left in the queue; and ends. -/
  | drain
  | finish
  | tick (n : Nat)

def step (s : St) : Label → Option St
  | .submit => some { s with
      callers := upd s.callers s.next (some .waits), asking := s.asking ++ [s.next], next := s.next + 1 }
  -- `websocket_pool.rs:443-451`
  | .reserve w =>
    if w ∈ s.asking then
      if s.takes then
        if s.permits.length + s.queue.length < s.cap then
          some { s with asking := s.asking.erase w, permits := s.permits ++ [w] }
        else none
      else some ({ s with asking := s.asking.erase w }.answer w .refused)
    else none
  -- `websocket_pool.rs:453-463`
  | .send w =>
    if w ∈ s.permits then
      some { s with permits := s.permits.erase w, queue := s.queue ++ [w], sent := s.sent ++ [w] }
    else none
  | .unable w =>
    if w ∈ s.permits then some ({ s with permits := s.permits.erase w }.answer w .invalid) else none
  | .goes w =>
    if s.there w && !s.permits.contains w then
      some { s with callers := upd s.callers w (some .gone), asking := s.asking.erase w }
    else none
  -- `websocket_pool.rs:644-664`
  | .take =>
    match s.phase, s.queue with
    | .listening, w :: q =>
      if s.there w then
        some { (if s.active = 0 then s.reset else s) with queue := q, phase := .subscribing w }
      else some { s with queue := q }
    | _, _ => none
  -- `websocket_pool.rs:685-712`
  | .opened =>
    match s.phase with
    | .subscribing w =>
      if s.there w then
        some { s.answer w .started with phase := .listening, active := s.active + 1, ops := s.ops ++ [w] }
      else some { s with phase := .listening }
    | _ => none
  -- `websocket_pool.rs:713-715`
  | .refuses e =>
    match s.phase with
    | .subscribing w => some { s.answer w (.error e) with phase := .listening }
    | _ => none
  -- `websocket_pool.rs:672`, 682-684
  | .leaves =>
    match s.phase with
    | .subscribing w => if s.there w then none else some { s with phase := .listening }
    | _ => none
  -- `websocket_pool.rs:673-678`
  | .stopsEarly e =>
    match s.phase with
    | .subscribing w => some { s.answer w (.error e) with phase := .closing e }
    | _ => none
  -- `websocket_pool.rs:700-712`: the guard of the task sends when it is dropped
  | .ends w =>
    if w ∈ s.ops then
      some { s with ops := s.ops.erase w, completed := s.completed + 1, ended := s.ended ++ [(w, s.now)] }
    else none
  -- `websocket_pool.rs:718-725`
  | .counted =>
    match s.phase with
    | .listening =>
      if 0 < s.completed ∧ 0 < s.active then
        let s' := { s with completed := s.completed - 1, active := s.active - 1 }
        some (if s'.active = 0 then s'.reset else s')
      else none
    | _ => none
  -- `websocket_pool.rs:726-730`
  | .stops e =>
    match s.phase with
    | .listening => some { s with phase := .closing e }
    | _ => none
  -- `websocket_pool.rs:731-733`, 600
  | .expires =>
    match s.phase with
    | .listening =>
      if s.active = 0 ∧ s.deadline ≤ s.now then some { s with phase := .closing .connectionClosed } else none
    | _ => none
  -- `websocket_pool.rs:650-652`, 602: every sender is gone, and with them every caller
  | .unused =>
    match s.phase, s.queue, s.permits, s.asking with
    | .listening, [], [], [] => some { s with phase := .closing .dispatcherClosed }
    | _, _, _, _ => none
  -- `websocket_pool.rs:741-743`
  | .drain =>
    match s.phase, s.queue with
    | .closing e, w :: q => some ({ s with queue := q }.answer w (.error e))
    | _, _ => none
  | .finish =>
    match s.phase, s.queue, s.permits with
    | .closing _, [], [] => some { s with phase := .done }
    | _, _, _ => none
  | .tick n => some { s with now := s.now + n }

/-- The states there can be. -/
inductive Reach (cap idle : Nat) : St → Prop where
  | start : Reach cap idle (start cap idle)
  | step {s s' : St} (l : Label) : Reach cap idle s → step s l = some s' → Reach cap idle s'

/-! ### What is said of it -/

/-- The caller is there and has no answer. -/
def Waits (s : St) (w : Nat) : Prop := s.callers w = some .waits

def Told (s : St) (w : Nat) (a : Answer) : Prop := (w, a) ∈ s.log

/-- The operation of the caller runs on the connection. -/
def Runs (s : St) (w : Nat) : Prop := w ∈ s.ops

/-- The connection takes no more commands. -/
def Closed (s : St) : Prop := (∃ e, s.phase = .closing e) ∨ s.phase = .done

end Verif.Pool.Owner
