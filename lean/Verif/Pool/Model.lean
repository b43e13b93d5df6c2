/-!
# The pool of WebSocket connections to subgraphs

`bin/router/src/executor/executors/websocket_pool.rs`. For each identity of a connection — the name of the subgraph, the
endpoint and a fingerprint of the headers — the pool has at most one entry: an attempt to connect with the callers that
wait for it, or a connection.

A step of the model is what the code does without letting go of the entry, or without an `await`; between two steps
anything may happen, on any thread. Callers, attempts (`generation`, an `Arc<()>` compared by its address) and connections
(`commands`, compared with `same_channel`) get their names from one clock, so that a smaller name is an older one.

Not modelled: what the pool as a whole being dropped does; logging and metrics; why connecting fails.
-/

namespace Verif.Pool

/-- What a caller of `get_or_initialize` gets (`websocket_pool.rs:255-267`): a connection; the error of the attempt; or
`WebSocketArbiterChannelClosed` when the attempt went away without a word. -/
inductive Res where
  | conn (c : Nat)
  | failed
  | stopped
  deriving DecidableEq, Repr

/-- `PoolEntry` and `ConnectingEntry`, `websocket_pool.rs:86-102`. -/
inductive Entry where
  | connecting (generation : Nat) (waiters : List Nat)
  | initialized (c : Nat)
  deriving DecidableEq, Repr

/-- Where a caller is: it waits, it went away (its future was dropped), or it has its answer. -/
inductive Caller where
  | waits
  | gone
  | has (r : Res)
  deriving DecidableEq, Repr

/-- The task of an attempt, `websocket_pool.rs:194-243`: it connects, or it has a result and tells the callers. -/
inductive Phase where
  | connecting
  | telling (waiters : List Nat) (r : Res)
  deriving DecidableEq, Repr

structure St (κ : Type) where
  /-- `WebSocketPool.entries`, `websocket_pool.rs:113-116`. -/
  entries : κ → Option Entry := fun _ => none
  /-- The tasks that run, each with the identity it is for. -/
  attempts : Nat → Option (κ × Phase) := fun _ => none
  /-- Every connection that was made: its identity, and whether it takes commands (`!commands.is_closed()`). -/
  conns : Nat → Option (κ × Bool) := fun _ => none
  /-- Every call there was, with what it asked for. -/
  callers : Nat → Option (κ × Caller) := fun _ => none
  /-- The answers in the order in which they were given. -/
  log : List (Nat × Res) := []
  /-- The next name. -/
  clock : Nat := 0

/-- A table with one entry set. -/
def upd {α β : Type} [DecidableEq α] (f : α → β) (a : α) (b : β) : α → β := fun x => if x = a then b else f x

variable {κ : Type} [DecidableEq κ]

/-- `!executor.commands.is_closed()`. -/
def St.isOpen (s : St κ) (c : Nat) : Bool :=
  match s.conns c with
  | some (_, o) => o
  | none => false

/-- `!waiter.is_closed()`: the caller has not gone away. -/
def St.waiting (s : St κ) (w : Nat) : Bool :=
  match s.callers w with
  | some (_, .waits) => true
  | _ => false

/-- `get_initialized`, `websocket_pool.rs:119-136`. -/
def St.lookup (s : St κ) (id : κ) : Option Nat :=
  match s.entries id with
  | some (.initialized c) => if s.isOpen c then some c else none
  | _ => none

/-- A new attempt with its first caller, `websocket_pool.rs:162-182`. -/
def St.begin (s : St κ) (id : κ) : St κ :=
  { s with
    entries := upd s.entries id (some (.connecting (s.clock + 1) [s.clock]))
    attempts := upd s.attempts (s.clock + 1) (some (id, .connecting))
    callers := upd s.callers s.clock (some (id, .waits))
    clock := s.clock + 2 }

/-- `get_or_initialize` up to where it waits, `websocket_pool.rs:138-253`. -/
def St.ask (s : St κ) (id : κ) : St κ :=
  match s.entries id with
  | some (.initialized c) =>
    if s.isOpen c then
      { s with
        callers := upd s.callers s.clock (some (id, .has (.conn c)))
        log := s.log ++ [(s.clock, .conn c)]
        clock := s.clock + 1 }
    else s.begin id
  | some (.connecting g ws) =>
    { s with
      entries := upd s.entries id (some (.connecting g (ws.filter s.waiting ++ [s.clock])))
      callers := upd s.callers s.clock (some (id, .waits))
      clock := s.clock + 1 }
  | none => s.begin id

/-- The caller's future is dropped. -/
def St.goes (s : St κ) (w : Nat) : Option (St κ) :=
  match s.callers w with
  | some (id, .waits) => some { s with callers := upd s.callers w (some (id, .gone)) }
  | _ => none

/-- The attempt has a connection: `publish`, `websocket_pool.rs:293-315`, and what comes after it, 197-224. When the entry
is not its own, the connection is dropped. -/
def St.connected (s : St κ) (g : Nat) : Option (St κ) :=
  match s.attempts g with
  | some (id, .connecting) =>
    match s.entries id with
    | some (.connecting g' ws) =>
      if g' = g then
        some { s with
          conns := upd s.conns s.clock (some (id, true))
          entries := upd s.entries id (some (.initialized s.clock))
          attempts := upd s.attempts g (some (id, .telling ws (.conn s.clock)))
          clock := s.clock + 1 }
      else some { s with
        conns := upd s.conns s.clock (some (id, false)), attempts := upd s.attempts g none, clock := s.clock + 1 }
    | _ => some { s with
        conns := upd s.conns s.clock (some (id, false)), attempts := upd s.attempts g none, clock := s.clock + 1 }
  | _ => none

/-- The attempt ends without a connection: `remove`, `websocket_pool.rs:317-332`, when it failed (225-241), and `drop`,
334-349, when it was cancelled: the senders are dropped, and that too tells the callers. -/
def St.ends (s : St κ) (g : Nat) (r : Res) : Option (St κ) :=
  match s.attempts g with
  | some (id, .connecting) =>
    match s.entries id with
    | some (.connecting g' ws) =>
      if g' = g then
        some { s with
          entries := upd s.entries id none, attempts := upd s.attempts g (some (id, .telling ws r)) }
      else some { s with attempts := upd s.attempts g (some (id, .telling [] r)) }
    | _ => some { s with attempts := upd s.attempts g (some (id, .telling [] r)) }
  | _ => none

/-- One turn of `notify_waiters`, `websocket_pool.rs:270-274`; the task ends after the last. Sending to a caller that went
away does nothing. -/
def St.tell (s : St κ) (g : Nat) : Option (St κ) :=
  match s.attempts g with
  | some (_, .telling [] _) => some { s with attempts := upd s.attempts g none }
  | some (id, .telling (w :: ws) r) =>
    match s.callers w with
    | some (id', .waits) =>
      some { s with
        attempts := upd s.attempts g (some (id, .telling ws r))
        callers := upd s.callers w (some (id', .has r))
        log := s.log ++ [(w, r)] }
    | _ => some { s with attempts := upd s.attempts g (some (id, .telling ws r)) }
  | _ => none

/-- The owner of a connection closes it: `self.commands.close()`, `websocket_pool.rs:739`, 785. -/
def St.close (s : St κ) (c : Nat) : Option (St κ) :=
  match s.conns c with
  | some (id, true) => some { s with conns := upd s.conns c (some (id, false)) }
  | _ => none

/-- `evict_if_current`, `websocket_pool.rs:413-433`, by the owner after `close` (740, 786), or by a caller that finds the
connection closed (449, 483). -/
def St.evict (s : St κ) (c : Nat) : Option (St κ) :=
  match s.conns c with
  | some (id, false) =>
    if s.entries id = some (.initialized c) then some { s with entries := upd s.entries id none } else some s
  | _ => none

inductive Label (κ : Type) where
  | ask (id : κ)
  | goes (w : Nat)
  | connected (g : Nat)
  | fails (g : Nat)
  | cancelled (g : Nat)
  | tell (g : Nat)
  | close (c : Nat)
  | evict (c : Nat)

def step (s : St κ) : Label κ → Option (St κ)
  | .ask id => some (s.ask id)
  | .goes w => s.goes w
  | .connected g => s.connected g
  | .fails g => s.ends g .failed
  | .cancelled g => s.ends g .stopped
  | .tell g => s.tell g
  | .close c => s.close c
  | .evict c => s.evict c

/-- The states there can be: any steps, in any order. -/
inductive Reach : St κ → Prop where
  | start : Reach {}
  | step {s s' : St κ} (l : Label κ) : Reach s → step s l = some s' → Reach s'

end Verif.Pool
