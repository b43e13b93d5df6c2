import Mathlib.Data.List.Nodup
import Mathlib.Logic.Function.Basic

/-!
# Reloading the supergraph: which one a request gets

Plugins can select a supergraph for a request. What the router needs besides is built when it is first
needed, and kept in a cache that has room for ten. Requests race: the cache is looked at under a lock, but
what is built is built outside of it, and so are the messages sent that tell the task which removes
supergraphs that are not used any more.
-/

namespace Verif.Reload.Cache

/-- A runtime: the `cache_id` of the snapshot it was built from, and the number of the build. Models
`RouterSupergraphRuntime` (bin/router/src/schema_state.rs:100-127); every supergraph has its own
`cache_id` (bin/router/src/executor/plugins/hooks/on_supergraph_load.rs:38). -/
structure Runtime where
  id : Nat
  build : Nat
deriving DecidableEq

/-- `RuntimeCacheCleanupMessage` (schema_state.rs:896-905), without the token. -/
inductive Msg where
  | registered (id : Nat)
  | evicted (id : Nat)
deriving DecidableEq

/-- Where a call of `resolve_runtime` is: before it, with a cell and messages that it has yet to send, or at
its end. -/
inductive Pc where
  | start
  | holds (cell : Nat) (msgs : List Msg)
  | done (r : Runtime)
  | failed
deriving DecidableEq

/-- The cache with its cells, the calls with the `cache_id` they are for, the channel of the task that
cleans up and the ids it waits for, the ids of supergraphs that are retired, and the configured
supergraph. Models `SchemaState` and the locals of `RuntimeCacheCleanupTask::run`
(schema_state.rs:362-384, 922-990). -/
structure St where
  entries : List (Nat × Nat)
  cells : Nat → Option Runtime
  fresh : Nat
  builds : Nat
  calls : Nat → Nat × Pc
  queue : List Msg
  waiters : List Nat
  retired : List Nat
  configured : Option Runtime

/-- Calls that have not begun, and an empty cache. -/
def St.start (ids : Nat → Nat) : St :=
  { entries := [], cells := fun _ => none, fresh := 0, builds := 0, calls := fun i => (ids i, .start),
    queue := [], waiters := [], retired := [], configured := none }

/-- What happens: a call takes the configured runtime, looks at the cache under the lock, sends a message, or
gets, builds or fails to build what it needs; a supergraph is configured or retired; the task reads a
message or sees that a supergraph was retired. -/
inductive Act where
  | take (i : Nat)
  | enter (i : Nat)
  | tell (i : Nat)
  | finish (i : Nat) (ok : Bool)
  | configure (id : Nat)
  | retire (id : Nat)
  | read
  | fire (id : Nat)
deriving DecidableEq

/-- `RUNTIME_CACHE_MAX_SIZE` (schema_state.rs:359). -/
def room : Nat := 10

/-- Call `i` goes on. -/
def St.go (s : St) (i : Nat) (pc : Pc) : St :=
  { s with calls := Function.update s.calls i ((s.calls i).1, pc) }

/-- The entry that has to go for a new one (schema_state.rs:631-633). -/
def evicts (entries : List (Nat × Nat)) : Option (Nat × Nat) :=
  if room ≤ entries.length then entries.head? else none

/-- What is left then. -/
def remains (entries : List (Nat × Nat)) : List (Nat × Nat) :=
  if room ≤ entries.length then entries.tail else entries

/-- The messages that an insertion brings (schema_state.rs:642-659). -/
def messages (entries : List (Nat × Nat)) (id : Nat) : List Msg :=
  (evicts entries).toList.map (fun e => .evicted e.1) ++ [.registered id]

/-- What the task makes of a message (schema_state.rs:943-970). -/
def waits (waiters : List Nat) : Msg → List Nat
  | .registered id => if id ∈ waiters then waiters else id :: waiters
  | .evicted id => waiters.filter (· ≠ id)

/-- One step. Models `resolve_runtime` (schema_state.rs:605-676) and `RuntimeCacheCleanupTask::run`
(schema_state.rs:928-990). With `atomic` the messages are sent under the lock, which is not what the code
does. A cell is filled by one call at a time, so filling it is one step. A waiter that is cancelled is gone
at once. -/
def step (atomic : Bool) (s : St) : Act → Option St
  | .take i =>
      match s.calls i, s.configured with
      | (id, .start), some r => if r.id = id then some (s.go i (.done r)) else none
      | _, _ => none
  | .enter i =>
      match s.calls i with
      | (id, .start) =>
          match s.entries.find? (fun e => e.1 = id) with
          | some e => some (s.go i (.holds e.2 []))
          | none =>
              some { s with
                entries := remains s.entries ++ [(id, s.fresh)],
                fresh := s.fresh + 1,
                calls := Function.update s.calls i
                  (id, .holds s.fresh (if atomic then [] else messages s.entries id)),
                queue := if atomic then s.queue ++ messages s.entries id else s.queue }
      | _ => none
  | .tell i =>
      match s.calls i with
      | (id, .holds c (m :: ms)) =>
          some { s with calls := Function.update s.calls i (id, .holds c ms), queue := s.queue ++ [m] }
      | _ => none
  | .finish i ok =>
      match s.calls i with
      | (id, .holds c []) =>
          match s.cells c with
          | some r => some (s.go i (.done r))
          | none =>
              if ok then
                some { s with
                  cells := Function.update s.cells c (some { id := id, build := s.builds }),
                  builds := s.builds + 1,
                  calls := Function.update s.calls i (id, .done { id := id, build := s.builds }) }
              else
                some { s with
                  entries := s.entries.filter (fun e => e ≠ (id, c)),
                  calls := Function.update s.calls i (id, .failed) }
      | _ => none
  | .configure id => some { s with configured := some { id := id, build := s.builds }, builds := s.builds + 1 }
  | .retire id => some { s with retired := id :: s.retired }
  | .read =>
      match s.queue with
      | m :: q => some { s with queue := q, waiters := waits s.waiters m }
      | [] => none
  | .fire id =>
      if id ∈ s.waiters ∧ id ∈ s.retired then
        some { s with waiters := s.waiters.filter (· ≠ id), entries := s.entries.filter (fun e => e.1 ≠ id) }
      else none

/-- Many steps. -/
def run (atomic : Bool) : St → List Act → Option St
  | s, [] => some s
  | s, a :: as => (step atomic s a).bind (fun s' => run atomic s' as)

/-! ## Selecting for a request -/

/-- What is kept with a request: what was selected, and the snapshot that a plugin wants. -/
structure Request where
  selected : Option (Nat × Runtime)
  plugin : Option Nat

/-- `select_supergraph` (schema_state.rs:534-580). `resolve` is what `resolve_runtime` comes to at that
time; `none` stands for an error. -/
def select (req : Request) (configured : Option Runtime) (resolve : Nat → Option Runtime) :
    Option (Nat × Runtime) × Request :=
  match req.selected with
  | some x => (some x, req)
  | none =>
      match req.plugin with
      | some id =>
          match resolve id with
          | some r => (some (id, r), { req with selected := some (id, r) })
          | none => (none, req)
      | none =>
          match configured with
          | some r => (some (r.id, r), { req with selected := some (r.id, r) })
          | none => (none, req)

end Verif.Reload.Cache
