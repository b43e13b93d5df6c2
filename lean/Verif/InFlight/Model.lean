/-!
# Request deduplication

`bin/router/src/executor/executors/inflight.rs`: a map from request keys to once-cells. The
transitions below are the atomic steps of concurrent callers; every interleaving of them is a
run. `tokio::sync::OnceCell::get_or_try_init` is modelled by its documented behaviour: one permit
per cell, the holder runs its own initialiser, a failed or dropped holder passes the permit on.
-/

namespace Verif.InFlight

abbrev Caller := Nat

inductive Role where
  | leader | joiner
  deriving DecidableEq

/-- What can be observed. -/
inductive Event (K V E : Type) where
  /-- the caller asks for key `k` -/
  | arrived (c : Caller) (k : K)
  /-- the execution started by `c` for key `k` has produced `v` -/
  | executed (c : Caller) (k : K) (v : V)
  /-- the execution started by `c` has failed -/
  | execFailed (c : Caller) (e : E)
  /-- the deduplication window of the execution started by `c` has ended -/
  | ended (c : Caller)
  /-- the caller got a result -/
  | returned (c : Caller) (v : V) (r : Role)
  /-- the caller got an error -/
  | failed (c : Caller) (e : E)

/-- `Arc<OnceCell<Arc<V>>>`, `inflight.rs:13`; `value` also remembers who computed it, `key` for
which key the cell was made, `permit` who holds the cell's permit. -/
structure Cell (K V : Type) where
  key : K
  value : Option (V × Caller) := none
  permit : Option Caller := none

/-- Where a caller is in `get_or_try_init`, `inflight.rs:96-122`. -/
inductive Phase (V E : Type) where
  /-- waiting on the cell -/
  | attached (x : Nat)
  /-- its initialiser is running -/
  | running (x : Nat)
  /-- its initialiser has returned, the cell is not yet set -/
  | computed (x : Nat) (r : Except E V)
  /-- returned or cancelled -/
  | gone

structure State (K V E : Type) where
  /-- `InFlightMap::inner`, `inflight.rs:22-24` -/
  map : K → Option Nat
  cells : Nat → Cell K V
  /-- the next unused cell address -/
  next : Nat
  phase : Caller → Option (Phase V E)
  /-- the caller's `InFlightCleanupGuard` is alive, `inflight.rs:160-168` -/
  guard : Caller → Bool
  /-- newest event first -/
  log : List (Event K V E)

variable {K V E : Type} [DecidableEq K]

/-- `f[a ↦ b]`. -/
def upd {α β : Type} [DecidableEq α] (f : α → β) (a : α) (b : β) : α → β :=
  fun x => if x = a then b else f x

/-- `InFlightMap::default`. -/
def init (k0 : K) : State K V E where
  map _ := none
  cells _ := { key := k0 }
  next := 0
  phase _ := none
  guard _ := false
  log := []

/-- Dropping the guard of `c`, `inflight.rs:170-181`: whatever is stored under the key goes. -/
def cleanup (s : State K V E) (c : Caller) (x : Nat) : State K V E :=
  { s with
    map := upd s.map (s.cells x).key none
    guard := upd s.guard c false
    log := .ended c :: s.log }

/-- One atomic step. `keep` distinguishes `get_or_try_init_with_guard` (the execution keeps the
guard beyond its result, `inflight.rs:129-158`) from `get_or_try_init`. -/
inductive Step (keep : Bool) : State K V E → State K V E → Prop where
  /-- `claim`, the key is being worked on, `inflight.rs:60-65` -/
  | claimOccupied (s : State K V E) (c : Caller) (k : K) (x : Nat) :
      s.phase c = none → s.map k = some x →
      Step keep s { s with
        phase := upd s.phase c (some (.attached x)), log := .arrived c k :: s.log }
  /-- `claim`, a new cell, `inflight.rs:66-74` -/
  | claimVacant (s : State K V E) (c : Caller) (k : K) :
      s.phase c = none → s.map k = none →
      Step keep s { s with
        map := upd s.map k (some s.next)
        cells := upd s.cells s.next { key := k }
        next := s.next + 1
        phase := upd s.phase c (some (.attached s.next))
        log := .arrived c k :: s.log }
  /-- the cell is set: its value is returned, `inflight.rs:104-121` -/
  | join (s : State K V E) (c : Caller) (x : Nat) (v : V) (l : Caller) :
      s.phase c = some (.attached x) → (s.cells x).value = some (v, l) →
      Step keep s { s with
        phase := upd s.phase c (some .gone), log := .returned c v .joiner :: s.log }
  /-- the permit is free: run the own initialiser, `inflight.rs:105-110` -/
  | start (s : State K V E) (c : Caller) (x : Nat) :
      s.phase c = some (.attached x) → (s.cells x).value = none → (s.cells x).permit = none →
      Step keep s { s with
        phase := upd s.phase c (some (.running x))
        cells := upd s.cells x { s.cells x with permit := some c }
        guard := upd s.guard c true }
  /-- the initialiser succeeds -/
  | compute (s : State K V E) (c : Caller) (x : Nat) (v : V) :
      s.phase c = some (.running x) →
      Step keep s { s with
        phase := upd s.phase c (some (.computed x (.ok v)))
        log := .executed c (s.cells x).key v :: s.log }
  /-- the initialiser fails -/
  | computeErr (s : State K V E) (c : Caller) (x : Nat) (e : E) :
      s.phase c = some (.running x) →
      Step keep s { s with
        phase := upd s.phase c (some (.computed x (.error e)))
        log := .execFailed c e :: s.log }
  /-- the guard is dropped at the end of the initialiser, `inflight.rs:107-110`, 170-181 -/
  | cleanupDone (s : State K V E) (c : Caller) (x : Nat) (r : Except E V) :
      s.phase c = some (.computed x r) → s.guard c = true →
      Step keep s (cleanup s c x)
  /-- the initialiser handed its guard on; whoever has it drops it later -/
  | cleanupLater (s : State K V E) (c : Caller) (x : Nat) (v : V) :
      keep = true → s.guard c = true → (s.cells x).value = some (v, c) →
      Step keep s (cleanup s c x)
  /-- the cell is set and the leader returns -/
  | publish (s : State K V E) (c : Caller) (x : Nat) (v : V) :
      s.phase c = some (.computed x (.ok v)) → (keep = true ∨ s.guard c = false) →
      Step keep s { s with
        phase := upd s.phase c (some .gone)
        cells := upd s.cells x { s.cells x with value := some (v, c), permit := none }
        log := .returned c v .leader :: s.log }
  /-- the leader's own error is returned; the permit is passed on -/
  | publishErr (s : State K V E) (c : Caller) (x : Nat) (e : E) :
      s.phase c = some (.computed x (.error e)) → s.guard c = false →
      Step keep s { s with
        phase := upd s.phase c (some .gone)
        cells := upd s.cells x { s.cells x with permit := none }
        log := .failed c e :: s.log }
  /-- a waiting caller is dropped -/
  | cancelWaiting (s : State K V E) (c : Caller) (x : Nat) :
      s.phase c = some (.attached x) →
      Step keep s { s with phase := upd s.phase c (some .gone) }
  /-- a caller whose initialiser runs is dropped: guard and permit go with it -/
  | cancelRunning (s : State K V E) (c : Caller) (x : Nat) :
      s.phase c = some (.running x) →
      Step keep s { cleanup s c x with
        phase := upd s.phase c (some .gone)
        cells := upd s.cells x { s.cells x with permit := none } }

inductive Reachable (keep : Bool) (k0 : K) : State K V E → Prop where
  | init : Reachable keep k0 (init k0)
  | step {s t : State K V E} : Reachable keep k0 s → Step keep s t → Reachable keep k0 t

end Verif.InFlight
