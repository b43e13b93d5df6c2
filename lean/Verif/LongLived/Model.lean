/-!
# The limit on long-lived clients

`bin/router/src/pipeline/long_lived_client_limit.rs`: an atomic counter, reserved with
`fetch_update` (a load followed by a compare-and-exchange loop) and released when a guard is
dropped.
-/

namespace Verif.LongLived

/-- Where a client is. -/
inductive Phase where
  | idle
  /-- in the loop of `fetch_update`, having read the value `seen` -/
  | trying (seen : Nat)
  /-- `Ok(Some(guard))`: it holds a slot -/
  | holding
  /-- `Ok(None)`: admitted, the limit is disabled -/
  | untracked
  /-- `Err(LongLivedClientLimitReached)` -/
  | refused
  /-- the guard was dropped -/
  | gone
  deriving DecidableEq

/-- `long_lived_client_count` and the clients. -/
structure State where
  count : Nat
  phase : Nat → Phase

def State.init : State := ⟨0, fun _ => .idle⟩

/-- Client `c` moves to phase `p`. -/
def State.move (s : State) (c : Nat) (p : Phase) : State :=
  { s with phase := fun d => if d = c then p else s.phase d }

/-- The closure given to `fetch_update`, lines 154-160. -/
def next (limit current : Nat) : Option Nat := if current < limit then some (current + 1) else none

/-- One atomic step of one client, `long_lived_client_limit.rs:138-172`. `fetch_update` is
`prev = load(); while let Some(next) = f(prev) { match compare_exchange_weak(prev, next) { Ok =>
return Ok, Err(v) => prev = v } } Err(prev)`; the exchange may fail spuriously. Dropping the guard
(end of the stream, cancellation of the request, failure after the reservation) is `release`. -/
inductive Step (limit : Nat) : State → State → Prop where
  /-- `limit == 0`, lines 146-148 -/
  | disabled (c : Nat) (h : s.phase c = .idle) (hl : limit = 0) : Step limit s (s.move c .untracked)
  /-- the load of `fetch_update` -/
  | load (c : Nat) (h : s.phase c = .idle) (hl : limit ≠ 0) : Step limit s (s.move c (.trying s.count))
  /-- the closure returns `None` -/
  | refuse (c v : Nat) (h : s.phase c = .trying v) (hn : next limit v = none) :
      Step limit s (s.move c .refused)
  /-- the exchange succeeds -/
  | reserve (c v w : Nat) (h : s.phase c = .trying v) (hn : next limit v = some w) (hc : s.count = v) :
      Step limit s ({ s with count := w }.move c .holding)
  /-- the exchange fails, possibly spuriously -/
  | retry (c v w : Nat) (h : s.phase c = .trying v) (hn : next limit v = some w) :
      Step limit s (s.move c (.trying s.count))
  /-- `LongLivedClientGuard::drop`, lines 168-172 -/
  | release (c : Nat) (h : s.phase c = .holding) : Step limit s ({ s with count := s.count - 1 }.move c .gone)

/-- Histories, newest state first. -/
inductive Run (limit : Nat) : List State → Prop where
  | init : Run limit [State.init]
  | step : Run limit (s :: h) → Step limit s t → Run limit (t :: s :: h)

end Verif.LongLived
