/-!
# What a circuit breaker counts

Models `StatusCodeMatcher` (`config/traffic_shaping.rs`), which settings a subgraph has and how a request to a
subgraph goes through its breaker (`executor/executors/map.rs`). The breaker itself (`recloser`) is a parameter.

Simplification: strings are lists of characters. Where the code counts bytes, strings with other than ASCII
characters are refused in both.
-/

namespace Verif.Breaker

/-- `StatusCodeMatcher`, `config/traffic_shaping.rs:657-667`. -/
inductive Matcher where
  | exact (code : Nat)
  | hundreds (n : Nat)
  | tens (n : Nat)
deriving DecidableEq

/-- `matches`, `traffic_shaping.rs:671-685`. -/
def Matcher.matches : Matcher → Nat → Bool
  | .exact c, s => c == s
  | .hundreds n, s => decide (n * 100 ≤ s) && decide (s ≤ n * 100 + 99)
  | .tens n, s => decide (n * 10 ≤ s) && decide (s ≤ n * 10 + 9)

/-- A decimal digit. -/
def digit (c : Char) : Option Nat :=
  if 48 ≤ c.toNat ∧ c.toNat ≤ 57 then some (c.toNat - 48) else none

/-- Decimal digits, after a number that was read. -/
def digits : Nat → List Char → Option Nat
  | n, [] => some n
  | n, c :: r =>
    match digit c with
    | some d => digits (10 * n + d) r
    | none => none

/-- `str::parse` for unsigned numbers: one plus sign may come first, and one digit there must be. -/
def parseNum (max : Nat) (w : List Char) : Option Nat :=
  let ds := if w.head? = some '+' then w.tail else w
  if ds.isEmpty then none
  else
    match digits 0 ds with
    | some n => if n ≤ max then some n else none
    | none => none

/-- `StatusCode::from_u16` of the `http` crate: 100 to 999. -/
def status (n : Nat) : Option Nat := if 100 ≤ n ∧ n < 1000 then some n else none

/-- `to_ascii_lowercase` of the only letter that matters. -/
def isX (c : Char) : Bool := c == 'x' || c == 'X'

/-- An exact code in a string, `traffic_shaping.rs:716-721`. -/
def parseExact (w : List Char) : Option Matcher :=
  match parseNum 65535 w with
  | some n => (status n).map .exact
  | none => none

/-- `parse_str`, `traffic_shaping.rs:687-722`. -/
def parseStr : List Char → Option Matcher
  | [a, b, c] =>
    if isX b && isX c then
      match parseNum 255 [a] with
      | some n => if 1 ≤ n ∧ n ≤ 5 then some (.hundreds n) else none
      | none => none
    else if isX c then
      match parseNum 65535 [a, b] with
      | some n => if 10 ≤ n ∧ n ≤ 59 then some (.tens n) else none
      | none => none
    else parseExact [a, b, c]
  | w => parseExact w

/-- A value in the configuration. -/
inductive Value where
  | num (n : Int)
  | str (w : List Char)

/-- `Deserialize`, `traffic_shaping.rs:735-770`. -/
def Matcher.read : Value → Option Matcher
  | .num n => if 0 ≤ n ∧ n ≤ 65535 then (status n.toNat).map .exact else none
  | .str w => parseStr w

/-- The decimal digits of a number below 100, as `format!` writes them. -/
def shown (n : Nat) : List Char :=
  if n < 10 then [Char.ofNat (48 + n)] else [Char.ofNat (48 + n / 10), Char.ofNat (48 + n % 10)]

/-- `Serialize`, `traffic_shaping.rs:725-733`. -/
def Matcher.write : Matcher → Value
  | .exact c => .num c
  | .hundreds n => .str (shown n ++ ['x', 'x'])
  | .tens n => .str (shown n ++ ['x'])

/-- The settings that are looked at here, `TrafficShapingSubgraphCircuitBreakerConfig`,
`traffic_shaping.rs:577-650`. -/
structure Config where
  enabled : Option Bool := none
  codes : Option (List Matcher) := none

/-- The codes of the breaker of a subgraph, if it has one, `map.rs:1042-1118` with the default at
`map.rs:123-130`: settings of the subgraph, or the global ones. -/
def codesFor (sub all : Option Config) : Option (List Matcher) :=
  if ((sub.bind (·.enabled)).or (all.bind (·.enabled))).getD false then
    some (((sub.bind (·.codes)).or (all.bind (·.codes))).getD [.exact 500, .exact 502, .exact 503, .exact 504])
  else none

/-- What came of a request to a subgraph: a response, maybe with a status, or an error. -/
inductive Res (ρ ε : Type) where
  | ok (status : Option Nat) (r : ρ)
  | err (e : ε)

/-- The errors the breaker sees: those of the executor, and responses that are counted as errors
(`InternalServerError`). -/
inductive Inner (ρ ε : Type) where
  | wrapped (status : Option Nat) (r : ρ)
  | other (e : ε)

/-- What the breaker is told, if it let the request through, `map.rs:476-489`. -/
def told {ρ ε : Type} (codes : List Matcher) : Res ρ ε → Except (Inner ρ ε) (Option Nat × ρ)
  | .ok s r => if s.any fun c => codes.any (·.matches c) then .error (.wrapped s r) else .ok (s, r)
  | .err e => .error (.other e)

/-- What is counted: `record_failure`, `record_success`, `record_short_circuit`. -/
inductive Count where
  | failure
  | success
  | rejected
deriving DecidableEq

/-- A request goes through a breaker, `map.rs:470-520`: what the caller gets, nothing if it was rejected, and what
is counted. -/
def call {ρ ε : Type} (permit : Bool) (codes : List Matcher) (res : Res ρ ε) : Option (Res ρ ε) × Count :=
  if permit then
    match told codes res with
    | .error (.wrapped s r) => (some (.ok s r), .failure)
    | .error (.other e) => (some (.err e), .failure)
    | .ok (s, r) => (some (.ok s r), .success)
  else (none, .rejected)

end Verif.Breaker
