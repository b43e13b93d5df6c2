import Verif.Usage.Fifo
import Verif.Text.Ast
/-!
# The agent that reports usage

Models `lib/hive-console-sdk/src/agent/buffer.rs` and the part of
`lib/hive-console-sdk/src/agent/usage_agent.rs` that decides which reports are kept, buffers them and
makes batches of them.
-/
namespace Verif.Usage

open Verif.Text (Kind)

/-- A report of an operation that was executed, with the request it came with.
Models `ExecutionReport` (usage_agent.rs 36-49) without the schema: an agent belongs to one supergraph
(`bin/router/src/pipeline/usage_reporting.rs` 40-88). -/
structure Rep where
  name : Option String
  kind : Option Kind
  body : String
  client : Option String
  version : Option String
  time : Nat
  nanos : Nat
  ok : Bool
  errors : Nat
  persisted : Option String
  request : Nat
  deriving DecidableEq

/-- Models `Exclude` (usage_agent.rs 69-73). An expression is a function of the report and its request;
`none` is an error of its execution or a result that is not a boolean. -/
inductive Exclude
  | names (ns : List String)
  | expr (f : Rep → Option Bool)

/-- Models `SamplingKey` (usage_agent.rs 75-80). -/
inductive KeyPart
  | name | kind | body

/-- How the rate of sampling compares with 0 and 1 (usage_agent.rs 171-177). -/
inductive Rate
  | all | nothing | between

/-- Models `UsageAgentInner` (usage_agent.rs 55-67) without the client of HTTP. `hash` stands for the
hash of a list of texts (xxh3, usage_agent.rs 455-473). -/
structure Agent where
  max : Nat
  exclude : Option Exclude
  rate : Rate
  once : Option (List KeyPart)
  cap : Nat
  hash : List String → Nat

/-- Models `Exclude::should_exclude` and `UsageAgentInner::should_exclude` (usage_agent.rs 151-159,
311-332). -/
def Agent.excludes (A : Agent) (r : Rep) : Option Bool :=
  match A.exclude with
  | none => some false
  | some (.names ns) =>
    match r.name with
    | none => some false
    | some n => some (ns.any (· == n))
  | some (.expr f) => f r

/-- The text of a part of a key (usage_agent.rs 458-468). -/
def KeyPart.text (r : Rep) : KeyPart → String
  | .name => r.name.getD "anonymous"
  | .kind =>
    match r.kind with
    | none => "query"
    | some .query => "query"
    | some .mutation => "mutation"
    | some .subscription => "subscription"
  | .body => r.body

/-- What is hashed for a key (usage_agent.rs 455-473). -/
def keyOf (ps : List KeyPart) (r : Rep) : List String := ps.map (KeyPart.text r)

/-- What becomes of a report: its exclusion failed, it is excluded, sampling drops it, it is kept. -/
inductive Verdict
  | failed | excluded | dropped | kept
  deriving DecidableEq

/-- The rate decides (usage_agent.rs 170-180); `coin` is the random choice. -/
def byRate (rate : Rate) (coin : Bool) : Verdict :=
  match rate with
  | .all => .kept
  | .nothing => .dropped
  | .between => if coin then .kept else .dropped

/-- Models `should_sample` (usage_agent.rs 161-181). `none` is a panic. -/
def Agent.sample (A : Agent) (f : Fifo) (r : Rep) (coin : Bool) : Option (Verdict × Fifo) :=
  match A.once with
  | none => some (byRate A.rate coin, f)
  | some ps =>
    match f.insert (A.hash (keyOf ps r)) with
    | none => none
    | some (true, g) => some (.kept, g)
    | some (false, g) => some (byRate A.rate coin, g)

/-- Models the first part of `add_report_with_request` (usage_agent.rs 365-397). -/
def Agent.judge (A : Agent) (f : Fifo) (r : Rep) (coin : Bool) : Option (Verdict × Fifo) :=
  match A.excludes r with
  | none => some (.failed, f)
  | some true => some (.excluded, f)
  | some false => A.sample f r coin

/-- The agent while it runs: the keys seen, the reports that are kept but not yet in the buffer, the
buffer, the batches handed over to be sent, and what was decided, the latest first. -/
structure St where
  fifo : Fifo
  pending : List Rep
  queue : List Rep
  batches : List (List Rep)
  judged : List (Rep × Verdict)
  puts : List Rep

/-- What may happen. Each takes a lock once, so any order of these is a schedule of the tasks that add
reports and of those that flush. -/
inductive Ev
  | arrive (r : Rep) (coin : Bool)
  | put (i : Nat)
  | flush

/-- A batch is handed over unless it is empty (usage_agent.rs 293-299, `handle_drained`). -/
def handOver (bs : List (List Rep)) (b : List Rep) : List (List Rep) :=
  if b = [] then bs else bs ++ [b]

/-- Models `Buffer::add` (buffer.rs 23-33) with usage_agent.rs 399-401. -/
def Agent.add (A : Agent) (s : St) (r : Rep) : St :=
  if A.max ≤ s.queue.length then
    { s with queue := [], batches := handOver s.batches (s.queue ++ [r]), puts := s.puts ++ [r] }
  else { s with queue := s.queue ++ [r], puts := s.puts ++ [r] }

/-- Models `flush` with `Buffer::drain` (usage_agent.rs 301-307; buffer.rs 35-38). -/
def drain (s : St) : St := { s with queue := [], batches := handOver s.batches s.queue }

/-- One step. `none` is a panic. -/
def Agent.step (A : Agent) (s : St) : Ev → Option St
  | .arrive r coin =>
    match A.judge s.fifo r coin with
    | none => none
    | some (v, g) =>
      some { s with fifo := g, judged := (r, v) :: s.judged,
                    pending := if v = .kept then s.pending ++ [r] else s.pending }
  | .put i =>
    match s.pending[i]? with
    | none => some s
    | some r => some (A.add { s with pending := s.pending.eraseIdx i } r)
  | .flush => some (drain s)

/-- A new agent (builder.rs). -/
def Agent.start (A : Agent) : St := ⟨Fifo.new A.cap, [], [], [], [], []⟩

def Agent.run (A : Agent) : St → List Ev → Option St
  | s, [] => some s
  | s, e :: es =>
    match A.step s e with
    | none => none
    | some s' => A.run s' es

end Verif.Usage
