import Verif.Usage.Agent
/-!
# What is sent for a batch of reports

Models `produce_report` of `lib/hive-console-sdk/src/agent/usage_agent.rs` 183-263.
-/
namespace Verif.Usage

/-- What the processor makes of the text of an operation.
Models `ProcessedOperation` (`lib/hive-console-sdk/src/agent/utils.rs` 790-795). -/
structure Processed where
  text : String
  hash : String
  coords : List String
  deriving DecidableEq

/-- The processor: `none` is an error, `some none` is an introspection query. Models
`OperationProcessor::process` (utils.rs 814-830), whose cache gives what it was given: the schema of an
agent does not change. -/
abbrev Processor := String → Option (Option Processed)

/-- Models `non_empty_string` (usage_agent.rs 87-89). -/
def nonEmpty (s : Option String) : Option String := s.filter (fun t => !t.isEmpty)

/-- The largest number of 64 bits. -/
def maxU64 : Nat := 2 ^ 64 - 1

/-- Models `RequestOperation` (usage-report-v2.schema.json). -/
structure OpEntry where
  key : String
  time : Nat
  ok : Bool
  nanos : Nat
  errors : Nat
  persisted : Option String
  client : Option (String × String)
  deriving DecidableEq

/-- Models `OperationMapRecord`. -/
structure MapRecord where
  text : String
  name : Option String
  fields : List String
  deriving DecidableEq

/-- Models `Report`. The map is the list of its entries. -/
structure Report where
  size : Nat
  map : List (String × MapRecord)
  operations : List OpEntry
  deriving DecidableEq

/-- The client of a report, if there is a name or a version (usage_agent.rs 214-228). -/
def clientOf (r : Rep) : Option (String × String) :=
  let n := nonEmpty r.client
  let v := nonEmpty r.version
  if n.isSome || v.isSome then some (n.getD "", v.getD "") else none

/-- usage_agent.rs 229-252. The number of errors fits its type. -/
def entryOf (r : Rep) (p : Processed) : OpEntry :=
  ⟨p.hash, r.time, r.ok, if r.nanos ≤ maxU64 then r.nanos else maxU64, r.errors, r.persisted, clientOf r⟩

/-- One report of a batch (usage_agent.rs 192-260). -/
def addOne (proc : Processor) (o : Report) (r : Rep) : Report :=
  match proc r.body with
  | none => o
  | some none => o
  | some (some p) =>
    { operations := o.operations ++ [entryOf r p],
      map := if o.map.any (fun e => e.1 == p.hash) then o.map
        else o.map ++ [(p.hash, ⟨p.text, nonEmpty r.name, p.coords⟩)],
      size := o.size + 1 }

/-- Models `produce_report`. -/
def produce (proc : Processor) (b : List Rep) : Report := b.foldl (addOne proc) ⟨0, [], []⟩

/-- Whether a request is sent at all (usage_agent.rs 265-268, `send_report`). -/
def sends (o : Report) : Bool := o.size != 0

end Verif.Usage
