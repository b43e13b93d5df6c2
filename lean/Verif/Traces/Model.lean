/-!
# Traces: collecting spans and exporting them

Spans that end are sent to a thread that collects them by trace, and hands traces whose root has ended to an
exporter, in batches. The file is bin/router/src/telemetry/traces/trace_batch_span_processor.rs.

Parts marked as ghost are not in the code; they say what has happened. Simplifications: a span is its identity,
its trace and whether it is a root (no parent, or a parent in another process, line 109); a batch is a list of
traces and not yet of their spans (line 540); spans that are not sampled do not occur; times are numbers.
Whether an export succeeds is left to the exporter.
-/

namespace Verif.Traces

/-- A span that has ended. -/
structure Span where
  id : Nat
  trace : Nat
  root : Bool
deriving DecidableEq

/-- `ActiveTrace` (66-73), with its trace id, which is the key of the map. -/
structure Trace where
  id : Nat
  spans : List Span
  ended : Bool
  first : Nat

/-- `Config` (139-156) and the capacity of the channel (588). -/
structure Cfg where
  maxTraces : Nat
  maxSpans : Nat
  batch : Nat
  conc : Nat
  cap : Nat
  lifetime : Nat

/-- `BatchMessage` (50-62). The resource is left out. -/
inductive Msg where
  | span (x : Span)
  | flush
  | shutdown
deriving DecidableEq

/-- What follows once all traces that wait have been handed on. -/
inductive After where
  | back
  | wait
  | stop
deriving DecidableEq

/-- Where the thread is: waiting for something to do, in `flush_export_queue` (524-573), in
`wait_for_exports` (576-578), about to shut down the exporter (337), or gone. -/
inductive Pc where
  | idle
  | flushing (a : After)
  | waiting
  | stopping
  | stopped
deriving DecidableEq

/-- `TraceAggregator` (264-283) with the channel and the counters of `DropMetrics` (133-137). `tasks` are
exports that were spawned and have not been handed to the exporter, `exported` are those that were. Ghosts:
`sent`, all spans that ended; `dropped`, those that were given up; `taken`, those that the thread took from
the channel, in order. -/
structure St where
  now : Nat
  chan : List Msg
  active : List Trace
  queue : List Trace
  tasks : List (List Trace)
  exported : List (List Trace)
  count : Nat
  countLimit : Nat
  pc : Pc
  sent : List Span
  dropped : List Span
  taken : List Span

/-- The start (592-604). -/
def St.start : St := ⟨0, [], [], [], [], [], 0, 0, .idle, [], [], []⟩

/-- `enqueue_for_export` (286-292). -/
def enqueue (s : St) (t : Trace) : St := if t.spans = [] then s else { s with queue := s.queue ++ [t] }

/-- A span is given up and counted. -/
def drop (s : St) (x : Span) : St := { s with dropped := s.dropped ++ [x], count := s.count + 1 }

/-- A span is given up because its trace has too many (128-130). -/
def dropLimit (s : St) (x : Span) : St :=
  { s with dropped := s.dropped ++ [x], countLimit := s.countLimit + 1 }

/-- `add_span` (102-131), the trace. -/
def addSpan (c : Cfg) (t : Trace) (x : Span) : Trace :=
  { t with ended := t.ended || x.root,
           spans := if t.spans.length < c.maxSpans then t.spans ++ [x] else t.spans }

/-- `add_span` (102-131), the counter. -/
def addCount (c : Cfg) (s : St) (t : Trace) (x : Span) : St :=
  if t.spans.length < c.maxSpans then s else dropLimit s x

/-- A trace that is too old (91-93, 486). -/
def expired (c : Cfg) (now : Nat) (t : Trace) : Bool := !t.ended && decide (c.lifetime < now - t.first)

/-- `sweep` (475-507). The map comes in any order. -/
def sweep (c : Cfg) (s : St) : St :=
  { s with
    active := s.active.filter (fun t => !t.ended && !expired c s.now t)
    dropped := s.dropped ++ (s.active.filter (expired c s.now)).flatMap (·.spans)
    count := s.count + ((s.active.filter (expired c s.now)).flatMap (·.spans)).length
    queue := s.queue ++ s.active.filter (fun t => t.ended && !t.spans.isEmpty) }

/-- The last part of `handle_span` (459-470): a new trace. -/
def newTrace (c : Cfg) (s : St) (x : Span) : St :=
  let t : Trace := ⟨x.trace, [], false, s.now⟩
  let s1 := addCount c s t x
  if x.root then enqueue s1 (addSpan c t x)
  else { s1 with active := s1.active ++ [addSpan c t x] }

/-- `handle_span` (425-470). -/
def handleSpan (c : Cfg) (s : St) (x : Span) : St :=
  match s.active.find? (fun t => t.id = x.trace) with
  | some t =>
    let s1 := addCount c s t x
    if x.root && !t.ended then
      enqueue { s1 with active := s1.active.filter (fun u => u.id ≠ x.trace) } (addSpan c t x)
    else { s1 with active := s1.active.map (fun u => if u.id = x.trace then addSpan c t x else u) }
  | none =>
    if c.maxTraces ≤ s.active.length then
      let s1 := sweep c s
      if c.maxTraces ≤ s1.active.length then drop s1 x else newTrace c s1 x
    else newTrace c s x

/-- `drain_active_traces` (509-522). -/
def drain (s : St) : St :=
  { s with
    active := []
    queue := s.queue ++ s.active.filter (fun t => t.ended && !t.spans.isEmpty)
    dropped := s.dropped ++ (s.active.filter (fun t => !t.ended)).flatMap (·.spans)
    count := s.count + ((s.active.filter (fun t => !t.ended)).flatMap (·.spans)).length }

/-- `process_message` (303-350). -/
def process (c : Cfg) (s : St) : Msg → St
  | .span x =>
    let s1 := handleSpan c { s with taken := s.taken ++ [x] } x
    if c.batch ≤ s1.queue.length then { s1 with pc := .flushing .back } else s1
  | .flush => { sweep c s with pc := .flushing .wait }
  | .shutdown => { drain s with pc := .flushing .stop }

/-- What can happen. -/
inductive Act where
  | ended (x : Span)
  | askFlush
  | ask
  | sweepTick (now : Nat)
  | batchTick (now : Nat)
  | recv (now : Nat)
  | spawn
  | done (i : Nat)
  | settle
  | waited
  | halt
  | gone

/-- One step.

`ended`, `askFlush` and `ask` are `on_end` (182-209), `force_flush` and `shutdown_with_timeout` (211-254):
they do not wait for room in the channel. `sweepTick`, `batchTick` and `recv` are the branches of the loop
(376-419). `spawn` is one round of `flush_export_queue` (525-572): the batch is taken from the end, last
first, and with a limit of one it is exported at once. `done` is a task that gets to the exporter; the thread
runs tasks only when it waits, here they may run at any time before the end. `halt` is the end of the thread
after the exporter has been shut down (337-345), which aborts the tasks that are left. `gone` is the end of
the loop when no one can send any more (412), which is after `shutdown_with_timeout` has been called, whether
or not it could send its message. -/
def step (c : Cfg) (s : St) : Act → Option St
  | .ended x =>
    let s1 := { s with sent := s.sent ++ [x] }
    some (if s.pc ≠ .stopped ∧ s.chan.length < c.cap then { s1 with chan := s.chan ++ [.span x] } else drop s1 x)
  | .askFlush =>
    some (if s.pc ≠ .stopped ∧ s.chan.length < c.cap then { s with chan := s.chan ++ [.flush] } else s)
  | .ask =>
    some (if s.pc ≠ .stopped ∧ s.chan.length < c.cap then { s with chan := s.chan ++ [.shutdown] } else s)
  | .sweepTick now =>
    if s.pc = .idle then
      let s1 := sweep c { s with now := now }
      some (if c.batch ≤ s1.queue.length then { s1 with pc := .flushing .back } else s1)
    else none
  | .batchTick now =>
    if s.pc = .idle then
      some (if s.queue = [] then { s with now := now } else { s with now := now, pc := .flushing .back })
    else none
  | .recv now =>
    match s.chan with
    | [] => none
    | m :: ms => if s.pc = .idle then some (process c { s with now := now, chan := ms } m) else none
  | .spawn =>
    match s.pc with
    | .flushing _ =>
      if s.queue = [] then none
      else
        let rest := s.queue.take (s.queue.length - min s.queue.length c.batch)
        let b := (s.queue.drop (s.queue.length - min s.queue.length c.batch)).reverse
        if s.tasks ≠ [] ∧ c.conc ≤ s.tasks.length then none
        else if c.conc = 1 then some { s with queue := rest, exported := s.exported ++ [b] }
        else some { s with queue := rest, tasks := s.tasks ++ [b] }
    | _ => none
  | .done i =>
    if s.pc = .stopped then none
    else match s.tasks[i]? with
      | some b => some { s with tasks := s.tasks.eraseIdx i, exported := s.exported ++ [b] }
      | none => none
  | .settle =>
    match s.pc with
    | .flushing a =>
      if s.queue = [] then
        some { s with pc := match a with | .back => .idle | .wait => .waiting | .stop => .stopping }
      else none
    | _ => none
  | .waited => if s.pc = .waiting ∧ s.tasks = [] then some { s with pc := .idle } else none
  | .halt => if s.pc = .stopping then some { s with pc := .stopped } else none
  | .gone => if s.pc = .idle ∧ s.chan = [] then some { s with pc := .stopped } else none

/-- Many steps. -/
def run (c : Cfg) : St → List Act → Option St
  | s, [] => some s
  | s, a :: as => (step c s a).bind (fun s' => run c s' as)

end Verif.Traces
