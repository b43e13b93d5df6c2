import Mathlib.Data.List.Basic

/-!
# Reloading the supergraph

The router polls a source for the supergraph. What it gets goes through a channel to a task that builds
the state of the router from it and, if that succeeds, puts it in the place that requests take it from.
Loading and building run at the same time, and the source changes at any time.
-/

namespace Verif.Reload

/-- The text of a supergraph. -/
abbrev Sdl := String

/-- What names a version at the source: an ETag, the id of Apollo Uplink, or the time a file was
modified. -/
abbrev Tag := Nat

/-- What a poll finds. Models `Result<ReloadSupergraphResult, LoadSupergraphError>`
(bin/router/src/supergraph/base.rs:22-34). -/
inductive Loaded where
  | unchanged
  | changed (sdl : Sdl)
  | failed
deriving DecidableEq

/-- What one request over HTTP comes to: no answer or one that is an error, status 304, or another status
with an ETag and a body; the body is missing if it cannot be read to its end. -/
inductive Http where
  | failed
  | notModified
  | ok (etag : Option Tag) (body : Option Sdl)
deriving DecidableEq

/-- What one request to Apollo Uplink comes to (bin/router/src/supergraph/apollo_graphos.rs:58-79). -/
inductive Uplink where
  | failed
  | result (id : Tag) (sdl : Sdl)
  | unchanged (id : Tag)
  | fetchError
deriving DecidableEq

/-- The sources (bin/router/src/supergraph/mod.rs:23-113). -/
inductive Kind where
  | file
  | hive
  | storage
  | uplink
deriving DecidableEq

/-- `SupergraphFetcher::fetch_supergraph`
(lib/hive-console-sdk/src/supergraph_fetcher/async_fetcher.rs:19-91): the endpoints in order, up to the
first that answers. The ETag is kept before the body is read. Retries and circuit breakers make a request
fail or not and are left out. The answers are those of all endpoints, also if they are not asked. -/
def hivePoll (seen : Option Tag) (answers : List Http) : Loaded × Option Tag :=
  match answers.find? (fun a => a ≠ .failed) with
  | some (.ok etag body) =>
      (match body with
       | some sdl => .changed sdl
       | none => .failed, etag)
  | some _ => (.unchanged, seen)
  | none => (if answers = [] then .unchanged else .failed, seen)

/-- `SupergraphStorageFetcher::fetch_supergraph` with `get_if_none_changed`
(bin/router/src/supergraph/storage.rs:34-54, bin/router/src/storage/s3_runtime.rs:180-211): the ETag is
kept after the body was read. -/
def storagePoll (seen : Option Tag) : Http → Loaded × Option Tag
  | .failed => (.failed, seen)
  | .notModified => (.unchanged, seen)
  | .ok etag (some sdl) => (.changed sdl, etag)
  | .ok _ none => (.failed, seen)

/-- `SupergraphApolloGraphOSLoader::load` (apollo_graphos.rs:119-220): the endpoints in order, up to the
first that answers. The interval that the answer asks for is left out. -/
def uplinkPoll (seen : Option Tag) (answers : List Uplink) : Loaded × Option Tag :=
  match answers.find? (fun a => a ≠ .failed) with
  | some (.result id sdl) => (.changed sdl, some id)
  | some (.unchanged id) => (.unchanged, some id)
  | _ => (.failed, seen)

/-- Where the loader is: before a poll, between the two steps of reading a file, waiting for room in the
channel, or at its end. -/
inductive Pc where
  | idle
  | reading (t : Tag)
  | sending (sdl : Sdl)
  | ended
deriving DecidableEq

/-- The loader, the channel, the task that builds and what requests get. Models
`SupergraphBackgroundLoader`, `mpsc::channel::<String>(1)` and `configured`
(bin/router/src/schema_state.rs:365-372, 718-777, 811-842). What is built is told by the text it was
built from. -/
structure St where
  seen : Option Tag
  pc : Pc
  chan : Option Sdl
  building : Option Sdl
  slot : Option Sdl
deriving DecidableEq

/-- At the start of the router. -/
def St.start : St := { seen := none, pc := .idle, chan := none, building := none, slot := none }

/-- What happens. Files are polled in two steps. -/
inductive Ev where
  | stat (modified : Option Tag)
  | read (content : Option Sdl)
  | hive (answers : List Http)
  | storage (answer : Http)
  | uplink (answers : List Uplink)
  | send
  | recv
  | built (ok : Bool)
deriving DecidableEq

/-- What the loader does after a poll (schema_state.rs:858-889): without an interval it ends, whether it has
loaded anything or not. -/
def rest (polls : Bool) : Pc := if polls then .idle else .ended

/-- A poll has come to its end (schema_state.rs:858-878). -/
def polled (polls : Bool) (s : St) : Loaded × Option Tag → St
  | (.changed sdl, seen) => { s with seen := seen, pc := .sending sdl }
  | (_, seen) => { s with seen := seen, pc := rest polls }

/-- `modified_time.is_none() || current_time > modified_time.unwrap()`
(bin/router/src/supergraph/file.rs:30). -/
def newer (seen : Option Tag) (t : Tag) : Bool :=
  match seen with
  | none => true
  | some u => u < t

/-- One step, if it can be made. `polls` says whether there is an interval. Models
`load_with_polling`, `load_without_polling` (file.rs:25-46), `SupergraphBackgroundLoaderTask::run`
(schema_state.rs:846-891), the loop that builds (schema_state.rs:738-776) and `ConfiguredSupergraph::build`
as far as it succeeds or fails (schema_state.rs:453-527). Without an interval a file is read without
looking when it was modified; here it is looked at then too, and is always newer. The poll of Hive and
Uplink always has an interval (hive.rs:96-98, apollo_graphos.rs:222-224). -/
def step (k : Kind) (polls : Bool) (s : St) : Ev → Option St
  | .stat m =>
      if k = .file ∧ s.pc = .idle then
        match m with
        | none => some { s with pc := rest polls }
        | some t => if newer s.seen t then some { s with pc := .reading t } else some { s with pc := rest polls }
      else none
  | .read c =>
      match s.pc with
      | .reading t =>
          match c with
          | some sdl => some (polled polls s (.changed sdl, some t))
          | none => some (polled polls s (.failed, s.seen))
      | _ => none
  | .hive as => if k = .hive ∧ s.pc = .idle then some (polled polls s (hivePoll s.seen as)) else none
  | .storage a => if k = .storage ∧ s.pc = .idle then some (polled polls s (storagePoll s.seen a)) else none
  | .uplink as => if k = .uplink ∧ s.pc = .idle then some (polled polls s (uplinkPoll s.seen as)) else none
  | .send =>
      match s.pc, s.chan with
      | .sending sdl, none => some { s with pc := rest polls, chan := some sdl }
      | _, _ => none
  | .recv =>
      match s.chan, s.building with
      | some sdl, none => some { s with chan := none, building := some sdl }
      | _, _ => none
  | .built ok =>
      match s.building with
      | some sdl => some { s with building := none, slot := if ok then some sdl else s.slot }
      | none => none

/-- Many steps. -/
def run (k : Kind) (polls : Bool) : St → List Ev → Option St
  | s, [] => some s
  | s, e :: es => (step k polls s e).bind (fun s' => run k polls s' es)

end Verif.Reload
