/-! # C30: reloads of persisted documents

Files and stored objects with manifests. `Raw` are the contents; parsing is a parameter, `parse`, that
gives the documents or fails. Documents are what a lookup sees. -/

namespace Verif.Persisted.Reload

/-! ## Manifests -/

/-- `PersistedDocumentsManifest`, `bin/router/src/pipeline/persisted_documents/resolve/
shared_file_manifest.rs:31-37`, 89-104, as read by the JSON library. -/
inductive Manifest where
  | apollo (format : String) (version : Nat) (operations : List (String × String))
  | keyValue (entries : List (String × String))

/-- `DocumentsById`: the entries of a hash map, newest first. -/
abbrev Docs := List (String × String)

/-- `resolve`, `fs.rs:30-46`, `storage.rs:80-94`. -/
def Docs.find (d : Docs) (id : String) : Option String :=
  match d.find? fun kv => kv.1 == id with
  | some kv => some kv.2
  | none => none

/-- `TryFrom`, `shared_file_manifest.rs:39-87`; later entries replace earlier ones. -/
def documents : Manifest → Option Docs
  | .apollo format version operations =>
    if format ≠ "apollo-persisted-query-manifest" then none
    else if version ≠ 1 then none
    else some operations.reverse
  | .keyValue entries => some entries.reverse

/-! ## Files -/

/-- The background task, `fs.rs:213-227`: waiting, sleeping, about to look at the flag, reading. `torn`
says that the file has changed since the read began. -/
inductive Worker where
  | idle
  | debounce
  | reload
  | reading (torn : Bool)
  deriving DecidableEq

/-- `FileManifestResolver`, `fs.rs:49-61`, with the file and the watcher. -/
structure File (Raw D : Type) where
  /-- The contents of the file, if it is there. -/
  file : Option Raw
  docs : D
  dirty : Bool
  /-- The permit of `reload_signal`. -/
  permit : Bool
  worker : Worker
  /-- The watcher exists. -/
  watching : Bool
  /-- The file has changed, and the last event for this has not been handled. -/
  pending : Bool
  /-- The callback of the watcher is between its two statements. -/
  callback : Bool

/-- What happens. -/
inductive Label (Raw : Type) where
  /-- The watcher starts. -/
  | watch
  /-- The file is written, in part or in whole, or removed. -/
  | change (file : Option Raw)
  /-- The callback is called: after a change, or (`spurious`) without. More events may follow. -/
  | event (spurious more : Bool)
  /-- The callback notifies. -/
  | notify
  | wake
  | slept
  /-- The flag is taken. -/
  | take
  /-- The read ends with contents, or fails. -/
  | read (r : Option Raw)

/-- A change of the file during a read. -/
def Worker.tear : Worker → Worker
  | .reading _ => .reading true
  | w => w

/-- What a read gives: `read_manifest_documents`, `fs.rs:189-204`, and `reload_if_needed`, 181-182. -/
def load {Raw D : Type} (parse : Raw → Option D) (old : D) : Option Raw → D
  | some raw =>
    match parse raw with
    | some d => d
    | none => old
  | none => old

/-- `swap(false)`, `fs.rs:177-179`. -/
def File.take {Raw D : Type} (s : File Raw D) : File Raw D :=
  if s.dirty then { s with dirty := false, worker := .reading false } else { s with worker := .idle }

/-- The steps. -/
inductive File.Step {Raw D : Type} (parse : Raw → Option D) :
    File Raw D → Label Raw → File Raw D → Prop
  /-- `fs.rs:92-100`: after the first read. -/
  | watch (s) : s.watching = false → Step parse s .watch { s with watching := true }
  | change (s) (f : Option Raw) :
      Step parse s (.change f)
        { s with file := f, pending := s.pending || s.watching, worker := s.worker.tear }
  /-- `fs.rs:127-146`: the flag first, then the signal. -/
  | event (s) (more : Bool) : s.watching = true → s.callback = false → s.pending = true →
      Step parse s (.event false more) { s with dirty := true, callback := true, pending := more }
  /-- Errors of the watcher, and events that change nothing. -/
  | spurious (s) : s.watching = true → s.callback = false →
      Step parse s (.event true false) { s with dirty := true, callback := true }
  | notify (s) : s.callback = true → Step parse s .notify { s with callback := false, permit := true }
  /-- `fs.rs:215-221`. -/
  | wake (s) : s.worker = .idle → s.permit = true →
      Step parse s .wake { s with permit := false, worker := .debounce }
  | slept (s) : s.worker = .debounce → Step parse s .slept { s with worker := .reload }
  | take (s) : s.worker = .reload → Step parse s .take s.take
  /-- `fs.rs:181-186`. A read may fail at any time; what it gives is only known if the file has not
  changed since it began. -/
  | read (s) (torn : Bool) (r : Option Raw) : s.worker = .reading torn →
      (torn = false → r = none ∨ r = s.file) →
      Step parse s (.read r) { s with docs := load parse s.docs r, worker := .idle }

/-- After the first read, `fs.rs:85-110`. -/
def File.start {Raw D : Type} (raw : Raw) (d : D) : File Raw D :=
  ⟨some raw, d, false, false, .idle, false, false, false⟩

/-- Runs, the newest label first. -/
inductive File.Run {Raw D : Type} (parse : Raw → Option D) (raw : Raw) (d : D) :
    List (Label Raw) → File Raw D → Prop
  | start : Run parse raw d [] (.start raw d)
  | step {ls s l s'} : Run parse raw d ls s → File.Step parse s l s' → Run parse raw d (l :: ls) s'

/-! ## Stored objects -/

/-- `StorageResolver`, `storage.rs:21-26`. -/
structure Store (D : Type) where
  docs : D
  etag : Option String

/-- `StorageGetResult`, or an error. -/
inductive Got (Raw : Type) where
  | notModified
  | modified (raw : Raw) (etag : Option String)
  | failed

/-- `reload_if_needed`, `storage.rs:47-75`. -/
def Store.reload {Raw D : Type} (parse : Raw → Option D) (s : Store D) : Got Raw → Store D
  | .notModified => s
  | .failed => s
  | .modified raw etag =>
    match parse raw with
    | none => s
    | some d => { docs := d, etag := etag }

/-- What a server answers to a request with `If-None-Match`, for an object with a tag; any request may
fail, and not modified is only said of the tag that was sent. -/
inductive Serves {Raw : Type} (raw : Raw) (etag : Option String) (sent : Option String) : Got Raw → Prop
  | failed : Serves raw etag sent .failed
  | modified : Serves raw etag sent (.modified raw etag)
  | notModified (t : String) : sent = some t → etag = some t → Serves raw etag sent .notModified

/-- A history of an object and its polls. The object is `raw` with tag `etag`. -/
inductive Polls {Raw D : Type} (parse : Raw → Option D) (tagOf : Raw → Option String) :
    List (Raw × Got Raw) → Store D → Prop
  /-- `from_storage_config`, `storage.rs:29-45`. -/
  | start (raw : Raw) (d : D) : parse raw = some d →
      Polls parse tagOf [(raw, .modified raw (tagOf raw))] ⟨d, tagOf raw⟩
  /-- The object may be another at each poll. -/
  | poll {h s} (raw : Raw) (g : Got Raw) : Polls parse tagOf h s → Serves raw (tagOf raw) s.etag g →
      Polls parse tagOf ((raw, g) :: h) (s.reload parse g)

/-! ## Specification -/

/-- The last contents that were read and parsed, in a list of reads with the newest first. -/
def lastGood {Raw D : Type} (parse : Raw → Option D) (d : D) : List (Label Raw) → D
  | [] => d
  | .read (some raw) :: ls =>
    match parse raw with
    | some d' => d'
    | none => lastGood parse d ls
  | _ :: ls => lastGood parse d ls

/-- What the last read gave. -/
def lastRead {Raw : Type} (raw : Raw) : List (Label Raw) → Option Raw
  | [] => some raw
  | .read r :: _ => r
  | _ :: ls => lastRead raw ls

/-- Nothing is left to do: no event is on its way and the task waits. -/
structure Quiet {Raw D : Type} (s : File Raw D) : Prop where
  pending : s.pending = false
  callback : s.callback = false
  permit : s.permit = false
  worker : s.worker = .idle

/-- The file was not changed before the watcher started. -/
def WatchedFromStart {Raw : Type} (ls : List (Label Raw)) : Prop :=
  ∃ pre, ls = pre ++ [.watch]

/-- The last good contents of a stored object, as polls saw them. -/
def lastStored {Raw D : Type} (parse : Raw → Option D) : List (Raw × Got Raw) → Option D
  | [] => none
  | (_, .modified raw _) :: h =>
    match parse raw with
    | some d => some d
    | none => lastStored parse h
  | _ :: h => lastStored parse h

/-! ## Files: theorems -/

theorem load_docs {Raw D : Type} {parse : Raw → Option D} {raw : Raw} {d : D} {ls : List (Label Raw)}
    {s : File Raw D} (h : File.Run parse raw d ls s) : s.docs = lastGood parse d ls := by
  induction h with
  | start => rfl
  | step _ hs ih =>
    cases hs with
    | take => unfold File.take; split <;> exact ih
    | read torn r =>
      cases r with
      | none => exact ih
      | some r =>
        simp only [lastGood, load]
        cases parse r with
        | none => exact ih
        | some d => rfl
    | _ => exact ih

/-- Lookups are answered from the last manifest that could be read, in any history. -/
theorem C30_last_good {Raw : Type} (parse : Raw → Option Docs) (raw : Raw) (d : Docs)
    (ls : List (Label Raw)) (s : File Raw Docs) (h : File.Run parse raw d ls s) (id : String) :
    s.docs.find id = (lastGood parse d ls).find id := by rw [load_docs h]

/-- The state after the watcher has started. -/
structure Inv {Raw D : Type} (raw : Raw) (ls : List (Label Raw)) (s : File Raw D) : Prop where
  watching : s.watching = true
  signal : s.dirty = true → s.callback = true ∨ s.permit = true ∨ s.worker = .debounce ∨ s.worker = .reload
  torn : s.worker = .reading true → s.pending = true ∨ s.dirty = true
  fresh : s.pending = true ∨ s.dirty = true ∨ s.worker = .reading false ∨
    lastRead raw ls = none ∨ lastRead raw ls = s.file

theorem inv_start {Raw D : Type} {parse : Raw → Option D} {raw : Raw} {d : D} {s : File Raw D}
    (h : File.Run parse raw d [.watch] s) : Inv raw [.watch] s := by
  cases h with
  | step h hs =>
    cases h
    cases hs
    exact ⟨rfl, by simp [File.start], by simp [File.start], .inr (.inr (.inr (.inr rfl)))⟩

theorem inv_step {Raw D : Type} {parse : Raw → Option D} {raw : Raw} {ls : List (Label Raw)}
    {s s' : File Raw D} {l : Label Raw} (hi : Inv raw ls s) (hs : File.Step parse s l s') :
    Inv raw (l :: ls) s' := by
  obtain ⟨hw, hsig, ht, hf⟩ := hi
  cases hs with
  | watch h => rw [hw] at h; cases h
  | change f =>
    refine ⟨hw, fun h => ?_, fun _ => .inl (by simp [hw]), .inl (by simp [hw])⟩
    rcases hsig h with h | h | h | h
    · exact .inl h
    · exact .inr (.inl h)
    · exact .inr (.inr (.inl (by simp [h, Worker.tear])))
    · exact .inr (.inr (.inr (by simp [h, Worker.tear])))
  | event => exact ⟨hw, fun _ => .inl rfl, fun _ => .inr rfl, .inr (.inl rfl)⟩
  | spurious => exact ⟨hw, fun _ => .inl rfl, fun _ => .inr rfl, .inr (.inl rfl)⟩
  | notify => exact ⟨hw, fun _ => .inr (.inl rfl), ht, hf⟩
  | wake h1 h2 =>
    refine ⟨hw, fun _ => .inr (.inr (.inl rfl)), fun h => (by cases h), ?_⟩
    rcases hf with h | h | h | h
    · exact .inl h
    · exact .inr (.inl h)
    · rw [h1] at h; cases h
    · exact .inr (.inr (.inr h))
  | slept h1 =>
    refine ⟨hw, fun _ => .inr (.inr (.inr rfl)), fun h => (by cases h), ?_⟩
    rcases hf with h | h | h | h
    · exact .inl h
    · exact .inr (.inl h)
    · rw [h1] at h; cases h
    · exact .inr (.inr (.inr h))
  | take h1 =>
    cases hd : s.dirty with
    | true =>
      have : s.take = { s with dirty := false, worker := .reading false } := by simp [File.take, hd]
      rw [this]
      exact ⟨hw, fun h => (by cases h), fun h => (by cases h), .inr (.inr (.inl rfl))⟩
    | false =>
      have : s.take = { s with worker := .idle } := by simp [File.take, hd]
      rw [this]
      refine ⟨hw, fun h => ?_, fun h => (by cases h), ?_⟩
      · rw [show ({ s with worker := .idle } : File Raw D).dirty = s.dirty from rfl, hd] at h
        cases h
      rcases hf with h | h | h | h
      · exact .inl h
      · rw [hd] at h; cases h
      · rw [h1] at h; cases h
      · exact .inr (.inr (.inr h))
  | read torn r h1 h2 =>
    refine ⟨hw, fun h => ?_, fun h => (by cases h), ?_⟩
    · rcases hsig h with h | h | h | h
      · exact .inl h
      · exact .inr (.inl h)
      · rw [h1] at h; cases h
      · rw [h1] at h; cases h
    · cases torn with
      | false => exact .inr (.inr (.inr (h2 rfl)))
      | true =>
        rcases ht h1 with h | h
        · exact .inl h
        · exact .inr (.inl h)

theorem inv_run {Raw D : Type} {parse : Raw → Option D} {raw : Raw} {d : D} :
    ∀ (pre : List (Label Raw)) {s : File Raw D}, File.Run parse raw d (pre ++ [.watch]) s →
      Inv raw (pre ++ [.watch]) s
  | [], _, h => inv_start h
  | _ :: pre, _, h => by
    cases h with
    | step h hs => exact inv_step (inv_run pre h) hs

/-- When nothing is left to do, the last read saw the file as it is, or failed. -/
theorem C30_current {Raw D : Type} (parse : Raw → Option D) (raw : Raw) (d : D)
    (ls : List (Label Raw)) (s : File Raw D) (h : File.Run parse raw d ls s) (hw : WatchedFromStart ls)
    (hq : Quiet s) (hread : lastRead raw ls ≠ none) :
    lastRead raw ls = s.file ∧
      (parse raw = some d → ∀ r d', s.file = some r → parse r = some d' → s.docs = d') := by
  obtain ⟨pre, rfl⟩ := hw
  have hi := inv_run pre h
  have hfile : lastRead raw (pre ++ [.watch]) = s.file := by
    rcases hi.fresh with h | h | h | h | h
    · rw [hq.pending] at h; cases h
    · rcases hi.signal h with h | h | h | h
      · rw [hq.callback] at h; cases h
      · rw [hq.permit] at h; cases h
      · rw [hq.worker] at h; cases h
      · rw [hq.worker] at h; cases h
    · rw [hq.worker] at h; cases h
    · exact absurd h hread
    · exact h
  refine ⟨hfile, fun hp r d' hr hd => ?_⟩
  rw [load_docs h]
  rw [hr] at hfile
  clear h hi hq hread hr
  generalize pre ++ [Label.watch] = ls at hfile
  induction ls with
  | nil =>
    simp only [lastRead, Option.some.injEq] at hfile
    subst hfile
    rw [hp] at hd
    exact Option.some.inj hd
  | cons l ls ih =>
    cases l with
    | read o =>
      simp only [lastRead] at hfile
      subst hfile
      simp only [lastGood, hd]
    | _ => exact ih hfile

/-- How much is left to do. -/
def rank {Raw D : Type} (s : File Raw D) : Nat :=
  (if s.pending then 6 else 0) + (if s.callback then 5 else 0) + (if s.permit then 4 else 0) +
    match s.worker with
    | .idle => 0
    | .debounce => 3
    | .reload => 2
    | .reading _ => 1

/-- The steps of the router itself, and the last event for a change. -/
def Own {Raw : Type} : Label Raw → Prop
  | .event false false => True
  | .notify | .wake | .slept | .take | .read _ => True
  | _ => False

/-- If the file is left alone the task comes to rest: while it has not, a step is possible, and each
step brings it closer. -/
theorem C30_settles {Raw D : Type} (parse : Raw → Option D) (s : File Raw D) (hw : s.watching = true) :
    (¬ Quiet s → ∃ l s', Own l ∧ File.Step parse s l s') ∧
      ∀ l s', Own l → File.Step parse s l s' → rank s' < rank s := by
  constructor
  · intro hq
    cases hc : s.callback with
    | true => exact ⟨.notify, _, trivial, .notify s hc⟩
    | false =>
      cases hp : s.pending with
      | true => exact ⟨.event false false, _, trivial, .event s false hw hc hp⟩
      | false =>
        cases hwk : s.worker with
        | debounce => exact ⟨.slept, _, trivial, .slept s hwk⟩
        | reload => exact ⟨.take, _, trivial, .take s hwk⟩
        | reading t => exact ⟨.read s.file, _, trivial, .read s t s.file hwk fun _ => .inr rfl⟩
        | idle =>
          cases hpm : s.permit with
          | true => exact ⟨.wake, _, trivial, .wake s hwk hpm⟩
          | false => exact absurd ⟨hp, hc, hpm, hwk⟩ hq
  · intro l s' ho hs
    cases hs with
    | watch => cases ho
    | change => cases ho
    | spurious => cases ho
    | event more h1 h2 h3 =>
      cases more with
      | true => cases ho
      | false => simp [rank, h2, h3]
    | notify h =>
      cases hp : s.permit <;> simp [rank, h, hp] <;> omega
    | wake h1 h2 => simp [rank, h1, h2]
    | slept h => simp [rank, h]
    | take h =>
      unfold File.take
      cases hd : s.dirty <;> simp [rank, h]
    | read torn r h => simp [rank, h]

/-! Both hypotheses of `C30_current` are needed. -/

section Witnesses

variable {Raw D : Type} (parse : Raw → Option D) (a b : Raw) (da : D)

/-- A change before the watcher starts is not noticed. -/
def missed : List (Label Raw) := [.watch, .change (some b)]

theorem C30_startup_race :
    ∃ s, File.Run parse a da (missed b) s ∧ Quiet s ∧ s.file = some b ∧ s.docs = da :=
  ⟨_, .step (.step .start (.change _ _)) (.watch _ rfl), ⟨rfl, rfl, rfl, rfl⟩, rfl, rfl⟩

/-- A read that fails is not tried again: the task rests, the file is good, and the documents are the
old ones. -/
theorem C30_failed_read_not_retried :
    ∃ ls s, File.Run parse a da ls s ∧ WatchedFromStart ls ∧ Quiet s ∧ s.file = some b ∧ s.docs = da :=
  ⟨[.read none, .take, .slept, .wake, .notify, .event false false, .change (some b), .watch], _,
    .step (.step (.step (.step (.step (.step (.step (.step .start (.watch _ rfl)) (.change _ _))
      (.event _ false rfl rfl rfl)) (.notify _ rfl)) (.wake _ rfl rfl)) (.slept _ rfl)) (.take _ rfl))
      (.read _ false none rfl fun _ => .inl rfl),
    ⟨[.read none, .take, .slept, .wake, .notify, .event false false, .change (some b)], rfl⟩,
    ⟨rfl, rfl, rfl, rfl⟩, rfl, rfl⟩

end Witnesses

/-- A history with a change, a bad file, and a good one. -/
example : ∃ ls s, File.Run (fun n : Nat => if n = 0 then none else some n) 1 1 ls s ∧ WatchedFromStart ls ∧
    Quiet s ∧ lastRead 1 ls ≠ none ∧ s.docs = 2 :=
  ⟨[.read (some 2), .take, .slept, .wake, .notify, .event false false, .change (some 2),
      .read (some 0), .take, .slept, .wake, .notify, .event false false, .change (some 0), .watch], _,
    .step (.step (.step (.step (.step (.step (.step
    (.step (.step (.step (.step (.step (.step (.step (.step .start (.watch _ rfl)) (.change _ _))
      (.event _ false rfl rfl rfl)) (.notify _ rfl)) (.wake _ rfl rfl)) (.slept _ rfl)) (.take _ rfl))
      (.read _ false _ rfl fun _ => .inr rfl)) (.change _ _))
      (.event _ false rfl rfl rfl)) (.notify _ rfl)) (.wake _ rfl rfl)) (.slept _ rfl)) (.take _ rfl))
      (.read _ false _ rfl fun _ => .inr rfl),
    ⟨[.read (some 2), .take, .slept, .wake, .notify, .event false false, .change (some 2),
      .read (some 0), .take, .slept, .wake, .notify, .event false false, .change (some 0)], rfl⟩,
    ⟨rfl, rfl, rfl, rfl⟩, by simp [lastRead], rfl⟩

/-! ## Stored objects: theorems -/

/-- The tag of a store is that of the contents its documents are from. -/
theorem store_inv {Raw D : Type} {parse : Raw → Option D} {tagOf : Raw → Option String}
    {h : List (Raw × Got Raw)} {s : Store D} (hp : Polls parse tagOf h s) :
    lastStored parse h = some s.docs ∧ ∃ raw, parse raw = some s.docs ∧ s.etag = tagOf raw := by
  induction hp with
  | start raw d hd => exact ⟨by simp [lastStored, hd], raw, hd, rfl⟩
  | poll raw g hp hs ih =>
    cases hs with
    | failed => exact ih
    | notModified t h1 h2 => exact ih
    | modified =>
      cases hd : parse raw with
      | none => simpa [Store.reload, hd, lastStored] using ih
      | some d => exact ⟨by simp [lastStored, Store.reload, hd], raw, by simp [Store.reload, hd], by
          simp [Store.reload, hd]⟩

/-- Lookups are answered from the last contents that parsed, in any history of polls. -/
theorem C30_store_last_good {Raw : Type} (parse : Raw → Option Docs) (tagOf : Raw → Option String)
    (h : List (Raw × Got Raw)) (s : Store Docs) (hp : Polls parse tagOf h s) :
    ∃ d, lastStored parse h = some d ∧ ∀ id, s.docs.find id = d.find id :=
  ⟨s.docs, (store_inv hp).1, fun _ => rfl⟩

/-- After a poll that did not fail the documents are those of the object, if tags tell contents
apart. -/
theorem C30_store_current {Raw D : Type} (parse : Raw → Option D) (tagOf : Raw → Option String)
    (htag : ∀ a b t, tagOf a = some t → tagOf b = some t → parse a = parse b)
    (h : List (Raw × Got Raw)) (s : Store D) (raw : Raw) (g : Got Raw)
    (hp : Polls parse tagOf ((raw, g) :: h) s) (hg : g ≠ .failed) (d : D) (hd : parse raw = some d) :
    s.docs = d := by
  cases hp with
  | start _ d' hd' =>
    rw [hd'] at hd
    exact Option.some.inj hd
  | poll _ _ hp hs =>
    cases hs with
    | failed => exact absurd rfl hg
    | modified => simp [Store.reload, hd]
    | notModified t h1 h2 =>
      obtain ⟨_, raw', hr, he⟩ := store_inv hp
      rw [he] at h1
      have := htag raw' raw t h1 h2
      rw [hr, hd] at this
      exact Option.some.inj this

/-- A manifest that does not parse changes nothing, and is asked for again: its tag is not taken. -/
theorem C30_store_bad {Raw D : Type} (parse : Raw → Option D) (s : Store D) (raw : Raw)
    (etag : Option String) (h : parse raw = none) : s.reload parse (.modified raw etag) = s := by
  simp [Store.reload, h]

example : ∃ h s, Polls (fun n : Nat => if n = 0 then none else some n) (fun n => some (Nat.repr n)) h s ∧
    s.docs = 3 ∧ h.length = 5 :=
  ⟨_, _, .poll 3 .notModified (.poll 3 _ (.poll 0 .failed (.poll 0 _ (.start 1 1 rfl) .modified) .failed)
    .modified) (.notModified _ rfl rfl), rfl, rfl⟩

/-! ## Manifests: theorems -/

theorem find_reverse (l : List (String × String)) (id t : String) :
    Docs.find l.reverse id = some t ↔
      ∃ pre post, l = pre ++ (id, t) :: post ∧ ∀ kv ∈ post, kv.1 ≠ id := by
  unfold Docs.find
  constructor
  · intro h
    cases hf : (l.reverse.find? fun kv => kv.1 == id) with
    | none => rw [hf] at h; cases h
    | some kv =>
      rw [hf] at h
      simp only [Option.some.injEq] at h
      obtain ⟨hk, as, bs, he, hn⟩ := List.find?_eq_some_iff_append.1 hf
      refine ⟨bs.reverse, as.reverse, ?_, ?_⟩
      · have := congrArg List.reverse he
        simp only [List.reverse_reverse, List.reverse_append, List.reverse_cons, List.append_assoc,
          List.singleton_append] at this
        rw [this]
        simp only [beq_iff_eq] at hk
        rw [← hk, ← h]
      · intro kv' hkv'
        have := hn kv' (List.mem_reverse.1 hkv')
        simpa using this
  · rintro ⟨pre, post, rfl, hn⟩
    have : ((pre ++ (id, t) :: post).reverse.find? fun kv => kv.1 == id) = some (id, t) := by
      rw [List.find?_eq_some_iff_append]
      refine ⟨by simp, post.reverse, pre.reverse, by simp, ?_⟩
      intro kv hkv
      have := hn kv (List.mem_reverse.1 hkv)
      simpa using this
    rw [this]

/-- A manifest in either format gives the text of the last operation with the id. -/
theorem C30_manifest (ops : List (String × String)) (m : Manifest)
    (hm : m = .keyValue ops ∨ m = .apollo "apollo-persisted-query-manifest" 1 ops) :
    ∃ d, documents m = some d ∧ ∀ id t, d.find id = some t ↔
      ∃ pre post, ops = pre ++ (id, t) :: post ∧ ∀ kv ∈ post, kv.1 ≠ id := by
  refine ⟨ops.reverse, ?_, fun id t => find_reverse ops id t⟩
  rcases hm with rfl | rfl <;> rfl

/-- Another format or version is refused. -/
theorem C30_manifest_refused (format : String) (version : Nat) (ops : List (String × String))
    (h : format ≠ "apollo-persisted-query-manifest" ∨ version ≠ 1) :
    documents (.apollo format version ops) = none := by
  simp only [documents]
  rcases h with h | h
  · rw [if_pos h]
  · rw [if_pos h]; split <;> rfl

end Verif.Persisted.Reload
