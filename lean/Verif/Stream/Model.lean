/-!
# Streams of events

The readers of the streams that subgraphs send for subscriptions, and the writers of the streams that clients get:
`executor/executors/{sse,multipart_subscribe}.rs` and `pipeline/{sse,multipart_subscribe}.rs`, below
`bin/router/src`. Streams are lists of bytes that arrive in frames.

Not modelled: the contents of responses. How the text of a response is read (`SubgraphResponse::deserialize_from_bytes`,
and `sonic_rs::get_from_str` for the member `payload`) is a parameter. Time is only that of heartbeats, which can come
at any moment.
-/

namespace Verif.Stream

abbrev Bytes := List UInt8

/-- The bytes of a text in ASCII. -/
def ascii (s : String) : Bytes := s.toList.map fun c => UInt8.ofNat c.toNat

def CR : UInt8 := 13
def LF : UInt8 := 10

/-! ## Texts -/

/-- A byte that continues a character of several bytes. -/
def cont (b : UInt8) : Bool := decide (0x80 ≤ b.toNat ∧ b.toNat ≤ 0xBF)

/-- Is `b c` the begin of a character of three bytes. -/
def second3 (b c : UInt8) : Bool :=
  if b.toNat = 0xE0 then decide (0xA0 ≤ c.toNat ∧ c.toNat ≤ 0xBF)
  else if b.toNat = 0xED then decide (0x80 ≤ c.toNat ∧ c.toNat ≤ 0x9F)
  else decide (0xE1 ≤ b.toNat ∧ b.toNat ≤ 0xEF) && cont c

/-- Is `b c` the begin of a character of four bytes. -/
def second4 (b c : UInt8) : Bool :=
  if b.toNat = 0xF0 then decide (0x90 ≤ c.toNat ∧ c.toNat ≤ 0xBF)
  else if b.toNat = 0xF4 then decide (0x80 ≤ c.toNat ∧ c.toNat ≤ 0x8F)
  else decide (0xF1 ≤ b.toNat ∧ b.toNat ≤ 0xF3) && cont c

/-- `std::str::from_utf8(..).is_ok()`, used in `executor/executors/sse.rs:127`,
`executor/executors/multipart_subscribe.rs:194`, `pipeline/sse.rs:21` and
`pipeline/multipart_subscribe.rs:54, 101`. -/
def valid : Bytes → Bool
  | [] => true
  | b :: r =>
    if b.toNat < 0x80 then valid r else
    if 0xC2 ≤ b.toNat ∧ b.toNat ≤ 0xDF then
      match r with
      | c :: r => cont c && valid r
      | [] => false
    else
      match r with
      | c :: d :: r =>
        if second3 b c then cont d && valid r else
          match r with
          | e :: r => second4 b c && cont d && cont e && valid r
          | [] => false
      | _ => false

/-- The bytes of the characters for which `char::is_whitespace` holds. -/
def spaces : List Bytes :=
  [[9], [10], [11], [12], [13], [32], [0xC2, 0x85], [0xC2, 0xA0], [0xE1, 0x9A, 0x80], [0xE2, 0x80, 0x80],
   [0xE2, 0x80, 0x81], [0xE2, 0x80, 0x82], [0xE2, 0x80, 0x83], [0xE2, 0x80, 0x84], [0xE2, 0x80, 0x85],
   [0xE2, 0x80, 0x86], [0xE2, 0x80, 0x87], [0xE2, 0x80, 0x88], [0xE2, 0x80, 0x89], [0xE2, 0x80, 0x8A],
   [0xE2, 0x80, 0xA8], [0xE2, 0x80, 0xA9], [0xE2, 0x80, 0xAF], [0xE2, 0x81, 0x9F], [0xE3, 0x80, 0x80]]

/-- The number of bytes of the one of `ss` that `b` starts with, or 0. -/
def lead (ss : List Bytes) (b : Bytes) : Nat :=
  match ss.find? fun s => s.isPrefixOf b with
  | some s => s.length
  | none => 0

/-- `b` without what it starts with of `ss`. At most `n` times. -/
def strip (ss : List Bytes) : Nat → Bytes → Bytes
  | 0, b => b
  | n + 1, b => if lead ss b = 0 then b else strip ss n (b.drop (lead ss b))

/-- `str::trim`. -/
def trim (b : Bytes) : Bytes :=
  let c := strip spaces b.length b
  (strip (spaces.map List.reverse) c.length c.reverse).reverse

/-- Everything up to the first LF, and what is after it if there is one. -/
def cutLine : Bytes → Bytes × Option Bytes
  | [] => ([], none)
  | b :: r => if b = LF then ([], some r) else
    match cutLine r with
    | (l, t) => (b :: l, t)

/-- A line without the CR at its end. -/
def noCR (l : Bytes) : Bytes := if l.getLast? = some CR then l.dropLast else l

/-- `str::lines`, with at most `n` lines. The CR at the end is removed only if there is a LF after it. -/
def linesN : Nat → Bytes → List Bytes
  | 0, _ => []
  | n + 1, b =>
    if b = [] then [] else
    match cutLine b with
    | (l, none) => [l]
    | (l, some r) => noCR l :: linesN n r

/-- `str::lines`. -/
def lines (b : Bytes) : List Bytes := linesN b.length b

/-- `slice::join(b"\n")`. -/
def joinLF : List Bytes → Bytes
  | [] => []
  | [l] => l
  | l :: r => l ++ LF :: joinLF r

/-- What is before the first occurrence of `n` in `b`, and what is after it: `str::find`, and
`windows(n.len()).position(|w| w == n)`. -/
def cutAt (n : Bytes) : Bytes → Option (Bytes × Bytes)
  | [] => if n.isPrefixOf [] then some ([], []) else none
  | b :: r =>
    if n.isPrefixOf (b :: r) then some ([], (b :: r).drop n.length) else
    match cutAt n r with
    | some (p, q) => some (b :: p, q)
    | none => none

/-! ## Reading -/

/-- What arrives. `data` is a frame with data, `other` one without (`frame.into_data()` fails), `failed` an error, and
`closed` the end of the stream. -/
inductive Frame
  | data (b : Bytes)
  | other
  | failed
  | closed
deriving DecidableEq, Repr

/-- The errors of both readers, `sse.rs:16-25` and `multipart_subscribe.rs:17-31`. -/
inductive ParseError
  | utf8
  | read
  | response
  | limit
deriving DecidableEq, Repr

/-- What a reader yields: a response, or an error. -/
abbrev Out (R : Type) := Except ParseError R

/-- `MAX_BUFFER_SIZE`, `sse.rs:13` and `multipart_subscribe.rs:15`. -/
def maxBuffer : Nat := 10 * 1024 * 1024

/-- What `parse` finds, `sse.rs:100-104`. -/
structure Event where
  event : Option Bytes
  data : Bytes
deriving DecidableEq, Repr

/-- `find_sse_event_boundary`, `sse.rs:106-122`: what is before the end of the first event, with the end, and what is
after it. -/
def cutEvent : Bytes → Option (Bytes × Bytes)
  | [] => none
  | b :: r =>
    if [CR, LF, CR, LF].isPrefixOf (b :: r) then some ([CR, LF, CR, LF], (b :: r).drop 4) else
    if [LF, LF].isPrefixOf (b :: r) then some ([LF, LF], (b :: r).drop 2) else
    match cutEvent r with
    | some (p, q) => some (b :: p, q)
    | none => none

/-- The event that has been read, if there is one, `sse.rs:134-139, 171-177`. -/
def eventOf (ev : Option Bytes) (ds : List Bytes) : Option Event :=
  if ev.isSome || !ds.isEmpty then some ⟨ev, joinLF ds⟩ else none

/-- The loop of `parse` over lines, `sse.rs:129-179`. -/
def readLines (ev : Option Bytes) (ds : List Bytes) : List Bytes → Option Event
  | [] => eventOf ev ds
  | l :: r =>
    if l = [] then
      match eventOf ev ds with
      | some e => some e
      | none => readLines ev ds r
    else if [58].isPrefixOf l then readLines ev ds r
    else
      match cutAt [58] l with
      | none => readLines ev ds r
      | some (f, v) =>
        if f = ascii "event" then readLines (some (trim v)) ds r
        else if f = ascii "data" then readLines ev (ds ++ [trim v]) r
        else readLines ev ds r

/-- `parse`, `sse.rs:124-180`. -/
def parseEvent (b : Bytes) : Except ParseError (Option Event) :=
  if valid b then .ok (readLines none [] (lines b)) else .error .utf8

/-- What an event leads to, `sse.rs:43-74`: what is yielded, and whether the stream goes on. -/
def onEvent {R : Type} (read : Bytes → Option R) (b : Bytes) : List (Out R) × Bool :=
  match parseEvent b with
  | .error e => ([.error e], false)
  | .ok none => ([], true)
  | .ok (some e) =>
    if e.event = some (ascii "next") ∧ e.data ≠ [] then
      match read e.data with
      | some r => ([.ok r], true)
      | none => ([.error .response], false)
    else if e.event = some (ascii "complete") then ([], false)
    else ([], true)

/-- The state of a reader: the stream is over, or there is a buffer, and for parts whether the first delimiter was
found. -/
inductive State
  | over
  | wait (started : Bool) (buffer : Bytes)
deriving DecidableEq, Repr

/-- The inner loop, `sse.rs:40-75`, with at most `n` events. -/
def sseLoop {R : Type} (read : Bytes → Option R) : Nat → Bytes → List (Out R) × State
  | 0, b => ([], .wait true b)
  | n + 1, b =>
    match cutEvent b with
    | none => ([], .wait true b)
    | some (e, b) =>
      match onEvent read e with
      | (o, false) => (o, .over)
      | (o, true) =>
        match sseLoop read n b with
        | (o', s) => (o ++ o', s)

/-- One turn of the outer loop, `sse.rs:39-93`: waiting for a frame, and the inner loop after it. The inner loop does
nothing before the first frame, as the buffer is empty. -/
def sseStep {R : Type} (read : Bytes → Option R) : State → Frame → List (Out R) × State
  | .over, _ => ([], .over)
  | .wait s b, .other => ([], .wait s b)
  | .wait _ _, .failed => ([.error .read], .over)
  | .wait _ _, .closed => ([], .over)
  | .wait _ b, .data d =>
    if maxBuffer < (b ++ d).length then ([.error .limit], .over)
    else sseLoop read (b ++ d).length (b ++ d)

/-- The reader over all frames. -/
def runFrames {R : Type} (step : State → Frame → List (Out R) × State) : State → List Frame → List (Out R) × State
  | s, [] => ([], s)
  | s, f :: fs =>
    match step s f with
    | (o, s) =>
      match runFrames step s fs with
      | (o', s) => (o ++ o', s)

/-- `parse_to_stream`, `sse.rs:27-96`. -/
def sseRead {R : Type} (read : Bytes → Option R) (fs : List Frame) : List (Out R) × State :=
  runFrames (sseStep read) (.wait true []) fs

/-! ## Parts -/

/-- What is after the LF of the line, or all if there is none: `multipart_subscribe.rs:169-183`. -/
def afterLine (b : Bytes) : Bytes :=
  match (cutLine b).2 with
  | some r => r
  | none => b

/-- `find_next_part` before the first delimiter, `multipart_subscribe.rs:160-166`: what is left after the line of the
delimiter. -/
def firstPart (delim : Bytes) (b : Bytes) : Option Bytes :=
  match cutAt delim b with
  | none => none
  | some (_, r) => (cutLine r).2

/-- `find_next_part` after the first delimiter, `multipart_subscribe.rs:168-187`: the part, whether it is the last one,
and what is left. -/
def nextPart (delim : Bytes) (b : Bytes) : Option (Bytes × Bool × Bytes) :=
  match cutAt delim b with
  | none => none
  | some (p, r) =>
    if (ascii "--").isPrefixOf r then some (p, true, afterLine (r.drop 2)) else some (p, false, afterLine r)

/-- `extract_body_after_headers`, `multipart_subscribe.rs:204-212`. -/
def bodyOf (b : Bytes) : Bytes :=
  match cutAt [CR, LF, CR, LF] b with
  | some (_, r) => trim r
  | none =>
    match cutAt [LF, LF] b with
    | some (_, r) => trim r
    | none => trim b

/-- What `sonic_rs::get_from_str` finds for a member of a JSON text. -/
inductive Found
  | raw (b : Bytes)
  | missing
  | broken
deriving DecidableEq, Repr

/-- How the texts of responses are read: the member `payload`, the member `errors`, and the response. -/
structure Reader (R : Type) where
  payload : Bytes → Found
  errors : Bytes → Found
  response : Bytes → Option R

/-- `SubgraphResponse::deserialize_from_bytes(..).map_err(..).map(Some)`. -/
def Reader.some {R : Type} (k : Reader R) (b : Bytes) : Except ParseError (Option R) :=
  match k.response b with
  | .some r => .ok (.some r)
  | .none => .error .response

/-- `extract_payload`, `multipart_subscribe.rs:214-262`. -/
def payloadOf {R : Type} (k : Reader R) (b : Bytes) : Except ParseError (Option R) :=
  if b = ascii "{}" then .ok .none else
  match k.payload b with
  | .raw p =>
    if p = ascii "null" then
      match k.errors b with
      | .raw e => k.some (ascii "{\"errors\":" ++ e ++ ascii "}")
      | _ => .ok .none
    else k.some p
  | .missing => k.some b
  | .broken => .error .response

/-- `parse_part`, `multipart_subscribe.rs:190-202`. -/
def parsePart {R : Type} (k : Reader R) (b : Bytes) : Except ParseError (Option R) :=
  if valid b then
    if bodyOf b = [] then .ok .none else payloadOf k (bodyOf b)
  else .error .utf8

/-- What a part leads to, `multipart_subscribe.rs:105-116`. -/
def onPart {R : Type} (k : Reader R) (b : Bytes) : List (Out R) × Bool :=
  if b = [] then ([], true) else
  match parsePart k b with
  | .ok (some r) => ([.ok r], true)
  | .ok none => ([], true)
  | .error e => ([.error e], false)

/-- The inner loop, `multipart_subscribe.rs:95-121`, with at most `n` turns. -/
def partLoop {R : Type} (k : Reader R) (delim : Bytes) : Nat → Bool → Bytes → List (Out R) × State
  | 0, s, b => ([], .wait s b)
  | n + 1, false, b =>
    match firstPart delim b with
    | none => ([], .wait false b)
    | some b => partLoop k delim n true b
  | n + 1, true, b =>
    match nextPart delim b with
    | none => ([], .wait true b)
    | some (p, last, b) =>
      match onPart k p with
      | (o, false) => (o, .over)
      | (o, true) =>
        if last then (o, .over) else
        match partLoop k delim n true b with
        | (o', s) => (o ++ o', s)

/-- One turn of the outer loop, `multipart_subscribe.rs:94-142`. -/
def partStep {R : Type} (k : Reader R) (delim : Bytes) : State → Frame → List (Out R) × State
  | .over, _ => ([], .over)
  | .wait s b, .other => ([], .wait s b)
  | .wait _ _, .failed => ([.error .read], .over)
  | .wait _ _, .closed => ([], .over)
  | .wait s b, .data d =>
    if maxBuffer < (b ++ d).length then ([.error .limit], .over)
    else partLoop k delim (b ++ d).length s (b ++ d)

/-- `parse_to_stream`, `multipart_subscribe.rs:76-145`. -/
def partRead {R : Type} (k : Reader R) (boundary : Bytes) (fs : List Frame) : List (Out R) × State :=
  runFrames (partStep k (ascii "--" ++ boundary)) (.wait false []) fs

/-! ## Writing -/

/-- What happens to a writer: an answer for the client, that the time for a heartbeat has come, or that there are no
more answers. -/
inductive Input
  | answer (b : Bytes)
  | beat
  | finished
deriving DecidableEq, Repr

/-- `create_stream`, `pipeline/sse.rs:10-48`: the bytes that are sent, and whether sending ended with an error. -/
def sseWrite : List Input → Bytes × Bool
  | [] => ([], false)
  | .finished :: _ => (ascii "event: complete\n\n", false)
  | .beat :: r =>
    match sseWrite r with
    | (b, e) => (ascii ":\n\n" ++ b, e)
  | .answer a :: r =>
    if valid a then
      match sseWrite r with
      | (b, e) => (ascii "event: next\ndata: " ++ a ++ ascii "\n\n" ++ b, e)
    else ([], true)

/-- `make_boundaries!`, `pipeline/multipart_subscribe.rs:18-31`. -/
def startOf (boundary : Bytes) : Bytes :=
  ascii "--" ++ boundary ++ ascii "\r\nContent-Type: application/json\r\n\r\n"

/-- The end of the same. -/
def endOf (boundary : Bytes) : Bytes := ascii "--" ++ boundary ++ ascii "--"

/-- `create_incremental_delivery_stream`, `pipeline/multipart_subscribe.rs:45-74`. There are no heartbeats. -/
def deliveryWrite : List Input → Bytes × Bool
  | [] => ([], false)
  | .finished :: _ => (endOf (ascii "-"), false)
  | .beat :: r => deliveryWrite r
  | .answer a :: r =>
    if valid a then
      match deliveryWrite r with
      | (b, e) => (startOf (ascii "-") ++ a ++ ascii "\r\n" ++ b, e)
    else ([], true)

/-- `create_apollo_multipart_http_stream`, `pipeline/multipart_subscribe.rs:88-134`. -/
def apolloWrite : List Input → Bytes × Bool
  | [] => ([], false)
  | .finished :: _ => (endOf (ascii "graphql"), false)
  | .beat :: r =>
    match apolloWrite r with
    | (b, e) => (startOf (ascii "graphql") ++ ascii "{}\r\n" ++ b, e)
  | .answer a :: r =>
    if valid a then
      match apolloWrite r with
      | (b, e) =>
        (startOf (ascii "graphql") ++ (ascii "{\"payload\":" ++ a ++ ascii "}") ++ ascii "\r\n" ++ b, e)
    else ([], true)

end Verif.Stream
