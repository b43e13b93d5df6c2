import Verif.Stream.Model

/-!
# What streams of events mean

Independent of how the router reads them: the lines of an event stream, the parts of a multipart stream, and readers
that follow the standards.
-/

namespace Verif.Stream

/-! ## Event streams -/

/-- A line of an event. -/
inductive Line
  | comment (c : Bytes)
  | event (v : Bytes)
  | data (v : Bytes)
  | other (f v : Bytes)
deriving DecidableEq, Repr

/-- How it is written. -/
def Line.text : Line → Bytes
  | .comment c => ascii ":" ++ c
  | .event v => ascii "event: " ++ v
  | .data v => ascii "data: " ++ v
  | .other f v => f ++ ascii ": " ++ v

/-- Does not start or end with white space. -/
def Clean (v : Bytes) : Prop := (∀ s ∈ spaces, ¬ s <+: v) ∧ ∀ s ∈ spaces, ¬ s <:+ v

/-- Has no line break. -/
def OneLine (b : Bytes) : Prop := CR ∉ b ∧ LF ∉ b

/-- A line that can be written as such: one line of valid text, whose value has no white space around it. -/
def Line.Ok : Line → Prop
  | .comment c => OneLine c ∧ valid c = true
  | .event v => OneLine v ∧ valid v = true ∧ Clean v
  | .data v => OneLine v ∧ valid v = true ∧ Clean v
  | .other f v => OneLine f ∧ valid f = true ∧ OneLine v ∧ valid v = true ∧ f ≠ [] ∧ 58 ∉ f ∧ f ≠ ascii "event" ∧
      f ≠ ascii "data"

/-- An event is written line by line, with LF or CR LF after each line and an empty line after the last. -/
structure Message where
  crlf : Bool
  lines : List Line
deriving DecidableEq, Repr

def Message.newline (m : Message) : Bytes := if m.crlf then [CR, LF] else [LF]

def Message.text (m : Message) : Bytes := (m.lines.flatMap fun l => l.text ++ m.newline) ++ m.newline

def Message.Ok (m : Message) : Prop := m.lines ≠ [] ∧ ∀ l ∈ m.lines, l.Ok

/-- The type in a line. -/
def Line.type? : Line → Option Bytes
  | .event v => some v
  | _ => none

/-- The data in a line. -/
def Line.data? : Line → Option Bytes
  | .data v => some v
  | _ => none

/-- The type of an event is the last one given. -/
def Message.type (m : Message) : Option Bytes := (m.lines.filterMap Line.type?).getLast?

/-- Its data are all data given. -/
def Message.data (m : Message) : List Bytes := m.lines.filterMap Line.data?

/-- What a subscription means that sends these events: a response for each event `next` with data, up to the event
`complete`. A response that cannot be read ends it with an error. -/
def meaning {R : Type} (read : Bytes → Option R) : List Message → List (Out R)
  | [] => []
  | m :: ms =>
    if m.type = some (ascii "next") ∧ joinLF m.data ≠ [] then
      match read (joinLF m.data) with
      | some r => .ok r :: meaning read ms
      | none => [.error .response]
    else if m.type = some (ascii "complete") then []
    else meaning read ms

/-- The frames bring these bytes, however they are cut. -/
def Brings (fs : List Frame) (b : Bytes) : Prop :=
  ∃ cs : List Bytes, cs.flatten = b ∧ fs = cs.map .data

/-- The reader had to give up because its buffer was full. -/
def Overrun {R : Type} (o : List (Out R)) : Prop := .error .limit ∈ o

/-! ## Multipart streams -/

/-- A part has headers and a body. -/
structure Part where
  headers : List Bytes
  body : Bytes
deriving DecidableEq, Repr

def Part.text (p : Part) : Bytes :=
  (p.headers.flatMap fun h => h ++ [CR, LF]) ++ [CR, LF] ++ p.body ++ [CR, LF]

/-- `d` does not occur in `b`. -/
def Without (d b : Bytes) : Prop := ¬ d <:+: b

/-- A part that can be written as such: it has headers, its body is the text of a JSON object, and the delimiter does
not occur in it. -/
def Part.Ok (delim : Bytes) (p : Part) : Prop :=
  p.headers ≠ [] ∧ (∀ h ∈ p.headers, h ≠ [] ∧ OneLine h ∧ valid h = true) ∧ valid p.body = true ∧
  (∃ m, p.body = ascii "{" ++ m ++ ascii "}") ∧ Without delim p.text

/-- A stream: each part after a line with the delimiter, and at the end the delimiter and `--`. -/
def multipart (delim : Bytes) : List Part → Bytes
  | [] => delim ++ ascii "--"
  | p :: ps => delim ++ [CR, LF] ++ p.text ++ multipart delim ps

/-- What it means: the payload of each part, but none for heartbeats. An error ends the stream. -/
def answers {R : Type} (k : Reader R) : List Part → List (Out R)
  | [] => []
  | p :: ps =>
    match payloadOf k p.body with
    | .ok (some r) => .ok r :: answers k ps
    | .ok none => answers k ps
    | .error e => [.error e]

/-! ## Readers of clients -/

/-- The lines of an event stream as in the HTML standard, 9.2.5: lines end with CR LF, LF or CR. The last line counts
only if it is ended. -/
def htmlLines : Bytes → Bytes → List Bytes
  | _, [] => []
  | l, b :: r =>
    if b = CR then
      match r with
      | [] => [l]
      | c :: r' => if c = LF then l :: htmlLines [] r' else l :: htmlLines [] (c :: r')
    else if b = LF then l :: htmlLines [] r
    else htmlLines (l ++ [b]) r

/-- The field and the value of a line, 9.2.6: one space after the colon is dropped, no colon means no value. -/
def htmlField (l : Bytes) : Bytes × Bytes :=
  match cutAt [58] l with
  | none => (l, [])
  | some (f, v) => (f, if [32].isPrefixOf v then v.drop 1 else v)

/-- The events that are dispatched, 9.2.6, with the type and the data so far: an empty line dispatches an event,
unless there is no data. -/
def htmlEvents (ty : Bytes) (data : List Bytes) : List Bytes → List (Bytes × Bytes)
  | [] => []
  | l :: r =>
    if l = [] then
      if data = [] then htmlEvents [] [] r
      else (if ty = [] then ascii "message" else ty, joinLF data) :: htmlEvents [] [] r
    else if [58].isPrefixOf l then htmlEvents ty data r
    else
      let (f, v) := htmlField l
      if f = ascii "event" then htmlEvents v data r
      else if f = ascii "data" then htmlEvents ty (data ++ [v]) r
      else htmlEvents ty data r

/-- The events a client sees, by the HTML standard. -/
def htmlRead (b : Bytes) : List (Bytes × Bytes) := htmlEvents [] [] (htmlLines [] b)

/-- The parts that are complete, as in RFC 2046, 5.1.1, and whether the last delimiter was read. A delimiter is
`--boundary` at the begin of a line; the line break before it belongs to it. `b` is what follows a delimiter. -/
def mimeParts (delim : Bytes) : Nat → Bytes → List Bytes × Bool
  | 0, _ => ([], false)
  | n + 1, b =>
    if (ascii "--").isPrefixOf b then ([], true) else
    match cutAt [CR, LF] b with
    | none => ([], false)
    | some (_, b) =>
      match cutAt ([CR, LF] ++ delim) b with
      | none => ([], false)
      | some (p, b) =>
        match mimeParts delim n b with
        | (ps, e) => (p :: ps, e)

/-- The parts a client sees, by RFC 2046. -/
def mimeRead (boundary : Bytes) (b : Bytes) : List Bytes × Bool :=
  match cutAt ([CR, LF] ++ ascii "--" ++ boundary) ([CR, LF] ++ b) with
  | none => ([], false)
  | some (_, b) => mimeParts (ascii "--" ++ boundary) b.length b

/-- The answers among what happens to a writer. -/
def answersOf (is : List Input) : List Bytes :=
  is.filterMap fun i => match i with
    | .answer a => some a
    | _ => none

/-! ## What the router writes -/

/-- An answer that can be written in one line. -/
def Input.Ok : Input → Prop
  | .answer a => valid a = true ∧ OneLine a
  | .beat => True
  | .finished => False

/-- The text of an object, without CR. -/
def Plain (a : Bytes) : Prop := valid a = true ∧ CR ∉ a ∧ ∃ m, a = ascii "{" ++ m

/-- Header of parts the router writes. -/
abbrev jsonHeader : Bytes := ascii "Content-Type: application/json"

/-- An answer that can be written as a part. -/
def Input.Plain : Input → Prop
  | .answer a => Stream.Plain a
  | .beat => True
  | .finished => False

/-- The text of an object. -/
def Object (a : Bytes) : Prop := valid a = true ∧ OneLine a ∧ ∃ m, a = ascii "{" ++ m ++ ascii "}"

/-- An answer that is an object. -/
def Input.Object : Input → Prop
  | .answer a => Stream.Object a
  | .beat => True
  | .finished => False

/-- The bodies the router writes for what happens. -/
def apolloBody : Input → Bytes
  | .answer a => ascii "{\"payload\":" ++ a ++ ascii "}"
  | _ => ascii "{}"

/-- A part as seen by clients. -/
def shown (a : Bytes) : Bytes := jsonHeader ++ [CR, LF, CR, LF] ++ a

/-- The parts that are written. -/
def partOf (i : Input) : Part := ⟨[jsonHeader], apolloBody i⟩

end Verif.Stream
