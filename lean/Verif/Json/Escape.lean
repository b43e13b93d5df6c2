/-!
# Writing JSON strings

`bin/router/src/executor/json_writer.rs`: the vectorised string writer, with the memory it reads
and writes. A read or write outside what the code may touch, a failed assertion and an endless loop
all make the model return `none`.
-/

namespace Verif.Json

abbrev Byte := UInt8

def ascii (s : String) : List Byte := s.toList.map fun c => UInt8.ofNat c.toNat

def quote : Byte := 0x22

def backslash : Byte := 0x5c

/-- The entries of `QUOTE_TAB` for `0x00` to `0x1f`, `json_writer.rs:95-127`. -/
def controlTab : List String :=
  ["\\u0000", "\\u0001", "\\u0002", "\\u0003", "\\u0004", "\\u0005", "\\u0006", "\\u0007",
   "\\b", "\\t", "\\n", "\\u000b", "\\f", "\\r", "\\u000e", "\\u000f",
   "\\u0010", "\\u0011", "\\u0012", "\\u0013", "\\u0014", "\\u0015", "\\u0016", "\\u0017",
   "\\u0018", "\\u0019", "\\u001a", "\\u001b", "\\u001c", "\\u001d", "\\u001e", "\\u001f"]

/-- The text of an entry of `QUOTE_TAB`, without the padding. -/
def quoteText (b : Byte) : List Byte :=
  if b < 0x20 then ascii (controlTab.getD b.toNat "")
  else if b = quote then ascii "\\\""
  else if b = backslash then ascii "\\\\"
  else []

/-- `QUOTE_TAB`, `json_writer.rs:94-357`: the length of the escape sequence and its bytes, padded
with zeros to eight. -/
def quoteTab (b : Byte) : Nat × List Byte :=
  ((quoteText b).length, quoteText b ++ List.replicate (8 - (quoteText b).length) 0)

/-- `NEED_ESCAPED`, `json_writer.rs:361-370`, and the lanes of `escaped_mask`, `:453-471`. -/
def needEscaped (b : Byte) : Bool := b ≤ 0x1f || b = backslash || b = quote

/-- The memory the writer reads from: the string, where it lies, and whatever comes after it. -/
structure Mem where
  addr : Nat
  bytes : List Byte
  after : Nat → Byte

/-- The byte at an offset from the start of the string. -/
def Mem.get (m : Mem) (i : Nat) : Byte :=
  if h : i < m.bytes.length then m.bytes[i] else m.after (i - m.bytes.length)

/-- Reading one byte of the string. -/
def Mem.byte (m : Mem) (i : Nat) : Option Byte := m.bytes[i]?

/-- The address at an offset lies on a page that holds some byte of the string: reading there
cannot fault. -/
def Mem.Mapped (m : Mem) (i : Nat) : Prop :=
  ∃ j, j < m.bytes.length ∧ (m.addr + i) / 4096 = (m.addr + j) / 4096

instance (m : Mem) (i : Nat) : Decidable (m.Mapped i) :=
  inferInstanceAs (Decidable (∃ j, j < m.bytes.length ∧ _))

/-- `load_simd_chunk`, `json_writer.rs:81-85`, from the string's memory. -/
def Mem.load (m : Mem) (i lanes : Nat) : Option (List Byte) :=
  if ∀ k, k < lanes → m.Mapped (i + k) then some ((List.range lanes).map fun k => m.get (i + k))
  else none

/-- Writing to the buffer at a position, within its capacity. -/
def store (buf : List Byte) (p : Nat) (bs : List Byte) : Option (List Byte) :=
  if p + bs.length ≤ buf.length then some (buf.take p ++ bs ++ buf.drop (p + bs.length)) else none

/-- The moving parts of `format_string`: how far into the string, how much remains, where to write
and the memory of the buffer. -/
structure St where
  i : Nat
  r : Nat
  p : Nat
  buf : List Byte

/-- `escape_unchecked`, `json_writer.rs:377-407`. -/
def escapeUnchecked (m : Mem) : Nat → St → Option St
  | 0, _ => none
  | fuel + 1, s =>
    if s.r < 1 then none
    else do
      let b ← m.byte s.i
      if (quoteTab b).1 = 0 then none
      else do
        let buf ← store s.buf s.p (quoteTab b).2
        let s' : St := ⟨s.i + 1, s.r - 1, s.p + (quoteTab b).1, buf⟩
        if s'.r = 0 then some s'
        else do
          let next ← m.byte s'.i
          if needEscaped next = false then some s' else escapeUnchecked m fuel s'

/-- `mask.first_offset()`, and the number of lanes if there is none. -/
def firstOffset (mask : List Bool) : Nat := mask.findIdx id

/-- `clear_high_bits(lanes - remaining)`. -/
def clearHigh (mask : List Bool) (remaining : Nat) : List Bool := mask.take remaining

/-- The main loop, `json_writer.rs:488-515`. -/
def mainLoop (m : Mem) (lanes : Nat) : Nat → St → Option St
  | 0, _ => none
  | fuel + 1, s =>
    if s.r ≥ lanes then do
      let chunk ← m.load s.i lanes
      let buf ← store s.buf s.p chunk
      let mask := chunk.map needEscaped
      if mask.all (· == false) then
        mainLoop m lanes fuel ⟨s.i + lanes, s.r - lanes, s.p + lanes, buf⟩
      else do
        let cn := firstOffset mask
        let s' ← escapeUnchecked m (s.r + 1) ⟨s.i + cn, s.r - cn, s.p + cn, buf⟩
        mainLoop m lanes fuel s'
    else some s

/-- `check_cross_page`, `json_writer.rs:414-426` (Linux and macOS). -/
def crossPage (a lanes : Nat) : Bool := a % 4096 + lanes > 4096

/-- Copying the rest of the string to the temporary chunk, `json_writer.rs:524`. -/
def copyTemp (m : Mem) (i r : Nat) (temp : List Byte) : Option (List Byte) :=
  if i + r ≤ m.bytes.length then store temp 0 ((m.bytes.drop i).take r) else none

/-- The tail loop, `json_writer.rs:519-547`. `temp` is not cleared between the rounds. -/
def tailLoop (m : Mem) (lanes : Nat) : Nat → List Byte → St → Option St
  | 0, _, _ => none
  | fuel + 1, temp, s =>
    if s.r > 0 then
      let loaded :=
        if crossPage (m.addr + s.i) lanes then
          (copyTemp m s.i s.r temp).map fun t => (t, t)
        else (m.load s.i lanes).map fun c => (c, temp)
      match loaded with
      | none => none
      | some (chunk, temp) => do
        let buf ← store s.buf s.p chunk
        let mask := clearHigh (chunk.map needEscaped) s.r
        if mask.all (· == false) then some ⟨s.i, s.r, s.p + s.r, buf⟩
        else do
          let n := firstOffset mask
          let s' ← escapeUnchecked m (s.r + 1) ⟨s.i + n, s.r - n, s.p + n, buf⟩
          tailLoop m lanes fuel temp s'
    else some s

/-- `format_string`, `json_writer.rs:429-553`. `spare` is the memory `writer.reserve` leaves behind
what has been written; `Vec::reserve` promises at least the number of bytes asked for. -/
def formatString (lanes : Nat) (m : Mem) (written spare : List Byte) (needQuote : Bool) :
    Option (List Byte) := do
  let n := m.bytes.length
  let buf := written ++ spare
  let buf ← if needQuote then store buf written.length [quote] else some buf
  let p := written.length + (if needQuote then 1 else 0)
  let s ← mainLoop m lanes (n + 1) ⟨0, n, p, buf⟩
  let s ← tailLoop m lanes (n + 1) (List.replicate lanes 0) s
  let buf ← if needQuote then store s.buf s.p [quote] else some s.buf
  let p := s.p + (if needQuote then 1 else 0)
  some (buf.take p)

/-- The size asked of `writer.reserve`, `json_writer.rs:434`. -/
def worstCase (n : Nat) : Nat := n * 6 + 32 + 3

/-- `write_and_escape_string`, `json_writer.rs:8-10`. -/
def writeAndEscape (lanes : Nat) (m : Mem) (written spare : List Byte) : Option (List Byte) :=
  formatString lanes m written spare true

/-- Where the pieces of a text lie in memory and what `reserve` gives for each of them. -/
structure Env where
  addr : Nat → Nat
  after : Nat → Nat → Byte
  spare : Nat → List Byte

/-- The `k`-th call of `format_string` without quotes. -/
def Env.format (e : Env) (lanes k : Nat) (bytes written : List Byte) : Option (List Byte) :=
  formatString lanes ⟨e.addr k, bytes, e.after k⟩ written (e.spare k) false

/-- `write_named_operation`, `json_writer.rs:12-48`: the operation text with a name put in at a
position, as a JSON string. The position is a character boundary and `name` is valid UTF-8 in every
call, so slices of bytes will do. -/
def writeNamed (e : Env) (lanes : Nat) (written name : List Byte) (pos : Nat) (input : List Byte) :
    Option (List Byte) :=
  let w := written ++ [quote]
  if pos = 0 && input.head? == some 0x7b then do
    let w ← e.format lanes 0 (ascii "query ") w
    let w ← e.format lanes 1 name w
    let w ← e.format lanes 2 (ascii " ") w
    let w ← e.format lanes 3 input w
    some (w ++ [quote])
  else do
    let w ← e.format lanes 0 (input.take pos) w
    let w ← if pos > 0 then e.format lanes 1 (ascii " ") w else some w
    let w ← e.format lanes 2 name w
    let w ← e.format lanes 3 (input.drop pos) w
    some (w ++ [quote])

end Verif.Json
