/-!
# ASCII text

Header texts are lists of characters. These are the string functions of the Rust standard library
that the modelled code calls, restricted to ASCII.
-/

namespace Verif

abbrev Text := List Char

/-- `str::split(c)`. -/
def splitOn (c : Char) : Text → List Text
  | [] => [[]]
  | x :: xs =>
    if x = c then [] :: splitOn c xs
    else match splitOn c xs with
      | [] => [[x]]
      | h :: t => (x :: h) :: t

/-- `str::split_once(c)`. -/
def splitOnce (c : Char) : Text → Option (Text × Text)
  | [] => none
  | x :: xs =>
    if x = c then some ([], xs)
    else (splitOnce c xs).map fun (a, b) => (x :: a, b)

/-- White space within ASCII (`char::is_whitespace`). -/
def isSpace (c : Char) : Bool :=
  c = ' ' || c = '\t' || c = '\n' || c = '\r' || c = '\x0b' || c = '\x0c'

/-- `str::trim`. -/
def trim (t : Text) : Text := ((t.dropWhile isSpace).reverse.dropWhile isSpace).reverse

/-- `char::to_ascii_lowercase`. -/
def lowerChar (c : Char) : Char :=
  if 'A' ≤ c ∧ c ≤ 'Z' then Char.ofNat (c.toNat + 32) else c

/-- `str::to_ascii_lowercase`. -/
def lower (t : Text) : Text := t.map lowerChar

def digitVal (c : Char) : Option Nat :=
  if '0' ≤ c ∧ c ≤ '9' then some (c.toNat - '0'.toNat) else none

/-- Decimal digits, most significant first, appended to `acc`. -/
def parseDigits : Nat → Text → Option Nat
  | acc, [] => some acc
  | acc, c :: cs => (digitVal c).bind fun d => parseDigits (acc * 10 + d) cs

/-- The optional sign `u32::from_str` accepts. -/
def dropPlus : Text → Text
  | '+' :: rest => rest
  | t => t

/-- `str::parse::<u32>`: an optional `+`, at least one digit, within range. -/
def parseU32 (t : Text) : Option Nat :=
  if dropPlus t = [] then none
  else (parseDigits 0 (dropPlus t)).bind fun n => if n < 2 ^ 32 then some n else none

def digitChar (d : Nat) : Char := Char.ofNat ('0'.toNat + d)

/-- The decimal digits of `n`; `fuel > n` is enough. -/
def showDigits : Nat → Nat → Text
  | 0, _ => []
  | fuel + 1, n =>
    if n < 10 then [digitChar n] else showDigits fuel (n / 10) ++ [digitChar (n % 10)]

/-- `n.to_string()`. -/
def showNat (n : Nat) : Text := showDigits (n + 1) n

/-- `parts.join(", ")`. -/
def joinComma : List Text → Text
  | [] => []
  | [p] => p
  | p :: q :: ps => p ++ [',', ' '] ++ joinComma (q :: ps)

end Verif
