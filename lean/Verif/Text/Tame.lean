import Verif.Text.Spec
/-!
# Documents of the language that the parser of the router is meant for

`LexesBy` is `Lexes` with a condition on what follows each token. The definitions below say where
the tokenizer and the parser follow the language; outside of them they do not, see the refuted
statements.
-/
namespace Verif.Text

/-- The tokens of a text, where each token and the text after it meet a condition. -/
inductive LexesBy (ok : Tok → Txt → Prop) : Txt → List Tok → Prop
  | done : LexesBy ok [] []
  | skip (c : Char) (rest : Txt) (ts : List Tok) : Ignored c → LexesBy ok rest ts →
      LexesBy ok (c :: rest) ts
  | comment (body rest : Txt) (ts : List Tok) : Comment body rest → LexesBy ok rest ts →
      LexesBy ok ('#' :: body ++ rest) ts
  | tok (t : Tok) (text rest : Txt) (ts : List Tok) : Lexeme t text → MayFollow t rest →
      ok t rest → LexesBy ok rest ts → LexesBy ok (text ++ rest) (t :: ts)

/-- A number is not followed directly by a string, a sign or a byte order mark. -/
def Apart : Tok → Txt → Prop
  | .int _, c :: _ => c ≠ '"' ∧ c ≠ '-' ∧ c ≠ '﻿'
  | .float _, c :: _ => c ≠ '"' ∧ c ≠ '-' ∧ c ≠ '﻿'
  | _, _ => True

/-- An exponent without a sign does not begin with `0` or `9`. -/
def ExpTame (raw : Txt) : Prop :=
  ∀ a e d b, raw = a ++ e :: d :: b → (e = 'e' ∨ e = 'E') → d ≠ '0' ∧ d ≠ '9'

/-- How many brackets a list of tokens opens, and closes. -/
def opened (ts : List Tok) : Nat :=
  (ts.filter fun t => t = .p .lpar ∨ t = .p .lbr ∨ t = .p .lcur).length
def closed (ts : List Tok) : Nat :=
  (ts.filter fun t => t = .p .rpar ∨ t = .p .rbr ∨ t = .p .rcur).length

/-- At no place are more than `n` brackets open. -/
def Nested (n : Nat) (ts : List Tok) : Prop := ∀ pre, pre <+: ts → opened pre ≤ closed pre + n

/-- The characters of a string are such that every escape is one of the simple ones other than `\b`,
or `\u` and four digits that are not a surrogate. -/
inductive PlainStr : Txt → Prop
  | nil : PlainStr []
  | plain (c : Char) (r : Txt) : c ≠ '"' → c ≠ '\\' → c ≠ '\n' → c ≠ '\r' → PlainStr r →
      PlainStr (c :: r)
  | esc (e : Char) (r : Txt) : e ∈ ['"', '\\', '/', 'f', 'n', 'r', 't'] → PlainStr r →
      PlainStr ('\\' :: e :: r)
  | unicode (a b c d : Char) (n : Nat) (r : Txt) : hexNumber [a, b, c, d] 0 = some n →
      n.isValidChar → PlainStr r → PlainStr ('\\' :: 'u' :: a :: b :: c :: d :: r)

/-- Tokens that the parser reads as the language does: integers of 64 bits, exponents as above, plain
strings; no block strings. -/
def TameTok : Tok → Prop
  | .int raw => -9223372036854775808 ≤ intOf raw ∧ intOf raw ≤ 9223372036854775807
  | .float raw => ExpTame raw
  | .str raw => PlainStr raw
  | .block _ => False
  | _ => True

/-- A text without what the parser reads in its own way: no block strings, no carriage return inside
a string, no `\b` and no `\u+`. -/
structure Ordinary (t : Txt) : Prop where
  noBlock : ¬ ['"', '"', '"'] <:+: t
  noReturn : ∀ raw, '"' :: raw ++ ['"'] <:+: t → '\n' ∉ raw → '\r' ∉ raw
  noBackspace : ¬ ['\\', 'b'] <:+: t
  noPlus : ¬ ['\\', 'u', '+'] <:+: t

/-- White space, by Unicode, that takes more than one byte. -/
def WideSpace (c : Char) : Prop :=
  c.toNat ∈ [0x85, 0xa0, 0x1680, 0x2028, 0x2029, 0x202f, 0x205f, 0x3000] ∨
    (0x2000 ≤ c.toNat ∧ c.toNat ≤ 0x200a)

/-- The tokens other than strings and floats. -/
def plainCount (ts : List Tok) : Nat :=
  (ts.filter fun t => match t with
    | .float _ => false
    | .str _ => false
    | .block _ => false
    | _ => true).length

end Verif.Text
