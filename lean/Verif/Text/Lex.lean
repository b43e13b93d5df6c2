import Verif.Text.Ast
/-!
# The tokenizer

Models `lib/graphql-tools/src/parser/tokenizer.rs`. Positions are not modelled. The parser takes
tokens one at a time and stops at the first error; here the tokens of a text are listed, with `bad`
at the place where the tokenizer reports an error. Tokens are looked at again only at the place that
was read last, which the code answers from `next_state` (55-71), so each token is taken once.
-/
namespace Verif.Text

/-- Models tokenizer.rs 226: what a name begins with. -/
def nameStart (c : Char) : Bool :=
  c == '_' || ('a' ≤ c && c ≤ 'z') || ('A' ≤ c && c ≤ 'Z')

/-- Models tokenizer.rs 229: what a name goes on with. -/
def nameCont (c : Char) : Bool := nameStart c || ('0' ≤ c && c ≤ '9')

/-- `char::is_ascii_digit`. -/
def digit (c : Char) : Bool := '0' ≤ c && c ≤ '9'

/-- Models tokenizer.rs 247-250: the characters that end a number. -/
def endsNumber (c : Char) : Bool :=
  c ∈ [' ', '\n', '\r', '\t', ',', '#', '!', '$', ':', '=', '@', '|', '&', '(', ')', '[', ']',
    '{', '}']

/-- Models tokenizer.rs 91-99 (`check_int`). -/
def checkInt (v : Txt) : Bool :=
  v == ['0'] || v == ['-', '0'] ||
    (!(['0'].isPrefixOf v) && v != ['-'] && !(['-', '0'].isPrefixOf v) && v.tail.all digit)

/-- Models tokenizer.rs 101-103 (`check_dec`). -/
def checkDec (v : Txt) : Bool := !v.isEmpty && v.all digit

/-- Models tokenizer.rs 105-115 (`check_exp`), with its comparisons of the first character. -/
def checkExp : Txt → Bool
  | [] => false
  | first :: r =>
    if first ≠ '-' ∧ first ≠ '+' ∧ (first ≤ '0' ∨ first ≥ '9') then false else r.all digit

/-- The place of the last character of a kind, counted from `i`. Models the assignments to `real`
and `exponent` in the loop of tokenizer.rs 241-255. -/
def lastIdx (p : Char → Bool) : Txt → Nat → Option Nat
  | [], _ => none
  | c :: cs, i => (lastIdx p cs (i + 1)).or (if p c then some i else none)

/-- Models tokenizer.rs 117-127 (`check_float`). -/
def checkFloat (v : Txt) : Option Nat → Option Nat → Bool
  | some e, some r =>
    if e < r then false
    else checkInt (v.take r) && checkDec ((v.take e).drop (r + 1)) && checkExp (v.drop (e + 1))
  | some e, none => checkInt (v.take e) && checkExp (v.drop (e + 1))
  | none, some r => checkInt (v.take r) && checkDec (v.drop (r + 1))
  | none, none => false

/-- The token of the text of a number. Models tokenizer.rs 257-281. -/
def numberTok (v : Txt) : Option Tok :=
  let e := lastIdx (fun c => c == 'e' || c == 'E') v.tail 1
  let r := lastIdx (fun c => c == '.') v.tail 1
  if e.isSome || r.isSome then
    if checkFloat v e r then some (.float v) else none
  else if checkInt v then some (.int v) else none

/-- The rest of a string after its opening quote: what is between the quotes and what follows.
Models the loop of tokenizer.rs 300-326. -/
def takeStr : Bool → Txt → Option (Txt × Txt)
  | _, [] => none
  | esc, c :: cs =>
    if c = '"' ∧ esc = false then some ([], cs)
    else if c = '\n' then none
    else (takeStr (!esc && c == '\\') cs).map fun r => (c :: r.1, r.2)

/-- The rest of a block string after its opening quotes. `esc` says whether the last character was a
backslash. Models tokenizer.rs 285-297: matches of three quotes that do not overlap; one that a
backslash precedes does not end the string. -/
def takeBlock : Bool → Txt → Option (Txt × Txt)
  | esc, '"' :: '"' :: '"' :: cs =>
    if esc then (takeBlock false cs).map fun r => ('"' :: '"' :: '"' :: r.1, r.2)
    else some ([], cs)
  | _, c :: cs => (takeBlock (c == '\\') cs).map fun r => (c :: r.1, r.2)
  | _, [] => none

/-- Punctuators of one character (tokenizer.rs 190-214). -/
def punct1 (c : Char) : Option P :=
  if c = '!' then some .bang else if c = '$' then some .dollar else if c = '&' then some .amp
  else if c = '(' then some .lpar else if c = ')' then some .rpar else if c = ':' then some .colon
  else if c = '=' then some .eq else if c = '@' then some .at else if c = '[' then some .lbr
  else if c = ']' then some .rbr else if c = '{' then some .lcur else if c = '|' then some .pipe
  else if c = '}' then some .rcur else none

/-- The next token and what follows it. `none` is an error. The text begins with the token.
Models tokenizer.rs 178-333 (`take_token`) without its limits. -/
def takeTok : Txt → Option (Tok × Txt)
  | [] => none
  | c :: cs =>
    match punct1 c with
    | some p => some (.p p, cs)
    | none =>
      if c = '.' then
        match cs with
        | '.' :: '.' :: r => some (.p .dots, r)
        | _ => none
      else if nameStart c then some (.name (c :: cs.takeWhile nameCont), cs.dropWhile nameCont)
      else if c = '-' || digit c then
        (numberTok (c :: cs.takeWhile (! endsNumber ·))).map
          fun t => (t, cs.dropWhile (! endsNumber ·))
      else if c = '"' then
        match cs with
        | '"' :: '"' :: r => (takeBlock false r).map fun b => (.block b.1, b.2)
        | _ => (takeStr false cs).map fun s => (.str s.1, s.2)
      else none

/-- Skips what is ignored; the flag says whether a comment is being skipped.
Models tokenizer.rs 335-371 (`skip_whitespace`). -/
def skipWs : Bool → Txt → Txt
  | _, [] => []
  | true, c :: cs => if c = '\r' ∨ c = '\n' then skipWs false cs else skipWs true cs
  | false, c :: cs =>
    if c = '﻿' ∨ c = '\r' ∨ c = '\t' ∨ c = '\n' ∨ c = ' ' ∨ c = ',' then skipWs false cs
    else if c = '#' then skipWs true cs
    else c :: cs

/-- The limits: how many brackets may still be opened, and how many tokens may be taken.
Models the fields `recursion_limit`, `token_limit` and `token_count` of `TokenStream` (26-35). -/
structure Lim where
  depth : Nat
  limit : Option Nat
  count : Nat

/-- Whether the limit of tokens is reached. Models tokenizer.rs 179-183. -/
def Lim.full (l : Lim) : Bool :=
  match l.limit with
  | none => false
  | some n => decide (n ≤ l.count)

/-- Whether a token is counted: punctuators, integers, and names that are not the end of the text.
Models tokenizer.rs 164-175 (`advance_token`) and the branches of `take_token` that do not use it
(233-237, 267-270, 292, 313-315). -/
def counted : Tok → Txt → Bool
  | .p _, _ => true
  | .name _, rest => !rest.isEmpty
  | .int _, _ => true
  | _, _ => false

/-- Whether a token opens or closes a bracket. -/
def opens : Tok → Bool
  | .p .lpar => true
  | .p .lbr => true
  | .p .lcur => true
  | _ => false

def closes : Tok → Bool
  | .p .rpar => true
  | .p .rbr => true
  | .p .rcur => true
  | _ => false

/-- The limits after a token, `none` if there are too many open brackets.
Models tokenizer.rs 191-213 and 164-175. -/
def Lim.after (l : Lim) (t : Tok) (rest : Txt) : Option Lim :=
  let count := if l.limit.isSome && counted t rest then l.count + 1 else l.count
  if opens t then
    match l.depth with
    | 0 => none
    | d + 1 => some { l with depth := d, count := count }
  else if closes t then some { l with depth := l.depth + 1, count := count }
  else some { l with count := count }

/-- The tokens of a text from a place where a token begins. `fuel` bounds the number of tokens; it is
at least the length of the text.
Models tokenizer.rs 55-71 (`uncons`), called until the end of the text. The limit of tokens is
looked at before the end of the text is. -/
def lexFrom : Nat → Lim → Txt → List Tok
  | 0, _, _ => [.bad]
  | fuel + 1, l, t =>
    if l.full then [.bad]
    else if t.isEmpty then []
    else
      match takeTok t with
      | none => [.bad]
      | some (tok, rest) =>
        match l.after tok rest with
        | none => [.bad]
        | some l' => tok :: lexFrom fuel l' (skipWs false rest)

/-- The tokens of a text. Models tokenizer.rs 129-160 (`new`, `new_with_token_limit`): at most 50
open brackets. -/
def lex (limit : Option Nat) (t : Txt) : List Tok :=
  lexFrom (t.length + 1) ⟨50, limit, 0⟩ (skipWs false t)

end Verif.Text
