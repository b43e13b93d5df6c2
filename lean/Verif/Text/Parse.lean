import Verif.Text.Lex
/-!
# The parser

Models `lib/graphql-tools/src/parser/query/grammar.rs` and `common.rs`: parsers built with the
library `combine`. A parser that fails at its first token lets the next alternative be tried
(`miss`); one that fails after a token was taken fails for good (`fail`); `crash` is a panic.
-/
namespace Verif.Text

/-- What a parser returns. -/
inductive R (α : Type)
  | ok (a : α) (rest : List Tok)
  | miss
  | fail
  | crash

/-- What follows a token that was taken: a miss is a failure then. -/
def R.then {α β : Type} : R α → (α → List Tok → R β) → R β
  | .ok a r, f =>
    match f a r with
    | .miss => .fail
    | o => o
  | .miss, _ => .miss
  | .fail, _ => .fail
  | .crash, _ => .crash

def R.map {α β : Type} (f : α → β) : R α → R β
  | .ok a r => .ok (f a) r
  | .miss => .miss
  | .fail => .fail
  | .crash => .crash

/-- Models `combine::many`: as often as the parser succeeds. `fuel` bounds how often; it is more than
the number of tokens. -/
def many {α : Type} (p : List Tok → R α) : Nat → List Tok → R (List α)
  | 0, _ => .fail
  | n + 1, ts =>
    match p ts with
    | .ok a r =>
      match many p n r with
      | .ok as r' => .ok (a :: as) r'
      | .miss => .fail
      | .fail => .fail
      | .crash => .crash
    | .miss => .ok [] ts
    | .fail => .fail
    | .crash => .crash

/-- Models `combine::many1`. -/
def many1 {α : Type} (p : List Tok → R α) (ts : List Tok) : R (List α) :=
  (p ts).then fun a r => (many p (r.length + 1) r).map (a :: ·)

/-- Models `parser/helpers.rs` 105-120 (`name`). -/
def pName : List Tok → R Txt
  | .name n :: r => .ok n r
  | _ => .miss

/-- Models helpers.rs 70-104 (`punct`). -/
def pP (p : P) : List Tok → R Unit
  | .p q :: r => if p = q then .ok () r else .miss
  | _ => .miss

/-- Models helpers.rs 78-104 (`ident`): a name with a given text. -/
def pIdent (k : Txt) : List Tok → R Unit
  | .name n :: r => if n = k then .ok () r else .miss
  | _ => .miss

/-! ## Literals -/

/-- The number of decimal digits. -/
def natVal : Txt → Nat → Nat
  | [], n => n
  | c :: cs, n => natVal cs (10 * n + (c.toNat - '0'.toNat))

/-- Models `str::parse::<i64>` on integer literals (common.rs 152-164): numbers of 64 bits. -/
def readInt (raw : Txt) : Option Int :=
  let i : Int := match raw with
    | '-' :: ds => - (natVal ds 0 : Int)
    | ds => (natVal ds 0 : Int)
  if -9223372036854775808 ≤ i ∧ i ≤ 9223372036854775807 then some i else none

/-- Models `str::parse::<f64>` on what the tokenizer takes for a float (common.rs 166-177): it fails
if an exponent has no digits, which the tokenizer lets through after a sign. -/
def readFloat {F : Type} (S : Floats F) (raw : Txt) : Option F :=
  if raw.getLast? = some '+' ∨ raw.getLast? = some '-' then none else some (S.read raw)

/-- A hexadecimal digit of either case. -/
def hexVal (c : Char) : Option Nat :=
  if digit c then some (c.toNat - '0'.toNat)
  else if 'a' ≤ c && c ≤ 'f' then some (c.toNat - 'a'.toNat + 10)
  else if 'A' ≤ c && c ≤ 'F' then some (c.toNat - 'A'.toNat + 10)
  else none

def hexDigits : Txt → Nat → Option Nat
  | [], n => some n
  | c :: cs, n =>
    match hexVal c with
    | some d => hexDigits cs (16 * n + d)
    | none => none

/-- Models `u32::from_str_radix(_, 16)` on four characters (common.rs 264): a plus sign may come
first. -/
def fromHex : Txt → Option Nat
  | '+' :: cs => hexDigits cs 0
  | cs => hexDigits cs 0

/-- Models `char::from_u32`. -/
def fromU32 (n : Nat) : Option Char := if n.isValidChar then some (Char.ofNat n) else none

/-- Models common.rs 235-293 (`unquote_string`) between the quotes. `none` is an error. A backslash
at the end does not occur (the `expect` in 242): the tokenizer takes the quote after it for a part
of the string. -/
def unquote : Txt → Option Txt
  | [] => some []
  | '\\' :: 'u' :: a :: b :: c :: d :: r =>
    match (fromHex [a, b, c, d]).bind fromU32 with
    | some ch => (unquote r).map (ch :: ·)
    | none => none
  | ['\\'] => none
  | '\\' :: c :: r =>
    if c = '"' ∨ c = '\\' ∨ c = '/' then (unquote r).map (c :: ·)
    else if c = 'b' then (unquote r).map ('\u0010' :: ·)
    else if c = 'f' then (unquote r).map ('\u000c' :: ·)
    else if c = 'n' then (unquote r).map ('\n' :: ·)
    else if c = 'r' then (unquote r).map ('\r' :: ·)
    else if c = 't' then (unquote r).map ('\t' :: ·)
    else none
  | c :: r => (unquote r).map (c :: ·)

/-! ### Block strings -/

/-- Models `char::is_whitespace`, which `trim_start` uses (common.rs 187). -/
def rustSpace (c : Char) : Bool :=
  let n := c.toNat
  (9 ≤ n && n ≤ 13) || n == 0x20 || n == 0x85 || n == 0xa0 || n == 0x1680 ||
    (0x2000 ≤ n && n ≤ 0x200a) || n == 0x2028 || n == 0x2029 || n == 0x202f || n == 0x205f ||
    n == 0x3000

/-- Bytes of a text in UTF-8, `str::len`. -/
def bytes (t : Txt) : Nat := (t.map fun c => c.utf8Size).sum

/-- A line without the carriage return that ends it. -/
def dropCr (l : Txt) : Txt :=
  match l.getLast? with
  | some '\r' => l.dropLast
  | _ => l

/-- Models `str::lines` (common.rs 182): lines end at `\n` or `\r\n`; nothing follows the last line
end. `cur` is the line being read, backwards. -/
def rustLines : Txt → Txt → List Txt
  | [], [] => []
  | [], cur => [cur.reverse]
  | c :: r, cur => if c = '\n' then dropCr cur.reverse :: rustLines r [] else rustLines r (c :: cur)

/-- Bytes of the white space a line begins with. Models common.rs 187. -/
def rustIndent (l : Txt) : Nat := bytes (l.takeWhile rustSpace)

/-- The lines that are not blank, with their places. -/
def textLines : List Txt → Nat → List (Nat × Txt)
  | [], _ => []
  | l :: ls, i =>
    if rustIndent l = bytes l then textLines ls (i + 1) else (i, l) :: textLines ls (i + 1)

/-- The smallest indent of lines, not counting the first of the string; `none` stands for
`usize::MAX`. Models common.rs 184, 195-197. -/
def minIndent : List (Nat × Txt) → Option Nat
  | [] => none
  | (i, l) :: ls =>
    if i = 0 then minIndent ls
    else match minIndent ls with
      | none => some (rustIndent l)
      | some n => some (min (rustIndent l) n)

/-- A text from a byte on, `&line[n..]`. `none` is the panic if the byte is inside a character. -/
def dropBytes : Nat → Txt → Option Txt
  | 0, t => some t
  | _ + 1, [] => none
  | n + 1, c :: t => if c.utf8Size ≤ n + 1 then dropBytes (n + 1 - c.utf8Size) t else none

/-- Models common.rs 213-219: the indent is cut off all lines but the first of the string; lines that
are shorter stay as they are. `none` is a panic. -/
def cutLine (common : Option Nat) (i : Nat) (l : Txt) : Option Txt :=
  match common with
  | none => some l
  | some n => if i ≠ 0 ∧ n ≤ bytes l then dropBytes n l else some l

/-- Models common.rs 221 (`replace`). -/
def unescapeQuotes : Txt → Txt
  | '\\' :: '"' :: '"' :: '"' :: r => '"' :: '"' :: '"' :: unescapeQuotes r
  | c :: r => c :: unescapeQuotes r
  | [] => []

/-- Cuts all lines. -/
def cutLines (common : Option Nat) : List Txt → Nat → Option (List Txt)
  | [], _ => some []
  | l :: ls, i =>
    match cutLine common i l, cutLines common ls (i + 1) with
    | some l', some ls' => some (unescapeQuotes l' :: ls')
    | _, _ => none

/-- Lines with line feeds between them (common.rs 223-230). -/
def unlines : List Txt → Txt
  | [] => []
  | [l] => l
  | l :: ls => l ++ '\n' :: unlines ls

/-- Models common.rs 180-233 (`unquote_block_string`) between the quotes. `none` is a panic. -/
def unquoteBlock (raw : Txt) : Option Txt :=
  let ls := rustLines raw []
  let txt := textLines ls 0
  match txt.head?, txt.getLast? with
  | some a, some b =>
    (cutLines (minIndent txt) ((ls.drop a.1).take (b.1 - a.1 + 1)) a.1).map unlines
  | _, _ => some []

/-- How literals are read, and whether variables may have directives. The parser is written for any
such; `codeLits` are the ones of the code. -/
structure Lits (F : Type) where
  int : Txt → Option Int
  float : Txt → Option F
  str : Txt → Option Txt
  block : Txt → Option Txt
  varDirs : Bool

/-- The literals of the code; its grammar has no directives on variables (grammar.rs 130-144). -/
def codeLits {F : Type} (S : Floats F) : Lits F where
  int := readInt
  float := readFloat S
  str := unquote
  block := unquoteBlock
  varDirs := false

section
variable {F : Type} (L : Lits F)

/-! ## Values -/

/-- Models common.rs 330-347 (`plain_value`), with 152-177, 306-328. -/
def pPlain : List Tok → R (Val F)
  | .name n :: r =>
    if n = ['t', 'r', 'u', 'e'] then .ok (.bool true) r
    else if n = ['f', 'a', 'l', 's', 'e'] then .ok (.bool false) r
    else if n = ['n', 'u', 'l', 'l'] then .ok .null r
    else .ok (.enum n) r
  | .int raw :: r =>
    match L.int raw with
    | some i => .ok (.int i) r
    | none => .fail
  | .float raw :: r =>
    match L.float raw with
    | some f => .ok (.float f) r
    | none => .fail
  | .str raw :: r =>
    match L.str raw with
    | some s => .ok (.str s) r
    | none => .fail
  | .block raw :: r =>
    match L.block raw with
    | some s => .ok (.str s) r
    | none => .crash
  | _ => .miss

/-- `Name : Value` (common.rs 146, 361, 383). -/
def pEntry (p : List Tok → R (Val F)) (ts : List Tok) : R (Txt × Val F) :=
  (pName ts).then fun n r => (pP .colon r).then fun _ r' => (p r').map fun v => (n, v)

/-- Models common.rs 349-389 (`value`, and `default_value` if `const` is set). `fuel` bounds the
nesting; it is more than the number of tokens. -/
def pValue (const : Bool) : Nat → List Tok → R (Val F)
  | 0, _ => .fail
  | n + 1, ts =>
    match ts with
    | .p .dollar :: r => if const then .miss else
        match pName r with
        | .ok v r' => .ok (.var v) r'
        | _ => .fail
    | .p .lbr :: r =>
      match many (pValue const n) (r.length + 1) r with
      | .ok vs (.p .rbr :: r') => .ok (.list vs) r'
      | .crash => .crash
      | _ => .fail
    | .p .lcur :: r =>
      match many (pEntry (pValue const n)) (r.length + 1) r with
      | .ok fs (.p .rcur :: r') => .ok (.obj fs) r'
      | .crash => .crash
      | _ => .fail
    | _ => pPlain L ts

/-- Models common.rs 137-150 (`arguments`). -/
def pArgs (const : Bool) (ts : List Tok) : R (List (Txt × Val F)) :=
  match ts with
  | .p .lpar :: r =>
    match many1 (pEntry (pValue L const (r.length + 1))) r with
    | .ok as (.p .rpar :: r') => .ok as r'
    | .crash => .crash
    | _ => .fail
  | _ => .ok [] ts

/-- One directive (common.rs 117-128). -/
def pDir (const : Bool) (ts : List Tok) : R (Dir F) :=
  (pP .at ts).then fun _ r => (pName r).then fun n r' => (pArgs L const r').map fun as => ⟨n, as⟩

/-- Models common.rs 111-135 (`directives`). -/
def pDirs (const : Bool) (ts : List Tok) : R (List (Dir F)) :=
  many (pDir L const) (ts.length + 1) ts

/-- `!` or nothing (common.rs 404-411). -/
def pBang (t : Ty) : List Tok → R Ty
  | .p .bang :: r => .ok (.nonNull t) r
  | ts => .ok t ts

/-- Models common.rs 391-414 (`parse_type`). -/
def pType : Nat → List Tok → R Ty
  | 0, _ => .fail
  | _ + 1, .name n :: r => pBang (.named n) r
  | n + 1, .p .lbr :: r =>
    match pType n r with
    | .ok t (.p .rbr :: r') => pBang (.list t) r'
    | .crash => .crash
    | _ => .fail
  | _ + 1, _ => .miss

/-! ## Selections -/

/-- `{ selections }` (grammar.rs 80-98, `selection_set`), with a parser for selections. -/
def pSetWith (p : List Tok → R (Sel F)) (ts : List Tok) : R (List (Sel F)) :=
  match ts with
  | .p .lcur :: r =>
    match many1 p r with
    | .ok ss (.p .rcur :: r') => .ok ss r'
    | .crash => .crash
    | _ => .fail
  | _ => .miss

/-- What follows the name of a field (grammar.rs 17-21). -/
def pFieldTail (p : List Tok → R (Sel F)) (al : Option Txt) (n : Txt) (ts : List Tok) : R (Sel F) :=
  (pArgs L false ts).then fun as r => (pDirs L false r).then fun ds r' =>
    match pSetWith p r' with
    | .ok ss r'' => .ok (.field al n as ds ss) r''
    | .miss => .ok (.field al n as ds []) r'
    | .fail => .fail
    | .crash => .crash

/-- A condition and what follows: directives and a selection set (grammar.rs 53-68). -/
def pInlineTail (p : List Tok → R (Sel F)) (c : Option Txt) (ts : List Tok) : R (Sel F) :=
  (pDirs L false ts).then fun ds r => (pSetWith p r).map fun ss => .inline c ds ss

/-- What follows `...` (grammar.rs 51-76). Without a condition, directives and a selection set are
tried first; if neither is there, a name. -/
def pDots (p : List Tok → R (Sel F)) (ts : List Tok) : R (Sel F) :=
  match ts with
  | .name n :: r =>
    if n = ['o', 'n'] then (pName r).then fun c r' => pInlineTail L p (some c) r'
    else (pDirs L false r).map fun ds => .spread n ds
  | _ => pInlineTail L p none ts

/-- A failure is for good after a token was taken. -/
def R.taken {α : Type} : R α → R α
  | .miss => .fail
  | o => o

/-- Models grammar.rs 11-78 (`field`, `selection`). -/
def pSel : Nat → List Tok → R (Sel F)
  | 0, _ => .fail
  | n + 1, ts =>
    match ts with
    | .name a :: .p .colon :: r =>
      match pName r with
      | .ok nm r' => (pFieldTail L (pSel n) (some a) nm r').taken
      | _ => .fail
    | .name nm :: r => (pFieldTail L (pSel n) none nm r).taken
    | .p .dots :: r => (pDots L (pSel n) r).taken
    | _ => .miss

def pSet (ts : List Tok) : R (List (Sel F)) := pSetWith (pSel L (ts.length + 1)) ts

/-! ## Definitions -/

/-- `= value` or nothing (grammar.rs 135). -/
def pDefault (ts : List Tok) : R (Option (Val F)) :=
  match ts with
  | .p .eq :: r => ((pValue L true (r.length + 1) r).map some).taken
  | _ => .ok none ts

/-- One variable (grammar.rs 130-144). -/
def pVar (ts : List Tok) : R (VarDef F) :=
  (pP .dollar ts).then fun _ r => (pName r).then fun n r' => (pP .colon r').then fun _ r'' =>
    (pType (r''.length + 1) r'').then fun t r3 => (pDefault L r3).then fun d r4 =>
      if L.varDirs then (pDirs L true r4).map fun ds => ⟨n, t, d, ds⟩ else .ok ⟨n, t, d, []⟩ r4

/-- `( variables )` or nothing (grammar.rs 127-149). -/
def pVars (ts : List Tok) : R (List (VarDef F)) :=
  match ts with
  | .p .lpar :: r =>
    match many1 (pVar L) r with
    | .ok vs (.p .rpar :: r') => .ok vs r'
    | .crash => .crash
    | _ => .fail
  | _ => .ok [] ts

/-- A name or nothing. -/
def pOptName : List Tok → R (Option Txt)
  | .name n :: r => .ok (some n) r
  | ts => .ok none ts

/-- Models grammar.rs 121-156 (`operation_common`), after the keyword. -/
def pCommon (k : Kind) (ts : List Tok) : R (Def F) :=
  (pOptName ts).then fun nm r => (pVars L r).then fun vs r' => (pDirs L false r').then fun ds r'' =>
    (pSet L r'').map fun ss => .op k nm vs ds ss

/-- Models grammar.rs 208-232 (`fragment_definition`), after the keyword. -/
def pFrag (ts : List Tok) : R (Def F) :=
  (pName ts).then fun n r => (pIdent ['o', 'n'] r).then fun _ r' => (pName r').then fun c r'' =>
    (pDirs L false r'').then fun ds r3 => (pSet L r3).map fun ss => .frag n c ds ss

/-- Models grammar.rs 192-206 (`operation_definition`) and 234-244 (`definition`), with 100-113,
158-190. -/
def pDef (ts : List Tok) : R (Def F) :=
  match ts with
  | .name k :: r =>
    if k = ['q', 'u', 'e', 'r', 'y'] then (pCommon L .query r).taken
    else if k = ['m', 'u', 't', 'a', 't', 'i', 'o', 'n'] then (pCommon L .mutation r).taken
    else if k = ['s', 'u', 'b', 's', 'c', 'r', 'i', 'p', 't', 'i', 'o', 'n'] then
      (pCommon L .subscription r).taken
    else if k = ['f', 'r', 'a', 'g', 'm', 'e', 'n', 't'] then (pFrag L r).taken
    else .miss
  | _ => (pSet L ts).map .short

/-- What reading a text ends with. -/
inductive Outcome (F : Type)
  | document (d : Doc F)
  | error
  | crash

/-- Models grammar.rs 263-275 (`handle_token_stream`): definitions up to the end of the tokens. -/
def parseToks (ts : List Tok) : Outcome F :=
  match many1 (pDef L) ts with
  | .ok d [] => .document d
  | .crash => .crash
  | _ => .error

/-- Models grammar.rs 246-261 (`parse_query`, `parse_query_with_token_limit`). -/
def parse (S : Floats F) (limit : Option Nat) (t : Txt) : Outcome F :=
  parseToks (codeLits S) (lex limit t)

end
end Verif.Text
