import Verif.Text.Ast
/-!
# The language: how a text is read

The lexical and the syntactic grammar of executable documents, after the GraphQL specification
(sections 2.1 to 2.12 and appendix C), stated without any of the functions of the model. The
numbers of productions are those of the specification.
-/
namespace Verif.Text

/-! ## Characters -/

/-- `Letter` or `_`. -/
def NameStart (c : Char) : Prop :=
  ('a' ≤ c ∧ c ≤ 'z') ∨ ('A' ≤ c ∧ c ≤ 'Z') ∨ c = '_'

def Digit (c : Char) : Prop := '0' ≤ c ∧ c ≤ '9'

def NameContinue (c : Char) : Prop := NameStart c ∨ Digit c

/-- A name: `NameStart` and then any number of `NameContinue`. -/
def IsName (n : Txt) : Prop := ∃ c cs, n = c :: cs ∧ NameStart c ∧ ∀ d ∈ cs, NameContinue d

/-- `IntegerPart` without the sign: `0`, or digits that do not begin with `0`. -/
def IsNatural (t : Txt) : Prop :=
  t = ['0'] ∨ ∃ c cs, t = c :: cs ∧ c ≠ '0' ∧ ∀ d ∈ t, Digit d

/-- `IntegerPart`. -/
def IsInt (t : Txt) : Prop := IsNatural t ∨ ∃ u, t = '-' :: u ∧ IsNatural u

/-- One or more digits. -/
def Digits (t : Txt) : Prop := t ≠ [] ∧ ∀ d ∈ t, Digit d

/-- `FractionalPart`, or nothing. -/
def IsFraction (t : Txt) : Prop := ∃ ds, t = '.' :: ds ∧ Digits ds

/-- `ExponentPart`. -/
def IsExponent (t : Txt) : Prop :=
  ∃ e ds, (e = 'e' ∨ e = 'E') ∧ Digits ds ∧ (t = e :: ds ∨ t = e :: '+' :: ds ∨ t = e :: '-' :: ds)

/-- A float: an integer part with a fraction, an exponent or both. -/
def IsFloat (t : Txt) : Prop :=
  ∃ i f e, t = i ++ f ++ e ∧ IsInt i ∧
    ((IsFraction f ∧ e = []) ∨ (f = [] ∧ IsExponent e) ∨ (IsFraction f ∧ IsExponent e))

/-- The value of a hexadecimal digit. -/
def hexDigit (c : Char) : Option Nat :=
  if '0' ≤ c ∧ c ≤ '9' then some (c.toNat - 48)
  else if 'a' ≤ c ∧ c ≤ 'f' then some (c.toNat - 87)
  else if 'A' ≤ c ∧ c ≤ 'F' then some (c.toNat - 55)
  else none

/-- The value of a hexadecimal number. -/
def hexNumber : Txt → Nat → Option Nat
  | [], n => some n
  | c :: cs, n => (hexDigit c).bind fun d => hexNumber cs (16 * n + d)

/-- `EscapedCharacter` and the character it stands for. -/
def escaped (e : Char) : Option Char :=
  if e = '"' then some '"' else if e = '\\' then some '\\' else if e = '/' then some '/'
  else if e = 'b' then some '\u0008' else if e = 'f' then some '\u000c'
  else if e = 'n' then some '\n' else if e = 'r' then some '\r' else if e = 't' then some '\t'
  else none

/-- Characters of a string between its quotes, and the string they stand for. -/
inductive StrChars : Txt → Txt → Prop
  | nil : StrChars [] []
  | plain (c : Char) (r s : Txt) : c ≠ '"' → c ≠ '\\' → c ≠ '\n' → c ≠ '\r' → StrChars r s →
      StrChars (c :: r) (c :: s)
  | esc (e c : Char) (r s : Txt) : escaped e = some c → StrChars r s →
      StrChars ('\\' :: e :: r) (c :: s)
  | unicode (h : Txt) (n : Nat) (r s : Txt) : h.length = 4 → hexNumber h 0 = some n →
      n.isValidChar → StrChars r s → StrChars ('\\' :: 'u' :: h ++ r) (Char.ofNat n :: s)
  | pair (h l : Txt) (m n : Nat) (r s : Txt) : h.length = 4 → l.length = 4 →
      hexNumber h 0 = some m → hexNumber l 0 = some n → 0xD800 ≤ m → m ≤ 0xDBFF → 0xDC00 ≤ n →
      n ≤ 0xDFFF → StrChars r s →
      StrChars ('\\' :: 'u' :: h ++ '\\' :: 'u' :: l ++ r)
        (Char.ofNat ((m - 0xD800) * 0x400 + (n - 0xDC00) + 0x10000) :: s)
  | braced (h : Txt) (n : Nat) (r s : Txt) : h ≠ [] → hexNumber h 0 = some n → n.isValidChar →
      StrChars r s → StrChars ('\\' :: 'u' :: '{' :: h ++ '}' :: r) (Char.ofNat n :: s)

/-- Characters of a block string between its quotes: `\"""`, or any character where neither `"""`
nor `\"""` begins. -/
inductive BlockChars : Txt → Prop
  | nil : BlockChars []
  | esc (r : Txt) : BlockChars r → BlockChars ('\\' :: '"' :: '"' :: '"' :: r)
  | plain (c : Char) (r : Txt) : ¬ ['"', '"', '"'] <+: c :: r ++ ['"', '"', '"'] →
      ¬ ['\\', '"', '"', '"'] <+: c :: r ++ ['"', '"', '"'] → BlockChars r → BlockChars (c :: r)

/-- `\"""` stands for `"""`. -/
def blockUnescape : Txt → Txt
  | '\\' :: '"' :: '"' :: '"' :: r => '"' :: '"' :: '"' :: blockUnescape r
  | c :: r => c :: blockUnescape r
  | [] => []

/-- The lines of a text; `cur` is the line being read, backwards. Lines end at LF, CR or CR LF. -/
def splitLines : Txt → Txt → List Txt
  | [], cur => [cur.reverse]
  | '\r' :: '\n' :: r, cur => cur.reverse :: splitLines r []
  | c :: r, cur => if c = '\r' ∨ c = '\n' then cur.reverse :: splitLines r [] else
      splitLines r (c :: cur)

/-- `WhiteSpace`. -/
def isSpace (c : Char) : Bool := c == '\t' || c == ' '

def indentOf (l : Txt) : Nat := (l.takeWhile isSpace).length

/-- The smallest indent of the lines that are not blank. -/
def commonIndent : List Txt → Option Nat
  | [] => none
  | l :: ls =>
    if indentOf l < l.length then
      match commonIndent ls with
      | none => some (indentOf l)
      | some n => some (min (indentOf l) n)
    else commonIndent ls

/-- Lines with a line feed between them. -/
def joinLines : List Txt → Txt
  | [] => []
  | [l] => l
  | l :: ls => l ++ '\n' :: joinLines ls

def blank (l : Txt) : Bool := l.all isSpace

/-- `BlockStringValue(rawValue)` of the specification. -/
def blockValue (raw : Txt) : Txt :=
  match splitLines (blockUnescape raw) [] with
  | [] => []
  | l :: ls =>
    let ls' := match commonIndent ls with
      | none => ls
      | some n => ls.map (List.drop n)
    joinLines ((((l :: ls').dropWhile blank).reverse.dropWhile blank).reverse)

/-! ## Tokens -/

/-- The text of a token. -/
inductive Lexeme : Tok → Txt → Prop
  | punct (p : P) : Lexeme (.p p) p.txt
  | name (n : Txt) : IsName n → Lexeme (.name n) n
  | int (t : Txt) : IsInt t → Lexeme (.int t) t
  | float (t : Txt) : IsFloat t → Lexeme (.float t) t
  | str (raw s : Txt) : StrChars raw s → Lexeme (.str raw) ('"' :: raw ++ ['"'])
  | block (raw : Txt) : BlockChars raw →
      Lexeme (.block raw) (['"', '"', '"'] ++ raw ++ ['"', '"', '"'])

/-- What may follow a token: the restrictions on lookahead that make tokens as long as possible. -/
def MayFollow : Tok → Txt → Prop
  | .name _, c :: _ => ¬ NameContinue c
  | .int _, c :: _ => ¬ Digit c ∧ c ≠ '.' ∧ ¬ NameStart c
  | .float _, c :: _ => ¬ Digit c ∧ c ≠ '.' ∧ ¬ NameStart c
  | .str [], c :: _ => c ≠ '"'
  | _, _ => True

/-- White space, line ends, commas and the byte order mark. -/
def Ignored (c : Char) : Prop :=
  c = '﻿' ∨ c = '\t' ∨ c = ' ' ∨ c = '\n' ∨ c = '\r' ∨ c = ','

/-- The text of a comment after `#`, and what follows it. -/
def Comment (body rest : Txt) : Prop :=
  (∀ c ∈ body, c ≠ '\n' ∧ c ≠ '\r') ∧ (∀ c r, rest = c :: r → c = '\n' ∨ c = '\r')

/-- The tokens of a text. -/
inductive Lexes : Txt → List Tok → Prop
  | done : Lexes [] []
  | skip (c : Char) (rest : Txt) (ts : List Tok) : Ignored c → Lexes rest ts →
      Lexes (c :: rest) ts
  | comment (body rest : Txt) (ts : List Tok) : Comment body rest → Lexes rest ts →
      Lexes ('#' :: body ++ rest) ts
  | tok (t : Tok) (text rest : Txt) (ts : List Tok) : Lexeme t text → MayFollow t rest →
      Lexes rest ts → Lexes (text ++ rest) (t :: ts)

/-! ## Grammar -/

/-- The number a decimal literal stands for. -/
def intOf : Txt → Int
  | '-' :: ds => - (Nat.ofDigitChars 10 ds 0 : Int)
  | ds => (Nat.ofDigitChars 10 ds 0 : Int)

section
variable {F : Type} (S : Floats F)

def kwTrue : Txt := ['t', 'r', 'u', 'e']
def kwFalse : Txt := ['f', 'a', 'l', 's', 'e']
def kwNull : Txt := ['n', 'u', 'l', 'l']
def kwOn : Txt := ['o', 'n']
def kwFragment : Txt := ['f', 'r', 'a', 'g', 'm', 'e', 'n', 't']
def kwKind : Kind → Txt
  | .query => ['q', 'u', 'e', 'r', 'y']
  | .mutation => ['m', 'u', 't', 'a', 't', 'i', 'o', 'n']
  | .subscription => ['s', 'u', 'b', 's', 'c', 'r', 'i', 'p', 't', 'i', 'o', 'n']

mutual
/-- `Value`; constant if the flag is set, then there are no variables. -/
inductive GVal : Bool → List Tok → Val F → Prop
  | var (n : Txt) : GVal false [.p .dollar, .name n] (.var n)
  | int (c : Bool) (raw : Txt) : GVal c [.int raw] (.int (intOf raw))
  | float (c : Bool) (raw : Txt) : IsFloat raw → GVal c [.float raw] (.float (S.read raw))
  | str (c : Bool) (raw s : Txt) : StrChars raw s → GVal c [.str raw] (.str s)
  | block (c : Bool) (raw : Txt) : GVal c [.block raw] (.str (blockValue raw))
  | tru (c : Bool) : GVal c [.name kwTrue] (.bool true)
  | fals (c : Bool) : GVal c [.name kwFalse] (.bool false)
  | null (c : Bool) : GVal c [.name kwNull] .null
  | enum (c : Bool) (n : Txt) : n ≠ kwTrue → n ≠ kwFalse → n ≠ kwNull → GVal c [.name n] (.enum n)
  | list (c : Bool) (ts : List Tok) (vs : List (Val F)) : GVals c ts vs →
      GVal c (.p .lbr :: ts ++ [.p .rbr]) (.list vs)
  | obj (c : Bool) (ts : List Tok) (fs : List (Txt × Val F)) : GEntries c ts fs →
      GVal c (.p .lcur :: ts ++ [.p .rcur]) (.obj fs)
/-- Any number of values. -/
inductive GVals : Bool → List Tok → List (Val F) → Prop
  | nil (c : Bool) : GVals c [] []
  | cons (c : Bool) (t ts : List Tok) (v : Val F) (vs : List (Val F)) : GVal c t v → GVals c ts vs →
      GVals c (t ++ ts) (v :: vs)
/-- Any number of `Name : Value`. -/
inductive GEntries : Bool → List Tok → List (Txt × Val F) → Prop
  | nil (c : Bool) : GEntries c [] []
  | cons (c : Bool) (n : Txt) (t ts : List Tok) (v : Val F) (fs : List (Txt × Val F)) :
      GVal c t v → GEntries c ts fs →
      GEntries c (.name n :: .p .colon :: t ++ ts) ((n, v) :: fs)
end

/-- `Arguments`, or nothing. -/
inductive GArgs : Bool → List Tok → List (Txt × Val F) → Prop
  | none (c : Bool) : GArgs c [] []
  | some (c : Bool) (ts : List Tok) (fs : List (Txt × Val F)) : fs ≠ [] → GEntries S c ts fs →
      GArgs c (.p .lpar :: ts ++ [.p .rpar]) fs

/-- `Directives`, or nothing. -/
inductive GDirs : Bool → List Tok → List (Dir F) → Prop
  | nil (c : Bool) : GDirs c [] []
  | cons (c : Bool) (n : Txt) (t ts : List Tok) (as : List (Txt × Val F)) (ds : List (Dir F)) :
      GArgs S c t as → GDirs c ts ds → GDirs c (.p .at :: .name n :: t ++ ts) (⟨n, as⟩ :: ds)

/-- `Type`. -/
inductive GType : List Tok → Ty → Prop
  | named (n : Txt) : GType [.name n] (.named n)
  | list (ts : List Tok) (t : Ty) : GType ts t → GType (.p .lbr :: ts ++ [.p .rbr]) (.list t)
  | nonNull (ts : List Tok) (t : Ty) : GType ts t → (∀ u, t ≠ .nonNull u) →
      GType (ts ++ [.p .bang]) (.nonNull t)

/-- `Alias`, or nothing. -/
inductive GAlias : List Tok → Option Txt → Prop
  | none : GAlias [] none
  | some (a : Txt) : GAlias [.name a, .p .colon] (some a)

mutual
/-- `Selection`. -/
inductive GSel : List Tok → Sel F → Prop
  | leaf (al : Option Txt) (n : Txt) (ta t d : List Tok) (as : List (Txt × Val F))
      (ds : List (Dir F)) : GAlias ta al → GArgs S false t as → GDirs S false d ds →
      GSel (ta ++ .name n :: t ++ d) (.field al n as ds [])
  | field (al : Option Txt) (n : Txt) (ta t d b : List Tok) (as : List (Txt × Val F))
      (ds : List (Dir F)) (ss : List (Sel F)) : GAlias ta al → GArgs S false t as →
      GDirs S false d ds → GSet b ss →
      GSel (ta ++ .name n :: t ++ d ++ b) (.field al n as ds ss)
  | spread (n : Txt) (d : List Tok) (ds : List (Dir F)) : n ≠ kwOn → GDirs S false d ds →
      GSel (.p .dots :: .name n :: d) (.spread n ds)
  | inlineOn (n : Txt) (d b : List Tok) (ds : List (Dir F)) (ss : List (Sel F)) :
      GDirs S false d ds → GSet b ss →
      GSel (.p .dots :: .name kwOn :: .name n :: d ++ b) (.inline (some n) ds ss)
  | inline (d b : List Tok) (ds : List (Dir F)) (ss : List (Sel F)) :
      GDirs S false d ds → GSet b ss → GSel (.p .dots :: d ++ b) (.inline none ds ss)
/-- `SelectionSet`. -/
inductive GSet : List Tok → List (Sel F) → Prop
  | mk (ts : List Tok) (ss : List (Sel F)) : ss ≠ [] → GSels ts ss →
      GSet (.p .lcur :: ts ++ [.p .rcur]) ss
/-- Any number of selections. -/
inductive GSels : List Tok → List (Sel F) → Prop
  | nil : GSels [] []
  | cons (t ts : List Tok) (s : Sel F) (ss : List (Sel F)) : GSel t s → GSels ts ss →
      GSels (t ++ ts) (s :: ss)
end

/-- `DefaultValue`, or nothing. -/
inductive GDefault : List Tok → Option (Val F) → Prop
  | none : GDefault [] none
  | some (t : List Tok) (v : Val F) : GVal S true t v → GDefault (.p .eq :: t) (some v)

/-- Any number of `VariableDefinition`. -/
inductive GVars : List Tok → List (VarDef F) → Prop
  | nil : GVars [] []
  | cons (n : Txt) (t d e ts : List Tok) (ty : Ty) (dv : Option (Val F)) (ds : List (Dir F))
      (vs : List (VarDef F)) : GType t ty → GDefault S d dv → GDirs S true e ds → GVars ts vs →
      GVars (.p .dollar :: .name n :: .p .colon :: t ++ d ++ e ++ ts) (⟨n, ty, dv, ds⟩ :: vs)

/-- `VariablesDefinition`, or nothing. -/
inductive GVarDefs : List Tok → List (VarDef F) → Prop
  | none : GVarDefs [] []
  | some (ts : List Tok) (vs : List (VarDef F)) : vs ≠ [] → GVars S ts vs →
      GVarDefs (.p .lpar :: ts ++ [.p .rpar]) vs

/-- The name of an operation, or nothing. -/
inductive GOpName : List Tok → Option Txt → Prop
  | none : GOpName [] none
  | some (n : Txt) : GOpName [.name n] (some n)

/-- `ExecutableDefinition`. -/
inductive GDef : List Tok → Def F → Prop
  | short (b : List Tok) (ss : List (Sel F)) : GSet S b ss → GDef b (.short ss)
  | op (k : Kind) (nm : Option Txt) (tn tv d b : List Tok) (vs : List (VarDef F))
      (ds : List (Dir F)) (ss : List (Sel F)) : GOpName tn nm → GVarDefs S tv vs →
      GDirs S false d ds → GSet S b ss →
      GDef (.name (kwKind k) :: tn ++ tv ++ d ++ b) (.op k nm vs ds ss)
  | frag (n c : Txt) (d b : List Tok) (ds : List (Dir F)) (ss : List (Sel F)) : n ≠ kwOn →
      GDirs S false d ds → GSet S b ss →
      GDef (.name kwFragment :: .name n :: .name kwOn :: .name c :: d ++ b) (.frag n c ds ss)

/-- Any number of definitions. -/
inductive GDefs : List Tok → List (Def F) → Prop
  | nil : GDefs [] []
  | cons (t ts : List Tok) (d : Def F) (ds : List (Def F)) : GDef S t d → GDefs ts ds →
      GDefs (t ++ ts) (d :: ds)

/-- `ExecutableDocument`: one definition or more. -/
def GDoc (ts : List Tok) (d : Doc F) : Prop := d ≠ [] ∧ GDefs S ts d

/-- A text reads as a document. -/
def Reads (text : Txt) (d : Doc F) : Prop := ∃ ts, Lexes text ts ∧ GDoc S ts d

end
end Verif.Text
