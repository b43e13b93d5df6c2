import Verif.Text.Ast
/-!
# The text of an operation for a subgraph

Models `Display` of the planner's documents, `SubgraphFetchOperation::from_anonymous_operation` and
the insertion of a name.
-/
namespace Verif.Text

variable {F : Type} (S : Floats F)

/-- The last hexadecimal digit of a number, in lower case. Models `{:x}` in value.rs 229. -/
def hexChar (n : Nat) : Char :=
  ['0', '1', '2', '3', '4', '5', '6', '7', '8', '9', 'a', 'b', 'c', 'd', 'e', 'f'].getD (n % 16) '0'

/-- What is written for one character of a string.
Models `query_planner/ast/value.rs` 210-241 (`write_graphql_string_literal`); the code writes runs
of characters that need no escape at once, the text is the same. -/
def escChar (c : Char) : Txt :=
  if c = '"' then ['\\', '"']
  else if c = '\\' then ['\\', '\\']
  else if c = '\n' then ['\\', 'n']
  else if c = '\r' then ['\\', 'r']
  else if c = '\t' then ['\\', 't']
  else if c = '\u0008' then ['\\', 'b']
  else if c = '\u000c' then ['\\', 'f']
  else if c.toNat < 0x20 ∨ c.toNat = 0x7f then
    ['\\', 'u', '0', '0', hexChar (c.toNat / 16), hexChar c.toNat]
  else [c]

/-- The characters between the quotes of a written string (value.rs 210-241). -/
def escape (s : Txt) : Txt := s.flatMap escChar

/-- A string literal (value.rs 210-241). -/
def strLit (s : Txt) : Txt := '"' :: escape s ++ ['"']

/-- Decimal text of an integer. Models `Display` of `i64`. -/
def intTxt (i : Int) : Txt :=
  if i < 0 then '-' :: Nat.toDigits 10 i.natAbs else Nat.toDigits 10 i.natAbs

/-- Texts with `", "` between them. Models the loops with `peek` in value.rs 254-260, 264-270,
arguments.rs 106-112 and operation.rs 196-202. -/
def commas : List Txt → Txt
  | [] => []
  | [t] => t
  | t :: ts => t ++ [',', ' '] ++ commas ts

mutual
/-- Models value.rs 243-275 (`Display for Value`). -/
def valTxt : PVal F → Txt
  | .var n => '$' :: n
  | .int i => intTxt i
  | .float f => S.disp f
  | .str s => strLit s
  | .bool true => ['t', 'r', 'u', 'e']
  | .bool false => ['f', 'a', 'l', 's', 'e']
  | .null => ['n', 'u', 'l', 'l']
  | .enum e => e
  | .list vs => '[' :: commas (valTxts vs) ++ [']']
  | .obj fs => '{' :: commas (entryTxts fs) ++ ['}']
termination_by structural v => v
/-- The items of a list (value.rs 251-261). -/
def valTxts : List (PVal F) → List Txt
  | [] => []
  | v :: vs => valTxt v :: valTxts vs
termination_by structural vs => vs
/-- The entries of an object (value.rs 262-272). -/
def entryTxts : List (Txt × PVal F) → List Txt
  | [] => []
  | e :: es => entryTxt e :: entryTxts es
termination_by structural es => es
/-- One entry, `key: value` (value.rs 266; arguments.rs 108). -/
def entryTxt : Txt × PVal F → Txt
  | (k, v) => k ++ [':', ' '] ++ valTxt v
termination_by structural e => e
end

/-- Models `query_planner/state/supergraph_state.rs` 1142-1150 (`Display for TypeNode`). -/
def tyTxt : Ty → Txt
  | .list t => '[' :: tyTxt t ++ [']']
  | .nonNull t => tyTxt t ++ ['!']
  | .named n => n

/-- Models ` @skip(if: $x)` and ` @include(if: $x)` in selection_set.rs 371-377 and 430-435. -/
def condTxt (d : Txt) : Option Txt → Txt
  | none => []
  | some v => [' ', '@'] ++ d ++ ['(', 'i', 'f', ':', ' ', '$'] ++ v ++ [')']

def skipTxt : Txt := ['s', 'k', 'i', 'p']
def includeTxt : Txt := ['i', 'n', 'c', 'l', 'u', 'd', 'e']

/-- Items with a space between them. Models selection_set.rs 49-55. -/
def spaced : List Txt → Txt
  | [] => []
  | [t] => t
  | t :: ts => t ++ [' '] ++ spaced ts

/-- A selection set; nothing if it is empty. Models selection_set.rs 42-59. -/
def setTxt : List Txt → Txt
  | [] => []
  | ts => '{' :: spaced ts ++ ['}']

/-- `(arguments)`, nothing if there are none. Models selection_set.rs 287-298, 367-369 and
arguments.rs 104-115. -/
def argsTxt : List (Txt × PVal F) → Txt
  | [] => []
  | es => '(' :: commas (entryTxts S es) ++ [')']

/-- `alias: ` (selection_set.rs 361-363). -/
def aliasTxt : Option Txt → Txt
  | none => []
  | some a => a ++ [':', ' ']

mutual
/-- Models selection_set.rs 359-381 (`Display for FieldSelection`), 427-438 (`Display for
InlineFragmentSelection`) and selection_item.rs 33-43. -/
def selTxt : PSel F → Txt
  | .field al n as sk inc ss =>
    aliasTxt al ++ n ++ argsTxt S as ++ condTxt skipTxt sk ++ condTxt includeTxt inc
      ++ setTxt (selTxts ss)
  | .inline c sk inc ss =>
    ['.', '.', '.', 'o', 'n', ' '] ++ c ++ condTxt skipTxt sk ++ condTxt includeTxt inc
      ++ setTxt (selTxts ss)
  | .spread n => ['.', '.', '.'] ++ n
termination_by structural s => s
/-- The items of a selection set (selection_set.rs 49-55). -/
def selTxts : List (PSel F) → List Txt
  | [] => []
  | s :: ss => selTxt s :: selTxts ss
termination_by structural ss => ss
end

/-- Models supergraph_state.rs 779-787 (`Display for OperationKind`). -/
def kindTxt : Kind → Txt
  | .query => ['q', 'u', 'e', 'r', 'y']
  | .mutation => ['m', 'u', 't', 'a', 't', 'i', 'o', 'n']
  | .subscription => ['s', 'u', 'b', 's', 'c', 'r', 'i', 'p', 't', 'i', 'o', 'n']

/-- Models operation.rs 229-238 (`Display for VariableDefinition`). -/
def varTxt (v : PVar F) : Txt :=
  match v.default with
  | some d => '$' :: v.name ++ [':'] ++ tyTxt v.ty ++ ['='] ++ valTxt S d
  | none => '$' :: v.name ++ [':'] ++ tyTxt v.ty

/-- Whether the short form without a keyword is used. Models operation.rs 175-181. -/
def isShort (o : POp F) : Bool :=
  (o.kind == none || o.kind == some .query) && (o.name == none || o.name == some [])
    && (o.vars.getD []).isEmpty

/-- Models operation.rs 193-205: the variables in parentheses, nothing if there are none. -/
def varsTxt : Option (List (PVar F)) → Txt
  | none => []
  | some [] => []
  | some vs => '(' :: commas (vs.map (varTxt S)) ++ [')']

/-- Models operation.rs 189-191. -/
def opNameTxt : Option Txt → Txt
  | none => []
  | some n => [' '] ++ n ++ [' ']

/-- Models operation.rs 173-209 (`Display for OperationDefinition`). -/
def opTxt (o : POp F) : Txt :=
  if isShort o then setTxt (selTxts S o.sels)
  else (o.kind.map kindTxt).getD [] ++ opNameTxt o.name ++ varsTxt S o.vars
    ++ setTxt (selTxts S o.sels)

/-- Models fragment.rs 48-58 (`Display for FragmentDefinition`). -/
def fragTxt (f : PFrag F) : Txt :=
  ['f', 'r', 'a', 'g', 'm', 'e', 'n', 't', ' '] ++ f.name ++ [' ', 'o', 'n', ' '] ++ f.cond ++ [' ']
    ++ setTxt (selTxts S f.sels)

/-- Models document.rs 40-54 (`Display for Document`). -/
def docTxt (d : PDoc F) : Txt :=
  if d.frags.isEmpty then opTxt S d.op
  else opTxt S d.op ++ ['\n', '\n'] ++ d.frags.flatMap (fun f => fragTxt S f ++ ['\n'])

/-- Removes a prefix. Models `str::strip_prefix`. -/
def stripPrefix : Txt → Txt → Option Txt
  | [], t => some t
  | _ :: _, [] => none
  | c :: cs, d :: ds => if c = d then stripPrefix cs ds else none

/-- One step of the search in operation.rs 81-95: the kind is there and a parenthesis or a brace
follows. -/
def posAfter (k t : Txt) : Option Nat :=
  match stripPrefix k t with
  | some ('(' :: _) => some k.length
  | some ('{' :: _) => some k.length
  | _ => none

/-- Where the name of the operation goes. Models operation.rs 81-95. -/
def namePos (t : Txt) : Nat :=
  ((posAfter (kindTxt .query) t).or ((posAfter (kindTxt .mutation) t).or
    (posAfter (kindTxt .subscription) t))).getD 0

/-- Whether a text begins with a brace (json_writer.rs 30). -/
def startsBrace : Txt → Bool
  | '{' :: _ => true
  | _ => false

/-- The text with a name written at a position. Models `executor/json_writer.rs` 12-48
(`write_named_operation`) without the quotes and the JSON escapes of the pieces (C11). -/
def withName (name : Txt) (pos : Nat) (t : Txt) : Txt :=
  if pos = 0 ∧ startsBrace t = true then
    ['q', 'u', 'e', 'r', 'y', ' '] ++ name ++ [' '] ++ t
  else t.take pos ++ (if 0 < pos then [' '] else []) ++ name ++ t.drop pos

/-- The name of the operation for a fetch. Models `executor/execution/operation_name.rs` 101-121
(`OperationNameFactory::generate`) where names are forwarded. -/
def fetchName (client : Txt) (id : Nat) : Txt := client ++ ['_', '_'] ++ Nat.toDigits 10 id

end Verif.Text
