/-!
# Documents: as trees, and as the planner holds them

Texts are lists of characters.
-/
namespace Verif.Text

abbrev Txt := List Char

/-- Punctuators of the language.
Models `lib/graphql-tools/src/parser/tokenizer.rs` 190-232 (`Kind::Punctuator` with its text). -/
inductive P
  | bang | dollar | amp | lpar | rpar | dots | colon | eq | at | lbr | rbr | lcur | pipe | rcur
  deriving DecidableEq, Repr

/-- The text of a punctuator (tokenizer.rs 190-232). -/
def P.txt : P → Txt
  | .bang => ['!'] | .dollar => ['$'] | .amp => ['&'] | .lpar => ['('] | .rpar => [')']
  | .dots => ['.', '.', '.'] | .colon => [':'] | .eq => ['='] | .at => ['@']
  | .lbr => ['['] | .rbr => [']'] | .lcur => ['{'] | .pipe => ['|'] | .rcur => ['}']

/-- Tokens. Strings are without their quotes, still escaped. `bad` stands for the place where the
tokenizer reports an error; nothing follows it.
Models tokenizer.rs 10-24 (`Kind`, `Token`). -/
inductive Tok
  | p (p : P)
  | name (n : Txt)
  | int (raw : Txt)
  | float (raw : Txt)
  | str (raw : Txt)
  | block (raw : Txt)
  | bad
  deriving DecidableEq, Repr

/-- What is used of `f64`: the number a literal is read as, the text that `Display` writes, and
which numbers are finite. `F` is the type of the numbers. What is assumed of them is `FloatsOk`. -/
structure Floats (F : Type) where
  /-- `str::parse::<f64>` on a literal -/
  read : Txt → F
  /-- `Display` of `f64` -/
  disp : F → Txt
  /-- `f64::is_finite` -/
  finite : F → Bool

/-- Values of documents.
Models `lib/graphql-tools/src/parser/common.rs` 52-62 (`Value`). -/
inductive Val (F : Type)
  | var (n : Txt)
  | int (i : Int)
  | float (f : F)
  | str (s : Txt)
  | bool (b : Bool)
  | null
  | enum (e : Txt)
  | list (vs : List (Val F))
  | obj (fs : List (Txt × Val F))

/-- Types of variables. Models common.rs 86-91 (`Type`). -/
inductive Ty
  | named (n : Txt)
  | list (t : Ty)
  | nonNull (t : Ty)
  deriving DecidableEq, Repr

/-- A directive with its arguments. Models common.rs 35-40 (`Directive`) without the position. -/
structure Dir (F : Type) where
  name : Txt
  args : List (Txt × Val F)

/-- Selections. Models `lib/graphql-tools/src/parser/query/ast.rs` (`Selection`, `Field`,
`FragmentSpread`, `InlineFragment`) without positions. A field without a selection set has the empty
list, as in the code (grammar.rs 33-36). -/
inductive Sel (F : Type)
  | field (alias : Option Txt) (name : Txt) (args : List (Txt × Val F)) (dirs : List (Dir F))
      (sels : List (Sel F))
  | spread (name : Txt) (dirs : List (Dir F))
  | inline (cond : Option Txt) (dirs : List (Dir F)) (sels : List (Sel F))

/-- A variable definition. Models query/ast.rs (`VariableDefinition`). The language has directives
here, `dirs`; the tree of the code has no place for them. -/
structure VarDef (F : Type) where
  name : Txt
  ty : Ty
  default : Option (Val F)
  dirs : List (Dir F)

/-- The three kinds of operations. -/
inductive Kind
  | query | mutation | subscription
  deriving DecidableEq, Repr

/-- Definitions of a document. Models query/ast.rs (`Definition`, `OperationDefinition`,
`FragmentDefinition`). -/
inductive Def (F : Type)
  | short (sels : List (Sel F))
  | op (kind : Kind) (name : Option Txt) (vars : List (VarDef F)) (dirs : List (Dir F))
      (sels : List (Sel F))
  | frag (name : Txt) (cond : Txt) (dirs : List (Dir F)) (sels : List (Sel F))

abbrev Doc (F : Type) := List (Def F)

/-! ## The planner's side -/

/-- Values in the planner. Objects are lists in the order of their keys, as `BTreeMap` gives them.
Models `bin/router/src/query_planner/ast/value.rs` 12-23 (`Value`). -/
inductive PVal (F : Type)
  | var (n : Txt)
  | int (i : Int)
  | float (f : F)
  | str (s : Txt)
  | bool (b : Bool)
  | null
  | enum (e : Txt)
  | list (vs : List (PVal F))
  | obj (fs : List (Txt × PVal F))

/-- Selections in the planner. `args` is the map of arguments in the order of its keys; a field
without arguments has the empty list.
Models `query_planner/ast/selection_set.rs` 157-180 (`FieldSelection`), 301-330
(`InlineFragmentSelection`), `selection_item.rs` 14-31 (`SelectionItem`). -/
inductive PSel (F : Type)
  | field (alias : Option Txt) (name : Txt) (args : List (Txt × PVal F))
      (skip : Option Txt) (incl : Option Txt) (sels : List (PSel F))
  | inline (cond : Txt) (skip : Option Txt) (incl : Option Txt) (sels : List (PSel F))
  | spread (name : Txt)

/-- Models `query_planner/ast/operation.rs` 211-216 (`VariableDefinition`). -/
structure PVar (F : Type) where
  name : Txt
  ty : Ty
  default : Option (PVal F)

/-- Models `query_planner/ast/operation.rs` 18-27 (`OperationDefinition`). -/
structure POp (F : Type) where
  kind : Option Kind
  name : Option Txt
  vars : Option (List (PVar F))
  sels : List (PSel F)

/-- Models `query_planner/ast/fragment.rs` 11-16 (`FragmentDefinition`). -/
structure PFrag (F : Type) where
  name : Txt
  cond : Txt
  sels : List (PSel F)

/-- Models `query_planner/ast/document.rs` 34-38 (`Document`). -/
structure PDoc (F : Type) where
  op : POp F
  frags : List (PFrag F)

end Verif.Text
