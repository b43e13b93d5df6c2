import Verif.Text.Minify
import Verif.Text.Spec
import Verif.Text.Print
import Mathlib.Data.List.Lex
/-!
# The text under which an operation is reported

Models the part of `lib/hive-console-sdk/src/agent/utils.rs` that makes the text of an operation for a
report (520-788), the default traversal of `lib/graphql-tools/src/ast/operation_transformer.rs`, and
`minify_query_document` (`lib/graphql-tools/src/parser/query/minify.rs` 43-455).
-/
namespace Verif.Usage

open Verif.Text

/-! ## Transformed lists -/

/-- Models `Transformed` and `TransformedValue` (operation_transformer.rs 3-13). -/
inductive Tr (α : Type)
  | keep
  | replace (a : α)

/-- Models `replace_or_else` (operation_transformer.rs 23-31). -/
def Tr.orElse {α : Type} : Tr α → α → α
  | .keep, a => a
  | .replace b, _ => b

/-- The loop of `transform_list`: `before` are the items before the one that comes next, `res` the items
of the result, if there is one. -/
def transformLoop {α : Type} (f : α → Tr α) : List α → List α → Option (List α) → Option (List α)
  | _, [], res => res
  | before, a :: l, res =>
    match f a with
    | .keep => transformLoop f (before ++ [a]) l (res.map (· ++ [a]))
    | .replace b => transformLoop f (before ++ [a]) l (some (res.getD before ++ [b]))

/-- Models `transform_list` (operation_transformer.rs 492-525). -/
def transformList {α : Type} (f : α → Tr α) (l : List α) : Tr (List α) :=
  match transformLoop f [] l none with
  | none => .keep
  | some r => .replace r

theorem transformLoop_eq {α : Type} (f : α → Tr α) : ∀ (l before : List α) (res : Option (List α)),
    (∀ r, res = some r → r = before.map fun a => (f a).orElse a) →
    (res = none → before.map (fun a => (f a).orElse a) = before) →
    (transformLoop f before l res).getD (before ++ l) = (before ++ l).map fun a => (f a).orElse a
  | [], before, res, h, h' => by
    rw [List.append_nil, transformLoop]
    cases res with
    | none => exact (h' rfl).symm
    | some r => exact h r rfl
  | a :: l, before, res, h, h' => by
    rw [transformLoop]
    have e : before ++ a :: l = (before ++ [a]) ++ l := by simp
    rw [e]
    cases hf : f a with
    | keep =>
      refine transformLoop_eq f l (before ++ [a]) _ ?_ ?_
      · intro r hr
        cases res with
        | none => cases hr
        | some r' => cases hr; rw [h r' rfl]; simp [hf, Tr.orElse]
      · intro hr
        cases res with
        | none => rw [List.map_append, h' rfl]; simp [hf, Tr.orElse]
        | some r' => cases hr
    | replace b =>
      refine transformLoop_eq f l (before ++ [a]) _ ?_ (fun hr => by cases hr)
      intro r hr
      cases hr
      cases res with
      | none => rw [List.map_append, h' rfl]; simp [hf, Tr.orElse]
      | some r' => rw [h r' rfl]; simp [hf, Tr.orElse]

/-- A transformed list is the list of the transformed items. The model below says so at once. -/
theorem transformList_eq {α : Type} (f : α → Tr α) (l : List α) :
    (transformList f l).orElse l = l.map fun a => (f a).orElse a := by
  have := transformLoop_eq f l [] none (fun r h => by cases h) (fun _ => rfl)
  rw [List.nil_append] at this
  rw [← this, transformList]
  cases transformLoop f [] l none <;> rfl

section
variable {F : Type}

/-! ## Literals -/

mutual
/-- Models `StripLiteralsTransformer::transform_value` (utils.rs 525-557). -/
def stripVal (zero : F) : Val F → Val F
  | .var n => .var n
  | .int _ => .int 0
  | .float _ => .float zero
  | .str _ => .str []
  | .bool b => .bool b
  | .null => .null
  | .enum e => .enum e
  | .list vs => .list (stripVals zero vs)
  | .obj fs => .obj (stripEntries zero fs)
termination_by structural v => v
def stripVals (zero : F) : List (Val F) → List (Val F)
  | [] => []
  | v :: vs => stripVal zero v :: stripVals zero vs
termination_by structural vs => vs
/-- Also the arguments (operation_transformer.rs 373-399). -/
def stripEntries (zero : F) : List (Txt × Val F) → List (Txt × Val F)
  | [] => []
  | e :: es => stripEntry zero e :: stripEntries zero es
termination_by structural es => es
def stripEntry (zero : F) : Txt × Val F → Txt × Val F
  | (k, v) => (k, stripVal zero v)
termination_by structural e => e
end

/-- operation_transformer.rs 350-371. -/
def stripDir (zero : F) (d : Dir F) : Dir F := ⟨d.name, stripEntries zero d.args⟩

mutual
/-- Models `StripLiteralsTransformer::transform_field` (utils.rs 559-579) and, for fragments,
operation_transformer.rs 304-348. -/
def stripSel (zero : F) : Sel F → Sel F
  | .field _ n as ds ss => .field none n (stripEntries zero as) (ds.map (stripDir zero)) (stripSels zero ss)
  | .spread n ds => .spread n (ds.map (stripDir zero))
  | .inline c ds ss => .inline c (ds.map (stripDir zero)) (stripSels zero ss)
termination_by structural s => s
def stripSels (zero : F) : List (Sel F) → List (Sel F)
  | [] => []
  | s :: ss => stripSel zero s :: stripSels zero ss
termination_by structural ss => ss
end

/-- operation_transformer.rs 446-478. The tree of the code has no directives on variables. -/
def stripVar (zero : F) (v : VarDef F) : VarDef F := ⟨v.name, v.ty, v.default.map (stripVal zero), []⟩

/-- operation_transformer.rs 99-262. -/
def stripDef (zero : F) : Def F → Def F
  | .short ss => .short (stripSels zero ss)
  | .op k n vs ds ss => .op k n (vs.map (stripVar zero)) (ds.map (stripDir zero)) (stripSels zero ss)
  | .frag n c ds ss => .frag n c (ds.map (stripDir zero)) (stripSels zero ss)

def strip (zero : F) (d : Doc F) : Doc F := d.map (stripDef zero)

/-! ## Order -/

/-- A sort that is not stable: it gives the same items in the order of their keys. Nothing is said of
items with the same key. Stands for `sort_unstable_by` of Rust. -/
structure Sorter where
  sort : {α : Type} → (α → List Nat) → List α → List α
  perm : ∀ {α : Type} (k : α → List Nat) (l : List α), (sort k l).Perm l
  sorted : ∀ {α : Type} (k : α → List Nat) (l : List α), (sort k l).Pairwise fun a b => k a ≤ k b

/-- A text as the list of its code points, which are compared as the bytes of the code are. -/
def codes (t : Txt) : List Nat := t.map Char.toNat

/-- The order of selections: spreads by name, then inline fragments, then fields by name.
Models `compare_selections` and `selection_kind_ordering` (utils.rs 730-742, 763-769). -/
def selKey : Sel F → List Nat
  | .spread n _ => 1 :: codes n
  | .inline _ _ _ => [2]
  | .field _ n _ _ _ => 3 :: codes n

/-- The order of definitions: operations, then fragments by name. Models `compare_definitions` and
`definition_kind_ordering` (utils.rs 719-729, 772-777). -/
def defKey : Def F → List Nat
  | .short _ => [1]
  | .op _ _ _ _ _ => [1]
  | .frag n _ _ _ => 2 :: codes n

variable (S : Sorter)

/-- Models `SortSelectionsTransform::transform_arguments` (utils.rs 647-656). -/
def sortArgs (as : List (Txt × Val F)) : List (Txt × Val F) := S.sort (fun a => codes a.1) as

/-- Models `SortSelectionsTransform::transform_directives` (utils.rs 636-645). -/
def sortDirs (ds : List (Dir F)) : List (Dir F) :=
  S.sort (fun d => codes d.name) (ds.map fun d => ⟨d.name, sortArgs S d.args⟩)

mutual
/-- Models `SortSelectionsTransform::transform_selection` (utils.rs 690-716): a spread is kept as it is.
The cache by address gives what was computed for the same selection. -/
def sortSel : Sel F → Sel F
  | .field al n as ds ss => .field al n (sortArgs S as) (sortDirs S ds) (S.sort selKey (sortEach ss))
  | .spread n ds => .spread n ds
  | .inline c ds ss => .inline c (sortDirs S ds) (S.sort selKey (sortEach ss))
termination_by structural s => s
def sortEach : List (Sel F) → List (Sel F)
  | [] => []
  | s :: ss => sortSel s :: sortEach ss
termination_by structural ss => ss
end

/-- Models `SortSelectionsTransform::transform_selection_set` (utils.rs 625-634). -/
def sortSels (ss : List (Sel F)) : List (Sel F) := S.sort selKey (sortEach S ss)

/-- Models utils.rs 658-688 and operation_transformer.rs 99-216. The directives of a fragment are sorted,
their arguments are not. -/
def sortDef : Def F → Def F
  | .short ss => .short (sortSels S ss)
  | .op k n vs ds ss => .op k n (S.sort (fun v => codes v.name) vs) (sortDirs S ds) (sortSels S ss)
  | .frag n c ds ss => .frag n c (S.sort (fun d => codes d.name) ds) (sortSels S ss)

/-- Models `normalize_operation` (utils.rs 779-788) with `SortSelectionsTransform::transform_document`
(612-623). -/
def normalize (zero : F) (d : Doc F) : Doc F :=
  S.sort defKey ((strip zero d).map (sortDef S))

/-! ## The text -/

variable (num : F → Txt)

mutual
/-- The tokens of a value. `num` is the text of a number (`ryu`). A string is written as it is: of the
strings of the language only the empty one is left in what is reported, so escapes are not modelled.
Models `write_value` (minify.rs 409-455). -/
def valToks : Val F → List Tok
  | .var n => [.p .dollar, .name n]
  | .int i => [.int (intTxt i)]
  | .float f => [.float (num f)]
  | .str s => [.str s]
  | .bool b => [.name (if b then kwTrue else kwFalse)]
  | .null => [.name kwNull]
  | .enum e => [.name e]
  | .list vs => .p .lbr :: valsToks vs ++ [.p .rbr]
  | .obj fs => .p .lcur :: entriesToks fs ++ [.p .rcur]
termination_by structural v => v
def valsToks : List (Val F) → List Tok
  | [] => []
  | v :: vs => valToks v ++ valsToks vs
termination_by structural vs => vs
def entriesToks : List (Txt × Val F) → List Tok
  | [] => []
  | e :: es => entryToks e ++ entriesToks es
termination_by structural es => es
def entryToks : Txt × Val F → List Tok
  | (k, v) => .name k :: .p .colon :: valToks v
termination_by structural e => e
end

/-- Models `write_arguments` (minify.rs 272-283). -/
def argsToks (as : List (Txt × Val F)) : List Tok :=
  if as = [] then [] else .p .lpar :: entriesToks num as ++ [.p .rpar]

/-- Models `write_directives` (minify.rs 263-270). -/
def dirsToks : List (Dir F) → List Tok
  | [] => []
  | d :: ds => .p .at :: .name d.name :: argsToks num d.args ++ dirsToks ds

mutual
/-- Models `write_selection` (minify.rs 185-214). -/
def selToks : Sel F → List Tok
  | .field al n as ds ss =>
    (match al with
      | none => []
      | some a => [.name a, .p .colon]) ++ .name n :: argsToks num as ++ dirsToks num ds ++
      (if ss.isEmpty then [] else .p .lcur :: selsToks ss ++ [.p .rcur])
  | .spread n ds => .p .dots :: .name n :: dirsToks num ds
  | .inline c ds ss =>
    .p .dots :: (match c with
      | none => []
      | some n => [.name kwOn, .name n]) ++ dirsToks num ds ++ (.p .lcur :: selsToks ss ++ [.p .rcur])
termination_by structural s => s
def selsToks : List (Sel F) → List Tok
  | [] => []
  | s :: ss => selToks s ++ selsToks ss
termination_by structural ss => ss
end

/-- Models `write_selection_set` (minify.rs 175-183). -/
def setToks (ss : List (Sel F)) : List Tok := .p .lcur :: selsToks num ss ++ [.p .rcur]

/-- Models `write_type` (minify.rs 245-261). -/
def tyToks : Ty → List Tok
  | .named n => [.name n]
  | .list t => .p .lbr :: tyToks t ++ [.p .rbr]
  | .nonNull t => tyToks t ++ [.p .bang]

/-- Models the loop of `write_variable_definitions` (minify.rs 232-241). -/
def varsToks : List (VarDef F) → List Tok
  | [] => []
  | v :: vs => .p .dollar :: .name v.name :: .p .colon :: tyToks v.ty ++
      (match v.default with
        | none => []
        | some w => .p .eq :: valToks num w) ++ varsToks vs

/-- Models `write_variable_definitions` (minify.rs 226-243). -/
def varDefsToks (vs : List (VarDef F)) : List Tok :=
  if vs.isEmpty then [] else .p .lpar :: varsToks num vs ++ [.p .rpar]

/-- Models `write_definition`, `write_operation` and `write_fragment` (minify.rs 129-173). -/
def defToks : Def F → List Tok
  | .short ss => setToks num ss
  | .op k n vs ds ss =>
    .name (kwKind k) :: (match n with
      | none => []
      | some n => [.name n]) ++ varDefsToks num vs ++ dirsToks num ds ++ setToks num ss
  | .frag n c ds ss =>
    .name kwFragment :: .name n :: .name kwOn :: .name c :: dirsToks num ds ++ setToks num ss

/-- Models `write_document` (minify.rs 121-127). -/
def docToks : Doc F → List Tok
  | [] => []
  | d :: ds => defToks num d ++ docToks ds

/-- The text of an operation in a report. Models `OperationProcessor::transform` (utils.rs 862-864):
a space stands between two tokens that are not punctuators (minify.rs 95-119). -/
def reported (zero : F) (d : Doc F) : Txt := minifyToks false (docToks num (normalize S zero d))

end
end Verif.Usage
