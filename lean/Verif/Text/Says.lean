import Verif.Text.Spec
/-!
# What a planned document says

`PlanSays` relates a document of the planner to the document of the language that says the same.
`Printable` says which documents of the planner can be written at all.
-/
namespace Verif.Text

section
variable {F : Type} (S : Floats F)

/-- What the Rust standard library says of the text of a finite number: it is an integer or has
digits after a point, and reading it gives the number back. What is not finite has no literal. -/
structure FloatsOk : Prop where
  literal : ∀ f, S.finite f = true → IsInt (S.disp f) ∨ IsFloat (S.disp f)
  back : ∀ f, S.finite f = true → S.read (S.disp f) = f
  other : ∀ f, S.finite f = false →
    S.disp f = ['i', 'n', 'f'] ∨ S.disp f = ['-', 'i', 'n', 'f'] ∨ S.disp f = ['N', 'a', 'N']

mutual
/-- A value of the planner and the same value of a document. A number may be written as an integer
literal of the same number. -/
inductive ValSays : PVal F → Val F → Prop
  | var (n : Txt) : ValSays (.var n) (.var n)
  | int (i : Int) : ValSays (.int i) (.int i)
  | float (f : F) : ValSays (.float f) (.float f)
  | whole (f : F) (t : Txt) : IsInt t → S.read t = f → ValSays (.float f) (.int (intOf t))
  | str (s : Txt) : ValSays (.str s) (.str s)
  | bool (b : Bool) : ValSays (.bool b) (.bool b)
  | null : ValSays .null .null
  | enum (e : Txt) : ValSays (.enum e) (.enum e)
  | list (ps : List (PVal F)) (vs : List (Val F)) : ValsSay ps vs → ValSays (.list ps) (.list vs)
  | obj (ps : List (Txt × PVal F)) (vs : List (Txt × Val F)) : EntriesSay ps vs →
      ValSays (.obj ps) (.obj vs)
inductive ValsSay : List (PVal F) → List (Val F) → Prop
  | nil : ValsSay [] []
  | cons (p : PVal F) (v : Val F) (ps : List (PVal F)) (vs : List (Val F)) : ValSays p v →
      ValsSay ps vs → ValsSay (p :: ps) (v :: vs)
inductive EntriesSay : List (Txt × PVal F) → List (Txt × Val F) → Prop
  | nil : EntriesSay [] []
  | cons (k : Txt) (p : PVal F) (v : Val F) (ps : List (Txt × PVal F)) (vs : List (Txt × Val F)) :
      ValSays p v → EntriesSay ps vs → EntriesSay ((k, p) :: ps) ((k, v) :: vs)
end

/-- `@name(if: $x)`, if there is a condition. -/
def ifDir (name : Txt) : Option Txt → List (Dir F)
  | none => []
  | some v => [⟨name, [(['i', 'f'], .var v)]⟩]

/-- `@skip` and `@include`. -/
def ifDirs (skip incl : Option Txt) : List (Dir F) :=
  ifDir ['s', 'k', 'i', 'p'] skip ++ ifDir ['i', 'n', 'c', 'l', 'u', 'd', 'e'] incl

mutual
inductive SelSays : PSel F → Sel F → Prop
  | field (al : Option Txt) (n : Txt) (ps : List (Txt × PVal F)) (vs : List (Txt × Val F))
      (sk inc : Option Txt) (p : List (PSel F)) (s : List (Sel F)) : EntriesSay S ps vs →
      SelsSay p s → SelSays (.field al n ps sk inc p) (.field al n vs (ifDirs sk inc) s)
  | inline (c : Txt) (sk inc : Option Txt) (p : List (PSel F)) (s : List (Sel F)) : SelsSay p s →
      SelSays (.inline c sk inc p) (.inline (some c) (ifDirs sk inc) s)
  | spread (n : Txt) : SelSays (.spread n) (.spread n [])
inductive SelsSay : List (PSel F) → List (Sel F) → Prop
  | nil : SelsSay [] []
  | cons (p : PSel F) (s : Sel F) (ps : List (PSel F)) (ss : List (Sel F)) : SelSays p s →
      SelsSay ps ss → SelsSay (p :: ps) (s :: ss)
end

inductive DefaultSays : Option (PVal F) → Option (Val F) → Prop
  | none : DefaultSays none none
  | some (p : PVal F) (v : Val F) : ValSays S p v → DefaultSays (some p) (some v)

inductive VarsSay : List (PVar F) → List (VarDef F) → Prop
  | nil : VarsSay [] []
  | cons (n : Txt) (t : Ty) (p : Option (PVal F)) (v : Option (Val F)) (ps : List (PVar F))
      (vs : List (VarDef F)) : DefaultSays S p v → VarsSay ps vs →
      VarsSay (⟨n, t, p⟩ :: ps) (⟨n, t, v, []⟩ :: vs)

/-- The name of an operation; the empty name is none. -/
def nameOf : Option Txt → Option Txt
  | some [] => none
  | n => n

/-- An operation of the planner, and the same operation of a document: of the same kind, a query if
there is none, with the same name and variables. A query without name and variables may be
written in the short form. -/
inductive OpSays : POp F → Def F → Prop
  | op (o : POp F) (vs : List (VarDef F)) (s : List (Sel F)) : VarsSay S (o.vars.getD []) vs →
      SelsSay S o.sels s → OpSays o (.op (o.kind.getD .query) (nameOf o.name) vs [] s)
  | short (o : POp F) (s : List (Sel F)) : o.kind.getD .query = .query → nameOf o.name = none →
      o.vars.getD [] = [] → SelsSay S o.sels s → OpSays o (.short s)

inductive FragsSay : List (PFrag F) → List (Def F) → Prop
  | nil : FragsSay [] []
  | cons (f : PFrag F) (s : List (Sel F)) (fs : List (PFrag F)) (ds : List (Def F)) :
      SelsSay S f.sels s → FragsSay fs ds → FragsSay (f :: fs) (.frag f.name f.cond [] s :: ds)

/-- A document of the planner and the same document of the language. -/
def PlanSays (p : PDoc F) (d : Doc F) : Prop :=
  ∃ o fs, d = o :: fs ∧ OpSays S p.op o ∧ FragsSay S p.frags fs

/-! ## Documents that can be written -/

mutual
/-- Names are names, enum values are none of the three keywords, numbers are finite; no variables if
the flag is set. -/
def GoodVal (const : Bool) : PVal F → Prop
  | .var n => const = false ∧ IsName n
  | .int _ => True
  | .float f => S.finite f = true
  | .str _ => True
  | .bool _ => True
  | .null => True
  | .enum e => IsName e ∧ e ≠ kwTrue ∧ e ≠ kwFalse ∧ e ≠ kwNull
  | .list vs => GoodVals const vs
  | .obj fs => GoodEntries const fs
termination_by structural v => v
def GoodVals (const : Bool) : List (PVal F) → Prop
  | [] => True
  | v :: vs => GoodVal const v ∧ GoodVals const vs
termination_by structural vs => vs
def GoodEntries (const : Bool) : List (Txt × PVal F) → Prop
  | [] => True
  | e :: es => GoodEntry const e ∧ GoodEntries const es
termination_by structural es => es
def GoodEntry (const : Bool) : Txt × PVal F → Prop
  | (k, v) => IsName k ∧ GoodVal const v
termination_by structural e => e
end

def GoodName (n : Option Txt) : Prop := ∀ t, n = some t → IsName t

mutual
def GoodSel : PSel F → Prop
  | .field al n as sk inc ss => GoodName al ∧ IsName n ∧ GoodEntries S false as ∧ GoodName sk ∧
      GoodName inc ∧ GoodSels ss
  | .inline c sk inc ss => IsName c ∧ GoodName sk ∧ GoodName inc ∧ ss ≠ [] ∧ GoodSels ss
  | .spread n => IsName n ∧ n ≠ kwOn
termination_by structural s => s
def GoodSels : List (PSel F) → Prop
  | [] => True
  | s :: ss => GoodSel s ∧ GoodSels ss
termination_by structural ss => ss
end

/-- Types are made of names, and `!` is not repeated. -/
def GoodType : Ty → Prop
  | .named n => IsName n
  | .list t => GoodType t
  | .nonNull t => (∀ u, t ≠ .nonNull u) ∧ GoodType t

def GoodVar (v : PVar F) : Prop :=
  IsName v.name ∧ GoodType v.ty ∧ ∀ d, v.default = some d → GoodVal S true d

/-- An operation that selects something and has a kind if it has a name or variables. -/
def GoodOp (o : POp F) : Prop :=
  GoodName (nameOf o.name) ∧ (∀ v ∈ o.vars.getD [], GoodVar S v) ∧ o.sels ≠ [] ∧ GoodSels S o.sels ∧
    (o.kind = none → nameOf o.name = none ∧ o.vars.getD [] = [])

def GoodFrag (f : PFrag F) : Prop :=
  IsName f.name ∧ f.name ≠ kwOn ∧ IsName f.cond ∧ f.sels ≠ [] ∧ GoodSels S f.sels

/-- A document that can be written: names are names, nothing that needs a selection is without one,
numbers are finite. -/
def Printable (d : PDoc F) : Prop := GoodOp S d.op ∧ ∀ f ∈ d.frags, GoodFrag S f

end
end Verif.Text
