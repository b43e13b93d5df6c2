import Verif.Usage.Normalize
/-!
# What the reported text of an operation is meant to tell

It tells no literal and no alias of the operation, and it tells all else, up to order.
-/
namespace Verif.Usage

open Verif.Text

section
variable {F : Type}

/-! ## No literals, no aliases -/

mutual
/-- All numbers are zero and all strings are empty. -/
def CleanVal (zero : F) : Val F → Prop
  | .int i => i = 0
  | .float f => f = zero
  | .str s => s = []
  | .list vs => CleanVals zero vs
  | .obj fs => CleanEntries zero fs
  | _ => True
termination_by structural v => v
def CleanVals (zero : F) : List (Val F) → Prop
  | [] => True
  | v :: vs => CleanVal zero v ∧ CleanVals zero vs
termination_by structural vs => vs
def CleanEntries (zero : F) : List (Txt × Val F) → Prop
  | [] => True
  | e :: es => CleanEntry zero e ∧ CleanEntries zero es
termination_by structural es => es
def CleanEntry (zero : F) : Txt × Val F → Prop
  | (_, v) => CleanVal zero v
termination_by structural e => e
end

def CleanDirs (zero : F) (ds : List (Dir F)) : Prop := ∀ d ∈ ds, CleanEntries zero d.args

mutual
/-- No field has an alias, and all arguments are clean. -/
def CleanSel (zero : F) : Sel F → Prop
  | .field al _ as ds ss => al = none ∧ CleanEntries zero as ∧ CleanDirs zero ds ∧ CleanSels zero ss
  | .spread _ ds => CleanDirs zero ds
  | .inline _ ds ss => CleanDirs zero ds ∧ CleanSels zero ss
termination_by structural s => s
def CleanSels (zero : F) : List (Sel F) → Prop
  | [] => True
  | s :: ss => CleanSel zero s ∧ CleanSels zero ss
termination_by structural ss => ss
end

def CleanVar (zero : F) (v : VarDef F) : Prop := (∀ w, v.default = some w → CleanVal zero w) ∧ v.dirs = []

def CleanDef (zero : F) : Def F → Prop
  | .short ss => CleanSels zero ss
  | .op _ _ vs ds ss => (∀ v ∈ vs, CleanVar zero v) ∧ CleanDirs zero ds ∧ CleanSels zero ss
  | .frag _ _ ds ss => CleanDirs zero ds ∧ CleanSels zero ss

/-- A document without literals and aliases. -/
def CleanDoc (zero : F) (d : Doc F) : Prop := ∀ x ∈ d, CleanDef zero x

/-! ## The same but for literals and aliases and, with the flag, order -/

mutual
/-- Values that differ in numbers and strings only. -/
inductive LikeVal : Val F → Val F → Prop
  | var (n : Txt) : LikeVal (.var n) (.var n)
  | int (i j : Int) : LikeVal (.int i) (.int j)
  | float (f g : F) : LikeVal (.float f) (.float g)
  | str (s t : Txt) : LikeVal (.str s) (.str t)
  | bool (b : Bool) : LikeVal (.bool b) (.bool b)
  | null : LikeVal .null .null
  | enum (n : Txt) : LikeVal (.enum n) (.enum n)
  | list (vs ws : List (Val F)) : LikeVals vs ws → LikeVal (.list vs) (.list ws)
  | obj (fs gs : List (Txt × Val F)) : LikeEntries fs gs → LikeVal (.obj fs) (.obj gs)
inductive LikeVals : List (Val F) → List (Val F) → Prop
  | nil : LikeVals [] []
  | cons (v w : Val F) (vs ws : List (Val F)) : LikeVal v w → LikeVals vs ws → LikeVals (v :: vs) (w :: ws)
inductive LikeEntries : List (Txt × Val F) → List (Txt × Val F) → Prop
  | nil : LikeEntries [] []
  | cons (k : Txt) (v w : Val F) (vs ws : List (Txt × Val F)) : LikeVal v w → LikeEntries vs ws →
      LikeEntries ((k, v) :: vs) ((k, w) :: ws)
end

/-- Arguments that differ in literals only; with the flag, also in their order. -/
inductive SameArgs (p : Bool) : List (Txt × Val F) → List (Txt × Val F) → Prop
  | nil : SameArgs p [] []
  | cons (k : Txt) (v w : Val F) (vs ws : List (Txt × Val F)) : LikeVal v w → SameArgs p vs ws →
      SameArgs p ((k, v) :: vs) ((k, w) :: ws)
  | perm (as bs cs : List (Txt × Val F)) : p = true → SameArgs p as bs → bs.Perm cs → SameArgs p as cs

inductive SameDirs (p : Bool) : List (Dir F) → List (Dir F) → Prop
  | nil : SameDirs p [] []
  | cons (n : Txt) (as bs : List (Txt × Val F)) (ds es : List (Dir F)) : SameArgs p as bs →
      SameDirs p ds es → SameDirs p (⟨n, as⟩ :: ds) (⟨n, bs⟩ :: es)
  | perm (as bs cs : List (Dir F)) : p = true → SameDirs p as bs → bs.Perm cs → SameDirs p as cs

mutual
/-- Selections that differ in literals and aliases only; with the flag, also in order. -/
inductive SameSel (p : Bool) : Sel F → Sel F → Prop
  | field (al bl : Option Txt) (n : Txt) (as bs : List (Txt × Val F)) (ds es : List (Dir F))
      (ss ts : List (Sel F)) : SameArgs p as bs → SameDirs p ds es → SameSels p ss ts →
      SameSel p (.field al n as ds ss) (.field bl n bs es ts)
  | spread (n : Txt) (ds es : List (Dir F)) : SameDirs p ds es → SameSel p (.spread n ds) (.spread n es)
  | inline (c : Option Txt) (ds es : List (Dir F)) (ss ts : List (Sel F)) : SameDirs p ds es →
      SameSels p ss ts → SameSel p (.inline c ds ss) (.inline c es ts)
inductive SameSels (p : Bool) : List (Sel F) → List (Sel F) → Prop
  | nil : SameSels p [] []
  | cons (s t : Sel F) (ss ts : List (Sel F)) : SameSel p s t → SameSels p ss ts →
      SameSels p (s :: ss) (t :: ts)
  | perm (as bs cs : List (Sel F)) : p = true → SameSels p as bs → bs.Perm cs → SameSels p as cs
end

/-- Default values. -/
inductive LikeDefault : Option (Val F) → Option (Val F) → Prop
  | none : LikeDefault none none
  | some (v w : Val F) : LikeVal v w → LikeDefault (some v) (some w)

/-- Variables; the code has no directives on them. -/
inductive SameVars (p : Bool) : List (VarDef F) → List (VarDef F) → Prop
  | nil : SameVars p [] []
  | cons (n : Txt) (ty : Ty) (v w : Option (Val F)) (vs ws : List (VarDef F)) : LikeDefault v w →
      SameVars p vs ws → SameVars p (⟨n, ty, v, []⟩ :: vs) (⟨n, ty, w, []⟩ :: ws)
  | perm (as bs cs : List (VarDef F)) : p = true → SameVars p as bs → bs.Perm cs → SameVars p as cs

inductive SameDef (p : Bool) : Def F → Def F → Prop
  | short (ss ts : List (Sel F)) : SameSels p ss ts → SameDef p (.short ss) (.short ts)
  | op (k : Kind) (n : Option Txt) (vs ws : List (VarDef F)) (ds es : List (Dir F)) (ss ts : List (Sel F)) :
      SameVars p vs ws → SameDirs p ds es → SameSels p ss ts →
      SameDef p (.op k n vs ds ss) (.op k n ws es ts)
  | frag (n c : Txt) (ds es : List (Dir F)) (ss ts : List (Sel F)) : SameDirs p ds es → SameSels p ss ts →
      SameDef p (.frag n c ds ss) (.frag n c es ts)

/-- Documents that differ in literals and aliases only; with the flag, also in order. -/
inductive SameDoc (p : Bool) : Doc F → Doc F → Prop
  | nil : SameDoc p [] []
  | cons (d e : Def F) (ds es : Doc F) : SameDef p d e → SameDoc p ds es → SameDoc p (d :: ds) (e :: es)
  | perm (as bs cs : Doc F) : p = true → SameDoc p as bs → bs.Perm cs → SameDoc p as cs

/-- No variable has directives: so it is in the documents that the router accepts. -/
def NoVarDirs (d : Doc F) : Prop :=
  ∀ k n vs ds ss, Def.op k n vs ds ss ∈ d → ∀ v ∈ vs, v.dirs = []

/-! ## Where order cannot matter -/

/-- Arguments with different names. -/
def ApartArgs (as : List (Txt × Val F)) : Prop := (as.map (·.1)).Nodup

/-- Directives with different names, and so their arguments. -/
def ApartDirs (ds : List (Dir F)) : Prop := (ds.map (·.name)).Nodup ∧ ∀ d ∈ ds, ApartArgs d.args

/-- How selections are told apart: fields by their names, without aliases; spreads by their names;
inline fragments not at all. -/
inductive SelTag
  | field (n : Txt) | spread (n : Txt) | inline

def tagOf : Sel F → SelTag
  | .field _ n _ _ _ => .field n
  | .spread n _ => .spread n
  | .inline _ _ _ => .inline

mutual
/-- Within each set all selections are told apart; a spread has at most one directive, with at most one
argument. -/
def ApartSel : Sel F → Prop
  | .field _ _ as ds ss => ApartArgs as ∧ ApartDirs ds ∧ (ss.map tagOf).Nodup ∧ ApartSels ss
  | .spread _ ds => ds.length ≤ 1 ∧ ∀ d ∈ ds, d.args.length ≤ 1
  | .inline _ ds ss => ApartDirs ds ∧ (ss.map tagOf).Nodup ∧ ApartSels ss
termination_by structural s => s
def ApartSels : List (Sel F) → Prop
  | [] => True
  | s :: ss => ApartSel s ∧ ApartSels ss
termination_by structural ss => ss
end

def ApartSet (ss : List (Sel F)) : Prop := (ss.map tagOf).Nodup ∧ ApartSels ss

def ApartDef : Def F → Prop
  | .short ss => ApartSet ss
  | .op _ _ vs ds ss => (vs.map (·.name)).Nodup ∧ ApartDirs ds ∧ ApartSet ss
  | .frag _ _ ds ss => (ds.map (·.name)).Nodup ∧ (∀ d ∈ ds, d.args.length ≤ 1) ∧ ApartSet ss

/-- The name of a fragment; all operations count as one. -/
def fragOf : Def F → Option Txt
  | .frag n _ _ _ => some n
  | _ => none

/-- One operation at most, fragments with different names, and so on within them. -/
def ApartDoc (d : Doc F) : Prop := (d.map fragOf).Nodup ∧ ∀ x ∈ d, ApartDef x

end
end Verif.Usage
