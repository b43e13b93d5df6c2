import Verif.Valid.TypeSpec
import Verif.Valid.Overlap

/-!
# When two fields of a document cannot be merged into one response (5.3.2)

Stated on documents and schemas: nothing here refers to how the rule looks for conflicts. `Occ` is used
only as a record of a field and where it stands.
-/

namespace Verif.Valid

/-- Two values are the same: written the same, but for the order of the fields of objects. -/
inductive SameVal : Val → Val → Prop
  | refl (v) : SameVal v v
  | list {as bs : List Val} : as.length = bs.length → (∀ p ∈ as.zip bs, SameVal p.1 p.2) →
      SameVal (.list as) (.list bs)
  | obj {as bs : List (Name × Val)} : (as.map (·.1)).Nodup → as.length = bs.length →
      (∀ p ∈ as, ∃ v, (p.1, v) ∈ bs) → (∀ p ∈ as, ∀ v, (p.1, v) ∈ bs → SameVal p.2 v) →
      SameVal (.obj as) (.obj bs)

/-- Two fields have the same arguments, in whichever order. (If an argument is given twice then it has
no value that could be the same: no such document is valid.) -/
def SameArgs (as bs : Args) : Prop :=
  (as.map (·.1)).Nodup ∧ as.length = bs.length ∧ ∀ p ∈ as, ∃ v, (p.1, v) ∈ bs ∧ SameVal p.2 v

/-- Values of both types can stand for each other in a response: lists of such, none of them null or
both possibly, and if one is a scalar or an enum then the same. -/
inductive SameShape (s : Schema) : Ty → Ty → Prop
  | list {t u} : SameShape s t u → SameShape s (.list t) (.list u)
  | nonNull {t u} : SameShape s t u → SameShape s (.nonNull t) (.nonNull u)
  | named {a b} : ((∃ t, (s.typeByName a = some t ∨ s.typeByName b = some t) ∧ Leaf t) → a = b) →
      SameShape s (.named a) (.named b)

/-- The type that an inline fragment is on: the one it names, if the schema has it, or else the one in
scope. -/
def InScope (s : Schema) (p : Option TypeDef) (c : Option Name) (q : Option TypeDef) : Prop :=
  (∃ n t, c = some n ∧ s.typeByName n = some t ∧ q = some t) ∨
    ((∀ n, c = some n → s.typeByName n = none) ∧ q = p)

/-- The field belongs to the selection set `ss` on a value of type `p`: it stands in it, or in a
fragment of it. -/
inductive Collected (s : Schema) (d : Doc) : Option TypeDef → List Sel → Occ → Prop
  | field {p ss al n args ds sub} : Sel.field al n args ds sub ∈ ss →
      Collected s d p ss ⟨p, al.getD n, n, args, p.bind (·.fieldByName n), sub⟩
  | inline {p q ss c ds sub o} : Sel.inline c ds sub ∈ ss → InScope s p c q → Collected s d q sub o →
      Collected s d p ss o
  | spread {p ss n ds f o} : Sel.spread n ds ∈ ss → f ∈ frags d → f.name = n →
      Collected s d (s.typeByName f.cond) f.sels o → Collected s d p ss o

/-- Two fields are on different objects, so that never both are in a response. -/
def OnDifferent (a b : Occ) : Prop :=
  ∃ n is fs m js gs, a.parent = some (.object n is fs) ∧ b.parent = some (.object m js gs) ∧ n ≠ m

/-- Two fields with the same key in a response are in conflict; `apart` if no response has both.
They are different fields, or have different arguments, or their values cannot stand for each other,
or fields selected on their values are in conflict. -/
inductive Clash (s : Schema) (d : Doc) : Prop → Occ → Occ → Prop
  | name {apart a b} : ¬ apart → ¬ OnDifferent a b → a.name ≠ b.name → Clash s d apart a b
  | args {apart a b} : ¬ apart → ¬ OnDifferent a b → ¬ SameArgs a.args b.args → Clash s d apart a b
  | types {apart a b f g} : a.def_ = some f → b.def_ = some g → ¬ SameShape s f.ty g.ty →
      Clash s d apart a b
  | sub {apart a b x y} : Collected s d (a.ty s) a.sub x → Collected s d (b.ty s) b.sub y →
      x.key = y.key → Clash s d (apart ∨ OnDifferent a b) x y → Clash s d apart a b

/-- The document has the selection set, on a value of type `p`. -/
inductive HasSet (s : Schema) (d : Doc) : Option TypeDef → List Sel → Prop
  | root {x} : x ∈ d → HasSet s d (x.on s) x.sels
  | field {q al n args ds sub} : Selects s d q (.field al n args ds sub) →
      HasSet s d (typeOfField s q n) sub
  | cond {q c ds sub} : Selects s d q (.inline (some c) ds sub) → HasSet s d (s.typeByName c) sub
  | plain {q ds sub} : Selects s d q (.inline none ds sub) → HasSet s d q sub

/-- Some selection set has two fields with the same key that are in conflict. -/
def Conflicting (s : Schema) (d : Doc) : Prop :=
  ∃ p ss a b, HasSet s d p ss ∧ Collected s d p ss a ∧ Collected s d p ss b ∧ a.key = b.key ∧
    Clash s d False a b

/-- No fragment is spread in the selection set. -/
def NoSpreads (ss : List Sel) : Prop := ∀ n ds, ¬ Inside (.spread n ds) ss

/-- There is no list in the value, and no object of it has a field twice. -/
inductive PlainVal : Val → Prop
  | null : PlainVal .null
  | bool (b) : PlainVal (.bool b)
  | int (i) : PlainVal (.int i)
  | float (t) : PlainVal (.float t)
  | str (t) : PlainVal (.str t)
  | enum (n) : PlainVal (.enum n)
  | var (n) : PlainVal (.var n)
  | obj {fs : List (Name × Val)} : (fs.map (·.1)).Nodup → (∀ p ∈ fs, PlainVal p.2) → PlainVal (.obj fs)

/-- No argument is given twice, and there is no list in any. -/
def PlainArgs (as : Args) : Prop := (as.map (·.1)).Nodup ∧ ∀ p ∈ as, PlainVal p.2

/-- The document spreads nothing, all its inline fragments are on types that the schema has, and all
its arguments are plain. -/
structure PlainDoc (s : Schema) (d : Doc) : Prop where
  spreads : ∀ x ∈ d, NoSpreads x.sels
  args : ∀ x ∈ d, ∀ al n as ds sub, Inside (.field al n as ds sub) x.sels → PlainArgs as
  conds : ∀ x ∈ d, ∀ c ds sub, Inside (.inline (some c) ds sub) x.sels → ∃ t, s.typeByName c = some t

end Verif.Valid
