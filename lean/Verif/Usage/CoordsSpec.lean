import Verif.Usage.Coords

/-!
# Usage reporting: what the parts of the schema are that an operation uses
-/

namespace Verif.Usage.Coords

open Verif.Valid

/-- The input type `m` is `n`, or the type of a field inside it. -/
inductive Within (s : Schema) (n : Name) : Name → Prop
  | self : Within s n n
  | field {m m' fs f} : Within s n m → s.typeByName m = some (.input m' fs) → f ∈ fs →
      Within s n f.ty.inner

/-- The report has what can be said of an input type: a scalar is named, and so are all values of an enum
and all fields of an input object. -/
def Tells (s : Schema) (us : List Used) (n : Name) : Prop :=
  match s.typeByName n with
  | some (.scalar m) => (Coord.type m, false) ∈ us
  | some (.enum m vs) => ∀ v ∈ vs, (Coord.member m v, false) ∈ us
  | some (.input m fs) => ∀ f ∈ fs, (Coord.member m f.name, false) ∈ us
  | some _ => True
  | none => n ∈ ["String", "Int", "Float", "Boolean", "ID"] → (Coord.type n, false) ∈ us

/-- The schema has this part. `__typename` is a field of every type that can be selected on. -/
inductive InSchema (s : Schema) : Coord → Prop
  | scalar {n m} : s.typeByName n = some (.scalar m) → InSchema s (.type n)
  | builtin {n} : n ∈ ["String", "Int", "Float", "Boolean", "ID"] → InSchema s (.type n)
  | typename {t : TypeDef} : t ∈ s.types → InSchema s (.member t.name "__typename")
  | field {t : TypeDef} {n f} : t ∈ s.types → t.fieldByName n = some f → InSchema s (.member t.name n)
  | input {t n defs b} : TypeDef.input t defs ∈ s.types → b ∈ defs → b.name = n →
      InSchema s (.member t n)
  | enum {t v vs} : TypeDef.enum t vs ∈ s.types → v ∈ vs → InSchema s (.member t v)
  | arg {t : TypeDef} {n f b} : t ∈ s.types → t.fieldByName n = some f → b ∈ f.args →
      InSchema s (.arg t.name n b.name)

/-- What a literal uses of the type that is expected for it: a value of an enum, or a scalar. -/
inductive Uses (s : Schema) (t : Name) : Val → Coord → Prop
  | enum (x) : Uses s t (.enum x) (.member t x)
  | builtin {v} : v.single → (∀ x, v ≠ .enum x) → t ∈ ["String", "Int", "Float", "Boolean", "ID"] →
      Uses s t v (.type t)
  | scalar {v m} : v.single → (∀ x, v ≠ .enum x) → s.typeByName t = some (.scalar m) →
      Uses s t v (.type t)

/-- Where the input type `t` is expected for the value `v`, the input type `t'` is expected for `w`, which
is `v` or stands in it. -/
inductive Inner (s : Schema) (t' : Name) (w : Val) : Name → Val → Prop
  | self : Inner s t' w t' w
  | item {t vs x} : x ∈ vs → Inner s t' w t x → Inner s t' w t (.list vs)
  | pair {t m fs n x defs b} : (n, x) ∈ fs → s.typeByName t = some (.input m defs) →
      defs.find? (fun b => b.name = n) = some b → Inner s t' w b.ty.inner x → Inner s t' w t (.obj fs)

/-- What validation asks of the document, as far as names of parts of the schema go: fields and arguments
are those of the schema, and names of enum values stand where that enum is expected. -/
structure NamesGood (s : Schema) (d : Doc) : Prop where
  fields : ∀ q al n args ds sub, Selects s d (some q) (.field al n args ds sub) →
    n = "__typename" ∨ ∃ f, q.fieldByName n = some f
  args : ∀ q al n args ds sub f, Selects s d (some q) (.field al n args ds sub) →
    q.fieldByName n = some f → ∀ a ∈ args, ∃ b ∈ f.args, b.name = a.1
  enums : ∀ t v t' x, Expected s d t v → Inner s t' (.enum x) t.inner v →
    ∃ m vs, s.typeByName t' = some (.enum m vs) ∧ x ∈ vs

/-- A value, as far as the document tells: not `null`, and if it is a variable, some operation has a default
for a variable of that name. -/
def HasValue (d : Doc) (v : Val) : Prop :=
  v ≠ .null ∧ ∀ n, v = .var n → ∃ o ∈ ops d, ∃ x ∈ o.vars, x.name = n ∧ x.default_ ≠ none

/-- The document gives a value for the argument of a field, or for the field of an input object: as an
argument, in an object literal, or in the default of a variable. -/
inductive Gives (s : Schema) (d : Doc) : Coord → Prop
  | arg {q al n args ds sub f a v} : Selects s d (some q) (.field al n args ds sub) →
      q.fieldByName n = some f → (a, v) ∈ args → HasValue d v → Gives s d (.arg q.name n a)
  | literal {t v t' fs m defs n x} : Expected s d t v → Inner s t' (.obj fs) t.inner v →
      s.typeByName t' = some (.input m defs) → (n, x) ∈ fs → HasValue d x → Gives s d (.member m n)
  | default_ {o w v t fs n x} : o ∈ ops d → w ∈ o.vars → w.default_ = some v →
      Inner s t (.obj fs) w.ty.inner v → (n, x) ∈ fs → Gives s d (.member t n)

/-- No directive has arguments. -/
def PlainDirectives (d : Doc) : Prop := ∀ l ds, Carries d l ds → ∀ x ∈ ds, x.args = []

end Verif.Usage.Coords
