import Verif.Valid.Model

/-!
# What it means for a document to be valid: names, fragments and variables

Stated on documents alone: nothing here mentions the visitor or what a rule remembers. The sections
cited are of the GraphQL specification.
-/

namespace Verif.Valid

/-- The selection `x` occurs in the selection set `ss`, at any depth, not going through spreads. -/
inductive Inside (x : Sel) : List Sel → Prop
  | here {ss : List Sel} : x ∈ ss → Inside x ss
  | field {ss : List Sel} {al n args ds sub} :
      Sel.field al n args ds sub ∈ ss → Inside x sub → Inside x ss
  | inline {ss : List Sel} {cond ds sub} :
      Sel.inline cond ds sub ∈ ss → Inside x sub → Inside x ss

/-- The fragment `n` is spread in the selection set, at any depth. -/
def SpreadIn (ss : List Sel) (n : Name) : Prop := ∃ ds, Inside (.spread n ds) ss

/-- The fragment `n` is spread in the selection set, or in a fragment that is. -/
inductive Reaches (d : Doc) : List Sel → Name → Prop
  | direct {ss n} : SpreadIn ss n → Reaches d ss n
  | through {ss n} {f : Frag} :
      SpreadIn ss f.name → f ∈ frags d → Reaches d f.sels n → Reaches d ss n

/-- The variable `v` occurs in the value. -/
inductive VarIn (v : Name) : Val → Prop
  | self : VarIn v (.var v)
  | item {vs : List Val} {x : Val} : x ∈ vs → VarIn v x → VarIn v (.list vs)
  | pair {fs : List (Name × Val)} {p : Name × Val} : p ∈ fs → VarIn v p.2 → VarIn v (.obj fs)

/-- The arguments of directives. -/
def dirArgs (ds : List Dir) : Args := ds.flatMap (·.args)

/-- The arguments that stand at a selection: its own and those of its directives. -/
def selArgs : Sel → Args
  | .field _ _ args ds _ => args ++ dirArgs ds
  | .spread _ ds => dirArgs ds
  | .inline _ ds _ => dirArgs ds

/-- The variable is used in the value of an argument, in the directives of a definition or in its
selection set. -/
def UsedIn (ds : List Dir) (ss : List Sel) (v : Name) : Prop :=
  (∃ a ∈ dirArgs ds, VarIn v a.2) ∨ ∃ x, Inside x ss ∧ ∃ a ∈ selArgs x, VarIn v a.2

/-- The operation uses the variable: in itself, or in a fragment it reaches. -/
def Uses (d : Doc) (o : Op) (v : Name) : Prop :=
  UsedIn o.dirs o.sels v ∨
    ∃ f ∈ frags d, Reaches d o.sels f.name ∧ UsedIn f.dirs f.sels v

/-- Every operation can be told from the others: no two named operations have the same name
(5.2.1.1), and an operation without a name is the only one (5.2.2.1). -/
def OperationsNamed (d : Doc) : Prop :=
  ((ops d).filterMap (·.name)).Nodup ∧ (∀ o ∈ ops d, o.name = none → ops d = [o])

/-- The selection set of a definition. -/
def Def.sels : Def → List Sel
  | .op o => o.sels
  | .frag f => f.sels

/-- Fragments have names of their own (5.5.1.1), every spread names a fragment of the document
(5.5.2.1), and every fragment is reached from some operation (5.5.1.4). -/
structure FragmentsGood (d : Doc) : Prop where
  names : ((frags d).map (·.name)).Nodup
  known : ∀ x ∈ d, ∀ n, SpreadIn x.sels n →
    ∃ f ∈ frags d, f.name = n
  used : ∀ f ∈ frags d, ∃ o ∈ ops d, Reaches d o.sels f.name

/-- No fragment is reached from itself (5.5.2.2). -/
def NoCycle (d : Doc) : Prop := ∀ f ∈ frags d, ¬ Reaches d f.sels f.name

/-- The fragment `n` is spread in the selection set, or in the selection set of a field or an inline
fragment that is in it; not deeper. -/
def NearSpread (ss : List Sel) (n : Name) : Prop :=
  (∃ ds, Sel.spread n ds ∈ ss) ∨
    (∃ al m args ds sub ds', Sel.field al m args ds sub ∈ ss ∧ Sel.spread n ds' ∈ sub) ∨
    (∃ c ds sub ds', Sel.inline c ds sub ∈ ss ∧ Sel.spread n ds' ∈ sub)

/-- The fragment `n` is spread near in the selection set, or in a fragment that is. -/
inductive NearReaches (d : Doc) : List Sel → Name → Prop
  | direct {ss n} : NearSpread ss n → NearReaches d ss n
  | through {ss n} {f : Frag} :
      NearSpread ss f.name → f ∈ frags d → NearReaches d f.sels n → NearReaches d ss n

/-- The type is the named one, or a list of it, or a list of lists of it that is never null, … -/
inductive Wraps : Ty → Name → Prop
  | named (n : Name) : Wraps (.named n) n
  | list {t : Ty} {n : Name} : Wraps t n → Wraps (.list t) n
  | nonNull {t : Ty} {n : Name} : Wraps t n → Wraps (.nonNull t) n

/-- One can give values of the type: it is a scalar, an enum or an input object. -/
def TakesValues (t : TypeDef) : Prop :=
  (∃ n, t = .scalar n) ∨ (∃ n vs, t = .enum n vs) ∨ ∃ n fs, t = .input n fs

/-- The variables of every operation have different names (5.8.1), are of no types of the schema that
one cannot give values of (5.8.2), are all the variables that it uses (5.8.3), and are all used (5.8.4). -/
structure VariablesGood (s : Schema) (d : Doc) : Prop where
  names : ∀ o ∈ ops d, (o.vars.map (·.name)).Nodup
  types : ∀ o ∈ ops d, ∀ v ∈ o.vars, ∀ n t, Wraps v.ty n → s.typeByName n = some t → TakesValues t
  defined : ∀ o ∈ ops d, ∀ v, Uses d o v → ∃ w ∈ o.vars, w.name = v
  used : ∀ o ∈ ops d, ∀ w ∈ o.vars, Uses d o w.name

end Verif.Valid
