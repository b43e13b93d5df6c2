import Verif.Auth.Model

/-!
# What authorization promises

Everything here is stated in terms of the supergraph's directives, the caller's token and the
operation's text. Of the model only the data types are used.
-/

namespace Verif.Auth

/-- The literal `[["a", "b"], ["c"]]`. -/
def scopesLit (gs : List (List String)) : Lit := .list (gs.map fun g => .list (g.map .str))

/-- The caller meets the directives written on a definition: `@requiresScopes` (one of the groups
is entirely among the token's scopes), or else `@authenticated` (there is a token). -/
def Meets (jwt : Jwt) (authenticated : Nat) (requires : List Lit) : Prop :=
  match requires with
  | [] => authenticated = 0 ∨ jwt.isSome
  | d :: _ => ∃ ss gs, jwt = some ss ∧ d = scopesLit gs ∧ ∃ g ∈ gs, ∀ s ∈ g, s ∈ ss

/-- The caller may see objects of type `t`. -/
def TypeAllowed (defs : List TypeDef) (jwt : Jwt) (t : String) : Prop :=
  ∀ d ∈ defs, d.ruled = true → d.name = t → Meets jwt d.authenticated d.requiresScopes

/-- The caller meets the directives on field `f` of type `t`. -/
def FieldAllowed (defs : List TypeDef) (jwt : Jwt) (t f : String) : Prop :=
  ∀ d ∈ defs, d.ruled = true → d.name = t → ∀ fd ∈ d.fields, fd.name = f →
    Meets jwt fd.authenticated fd.requiresScopes

/-- The caller may select field `f`, returning `out`, on type `t`. -/
def Allowed (defs : List TypeDef) (jwt : Jwt) (t f out : String) : Prop :=
  TypeAllowed defs jwt t ∧ FieldAllowed defs jwt t f ∧ TypeAllowed defs jwt out

/-- `@skip`/`@include` let the selection take part in execution. -/
def Live (vars : Vars) (skipIf includeIf : Option String) : Prop :=
  (∀ v, skipIf = some v → vars.lookup v ≠ some true) ∧
  (∀ v, includeIf = some v → vars.lookup v = some true)

/-- Executing `sels` on an object of static type `parent` selects field `f` (returning `out`) of
type `t`, somewhere. -/
inductive Requests (S : Schema) (vars : Vars) : String → List Sel → String → String → String → Prop
  | here {parent sels f s info} : Sel.field f s ∈ sels → Live vars f.skipIf f.includeIf →
      f.name ≠ "__typename" → S.field parent f.name = some info →
      Requests S vars parent sels parent f.name info.out
  | inField {parent sels f s info t n out} : Sel.field f s ∈ sels →
      Live vars f.skipIf f.includeIf → f.name ≠ "__typename" →
      S.field parent f.name = some info → Requests S vars info.out s t n out →
      Requests S vars parent sels t n out
  | inFrag {parent sels g s t n out} : Sel.frag g s ∈ sels → Live vars g.skipIf g.includeIf →
      Requests S vars g.cond s t n out → Requests S vars parent sels t n out

/-- Executing `sels` meets, somewhere, an inline fragment on `cond` inside the type `t`. -/
inductive Narrows (S : Schema) (vars : Vars) : String → List Sel → String → String → Prop
  | here {parent sels g s} : Sel.frag g s ∈ sels → Live vars g.skipIf g.includeIf →
      Narrows S vars parent sels parent g.cond
  | inField {parent sels f s info t c} : Sel.field f s ∈ sels →
      Live vars f.skipIf f.includeIf → f.name ≠ "__typename" →
      S.field parent f.name = some info → Narrows S vars info.out s t c →
      Narrows S vars parent sels t c
  | inFrag {parent sels g s t c} : Sel.frag g s ∈ sels → Live vars g.skipIf g.includeIf →
      Narrows S vars g.cond s t c → Narrows S vars parent sels t c

/-- Types reachable from a type through its fields and its possible types. -/
inductive Reaches (S : Schema) : String → String → Prop
  | refl (t) : Reaches S t t
  | field {t u n fs info} : S.typeFields.lookup t = some fs → (n, info) ∈ fs →
      Reaches S info.out u → Reaches S t u
  | possible {t u p ps} : S.possible.lookup t = some ps → p ∈ ps → Reaches S p u → Reaches S t u

/-- Definition `d` carries an authorization directive on itself or on one of its fields. -/
def Ruled (d : TypeDef) : Prop :=
  d.ruled = true ∧ (d.authenticated ≠ 0 ∨ d.requiresScopes ≠ [] ∨
    ∃ fd ∈ d.fields, fd.authenticated ≠ 0 ∨ fd.requiresScopes ≠ [])

/-- Some directive applies to `t` or to something reachable from it (a type that is not defined
counts as guarded). -/
def Guarded (defs : List TypeDef) (S : Schema) (t : String) : Prop :=
  (∀ d ∈ defs, d.name ≠ t) ∨ ∃ u d, Reaches S t u ∧ d ∈ defs ∧ d.name = u ∧ Ruled d

/-! ## What is taken out of the operation -/

/-- `p` leads to a field of `sels` through inline fragments only. -/
inductive FieldThroughFragments : List Sel → List Seg → Prop
  | here {sels f s} : Sel.field f s ∈ sels → FieldThroughFragments sels [.field f.key]
  | inFrag {sels g s p} : Sel.frag g s ∈ sels → FieldThroughFragments s p →
      FieldThroughFragments sels (.fragment g.cond :: p)

section
variable (S : Schema) (vars : Vars) (fieldOk : String → String → String → Prop)
  (fragOk : String → String → Prop)

/-- Removing the denied fields of `sels` leaves a non-null position of the enclosing object
without a value. -/
inductive Bubbles : String → List Sel → Prop
  | denied {parent sels f s info} : Sel.field f s ∈ sels → Live vars f.skipIf f.includeIf →
      f.name ≠ "__typename" → S.field parent f.name = some info →
      info.nullability.isNonNull = true → ¬ fieldOk parent f.name info.out → Bubbles parent sels
  | nested {parent sels f s info} : Sel.field f s ∈ sels → Live vars f.skipIf f.includeIf →
      f.name ≠ "__typename" → S.field parent f.name = some info →
      info.nullability.isNonNull = true → fieldOk parent f.name info.out →
      Bubbles info.out s → Bubbles parent sels
  | inFrag {parent sels g s} : Sel.frag g s ∈ sels → Live vars g.skipIf g.includeIf →
      fragOk g.cond parent → Bubbles g.cond s → Bubbles parent sels

/-- The paths (relative to `sels`, selected on `parent`) that are taken out: denied fields, fields
that lost a non-null child, and the fields of denied fragments. -/
inductive Removed : String → List Sel → List Seg → Prop
  | denied {parent sels f s info} : Sel.field f s ∈ sels → Live vars f.skipIf f.includeIf →
      f.name ≠ "__typename" → S.field parent f.name = some info →
      ¬ fieldOk parent f.name info.out → Removed parent sels [.field f.key]
  | bubbled {parent sels f s info} : Sel.field f s ∈ sels → Live vars f.skipIf f.includeIf →
      f.name ≠ "__typename" → S.field parent f.name = some info →
      fieldOk parent f.name info.out → Bubbles S vars fieldOk fragOk info.out s →
      Removed parent sels [.field f.key]
  | inField {parent sels f s info p} : Sel.field f s ∈ sels → Live vars f.skipIf f.includeIf →
      f.name ≠ "__typename" → S.field parent f.name = some info →
      fieldOk parent f.name info.out → Removed info.out s p →
      Removed parent sels (.field f.key :: p)
  | inFrag {parent sels g s p} : Sel.frag g s ∈ sels → Live vars g.skipIf g.includeIf →
      fragOk g.cond parent → Removed g.cond s p → Removed parent sels (.fragment g.cond :: p)
  | deniedFrag {parent sels g s p} : Sel.frag g s ∈ sels → Live vars g.skipIf g.includeIf →
      ¬ fragOk g.cond parent → FieldThroughFragments s p →
      Removed parent sels (.fragment g.cond :: p)

/-- The paths reported to the client: one for each denied field, and one for each denied fragment
(the path of the object it is written in). -/
inductive Denied : String → List Sel → List String → Prop
  | field {parent sels f s info} : Sel.field f s ∈ sels → Live vars f.skipIf f.includeIf →
      f.name ≠ "__typename" → S.field parent f.name = some info →
      ¬ fieldOk parent f.name info.out → Denied parent sels [f.key]
  | frag {parent sels g s} : Sel.frag g s ∈ sels → Live vars g.skipIf g.includeIf →
      ¬ fragOk g.cond parent → Denied parent sels []
  | inField {parent sels f s info p} : Sel.field f s ∈ sels → Live vars f.skipIf f.includeIf →
      f.name ≠ "__typename" → S.field parent f.name = some info →
      fieldOk parent f.name info.out → Denied info.out s p → Denied parent sels (f.key :: p)
  | inFrag {parent sels g s p} : Sel.frag g s ∈ sels → Live vars g.skipIf g.includeIf →
      fragOk g.cond parent → Denied g.cond s p → Denied parent sels p
end

/-- A leaf selection together with everything it is nested in, outermost first. -/
inductive Anc where
  | field (f : FieldInfo)
  | frag (g : FragInfo)

def Anc.seg : Anc → Seg
  | .field f => .field f.key
  | .frag g => .fragment g.cond

/-- The leaf selections of an operation in order, each with its chain of enclosing selections (the
leaf itself last). -/
def leaves : List Sel → List (List Anc)
  | [] => []
  | .field f [] :: rest => [.field f] :: leaves rest
  | .field f (x :: xs) :: rest => (leaves (x :: xs)).map (.field f :: ·) ++ leaves rest
  | .frag g s :: rest => (leaves s).map (.frag g :: ·) ++ leaves rest
  | .spread _ :: rest => leaves rest

/-- Every variable an operation mentions. -/
inductive Mentions : List Sel → String → Prop
  | arg {sels f s args n v x} : Sel.field f s ∈ sels → f.args = some args → (n, v) ∈ args →
      x ∈ litVars v → Mentions sels x
  | skip {sels f s x} : Sel.field f s ∈ sels → f.skipIf = some x → Mentions sels x
  | incl {sels f s x} : Sel.field f s ∈ sels → f.includeIf = some x → Mentions sels x
  | fragSkip {sels g s x} : Sel.frag g s ∈ sels → g.skipIf = some x → Mentions sels x
  | fragIncl {sels g s x} : Sel.frag g s ∈ sels → g.includeIf = some x → Mentions sels x
  | inField {sels f s x} : Sel.field f s ∈ sels → Mentions s x → Mentions sels x
  | inFrag {sels g s x} : Sel.frag g s ∈ sels → Mentions s x → Mentions sels x

end Verif.Auth
