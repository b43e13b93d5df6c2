import Verif.Builder.Model
import Verif.Projection.CondProps
import Verif.Projection.Spec

/-!
# What an operation asks for and what a plan shows

Both are sets of paths into a response. At each level a path has the runtime type of the object, the
response key, and the field. The operation's side is GraphQL's `CollectFields` (October 2021, 6.3.2):
nothing in it refers to the plan builder.
-/

namespace Verif.Builder

open Verif.Projection Verif.Json
open Verif.Normalize (Item)

/-- One level of a path. -/
structure Step where
  type : String
  key : String
  name : String

/-! ## The schema -/

/-- `T` is `C` or a possible type of `C`. -/
def OfType (S : Meta) (T C : String) : Prop :=
  T = C ∨ ∃ l, S.possible.lookup C = some l ∧ T ∈ l

/-- The types an object can have where the type `P` is declared. -/
def Obj (S : Meta) (P T : String) : Prop := T ∈ S.objects ∧ OfType S T P

/-- The schema: object and scalar types have no subtypes, `String` is no enum, subtypes of subtypes
are subtypes, and an implementing type has the fields of its interface, of the same output type. (A *narrower* type is allowed by
GraphQL: see `C51_narrowed_field`.) -/
structure MetaOk (S : Meta) : Prop where
  sets : ∀ C l, S.possible.lookup C = some l → l.Nodup
  object : ∀ C, C ∈ S.objects → S.possible.lookup C = none
  scalar : ∀ C, C ∈ S.scalars → S.possible.lookup C = none
  string : S.enums.lookup "String" = none
  trans : ∀ A B C, OfType S A B → OfType S B C → OfType S A C
  fields : ∀ Q T n ft, OfType S T Q → S.field Q n = some ft →
    ∃ ft', S.field T n = some ft' ∧ ft'.out = ft.out

/-- The path can occur in a response: the object at its start is of one of the types `D`, and every
object below is of a possible type of the field it is the value of. -/
def Fits (S : Meta) : (String → Prop) → List Step → Prop
  | _, [] => True
  | D, st :: rest => D st.type ∧
      (rest = [] ∨ (st.name ≠ "__typename" ∧
        ∃ ft, S.field st.type st.name = some ft ∧ Fits S (Obj S ft.out) rest))

/-! ## Directives -/

/-- Which `@include(if: $v)` and which `@skip(if: $v)` let a selection through. -/
structure Val where
  incl : String → Prop
  skip : String → Prop

/-- What the variables of a request let through. -/
def Val.of (σ : String → Bool) : Val := ⟨fun v => σ v = true, fun v => σ v = false⟩

/-- Directives set aside, as in the rules of validation. -/
def Val.free : Val := ⟨fun _ => True, fun _ => True⟩

/-- The directives of a selection let it through. -/
def Lets (V : Val) (si ii : Option String) : Prop :=
  (∀ v, ii = some v → V.incl v) ∧ (∀ v, si = some v → V.skip v)

/-! ## The operation -/

/-- `CollectFields`: for an object of type `T`, the selection set has a field with this response key,
name and selections. What is marked as omitted from the response is not collected. -/
inductive Collects (S : Meta) (V : Val) (T : String) :
    List Item → String → String → List Item → Prop where
  | field {s : List Item} {a : Option String} {n : String} {args} {si ii : Option String}
      {sub : List Item} :
      Item.field a n args si ii false sub ∈ s → Lets V si ii →
      Collects S V T s (a.getD n) n sub
  | frag {s : List Item} {c : String} {si ii : Option String} {sub : List Item} {k n : String}
      {sub' : List Item} :
      Item.frag c si ii sub ∈ s → Lets V si ii → OfType S T c → Collects S V T sub k n sub' →
      Collects S V T s k n sub'

/-- The selection set asks for the path. -/
def Asks (S : Meta) (V : Val) : List Item → List Step → Prop
  | _, [] => True
  | s, st :: rest => ∃ sub, Collects S V st.type s st.key st.name sub ∧ Asks S V sub rest

/-! ## The plan -/

/-- A condition, for an object of type `T` and for data that is as the schema says. -/
def Holds (V : Val) (T : String) : Cond → Prop
  | .incl v => V.incl v
  | .skip v => V.skip v
  | .parent tc => tc.Names T
  | .field _ => True
  | .enum _ => True
  | .or a b => Holds V T a ∨ Holds V T b
  | .and a b => Holds V T a ∧ Holds V T b

def HoldsOpt (V : Val) (T : String) : Option Cond → Prop
  | none => True
  | some c => Holds V T c

/-- The plans below a plan. -/
def kids : Plan → List Plan
  | .node _ cs => cs
  | _ => []

/-- The plans show the path: one whose guard and conditions let an object of this type through, and
below it the rest. A plan without a list of plans writes the whole value, so it shows all there is. -/
def Shows (V : Val) : List Plan → List Step → Prop
  | _, [] => True
  | ps, st :: rest => ∃ p ∈ ps, p.info.responseKey = st.key ∧ p.info.fieldName = st.name ∧
      GuardMeans st.type p.info.guard ∧ HoldsOpt V st.type p.info.conditions ∧
      (match p with
        | .null _ => rest = []
        | .leaf _ => True
        | .node _ cs => Shows V cs rest)

/-! ## Valid operations -/

/-- `OverlappingFieldsCanBeMerged` as far as it is needed: for an object of one type, a response key
stands for one field. -/
def Unambiguous (S : Meta) (D : String → Prop) (asks : List Step → Prop) : Prop :=
  ∀ pre a b, Fits S D (pre ++ [a]) → Fits S D (pre ++ [b]) → a.type = b.type → a.key = b.key →
    asks (pre ++ [a]) → asks (pre ++ [b]) → a.name = b.name

/-- The selection set is valid for objects of the types `D` where the type `P` is declared; `inside`
says whether it belongs to a fragment. Fields exist; one without selections has no object type, and
one with selections asks for something; what is omitted is alone in its set; a fragment within a
fragment does not narrow its type further. -/
inductive ItemOk (S : Meta) : String → (String → Prop) → Bool → Item → Prop where
  | typename {P : String} {D : String → Prop} {inside : Bool} {a : Option String} {args}
      {si ii : Option String} :
      ItemOk S P D inside (.field a "__typename" args si ii false [])
  | leaf {P : String} {D : String → Prop} {inside : Bool} {a : Option String} {n : String} {args}
      {si ii : Option String} {ft : FieldType} :
      n ≠ "__typename" → S.field P n = some ft → (∀ T, ¬ Obj S ft.out T) →
      ItemOk S P D inside (.field a n args si ii false [])
  | omitted {P : String} {D : String → Prop} {inside : Bool} {a : Option String} {n : String} {args}
      {si ii : Option String} {ft : FieldType} {x : Item} :
      n ≠ "__typename" → S.field P n = some ft → onlyOmitted [x] = true →
      ItemOk S P D inside (.field a n args si ii false [x])
  | node {P : String} {D : String → Prop} {inside : Bool} {a : Option String} {n : String} {args}
      {si ii : Option String} {ft : FieldType} {sub : List Item} :
      n ≠ "__typename" → S.field P n = some ft →
      (∀ x ∈ sub, ItemOk S ft.out (Obj S ft.out) false x) →
      (∃ T k m sub', Obj S ft.out T ∧ Collects S .free T sub k m sub') →
      ItemOk S P D inside (.field a n args si ii false sub)
  | frag {P : String} {D : String → Prop} {inside : Bool} {c : String} {si ii : Option String}
      {sub : List Item} :
      (∀ x ∈ sub, ItemOk S c (fun T => D T ∧ OfType S T c) true x) →
      (inside = true → ∀ T, OfType S T P → OfType S T c) →
      ItemOk S P D inside (.frag c si ii sub)

/-- A valid operation on a root type. -/
structure OperationOk (S : Meta) (root : String) (s : List Item) : Prop where
  items : ∀ x ∈ s, ItemOk S root (Obj S root) false x
  unambiguous : Unambiguous S (Obj S root) (Asks S .free s)

/-! ## Data and response -/

/-- The type of an object of the data where the type `out` is declared: the one it names. -/
def typeOf (out : String) (fs : Fields) : String := (ownTypename (some (.obj fs))).getD out

/-- The value is the object or a list, of lists maybe, with the object in it. -/
inductive Inside : Value → Fields → Prop where
  | obj (fs : Fields) : Inside (.obj fs) fs
  | item {v : Value} {vs : List Value} {fs : Fields} : v ∈ vs → Inside v fs → Inside (.arr vs) fs

/-- The data of an object of type `T` is as the schema says, for all that may be asked for: `A` has
the paths. Enum values are values of the enum, and objects are of a possible type. -/
inductive Conforms (S : Meta) : (List Step → Prop) → String → Fields → Prop where
  | mk {A : List Step → Prop} {T : String} {fs : Fields} :
      (∀ k n ft v, A [⟨T, k, n⟩] → n ≠ "__typename" → S.field T n = some ft → getKey fs k = some v →
        (∀ vals, S.enums.lookup ft.out = some vals → ∀ x, v = .str x → x ∈ vals) ∧
        (∀ t, ownTypename (some v) = some t → OfType S t ft.out)) →
      (∀ k n ft v fs', A [⟨T, k, n⟩] → n ≠ "__typename" → S.field T n = some ft →
        getKey fs k = some v → Inside v fs' → (∃ T', Obj S ft.out T') →
        Obj S ft.out (typeOf ft.out fs')) →
      (∀ k n ft v fs', A [⟨T, k, n⟩] → n ≠ "__typename" → S.field T n = some ft →
        getKey fs k = some v → Inside v fs' → (∃ T', Obj S ft.out T') →
        Conforms S (fun rest => A (⟨T, k, n⟩ :: rest)) (typeOf ft.out fs') fs') →
      Conforms S A T fs

/-- An object of the response at the place of an object of the data. -/
inductive Within : Value → Json → Fields → List (List Char × Json) → Prop where
  | obj (fs : Fields) (ms : List (List Char × Json)) : Within (.obj fs) (.obj ms) fs ms
  | item {vs : List Value} {js : List Json} {i : Nat} {v : Value} {j : Json} {fs : Fields}
      {ms : List (List Char × Json)} : vs[i]? = some v → js[i]? = some j → Within v j fs ms →
      Within (.arr vs) (.arr js) fs ms

/-- The object of the response has what is asked for, and nothing else, each key once; so have the
objects below it. `A` has the paths asked for, `T` is the type of the object, `fs` its data. -/
inductive Answers (S : Meta) : (List Step → Prop) → String → Fields → List (List Char × Json) → Prop where
  | mk {A : List Step → Prop} {T : String} {fs : Fields} {ms : List (List Char × Json)} :
      (∀ k : String, k.toList ∈ ms.map (·.1) ↔ ∃ n, A [⟨T, k, n⟩]) →
      (ms.map (·.1)).Nodup →
      (∀ k j, A [⟨T, k, "__typename"⟩] → (k.toList, j) ∈ ms → j = .str T.toList) →
      (∀ k n ft j, A [⟨T, k, n⟩] → n ≠ "__typename" → S.field T n = some ft → (k.toList, j) ∈ ms →
        getKey fs k = none → j = .null) →
      (∀ k n ft j v fs' ms', A [⟨T, k, n⟩] → n ≠ "__typename" → S.field T n = some ft →
        (k.toList, j) ∈ ms → getKey fs k = some v → Within v j fs' ms' → (∃ T', Obj S ft.out T') →
        Answers S (fun rest => A (⟨T, k, n⟩ :: rest)) (typeOf ft.out fs') fs' ms') →
      Answers S A T fs ms

end Verif.Builder
