import Verif.Normalize.Model
/-!
# What a selection set selects

GraphQL's `CollectFields` and `ExecuteSelectionSet` (October 2021, 6.3.2 and 6.4.3) as a relation
between a selection set and the paths it selects. Nothing here refers to the passes.
-/
namespace Verif.Normalize

/-- The object type `T` is a possible type of `C` (GraphQL `GetPossibleTypes`, and
`DoesFragmentTypeApply`). -/
def IsPossible (S : Schema) (T C : Name) : Prop :=
  match S.get C with
  | some (.object _ _) => T = C
  | some (.interface _ _) => ∃ impls fs, S.get T = some (.object impls fs) ∧ C ∈ impls
  | some (.union ms) => T ∈ ms
  | _ => False

/-- The value of an `if` argument under the variables: is it `true`. -/
def IsTrue (σ : Name → Bool) (args : Args) : Prop :=
  args.lookup "if" = some (.bool true) ∨ ∃ v, args.lookup "if" = some (.var v) ∧ σ v = true

/-- `@skip` and `@include` let the selection through (CollectFields, 3.a and 3.b). `σ` says which
variables are `true`. -/
def Included (σ : Name → Bool) (ds : List Dir) : Prop :=
  (∀ d ∈ ds, d.name = "skip" → ¬ IsTrue σ d.args) ∧
  (∀ d ∈ ds, d.name = "include" → IsTrue σ d.args)

/-- What a client sees of a field: the response key, the field, the arguments. -/
structure Label where
  key : Name
  name : Name
  args : Name → Option Val

/-- The label of a field selection. -/
def labelOf (als : Option Name) (name : Name) (args : Args) : Label :=
  ⟨als.getD name, name, fun x => args.lookup x⟩

/-- A path into a response: at each level the runtime type of the object, and the field taken. -/
abbrev Path := List (Name × Label)

/-- A fragment without a type condition always applies. -/
def Applies (S : Schema) (T : Name) : Option Name → Prop
  | none => True
  | some C => IsPossible S T C

/-- `Picks S σ frs s p`: with the fragments `frs` and the variables `σ`, the selection set `s`
selects the path `p`. Fields of one response key share their selections, so a path is selected
when any of them selects it. -/
inductive Picks (S : Schema) (σ : Name → Bool) (frs : List Frag) : List Sel → Path → Prop where
  | here (s : List Sel) : Picks S σ frs s []
  | field {s : List Sel} {a : Option Name} {n : Name} {args : Args} {ds : List Dir}
      {sub : List Sel} {T : Name} {p : Path} :
      Sel.field a n args ds sub ∈ s → Included σ ds → Picks S σ frs sub p →
      Picks S σ frs s ((T, labelOf a n args) :: p)
  | frag {s : List Sel} {c : Option Name} {ds : List Dir} {sub : List Sel} {T : Name} {l : Label}
      {p : Path} :
      Sel.frag c ds sub ∈ s → Included σ ds → Applies S T c → Picks S σ frs sub ((T, l) :: p) →
      Picks S σ frs s ((T, l) :: p)
  | spread {s : List Sel} {ds : List Dir} {f : Frag} {T : Name} {l : Label} {p : Path} :
      Sel.spread f.name ds ∈ s → Included σ ds → f ∈ frs → IsPossible S T f.cond →
      Picks S σ frs f.sels ((T, l) :: p) → Picks S σ frs s ((T, l) :: p)

/-- The same for the planner's tree, with its `skip_if` and `include_if` variables; what is omitted
from the response is not selected. -/
inductive PicksI (S : Schema) (σ : Name → Bool) : List Item → Path → Prop where
  | here (s : List Item) : PicksI S σ s []
  | field {s : List Item} {a : Option Name} {n : Name} {args : Args} {si ii : Option Name}
      {sub : List Item} {T : Name} {p : Path} :
      Item.field a n args si ii false sub ∈ s →
      (∀ v, si = some v → σ v = false) → (∀ v, ii = some v → σ v = true) →
      PicksI S σ sub p → PicksI S σ s ((T, labelOf a n args) :: p)
  | frag {s : List Item} {c : Name} {si ii : Option Name} {sub : List Item} {T : Name} {l : Label}
      {p : Path} :
      Item.frag c si ii sub ∈ s →
      (∀ v, si = some v → σ v = false) → (∀ v, ii = some v → σ v = true) →
      IsPossible S T c → PicksI S σ sub ((T, l) :: p) → PicksI S σ s ((T, l) :: p)

/-- The path can occur below an object of type `P`: every runtime type is a possible type of the
type its field has on the object above. Below introspection fields any type is allowed. -/
def Fits (S : Schema) : Name → Path → Prop
  | _, [] => True
  | P, (T, l) :: p => IsPossible S T P ∧
      (isIntro l.name = true ∨ p = [] ∨ ∃ C, S.fieldTy T l.name = some C ∧ Fits S C p)

/-- GraphQL's rules for schemas, as far as they are needed: an object has every field of an
interface it implements, with the same type or a narrower one. -/
def SchemaOk (S : Schema) : Prop :=
  (∀ P T n A B, IsPossible S T P → S.fieldTy P n = some A → S.fieldTy T n = some B →
    ∀ X, IsPossible S X B → IsPossible S X A) ∧
  (∀ P T, IsPossible S T P → S.isObject T = true)

/-- Directives of one place as validation leaves them: no name twice (rule
`UniqueDirectivesPerLocation`), and `@skip` and `@include` have just the argument `if`, a boolean
or a variable (`ProvidedRequiredArguments`, `KnownArgumentNames`, `UniqueArgumentNames`,
`ValuesOfCorrectType`). -/
def DirsOk (ds : List Dir) : Prop :=
  (ds.map Dir.name).Nodup ∧
  ∀ d ∈ ds, d.name = "skip" ∨ d.name = "include" →
    (∃ b, d.args = [("if", .bool b)]) ∨ (∃ v, d.args = [("if", .var v)])

/-- No argument twice (rule `UniqueArgumentNames`). -/
def ArgsOk (args : Args) : Prop := (args.map (·.1)).Nodup

/-- A selection (set) as validation leaves it. -/
inductive SelOk (D : List Dir → Prop) : Sel → Prop where
  | field {a : Option Name} {n : Name} {args : Args} {ds : List Dir} {sub : List Sel} :
      ArgsOk args → D ds → (∀ x ∈ sub, SelOk D x) → SelOk D (.field a n args ds sub)
  | frag {c : Option Name} {ds : List Dir} {sub : List Sel} :
      D ds → (∀ x ∈ sub, SelOk D x) → SelOk D (.frag c ds sub)
  | spread {n : Name} {ds : List Dir} : D ds → SelOk D (.spread n ds)

/-- A document as validation leaves it (rules above and `UniqueFragmentNames`). -/
structure DocOk (doc : Doc) : Prop where
  ops : ∀ o ∈ doc.ops, ∀ x ∈ o.sels, SelOk DirsOk x
  frags : ∀ f ∈ doc.frags, ∀ x ∈ f.sels, SelOk DirsOk x
  unique : (doc.frags.map Frag.name).Nodup

/-- The root type of an operation. -/
def RootOf (S : Schema) : Kind → Name → Prop
  | .query, R => S.query = R
  | .mutation, R => S.mutation = some R
  | .subscription, R => S.subscription = some R

/-- The operation a request asks for: the named one, or the first. -/
def Asked (ops : List Op) (opName : Option Name) (op : Op) : Prop :=
  match opName with
  | none => ∃ rest, ops = op :: rest
  | some n => op ∈ ops ∧ op.name = some n

end Verif.Normalize
