import Verif.Valid.Spec

/-!
# What it means for a document to be valid: types, fields, arguments and directives

Stated on documents and schemas alone.
-/

namespace Verif.Valid

/-- The type that a field has, if the type in scope has the field. -/
def typeOfField (s : Schema) (p : Option TypeDef) (n : Name) : Option TypeDef :=
  (p.bind (·.fieldByName n)).bind (fun f => s.typeByName f.ty.inner)

/-- The selection `x` occurs in a selection set of a value of type `p`, at any depth, and there selects
on a value of type `q`; no type if it is not known. -/
inductive On (s : Schema) : Option TypeDef → List Sel → Option TypeDef → Sel → Prop
  | here {p ss x} : x ∈ ss → On s p ss p x
  | field {p q : Option TypeDef} {ss : List Sel} {x al n args ds sub} :
      Sel.field al n args ds sub ∈ ss → On s (typeOfField s p n) sub q x → On s p ss q x
  | cond {p q : Option TypeDef} {ss : List Sel} {x c ds sub} :
      Sel.inline (some c) ds sub ∈ ss → On s (s.typeByName c) sub q x → On s p ss q x
  | plain {p q : Option TypeDef} {ss : List Sel} {x ds sub} :
      Sel.inline none ds sub ∈ ss → On s p sub q x → On s p ss q x

/-- The type that a definition selects on: a root type or the type the fragment is on. -/
def Def.on (s : Schema) : Def → Option TypeDef
  | .op o =>
      match o.kind with
      | .query => s.typeByName s.query
      | .mutation => s.mutation.bind s.typeByName
      | .subscription => s.subscription.bind s.typeByName
  | .frag f => s.typeByName f.cond

/-- The document selects `x` on a value of type `q`. -/
def Selects (s : Schema) (d : Doc) (q : Option TypeDef) (x : Sel) : Prop :=
  ∃ df ∈ d, On s (df.on s) df.sels q x

/-- The directives `ds` stand at a place of the document. -/
inductive Carries (d : Doc) : Loc → List Dir → Prop
  | query {o} : o ∈ ops d → o.kind = .query → Carries d .query o.dirs
  | mutation {o} : o ∈ ops d → o.kind = .mutation → Carries d .mutation o.dirs
  | subscription {o} : o ∈ ops d → o.kind = .subscription → Carries d .subscription o.dirs
  | fragment {f} : f ∈ frags d → Carries d .fragmentDefinition f.dirs
  | field {x al n args ds sub} : x ∈ d → Inside (.field al n args ds sub) x.sels → Carries d .field ds
  | spread {x n ds} : x ∈ d → Inside (.spread n ds) x.sels → Carries d .fragmentSpread ds
  | inline {x c ds sub} : x ∈ d → Inside (.inline c ds sub) x.sels → Carries d .inlineFragment ds

/-- Every directive is one of the schema (5.7.1), at a place where it is allowed (5.7.2), and one that
cannot be repeated stands at most once at a place (5.7.3). -/
structure DirectivesGood (s : Schema) (d : Doc) : Prop where
  known : ∀ l ds, Carries d l ds → ∀ x ∈ ds, ∃ def_, s.dirByName x.name = some def_ ∧ l ∈ def_.locations
  once : ∀ l ds, Carries d l ds → ∀ n def_, s.dirByName n = some def_ → def_.repeatable = false →
    (ds.map (·.name)).count n ≤ 1

/-- A type without fields or members: a scalar or an enum. -/
def Leaf (t : TypeDef) : Prop := (∃ n, t = .scalar n) ∨ ∃ n vs, t = .enum n vs

/-- A type that can be selected on. -/
def Composite (t : TypeDef) : Prop :=
  (∃ n is fs, t = .object n is fs) ∨ (∃ n is fs, t = .interface n is fs) ∨ ∃ n ms, t = .union n ms

/-- The name starts with two underscores. -/
def Reserved (n : Name) : Prop := ∃ rest, n.toList = '_' :: '_' :: rest

/-- Every field is `__typename`, or one that the type it is selected on has (5.3.1), with selections of
its own exactly if its type is not a leaf (5.3.3). -/
def FieldsGood (s : Schema) (d : Doc) : Prop :=
  ∀ q al n args ds sub, Selects s d (some q) (.field al n args ds sub) →
    (n = "__typename" ∧ sub = []) ∨
      ∃ f t, q.fieldByName n = some f ∧ s.typeByName f.ty.inner = some t ∧ (Leaf t ↔ sub = [])

/-- Every fragment is on a type of the schema (5.5.1.2) that can be selected on (5.5.1.3). -/
def ConditionsGood (s : Schema) (d : Doc) : Prop :=
  (∀ f ∈ frags d, ∃ t, s.typeByName f.cond = some t ∧ Composite t) ∧
  (∀ x ∈ d, ∀ c ds sub, Inside (.inline (some c) ds sub) x.sels → ∃ t, s.typeByName c = some t ∧ Composite t)

/-- The same, but for names that start with two underscores. -/
def FieldsChecked (s : Schema) (d : Doc) : Prop :=
  ∀ q al n args ds sub, Selects s d (some q) (.field al n args ds sub) →
    match q.fieldByName n with
    | none => Reserved n
    | some f => ∀ t, s.typeByName f.ty.inner = some t → (Leaf t ↔ sub = [])

/-- The same, but for names that start with two underscores. -/
def ConditionChecked (s : Schema) (n : Name) : Prop :=
  match s.typeByName n with
  | none => Reserved n
  | some t => Composite t

/-- The arguments of a field or directive with these definitions: each is defined (5.4.1), none is
given twice (5.4.2), and those that must be given are (5.4.2.1). -/
structure ArgsGood (defs : List InputDef) (args : Args) : Prop where
  known : ∀ a ∈ args, ∃ b ∈ defs, b.name = a.1
  once : (args.map (·.1)).Nodup
  given : ∀ b ∈ defs, (∃ t, b.ty = .nonNull t) → b.default_ = none → ∃ a ∈ args, a.1 = b.name

/-- The arguments that stand in the document at a field or a directive, with their definitions if the
schema has the field or directive. -/
inductive Given (s : Schema) (d : Doc) : Option (List InputDef) → Args → Prop
  | field {q al n args ds sub} : Selects s d q (.field al n args ds sub) →
      Given s d ((q.bind (·.fieldByName n)).map (·.args)) args
  | dir {l ds x} : Carries d l ds → x ∈ ds → Given s d ((s.dirByName x.name).map (·.args)) x.args

/-- The object type is the type, implements it or is a member of it. -/
def IsA (o t : TypeDef) : Prop :=
  (∃ n is fs, o = .object n is fs) ∧
    match t with
    | .object n _ _ => o.name = n
    | .interface n _ _ => n ∈ o.ifaces
    | .union _ ms => o.name ∈ ms
    | _ => False

/-- Objects of both types can exist. -/
def CanBeBoth (s : Schema) (t u : TypeDef) : Prop := ∃ o ∈ s.types, IsA o t ∧ IsA o u

/-- What is asked of the types of a schema: no two have the same name, the members of a union are
objects, and there are some, a type that implements an interface implements what that implements, and
every interface is implemented by an object. -/
structure TypesGood (s : Schema) : Prop where
  names : (s.types.map (·.name)).Nodup
  members : ∀ n ms, TypeDef.union n ms ∈ s.types →
    ms ≠ [] ∧ ∀ m ∈ ms, ∃ is fs, TypeDef.object m is fs ∈ s.types
  through : ∀ t ∈ s.types, ∀ n is fs, TypeDef.interface n is fs ∈ s.types → n ∈ t.ifaces →
    ∀ i ∈ is, i ∈ t.ifaces
  implemented : ∀ n is fs, TypeDef.interface n is fs ∈ s.types →
    ∃ m js gs, TypeDef.object m js gs ∈ s.types ∧ n ∈ js

/-- A fragment on the type `f` stands where the value has the type `p`. -/
inductive Applied (s : Schema) (d : Doc) : TypeDef → TypeDef → Prop
  | inline {p n f ds sub} : Selects s d (some p) (.inline (some n) ds sub) →
      s.typeByName n = some f → Applied s d f p
  | spread {p n t f ds} : Selects s d (some p) (.spread n ds) → t ∈ frags d → t.name = n →
      s.typeByName t.cond = some f → Applied s d f p

/-! ## Values -/

/-- What the scalars take: numbers of 32 bits for `Int`, and anything for a scalar of one's own. -/
def ScalarTakes (n : Name) (v : Val) : Prop :=
  if n = "Int" then ∃ i, v = .int i ∧ -2147483648 ≤ i ∧ i ≤ 2147483647
  else if n = "Float" then (∃ i, v = .int i) ∨ ∃ t, v = .float t
  else if n = "String" then ∃ t, v = .str t
  else if n = "Boolean" then ∃ b, v = .bool b
  else if n = "ID" then (∃ i, v = .int i) ∨ ∃ t, v = .str t
  else True

/-- The fields of an object literal against those of the input object: all are known, and those that
must be given are. -/
def ObjFits (defs : List InputDef) (fs : List (Name × Val)) : Prop :=
  (∀ p ∈ fs, ∃ b ∈ defs, b.name = p.1) ∧
    ∀ b ∈ defs, (∃ t, b.ty = .nonNull t) → b.default_ = none → ∃ p ∈ fs, p.1 = b.name

/-- The literal can be used where the type is expected (5.6.1); what a variable can be used for is
another matter, and so is a type that the schema does not have. -/
inductive Fits (s : Schema) : Ty → Val → Prop
  | var {t n} : Fits s t (.var n)
  | null {t} : (∀ u, t ≠ .nonNull u) → Fits s t .null
  | nonNull {t v} : v ≠ .null → Fits s t v → Fits s (.nonNull t) v
  | items {t} {vs : List Val} : (∀ x ∈ vs, Fits s t x) → Fits s (.list t) (.list vs)
  | single {t v} : (∀ vs, v ≠ .list vs) → v ≠ .null → Fits s t v → Fits s (.list t) v
  | unknown {n v} : s.typeByName n = none → Fits s (.named n) v
  | scalar {n m v} : s.typeByName n = some (.scalar m) → ScalarTakes m v → Fits s (.named n) v
  | enum {n m xs x} : s.typeByName n = some (.enum m xs) → x ∈ xs → Fits s (.named n) (.enum x)
  | obj {n m defs} {fs : List (Name × Val)} : s.typeByName n = some (.input m defs) →
      ObjFits defs fs →
      (∀ p ∈ fs, ∀ b, defs.find? (fun f => f.name = p.1) = some b → Fits s b.ty p.2) →
      Fits s (.named n) (.obj fs)

/-- The literal is a number, a string, a boolean or a name of an enum. -/
def Val.single : Val → Prop
  | .bool _ => True
  | .int _ => True
  | .float _ => True
  | .str _ => True
  | .enum _ => True
  | _ => False

/-- The same as `Fits`, with three exceptions: numbers of any size are taken for `Int`, every list
literal is taken where what is expected is not a nullable list, and every object literal is taken where
what is expected is not an input object. -/
inductive Loosely (s : Schema) : Ty → Val → Prop
  | var {t n} : Loosely s t (.var n)
  | null {t} : (∀ u, t ≠ .nonNull u) → Loosely s t .null
  | items {t} {vs : List Val} : (∀ x ∈ vs, Loosely s t x) → Loosely s (.list t) (.list vs)
  | unseen {t vs} : (∀ u, t ≠ .list u) → Loosely s t (.list vs)
  | unknown {t n v} : Wraps t n → s.typeByName n = none → v.single → Loosely s t v
  | scalar {t n m v} : Wraps t n → s.typeByName n = some (.scalar m) → v.single →
      (m ≠ "Int" → ScalarTakes m v) → (m = "Int" → ∃ i, v = .int i) → Loosely s t v
  | enum {t n m xs x} : Wraps t n → s.typeByName n = some (.enum m xs) → x ∈ xs →
      Loosely s t (.enum x)
  | obj {t n m defs} {fs : List (Name × Val)} : Wraps t n → s.typeByName n = some (.input m defs) →
      ObjFits defs fs →
      (∀ p ∈ fs, ∀ b, defs.find? (fun f => f.name = p.1) = some b → Loosely s b.ty p.2) →
      Loosely s t (.obj fs)
  | other {t n} {fs : List (Name × Val)} : Wraps t n →
      (∀ m defs, s.typeByName n ≠ some (.input m defs)) → Loosely s t (.obj fs)

/-- The value stands in the document where the type is expected. -/
inductive Expected (s : Schema) (d : Doc) : Ty → Val → Prop
  | arg {defs args a b} : Given s d (some defs) args → a ∈ args →
      defs.find? (fun b => b.name = a.1) = some b → Expected s d b.ty a.2
  | default_ {o v x} : o ∈ ops d → v ∈ o.vars → v.default_ = some x → Expected s d v.ty x

/-- The value stands in the document where the type is expected, or it stands in such a value and the
type follows from that. -/
inductive Place (s : Schema) (d : Doc) : Ty → Val → Prop
  | top {t v} : Expected s d t v → Place s d t v
  | item {t vs x} : Place s d (.list t) (.list vs) → x ∈ vs → Place s d t x
  | pair {t n m defs fs p b} : Place s d t (.obj fs) → Wraps t n →
      s.typeByName n = some (.input m defs) → p ∈ fs →
      defs.find? (fun f => f.name = p.1) = some b → Place s d b.ty p.2

/-- List literals stand only where a list is expected that can be null, object literals only where an
input object is, and numbers have 32 bits. -/
def Plain (s : Schema) (d : Doc) : Prop :=
  ∀ t v, Place s d t v →
    (∀ vs, v = .list vs → ∃ u, t = .list u) ∧
    (∀ fs, v = .obj fs → ∃ n m defs, Wraps t n ∧ s.typeByName n = some (.input m defs)) ∧
    (∀ i, v = .int i → -2147483648 ≤ i ∧ i ≤ 2147483647)

/-- The value `w` is the value `v` or stands in it. -/
inductive Part (w : Val) : Val → Prop
  | self : Part w w
  | item {vs : List Val} {x : Val} : x ∈ vs → Part w x → Part w (.list vs)
  | pair {fs : List (Name × Val)} {p : Name × Val} : p ∈ fs → Part w p.2 → Part w (.obj fs)

/-- The value stands in the document: as an argument or as the default of a variable. -/
inductive Stands (s : Schema) (d : Doc) : Val → Prop
  | arg {defs args a} : Given s d defs args → a ∈ args → Stands s d a.2
  | default_ {o v x} : o ∈ ops d → v ∈ o.vars → v.default_ = some x → Stands s d x

/-- No field of an object literal is given twice (5.6.3). -/
def ObjectsGood (s : Schema) (d : Doc) : Prop :=
  ∀ v, Stands s d v → ∀ fs, Part (.obj fs) v → (fs.map (·.1)).Nodup

/-! ## Where variables are used -/

/-- The value stands in the document where the type is expected; the flag says whether the place has a
default. -/
inductive Slot (s : Schema) (d : Doc) : Ty → Bool → Val → Prop
  | arg {defs args a b} : Given s d (some defs) args → a ∈ args →
      defs.find? (fun b => b.name = a.1) = some b → Slot s d b.ty b.default_.isSome a.2
  | default_ {o v x} : o ∈ ops d → v ∈ o.vars → v.default_ = some x → Slot s d v.ty false x

/-- The variable `n` stands, where the type `t` is expected and there is a default or not, in a value
that is expected to have the type given after those. -/
inductive VarAt (s : Schema) (n : Name) (t : Ty) (b : Bool) : Ty → Bool → Val → Prop
  | self : VarAt s n t b t b (.var n)
  | item {u a} {vs : List Val} {x} : x ∈ vs → VarAt s n t b u false x →
      VarAt s n t b (.list u) a (.list vs)
  | required {u a} {vs : List Val} {x} : x ∈ vs → VarAt s n t b u false x →
      VarAt s n t b (.nonNull (.list u)) a (.list vs)
  | pair {u a m k defs} {fs : List (Name × Val)} {p : Name × Val} {f : InputDef} : p ∈ fs → Wraps u m →
      s.typeByName m = some (.input k defs) → defs.find? (fun f => f.name = p.1) = some f →
      VarAt s n t b f.ty f.default_.isSome p.2 → VarAt s n t b u a (.obj fs)

/-- The same, but for the items of lists that are expected not to be null. -/
inductive SeenAt (s : Schema) (n : Name) (t : Ty) (b : Bool) : Ty → Bool → Val → Prop
  | self : SeenAt s n t b t b (.var n)
  | item {u a} {vs : List Val} {x} : x ∈ vs → SeenAt s n t b u false x →
      SeenAt s n t b (.list u) a (.list vs)
  | pair {u a m k defs} {fs : List (Name × Val)} {p : Name × Val} {f : InputDef} : p ∈ fs → Wraps u m →
      s.typeByName m = some (.input k defs) → defs.find? (fun f => f.name = p.1) = some f →
      SeenAt s n t b f.ty f.default_.isSome p.2 → SeenAt s n t b u a (.obj fs)

/-- A value of the first type can be used where the second is expected. -/
inductive Compatible : Ty → Ty → Prop
  | named (n : Name) : Compatible (.named n) (.named n)
  | list {a b} : Compatible a b → Compatible (.list a) (.list b)
  | nonNull {a b} : Compatible a b → Compatible (.nonNull a) (.nonNull b)
  | drop {a b} : Compatible a b → (∀ u, b ≠ .nonNull u) → Compatible (.nonNull a) b

/-- The variable can be used where the type is expected and there is a default or not
(`IsVariableUsageAllowed`, 5.8.5). -/
def Allowed (v : VarDef) (t : Ty) (b : Bool) : Prop :=
  match v.ty, t with
  | .nonNull a, .nonNull u => Compatible (.nonNull a) (.nonNull u)
  | a, .nonNull u => (b = true ∨ ∃ x, v.default_ = some x ∧ x ≠ .null) ∧ Compatible a u
  | a, u => Compatible a u

/-- The operation, or a fragment that it reaches, uses the variable `n` where the type `t` is
expected; `at_` says where a variable stands in a value. -/
def UsesAt (s : Schema) (d : Doc) (o : Op)
    (at_ : Name → Ty → Bool → Ty → Bool → Val → Prop) (n : Name) (t : Ty) (b : Bool) : Prop :=
  ∃ x ∈ d, (x = .op o ∨ ∃ f, x = .frag f ∧ Reaches d o.sels f.name) ∧
    ∃ u a v, Slot s [x] u a v ∧ at_ n t b u a v

/-- No type says twice that it is not null. -/
def Ty.Once : Ty → Prop
  | .named _ => True
  | .list t => t.Once
  | .nonNull t => (∀ u, t ≠ .nonNull u) ∧ t.Once

/-- The type is one of inputs, written as types are. -/
def InputTy (s : Schema) (t : Ty) : Prop :=
  t.Once ∧ ∀ n x, Wraps t n → s.typeByName n = some x → ¬ Composite x

/-- The arguments of fields and directives, the fields of input objects and the variables have types of
inputs. -/
structure InputsGood (s : Schema) (d : Doc) : Prop where
  fields : ∀ t ∈ s.types, ∀ n f, t.fieldByName n = some f → ∀ a ∈ f.args, InputTy s a.ty
  dirs : ∀ n x, s.dirByName n = some x → ∀ a ∈ x.args, InputTy s a.ty
  inputs : ∀ n m defs, s.typeByName n = some (.input m defs) → ∀ a ∈ defs, InputTy s a.ty
  vars : ∀ o ∈ ops d, ∀ v ∈ o.vars, InputTy s v.ty

/-! ## The root field of subscriptions -/

/-- A fragment with the condition applies to objects of the type. -/
def AppliesTo (s : Schema) (c : Option Name) (t : TypeDef) : Prop :=
  ∀ n, c = some n → ∃ u, s.typeByName n = some u ∧ (u.name = t.name ∨ IsA t u)

/-- A field of name `n` and response key `k` is selected on an object of type `t`, directly or through
fragments that apply to it. -/
inductive RootField (s : Schema) (d : Doc) (t : TypeDef) (n k : Name) : List Sel → Prop
  | field {ss : List Sel} {al args ds sub} : Sel.field al n args ds sub ∈ ss → k = al.getD n →
      RootField s d t n k ss
  | inline {ss : List Sel} {c ds sub} : Sel.inline c ds sub ∈ ss → AppliesTo s c t →
      RootField s d t n k sub → RootField s d t n k ss
  | spread {ss : List Sel} {m ds f} : Sel.spread m ds ∈ ss → f ∈ frags d → f.name = m →
      AppliesTo s (some f.cond) t → RootField s d t n k f.sels → RootField s d t n k ss

/-- Every subscription has at most one field in its response, and it is not one of introspection
(5.2.3.1). -/
def SubscriptionsGood (s : Schema) (d : Doc) : Prop :=
  ∀ o ∈ ops d, o.kind = .subscription → ∀ t, s.subscription.bind s.typeByName = some t →
    (∀ n k n' k', RootField s d t n k o.sels → RootField s d t n' k' o.sels → k = k') ∧
    (∀ n k, RootField s d t n k o.sels → ¬ Reserved n)

end Verif.Valid
