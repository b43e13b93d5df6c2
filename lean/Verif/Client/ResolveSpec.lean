import Verif.Client.Resolve

/-!
# What introspection has to answer

The types `__Schema`, `__Type`, `__Field`, `__InputValue`, `__EnumValue` and `__Directive` of the GraphQL
specification, as objects with fields: `Tells` says what each field of each object is, `Answers` that the
entries of a response are the fields that were asked for.
-/

namespace Verif.Client
open Verif (Value Sel Lit SortedKeys)

/-- What introspection is about. -/
inductive Node where
  /-- the operation, on the root type of this name -/
  | operation (root : String)
  | schema
  | type (t : TypeDef)
  /-- the type of lists of a type -/
  | list (t : Ty)
  /-- a type without null -/
  | nonNull (t : Ty)
  | field (f : Fld)
  | input (v : InVal)
  | value (v : EnumVal)
  | directive (d : DirDef)
deriving DecidableEq, Repr

/-- What a field is: a value, an object, or a list of objects. -/
inductive Told where
  | val (v : Value)
  | node (n : Node)
  | nodes (ns : List Node)

abbrev Args := Option (List (String × Lit))

/-- The argument of a field. -/
def Args.get (args : Args) (name : String) : Option Lit := (args.getD []).lookup name

/-- `includeDeprecated` was given and is true. -/
def WantsDeprecated (vars : String → Option Value) (args : Args) : Prop :=
  args.get "includeDeprecated" = some (.bool true) ∨
    ∃ x, args.get "includeDeprecated" = some (.var x) ∧ vars x = some (.bool true)

/-- The `name` that was given. -/
def GivenName (vars : String → Option Value) (args : Args) (n : String) : Prop :=
  args.get "name" = some (.str n) ∨ ∃ x, args.get "name" = some (.var x) ∧ vars x = some (.str n)

def text : Option String → Value
  | some s => .str s
  | none => .null

def Deprecated (dirs : List Dir) : Prop := ∃ d ∈ dirs, d.name = "deprecated"

/-- The reason of a deprecation; `directive @deprecated(reason: String = "No longer supported")`. -/
def reason (dirs : List Dir) : Option String :=
  match dirs.find? (fun d => d.name == "deprecated") with
  | none => none
  | some d =>
    match d.args.lookup "reason" with
    | some (.str s) => some s
    | some (.other _) => none
    | none => some "No longer supported"

/-- `directive @specifiedBy(url: String!)`. -/
def url (dirs : List Dir) : Option String :=
  match dirs.find? (fun d => d.name == "specifiedBy") with
  | none => none
  | some d =>
    match d.args.lookup "url" with
    | some (.str s) => some s
    | _ => none

/-- What a type is, as an object. -/
def Refers (d : Doc) : Ty → Node → Prop
  | .named n, x => ∃ t, Def.type t ∈ d ∧ t.name = n ∧ x = .type t
  | .list t, x => x = .list t
  | .nonNull t, x => x = .nonNull t

/-- The name of a root type: the one that the schema definition gives; without a schema definition the
object of the usual name. -/
def RootIs (d : Doc) (usual : String) (pick : SchemaDef → Option String) (n : String) : Prop :=
  (∃ s, Def.schema s ∈ d ∧ pick s = some n) ∨
    ((∀ s, Def.schema s ∉ d) ∧ n = usual ∧ ∃ o : Obj, Def.type (.object o) ∈ d ∧ o.name = n)

/-- An object for the type that has a property, or null if there is none. -/
def TheType (d : Doc) (P : String → Prop) (x : Told) : Prop :=
  (∃ t, Def.type t ∈ d ∧ P t.name ∧ x = .node (.type t)) ∨
    ((¬ ∃ t, Def.type t ∈ d ∧ P t.name) ∧ x = .val .null)

/-- A list of what has a property, each once, in any order. -/
def AllThat (P : Node → Prop) (x : Told) : Prop :=
  ∃ ns, x = .nodes ns ∧ ns.Nodup ∧ ∀ n, n ∈ ns ↔ P n

/-- `ys` is what is left of `xs` if only what has the property is kept. -/
inductive Kept {α : Type} (P : α → Prop) : List α → List α → Prop where
  | nil : Kept P [] []
  | keep {x xs ys} : P x → Kept P xs ys → Kept P (x :: xs) (x :: ys)
  | drop {x xs ys} : ¬ P x → Kept P xs ys → Kept P (x :: xs) ys

/-- A list of what is in the document and has the property, in the order of the document. -/
def Listed {α : Type} (P : α → Prop) (node : α → Node) (xs : List α) (x : Told) : Prop :=
  ∃ ys, Kept P xs ys ∧ x = .nodes (ys.map node)

/-- What is deprecated is told only if that is asked for. -/
def Current (vars : String → Option Value) (args : Args) (dirs : List Dir) : Prop :=
  WantsDeprecated vars args ∨ ¬ Deprecated dirs

/-- The directives that the document defines. -/
def directiveNodes (d : Doc) : List Node :=
  d.filterMap (fun | .directive dd => some (.directive dd) | _ => none)

/-- The fields of the operation. -/
def OperationTells (d : Doc) (vars : String → Option Value) (root name : String) (args : Args) (x : Told) :
    Prop :=
  match name with
  | "__schema" => x = .node .schema
  | "__type" => TheType d (GivenName vars args) x
  | "__typename" => x = .val (.str root)
  | _ => x = .val .null

/-- `__Schema`. Documents do not keep the description of a schema. -/
def SchemaTells (d : Doc) (name : String) (x : Told) : Prop :=
  match name with
  | "types" => AllThat (fun n => ∃ t, Def.type t ∈ d ∧ n = .type t) x
  | "queryType" => TheType d (RootIs d "Query" (·.query)) x
  | "mutationType" => TheType d (RootIs d "Mutation" (·.mutation)) x
  | "subscriptionType" => TheType d (RootIs d "Subscription" (·.subscription)) x
  | "directives" => x = .nodes (directiveNodes d)
  | "__typename" => x = .val (.str "__Schema")
  | _ => x = .val .null

/-- `__Type`, for a type that has a name. -/
def TypeTells (d : Doc) (vars : String → Option Value) (t : TypeDef) (name : String) (args : Args)
    (x : Told) : Prop :=
  match name with
  | "kind" => x = .val (.str t.kind)
  | "name" => x = .val (.str t.name)
  | "description" => x = .val (text t.desc)
  | "specifiedByURL" => x = .val (text (if t.kind = "SCALAR" then url t.dirs else none))
  | "isOneOf" =>
    x = .val (if t.kind = "INPUT_OBJECT" then .bool (t.dirs.any (·.name == "oneOf")) else .null)
  | "fields" =>
    if t.kind = "OBJECT" ∨ t.kind = "INTERFACE" then
      Listed (fun f => ¬ ['_', '_'] <+: f.name.toList ∧ Current vars args f.dirs) .field t.fields x
    else x = .val .null
  | "interfaces" =>
    if t.kind = "OBJECT" ∨ t.kind = "INTERFACE" then
      ∃ ts : List TypeDef, x = .nodes (ts.map .type) ∧ ts.map (·.name) = t.impls ∧ ∀ i ∈ ts, Def.type i ∈ d
    else x = .val .null
  | "possibleTypes" =>
    if t.kind = "INTERFACE" ∨ t.kind = "UNION" then
      AllThat (fun n => ∃ o : Obj, Def.type (.object o) ∈ d ∧ IsA d o t.name ∧ n = .type (.object o)) x
    else x = .val .null
  | "enumValues" =>
    if t.kind = "ENUM" then Listed (fun v => Current vars args v.dirs) .value t.values x
    else x = .val .null
  | "inputFields" =>
    if t.kind = "INPUT_OBJECT" then Listed (fun v => Current vars args v.dirs) .input t.inputs x
    else x = .val .null
  | "__typename" => x = .val (.str "__Type")
  | _ => x = .val .null

/-- `__Type`, for lists and for types without null. -/
def WrapperTells (d : Doc) (kind : String) (inner : Ty) (name : String) (x : Told) : Prop :=
  match name with
  | "kind" => x = .val (.str kind)
  | "ofType" => ∃ n, Refers d inner n ∧ x = .node n
  | "__typename" => x = .val (.str "__Type")
  | _ => x = .val .null

/-- `__Field`. -/
def FieldTells (d : Doc) (vars : String → Option Value) (f : Fld) (name : String) (args : Args) (x : Told) :
    Prop :=
  match name with
  | "name" => x = .val (.str f.name)
  | "description" => x = .val (text f.desc)
  | "args" => Listed (fun v => Current vars args v.dirs) .input f.args x
  | "type" => ∃ n, Refers d f.ty n ∧ x = .node n
  | "isDeprecated" => x = .val (.bool (f.dirs.any (·.name == "deprecated")))
  | "deprecationReason" => x = .val (text (reason f.dirs))
  | "__typename" => x = .val (.str "__Field")
  | _ => x = .val .null

/-- `__InputValue`. -/
def InputTells (d : Doc) (v : InVal) (name : String) (x : Told) : Prop :=
  match name with
  | "name" => x = .val (.str v.name)
  | "description" => x = .val (text v.desc)
  | "type" => ∃ n, Refers d v.ty n ∧ x = .node n
  | "defaultValue" => x = .val (text v.default_)
  | "isDeprecated" => x = .val (.bool (v.dirs.any (·.name == "deprecated")))
  | "deprecationReason" => x = .val (text (reason v.dirs))
  | "__typename" => x = .val (.str "__InputValue")
  | _ => x = .val .null

/-- `__EnumValue`. -/
def ValueTells (v : EnumVal) (name : String) (x : Told) : Prop :=
  match name with
  | "name" => x = .val (.str v.name)
  | "description" => x = .val (text v.desc)
  | "isDeprecated" => x = .val (.bool (v.dirs.any (·.name == "deprecated")))
  | "deprecationReason" => x = .val (text (reason v.dirs))
  | "__typename" => x = .val (.str "__EnumValue")
  | _ => x = .val .null

/-- `__Directive`. -/
def DirectiveTells (vars : String → Option Value) (dd : DirDef) (name : String) (args : Args) (x : Told) :
    Prop :=
  match name with
  | "name" => x = .val (.str dd.name)
  | "description" => x = .val (text dd.desc)
  | "locations" => x = .val (.arr (dd.locations.map .str))
  | "args" => Listed (fun v => Current vars args v.dirs) .input dd.args x
  | "isRepeatable" => x = .val (.bool dd.repeatable)
  | "__typename" => x = .val (.str "__Directive")
  | _ => x = .val .null

/-- What a field of an object is. -/
def Tells (d : Doc) (vars : String → Option Value) (n : Node) (name : String) (args : Args) (x : Told) : Prop :=
  match n with
  | .operation root => OperationTells d vars root name args x
  | .schema => SchemaTells d name x
  | .type t => TypeTells d vars t name args x
  | .list t => WrapperTells d "LIST" t name x
  | .nonNull t => WrapperTells d "NON_NULL" t name x
  | .field f => FieldTells d vars f name args x
  | .input v => InputTells d v name x
  | .value v => ValueTells v name x
  | .directive dd => DirectiveTells vars dd name args x

/-- Two lists of the same length, related place by place. -/
def Along {α β : Type} (R : α → β → Prop) : List α → List β → Prop
  | [], ys => ys = []
  | x :: xs, ys => ∃ y ys', ys = y :: ys' ∧ R x y ∧ Along R xs ys'

/-- A value is an object that has exactly the entries, by distinct keys in increasing order. -/
def IsObject (entries : List (String × Value) → Prop) (v : Value) : Prop :=
  ∃ fs es, v = .obj fs ∧ SortedKeys fs ∧ fs.Perm es ∧ entries es

/-- A value shows what a field is; `ok` says what the entries of an object have to be. -/
def Shows (ok : Node → List (String × Value) → Prop) : Told → Value → Prop
  | .val w, v => v = w
  | .node n, v => IsObject (ok n) v
  | .nodes ns, v => ∃ vs, v = .arr vs ∧ Along (fun n v => IsObject (ok n) v) ns vs

mutual
/-- The entries are the fields that are asked for, through fragments, in their order. Of what is `exempt`
nothing is demanded but that there is an entry. -/
def Answers (exempt : Node → String → Prop) (d : Doc) (vars : String → Option Value) (n : Node) :
    List Sel → List (String × Value) → Prop
  | [], es => es = []
  | s :: rest, es => Answer exempt d vars n s (fun es => Answers exempt d vars n rest es) es
termination_by structural sels => sels

/-- The same for one selection; `after` is demanded of the entries that come after. -/
def Answer (exempt : Node → String → Prop) (d : Doc) (vars : String → Option Value) (n : Node) :
    Sel → (List (String × Value) → Prop) → List (String × Value) → Prop
  | .field f sels, after, es =>
    ∃ v es', es = (f.key, v) :: es' ∧ after es' ∧
      (exempt n f.name ∨
        ∃ x, Tells d vars n f.name f.args x ∧ Shows (fun m es => Answers exempt d vars m sels es) x v)
  | .frag _ sels, after, es => ∃ a b, es = a ++ b ∧ Answers exempt d vars n sels a ∧ after b
  | .spread _, after, es => after es
termination_by structural s => s
end

/-- Nothing is exempt. -/
def nothing : Node → String → Prop := fun _ _ => False

/-! ## Schemas and operations -/

/-- The type that a type is made of is in the document. -/
def Known (d : Doc) (t : Ty) : Prop := ∀ n, t.Names n → ∃ u, Def.type u ∈ d ∧ u.name = n

/-- A schema as GraphQL demands it: it is well-formed, has one schema definition at most and a query type,
and every type that is mentioned in it is in it. -/
structure Sound (d : Doc) : Prop where
  wellFormed : WellFormed d
  one : ∀ s s', Def.schema s ∈ d → Def.schema s' ∈ d → s = s'
  query : ∃ t, Def.type t ∈ d ∧ RootIs d "Query" (·.query) t.name
  fields : ∀ t, Def.type t ∈ d → ∀ f ∈ t.fields, Known d f.ty ∧ ∀ a ∈ f.args, Known d a.ty
  inputs : ∀ t, Def.type t ∈ d → ∀ v ∈ t.inputs, Known d v.ty
  directives : ∀ dd, Def.directive dd ∈ d → ∀ a ∈ dd.args, Known d a.ty
  impls : ∀ t, Def.type t ∈ d → ∀ y ∈ t.impls, ∃ u, Def.type u ∈ d ∧ u.name = y
  members : ∀ t, Def.type t ∈ d → ∀ y ∈ t.members, ∃ u, Def.type u ∈ d ∧ u.name = y

mutual
/-- The keys of the entries that a selection set asks for. -/
def respKeys : List Sel → List String
  | [] => []
  | s :: rest => respKey s (respKeys rest)
termination_by structural sels => sels

def respKey : Sel → List String → List String
  | .field f _, after => f.key :: after
  | .frag _ sels, after => respKeys sels ++ after
  | .spread _, after => after
termination_by structural s => s
end

mutual
/-- Under every field, no key is asked for twice. -/
def DistinctBelow : List Sel → Prop
  | [] => True
  | s :: rest => DistinctIn s ∧ DistinctBelow rest
termination_by structural sels => sels

def DistinctIn : Sel → Prop
  | .field _ sels => (respKeys sels).Nodup ∧ DistinctBelow sels
  | .frag _ sels => DistinctBelow sels
  | .spread _ => True
termination_by structural s => s
end

/-- No key is asked for twice in one object. -/
def Distinct (sels : List Sel) : Prop := (respKeys sels).Nodup ∧ DistinctBelow sels

mutual
/-- There are no fragments directly under `__schema`. -/
def PlainSchema : List Sel → Prop
  | [] => True
  | s :: rest => PlainIn s ∧ PlainSchema rest
termination_by structural sels => sels

def PlainIn : Sel → Prop
  | .field f sels => f.name = "__schema" → ∀ g s, Sel.frag g s ∉ sels
  | .frag _ sels => PlainSchema sels
  | .spread _ => True
termination_by structural s => s
end

/-- `@deprecated` without a reason. -/
def NoReason (dirs : List Dir) : Prop :=
  ∃ dir, dirs.find? (fun x => x.name == "deprecated") = some dir ∧ dir.args.lookup "reason" = none

/-- There is a schema definition that does not name a root type, and an object of its usual name. -/
def Unnamed (d : Doc) (usual : String) (pick : SchemaDef → Option String) : Prop :=
  (∃ s, Def.schema s ∈ d ∧ pick s = none) ∧ ∃ o : Obj, Def.type (.object o) ∈ d ∧ o.name = usual

/-- Where the router does not answer as it should. -/
def Exempt (d : Doc) (n : Node) (name : String) : Prop :=
  match n with
  | .schema =>
    (name = "mutationType" ∧ Unnamed d "Mutation" (·.mutation)) ∨
      (name = "subscriptionType" ∧ Unnamed d "Subscription" (·.subscription))
  | .type t =>
    (name = "interfaces" ∧ t.kind = "INTERFACE") ∨
      (name = "possibleTypes" ∧ t.kind = "INTERFACE" ∧
        ∃ i : Obj, Def.type (.interface i) ∈ d ∧ t.name ∈ i.impls) ∨
      (name = "inputFields" ∧ ∃ v ∈ t.inputs, Deprecated v.dirs)
  | .field f =>
    (name = "args" ∧ ∃ v ∈ f.args, Deprecated v.dirs) ∨ (name = "deprecationReason" ∧ NoReason f.dirs)
  | .input v => name = "deprecationReason" ∧ NoReason v.dirs
  | .value v => name = "deprecationReason" ∧ NoReason v.dirs
  | .directive dd => name = "args" ∧ ∃ v ∈ dd.args, Deprecated v.dirs
  | _ => False

end Verif.Client
