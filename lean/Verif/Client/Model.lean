/-!
# The schema that clients see

`query_planner/consumer_schema/{mod,prune_inacessible,strip_schema_internals}.rs` on top of
`query_planner/utils/schema_transformer.rs`: from the supergraph, what is marked `@inaccessible` and what
is there for federation only is taken away, and the definitions of introspection are added.

Left out: positions and the hash of the document; type extensions, on which the code panics
(`todo!`) and which supergraphs do not have. Values of arguments of directives and default values
are kept as they are written, except that strings in directives can be told apart.
-/

namespace Verif.Client

/-! ## Documents

`lib/graphql-tools/src/parser/schema/ast.rs` -/

/-- `Type`, `parser/common.rs`. -/
inductive Ty where
  | named (n : String)
  | list (t : Ty)
  | nonNull (t : Ty)
deriving DecidableEq, Repr

/-- A value given to a directive: a string, or any other value, as it is written. -/
inductive DVal where
  | str (s : String)
  | other (text : String)
deriving DecidableEq, Repr

/-- `Directive`, `parser/common.rs:32-37`. -/
structure Dir where
  name : String
  args : List (String × DVal) := []
deriving DecidableEq, Repr

/-- `InputValue`, `ast.rs:215-223`: an argument or an input field. -/
structure InVal where
  name : String
  desc : Option String := none
  ty : Ty
  default_ : Option String := none
  dirs : List Dir := []
deriving DecidableEq, Repr

/-- `Field`, `ast.rs:205-213`. -/
structure Fld where
  name : String
  desc : Option String := none
  args : List InVal := []
  ty : Ty
  dirs : List Dir := []
deriving DecidableEq, Repr

/-- `EnumValue`, `ast.rs`. -/
structure EnumVal where
  name : String
  desc : Option String := none
  dirs : List Dir := []
deriving DecidableEq, Repr

/-- `ObjectType` and `InterfaceType`, `ast.rs:155-163`, 225-235: they have the same parts. -/
structure Obj where
  name : String
  desc : Option String := none
  impls : List String := []
  dirs : List Dir := []
  fields : List Fld := []
deriving DecidableEq, Repr

/-- `ScalarType`. -/
structure Scalar where
  name : String
  desc : Option String := none
  dirs : List Dir := []
deriving DecidableEq, Repr

/-- `UnionType`. -/
structure Union_ where
  name : String
  desc : Option String := none
  dirs : List Dir := []
  types : List String := []
deriving DecidableEq, Repr

/-- `EnumType`. -/
structure Enum_ where
  name : String
  desc : Option String := none
  dirs : List Dir := []
  values : List EnumVal := []
deriving DecidableEq, Repr

/-- `InputObjectType`. -/
structure Input where
  name : String
  desc : Option String := none
  dirs : List Dir := []
  fields : List InVal := []
deriving DecidableEq, Repr

/-- `TypeDefinition`, `ast.rs`. -/
inductive TypeDef where
  | scalar (t : Scalar)
  | object (t : Obj)
  | interface (t : Obj)
  | union (t : Union_)
  | enum (t : Enum_)
  | input (t : Input)
deriving DecidableEq, Repr

/-- `DirectiveDefinition`, `ast.rs`. -/
structure DirDef where
  name : String
  desc : Option String := none
  args : List InVal := []
  repeatable : Bool := false
  locations : List String := []
deriving DecidableEq, Repr

/-- `SchemaDefinition`, `ast.rs`. -/
structure SchemaDef where
  dirs : List Dir := []
  query : Option String := none
  mutation : Option String := none
  subscription : Option String := none
deriving DecidableEq, Repr

/-- `Definition`, `ast.rs`, without extensions. -/
inductive Def where
  | schema (s : SchemaDef)
  | type (t : TypeDef)
  | directive (d : DirDef)
deriving DecidableEq, Repr

abbrev Doc := List Def

/-- `TypeDefinition::name`, `ast/ext.rs`. -/
def TypeDef.name : TypeDef → String
  | .scalar t => t.name
  | .object t => t.name
  | .interface t => t.name
  | .union t => t.name
  | .enum t => t.name
  | .input t => t.name

/-- The directives on a type. -/
def TypeDef.dirs : TypeDef → List Dir
  | .scalar t => t.dirs
  | .object t => t.dirs
  | .interface t => t.dirs
  | .union t => t.dirs
  | .enum t => t.dirs
  | .input t => t.dirs

/-- The loop of `root_type_name`, `ast.rs:30-55`. -/
def rootLoop (default_ : String) (pick : SchemaDef → Option String) :
    Option String → Doc → Option String
  | fallback, [] => fallback
  | fallback, .schema s :: ds =>
    match pick s with
    | some n => some n
    | none => rootLoop default_ pick fallback ds
  | fallback, .type (.object o) :: ds =>
    rootLoop default_ pick (if fallback.isNone && o.name = default_ then some o.name else fallback) ds
  | fallback, _ :: ds => rootLoop default_ pick fallback ds

/-- `query_type_name`, `ast.rs:18-20`. -/
def queryTypeName (d : Doc) : Option String := rootLoop "Query" (·.query) none d

/-- `mutation_type_name`, `ast.rs:22-24`. -/
def mutationTypeName (d : Doc) : Option String := rootLoop "Mutation" (·.mutation) none d

/-- `subscription_type_name`, `ast.rs:26-28`. -/
def subscriptionTypeName (d : Doc) : Option String := rootLoop "Subscription" (·.subscription) none d

/-! ## Transformers

`Keep` is `none`, `Replace` is `some`. -/

/-- `transform_list`, `schema_transformer.rs:387-420`: `before` is what was seen, in order. -/
def listLoop {α : Type} (f : α → Option α) (before : List α) :
    List α → Bool → List α → Option (List α)
  | result, changed, [] => if changed then some result else none
  | result, changed, x :: xs =>
    match f x with
    | none => listLoop f (before ++ [x]) (if changed then result ++ [x] else result) changed xs
    | some y =>
      listLoop f (before ++ [x]) ((if changed then result else result ++ before) ++ [y]) true xs

def transformList {α : Type} (f : α → Option α) (xs : List α) : Option (List α) :=
  listLoop f [] [] false xs

/-- What a transformer says about the parts that the two transformers treat in their own way. -/
structure Hooks where
  /-- `transform_directives` -/
  dirs : List Dir → Option (List Dir)
  /-- `transform_input_values` -/
  inputs : List InVal → Option (List InVal)
  /-- `transform_fields` -/
  fields : List Fld → Option (List Fld)
  /-- `transform_enum_type` -/
  enum : Enum_ → Option Enum_
  /-- `transform_input_object_type` -/
  input : Input → Option Input

/-- `transform_input_value`, `schema_transformer.rs:353-384`; `transform_value` keeps every value. -/
def transformInVal (dirs : List Dir → Option (List Dir)) (v : InVal) : Option InVal :=
  match dirs v.dirs with
  | none => none
  | some ds => some { v with dirs := ds }

/-- `transform_field`, `schema_transformer.rs:327-344`. -/
def transformField (dirs : List Dir → Option (List Dir)) (inputs : List InVal → Option (List InVal))
    (f : Fld) : Option Fld :=
  let ds := dirs f.dirs
  let as := inputs f.args
  if ds.isNone && as.isNone then none
  else some { f with args := as.getD f.args, dirs := ds.getD f.dirs }

/-- `transform_enum_value`, `schema_transformer.rs:186-203`. -/
def transformEnumVal (dirs : List Dir → Option (List Dir)) (v : EnumVal) : Option EnumVal :=
  match dirs v.dirs with
  | none => none
  | some ds => some { v with dirs := ds }

/-- `transform_enum_type`, `schema_transformer.rs:205-220`. -/
def transformEnum (dirs : List Dir → Option (List Dir)) (e : Enum_) : Option Enum_ :=
  let ds := dirs e.dirs
  let vs := transformList (transformEnumVal dirs) e.values
  if ds.isNone && vs.isNone then none
  else some { e with dirs := ds.getD e.dirs, values := vs.getD e.values }

/-- `transform_input_object_type`, `schema_transformer.rs:222-240`. -/
def transformInput (dirs : List Dir → Option (List Dir)) (inputs : List InVal → Option (List InVal))
    (i : Input) : Option Input :=
  let ds := dirs i.dirs
  let fs := inputs i.fields
  if ds.isNone && fs.isNone then none
  else some { i with dirs := ds.getD i.dirs, fields := fs.getD i.fields }

/-- `transform_object_type` and `transform_interface_type`, `schema_transformer.rs:242-262`,
296-313. -/
def transformObj (h : Hooks) (o : Obj) : Option Obj :=
  let ds := h.dirs o.dirs
  let fs := h.fields o.fields
  if ds.isNone && fs.isNone then none
  else some { o with dirs := ds.getD o.dirs, fields := fs.getD o.fields }

/-- `transform_union_type`, `schema_transformer.rs:264-278`: the members stay. -/
def transformUnion (h : Hooks) (u : Union_) : Option Union_ :=
  match h.dirs u.dirs with
  | none => none
  | some ds => some { u with dirs := ds }

/-- `transform_scalar_type`, `schema_transformer.rs:280-294`. -/
def transformScalar (h : Hooks) (s : Scalar) : Option Scalar :=
  match h.dirs s.dirs with
  | none => none
  | some ds => some { s with dirs := ds }

/-- `transform_type_definition`, `schema_transformer.rs:158-184`. -/
def transformType (h : Hooks) : TypeDef → Option TypeDef
  | .scalar t => (transformScalar h t).map .scalar
  | .object t => (transformObj h t).map .object
  | .interface t => (transformObj h t).map .interface
  | .union t => (transformUnion h t).map .union
  | .enum t => (h.enum t).map .enum
  | .input t => (h.input t).map .input

/-- `transform_schema_definition`, `schema_transformer.rs:138-156`. -/
def transformSchema (h : Hooks) (s : SchemaDef) : Option SchemaDef :=
  match h.dirs s.dirs with
  | none => none
  | some ds => some { s with dirs := ds }

/-- `transform_directive_definition`, `schema_transformer.rs:118-136`. -/
def transformDirDef (h : Hooks) (d : DirDef) : Option DirDef :=
  match h.inputs d.args with
  | none => none
  | some as => some { d with args := as }

/-- `transform_definition`, `schema_transformer.rs:101-116`. -/
def transformDef (h : Hooks) : Def → Option Def
  | .schema s => (transformSchema h s).map .schema
  | .type t => (transformType h t).map .type
  | .directive d => (transformDirDef h d).map .directive

/-- The loop of `default_transform_document`, `schema_transformer.rs:82-99`. -/
def docLoop (h : Hooks) : List Def → Bool → Doc → Option Doc
  | out, changed, [] => if changed then some out else none
  | out, changed, d :: ds =>
    match transformDef h d with
    | none => docLoop h (out ++ [d]) changed ds
    | some d' => docLoop h (out ++ [d']) true ds

def transformDoc (h : Hooks) (d : Doc) : Option Doc := docLoop h [] false d

/-! ## Taking away what is inaccessible -/

/-- `has_inaccessible_directive`, `prune_inacessible.rs:25-31`. -/
def marked (dirs : List Dir) : Bool := dirs.any (fun d => d.name = "inaccessible")

/-- `transform_directives` where it is not overridden: `transform_directive` keeps each. -/
def keepDirs (dirs : List Dir) : Option (List Dir) := transformList (fun _ => none) dirs

/-- `transform_input_values`, `prune_inacessible.rs:73-84`. -/
def pruneInputs (vs : List InVal) : Option (List InVal) := some (vs.filter (fun v => !marked v.dirs))

/-- The overridden methods, `prune_inacessible.rs:73-130`. -/
def pruneHooks : Hooks where
  dirs := keepDirs
  inputs := pruneInputs
  fields fs := transformList (transformField keepDirs pruneInputs) (fs.filter (fun f => !marked f.dirs))
  enum e := some { e with values := e.values.filter (fun v => !marked v.dirs) }
  input i := some { i with fields := i.fields.filter (fun v => !marked v.dirs) }

/-- The filter of `transform_document`, `prune_inacessible.rs:43-66`. -/
def pruneKeeps : Def → Bool
  | .type t => !marked t.dirs
  | _ => true

/-- `PruneInaccessible::prune`, `prune_inacessible.rs:16-23`: where nothing was replaced the document
stays as it was before the filter. -/
def prune (d : Doc) : Doc := (transformDoc pruneHooks (d.filter pruneKeeps)).getD d

/-! ## Taking away what is there for federation -/

/-- `DIRECTIVES_TO_STRIP`, `strip_schema_internals.rs:25-42`, with the names in `federation_spec`. -/
def directivesToStrip : List String :=
  ["join__type", "join__enumValue", "join__field", "join__implements", "join__unionMember",
    "join__graph", "join__owner", "join__directive", "link", "tag", "inaccessible", "core",
    "authenticated", "requiresScopes", "cost", "listSize"]

/-- `DEFINITIONS_TO_STRIP`, `strip_schema_internals.rs:44-52`. -/
def definitionsToStrip : List String :=
  ["link__Purpose", "link__Import", "join__Graph", "join__FieldSet", "join__DirectiveArguments",
    "core__Purpose", "requiresScopes__Scope"]

/-- `transform_directives`, `strip_schema_internals.rs:64-83`. -/
def stripDirs (dirs : List Dir) : Option (List Dir) :=
  some (dirs.filter (fun d => !directivesToStrip.contains d.name))

/-- The methods of `StripSchemaInternals`: only `transform_directives` and `transform_document` are its
own. -/
def stripHooks : Hooks where
  dirs := stripDirs
  inputs := transformList (transformInVal stripDirs)
  fields := transformList (transformField stripDirs (transformList (transformInVal stripDirs)))
  enum := transformEnum stripDirs
  input := transformInput stripDirs (transformList (transformInVal stripDirs))

/-- The filter of `transform_document`, `strip_schema_internals.rs:93-117`. -/
def stripKeeps : Def → Bool
  | .directive d => !directivesToStrip.contains d.name
  | .type t => !definitionsToStrip.contains t.name
  | .schema _ => true

/-- `strip_schema_internals`, `strip_schema_internals.rs:55-62`. -/
def strip (d : Doc) : Doc := (transformDoc stripHooks (d.filter stripKeeps)).getD d

/-! ## Adding introspection -/

/-- `find` and `extend`, `mod.rs:59-81`: the fields are added to the first object of that name; `none`
if there is no such object. -/
def extendFirst (name : String) (fs : List Fld) : Doc → Option Doc
  | [] => none
  | .type (.object o) :: ds =>
    if o.name = name then some (.type (.object { o with fields := o.fields ++ fs }) :: ds)
    else (extendFirst name fs ds).map (.type (.object o) :: ·)
  | d :: ds => (extendFirst name fs ds).map (d :: ·)

/-- The loop over the definitions of introspection, `mod.rs:50-89`. -/
def addIntro (query : String) : Doc → Doc → Doc
  | result, [] => result
  | result, .type (.object o) :: ds =>
    if o.name = "Query" then
      addIntro query ((extendFirst query o.fields result).getD (result ++ [.type (.object o)])) ds
    else addIntro query (result ++ [.type (.object o)]) ds
  | result, d :: ds => addIntro query (result ++ [d]) ds

/-- `create_consumer_schema`, `mod.rs:36-91`. `none` is the panic where there is no query type. -/
def create (intro d : Doc) : Option Doc :=
  let result := strip (prune d)
  (queryTypeName result).map (fun q => addIntro q result intro)

end Verif.Client
