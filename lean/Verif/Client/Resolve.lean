import Verif.Client.Tables
import Verif.Core.Ast
import Verif.Core.Value

/-!
# Answers to introspection

`executor/introspection/resolve.rs`: what the router answers to `__schema` and `__type`. `none` is a
panic. Conditions (`@skip`, `@include`) are not looked at here: the answer is shaped afterwards by the
projection, which leaves out what the client did not ask for.

Simplifications: values of variables are response values; the text of a default value is the one in the
schema document; the order in which hash tables are walked is a parameter.
-/

namespace Verif.Client
open Verif (Value Sel Lit)

/-- `IntrospectionContext`, `resolve.rs:22-27`. `order` is the order in which a hash table gives its keys. -/
structure Ctx where
  doc : Doc
  vars : String → Option Value
  order : List String → List String

/-- `type_by_name`, `lib/graphql-tools/src/ast/ext.rs:73-83`. -/
def typeByName (d : Doc) (n : String) : Option TypeDef :=
  d.findSome? (fun | .type t => if t.name = n then some t else none | _ => none)

/-- The keys of a hash table or set: each name once. -/
def keys : List String → List String
  | [] => []
  | n :: ns => if ns.contains n then keys ns else n :: keys ns

/-- What is under a key of `type_map`, `ast/ext.rs:120-130`: the last type of that name. -/
def lastByName (d : Doc) (n : String) : Option TypeDef := typeByName d.reverse n

/-- `resolve_boolean_variable`, `resolve.rs:29-38`. -/
def boolVar (c : Ctx) (n : String) : Option Bool :=
  match c.vars n with
  | some (.bool b) => some b
  | _ => none

/-- `resolve_str_variable`, `resolve.rs:40-49`. -/
def strVar (c : Ctx) (n : String) : Option String :=
  match c.vars n with
  | some (.str s) => some s
  | _ => none

/-- The string that the first directive of a name is given, `resolve.rs:51-66`, 76-88. -/
def dirString (dir arg : String) (dirs : List Dir) : Option String :=
  match dirs.find? (fun d => d.name = dir) with
  | some d =>
    match d.args.find? (fun a => a.1 = arg) with
    | some (_, .str s) => some s
    | _ => none
  | none => none

/-- `get_deprecation_reason`, `resolve.rs:51-66`. -/
def deprecationReason (dirs : List Dir) : Option String := dirString "deprecated" "reason" dirs

/-- `is_deprecated`, `resolve.rs:68-74`. -/
def isDeprecated (dirs : List Dir) : Bool := dirs.any (fun d => d.name = "deprecated")

/-- `get_specified_by_url`, `resolve.rs:76-88`. -/
def specifiedByUrl (dirs : List Dir) : Option String := dirString "specifiedBy" "url" dirs

/-- `is_one_of`, `resolve.rs:90-92`. -/
def isOneOf (dirs : List Dir) : Bool := dirs.any (fun d => d.name = "oneOf")

/-- `kind_to_str`, `resolve.rs:94-104`. -/
def kindStr : TypeDef → String
  | .scalar _ => "SCALAR"
  | .object _ => "OBJECT"
  | .interface _ => "INTERFACE"
  | .union _ => "UNION"
  | .enum _ => "ENUM"
  | .input _ => "INPUT_OBJECT"

/-- The description of a type, `resolve.rs:271-279`. -/
def TypeDef.desc : TypeDef → Option String
  | .scalar t => t.desc
  | .object t => t.desc
  | .interface t => t.desc
  | .union t => t.desc
  | .enum t => t.desc
  | .input t => t.desc

/-- `map_or(Value::Null, Value::String)`. -/
def strOrNull : Option String → Value
  | some s => .str s
  | none => .null

/-- `includeDeprecated`, `resolve.rs:301-312`, 364-375. -/
def includeDeprecated (c : Ctx) (args : Option (List (String × Lit))) : Bool :=
  match (args.getD []).lookup "includeDeprecated" with
  | some (.bool b) => b
  | some (.var n) => (boolVar c n).getD false
  | _ => false

/-- `sort_by_key`, which is stable. -/
def insertKey {α : Type} (x : String × α) : List (String × α) → List (String × α)
  | [] => [x]
  | y :: ys => if x.1 ≤ y.1 then x :: y :: ys else y :: insertKey x ys

def sortKeys {α : Type} : List (String × α) → List (String × α)
  | [] => []
  | x :: xs => insertKey x (sortKeys xs)

/-- `sort_by_key` and `Value::Object`, at the end of each of the functions. -/
def asObject (fs : Option (List (String × Value))) : Option Value := fs.map (fun fs => .obj (sortKeys fs))

/-- `collect` of answers, each of which may panic. -/
def each {α β : Type} (f : α → Option β) : List α → Option (List β)
  | [] => some []
  | x :: xs =>
    match f x, each f xs with
    | some y, some ys => some (y :: ys)
    | _, _ => none

/-- `Value::Array` of them. -/
def asArray {α : Type} (f : α → Option Value) (xs : List α) : Option Value := (each f xs).map .arr

/-- What the fields of one selection set add up to: one entry pushed, and the rest. -/
def push (key : String) (v : Option Value) (rest : Option (List (String × Value))) :
    Option (List (String × Value)) :=
  match v, rest with
  | some v, some rest => some ((key, v) :: rest)
  | _, _ => none

/-- `extend` with the entries of a fragment. -/
def extend (xs ys : Option (List (String × Value))) : Option (List (String × Value)) :=
  match xs, ys with
  | some xs, some ys => some (xs ++ ys)
  | _, _ => none

/-- One field of an enum value, `resolve.rs:217-228`. -/
def enumValueField (ev : EnumVal) (name : String) : Option Value :=
  if name = "name" then some (.str ev.name)
  else if name = "description" then some (strOrNull ev.desc)
  else if name = "isDeprecated" then some (.bool (isDeprecated ev.dirs))
  else if name = "deprecationReason" then some (strOrNull (deprecationReason ev.dirs))
  else if name = "__typename" then some (.str "__EnumValue")
  else some .null

/-- One field of an argument or input field, `resolve.rs:124-140`. -/
def inputValueField (iv : InVal) (name : String) (type : Ty → Option Value) : Option Value :=
  if name = "name" then some (.str iv.name)
  else if name = "description" then some (strOrNull iv.desc)
  else if name = "type" then type iv.ty
  else if name = "defaultValue" then some (strOrNull iv.default_)
  else if name = "isDeprecated" then some (.bool (isDeprecated iv.dirs))
  else if name = "deprecationReason" then some (strOrNull (deprecationReason iv.dirs))
  else if name = "__typename" then some (.str "__InputValue")
  else some .null

/-- One field of a field, `resolve.rs:171-191`. -/
def fieldField (f : Fld) (name : String) (type : Ty → Option Value) (input : InVal → Option Value) :
    Option Value :=
  if name = "name" then some (.str f.name)
  else if name = "description" then some (strOrNull f.desc)
  else if name = "args" then asArray input f.args
  else if name = "type" then type f.ty
  else if name = "isDeprecated" then some (.bool (isDeprecated f.dirs))
  else if name = "deprecationReason" then some (strOrNull (deprecationReason f.dirs))
  else if name = "__typename" then some (.str "__Field")
  else some .null

/-- One field of a directive, `resolve.rs:492-516`. -/
def directiveField (d : DirDef) (name : String) (input : InVal → Option Value) : Option Value :=
  if name = "name" then some (.str d.name)
  else if name = "description" then some (strOrNull d.desc)
  else if name = "locations" then some (.arr (d.locations.map .str))
  else if name = "args" then asArray input d.args
  else if name = "isRepeatable" then some (.bool d.repeatable)
  else if name = "__typename" then some (.str "__Directive")
  else some .null

/-- One field of a list or non-null type, `resolve.rs:434-440`. -/
def wrapperField (kind : String) (inner : Ty) (name : String) (type : Ty → Option Value) : Option Value :=
  if name = "kind" then some (.str kind)
  else if name = "name" then some .null
  else if name = "ofType" then type inner
  else if name = "__typename" then some (.str "__Type")
  else some .null

/-- Names that are not listed among the fields, `resolve.rs:317`. -/
def reserved (name : String) : Bool := ['_', '_'].isPrefixOf name.toList

/-- `fields`, `resolve.rs:295-326`. -/
def fieldsOf (c : Ctx) (t : TypeDef) (args : Option (List (String × Lit))) (field : Fld → Option Value) :
    Option Value :=
  let shown (fs : List Fld) :=
    fs.filter (fun f => !reserved f.name && (includeDeprecated c args || !isDeprecated f.dirs))
  match t with
  | .object o => asArray field (shown o.fields)
  | .interface o => asArray field (shown o.fields)
  | _ => some .null

/-- `interfaces`, `resolve.rs:327-339`. -/
def interfacesOf (c : Ctx) (t : TypeDef) (type : TypeDef → Option Value) : Option Value :=
  match t with
  | .object o => asArray type (o.impls.filterMap (typeByName c.doc))
  | _ => some .null

/-- `get_possible_types`, `schema.rs:147-151`. -/
def possibleNames (c : Ctx) (n : String) : List String :=
  c.order (keys (((tables c.doc).possible n).getD [] ++ [n]))

/-- `possibleTypes`, `resolve.rs:340-356`. -/
def possibleTypesOf (c : Ctx) (t : TypeDef) (type : TypeDef → Option Value) : Option Value :=
  let possible :=
    asArray type (((possibleNames c t.name).filter (fun v => v ≠ t.name)).filterMap (typeByName c.doc))
  match t with
  | .interface _ => possible
  | .union _ => possible
  | _ => some .null

/-- `enumValues`, `resolve.rs:357-387`. -/
def enumValuesOf (c : Ctx) (t : TypeDef) (args : Option (List (String × Lit)))
    (value : EnumVal → Option Value) : Option Value :=
  match t with
  | .enum e => asArray value (e.values.filter (fun v => includeDeprecated c args || !isDeprecated v.dirs))
  | _ => some .null

/-- `inputFields`, `resolve.rs:388-398`. -/
def inputFieldsOf (t : TypeDef) (input : InVal → Option Value) : Option Value :=
  match t with
  | .input i => asArray input i.fields
  | _ => some .null

/-- `specifiedByURL`, `resolve.rs:280-287`. -/
def urlOf (t : TypeDef) : Value :=
  match t with
  | .scalar s => strOrNull (specifiedByUrl s.dirs)
  | _ => .null

/-- `isOneOf`, `resolve.rs:288-294`. -/
def oneOfOf (t : TypeDef) : Value :=
  match t with
  | .input i => .bool (isOneOf i.dirs)
  | _ => .null

/-- One field of a type, `resolve.rs:258-402`. -/
def typeField (c : Ctx) (t : TypeDef) (name : String) (args : Option (List (String × Lit)))
    (type : TypeDef → Option Value) (field : Fld → Option Value) (value : EnumVal → Option Value)
    (input : InVal → Option Value) : Option Value :=
  if name = "kind" then some (.str (kindStr t))
  else if name = "name" then some (.str t.name)
  else if name = "description" then some (strOrNull t.desc)
  else if name = "specifiedByURL" then some (urlOf t)
  else if name = "isOneOf" then some (oneOfOf t)
  else if name = "fields" then fieldsOf c t args field
  else if name = "interfaces" then interfacesOf c t type
  else if name = "possibleTypes" then possibleTypesOf c t type
  else if name = "enumValues" then enumValuesOf c t args value
  else if name = "inputFields" then inputFieldsOf t input
  else if name = "ofType" then some .null
  else if name = "__typename" then some (.str "__Type")
  else some .null

/-- `resolve_type`, `resolve.rs:454-472`. -/
def typeRef (c : Ctx) (type : TypeDef → Option Value) (wrapper : String → Ty → Option Value) :
    Ty → Option Value
  | .named n =>
    match typeByName c.doc n with
    | some t => type t
    | none => none
  | .list t => wrapper "LIST" t
  | .nonNull t => wrapper "NON_NULL" t

mutual
/-- `resolve_enum_value_selections`, `resolve.rs:209-240`. -/
def enumValueItems (ev : EnumVal) : List Sel → Option (List (String × Value))
  | [] => some []
  | x :: rest => enumValueItem ev x (enumValueItems ev rest)
termination_by structural sels => sels

/-- The body of the loop; `after` is what comes of the rest. -/
def enumValueItem (ev : EnumVal) : Sel → Option (List (String × Value)) → Option (List (String × Value))
  | .field f _, after => push f.key (enumValueField ev f.name) after
  | .frag _ sels, after => extend (enumValueItems ev sels) after
  | .spread _, after => after
termination_by structural x => x
end

/-- What the four functions below, which call each other, are asked about. -/
inductive Thing where
  | type (t : TypeDef)
  | wrapper (kind : String) (inner : Ty)
  | field (f : Fld)
  | input (v : InVal)
deriving DecidableEq, Repr

/-- One field of any of them; `answer` is the answer to the selections under it. -/
def thingField (c : Ctx) (x : Thing) (name : String) (args : Option (List (String × Lit)))
    (answer : Thing → Option Value) (value : EnumVal → Option Value) : Option Value :=
  let ref := typeRef c (fun t => answer (.type t)) (fun k t => answer (.wrapper k t))
  match x with
  | .type t =>
    typeField c t name args (fun t => answer (.type t)) (fun f => answer (.field f)) value
      (fun v => answer (.input v))
  | .wrapper kind inner => wrapperField kind inner name ref
  | .field f => fieldField f name ref (fun v => answer (.input v))
  | .input v => inputValueField v name ref

mutual
/-- `resolve_type_definition_selections`, `resolve.rs:248-413`, `resolve_wrapper_type_selections`, 425-452,
`resolve_field_selections`, 163-204, and `resolve_input_value_selections`, 116-152: their bodies are the
same but for the answer to one field. -/
def items (c : Ctx) (x : Thing) : List Sel → Option (List (String × Value))
  | [] => some []
  | s :: rest => item c x s (items c x rest)
termination_by structural sels => sels

/-- The body of the loop; `after` is what comes of the rest. -/
def item (c : Ctx) (x : Thing) : Sel → Option (List (String × Value)) → Option (List (String × Value))
  | .field f sels, after =>
    push f.key
      (thingField c x f.name f.args (fun y => asObject (items c y sels))
        (fun v => asObject (enumValueItems v sels)))
      after
  | .frag _ sels, after => extend (items c x sels) after
  | .spread _, after => after
termination_by structural s => s
end

/-- `resolve_type_definition`, `resolve.rs:238-246`. -/
def typeAnswer (c : Ctx) (sels : List Sel) (t : TypeDef) : Option Value := asObject (items c (.type t) sels)

/-- `resolve_input_value`, `resolve.rs:106-114`. -/
def inputAnswer (c : Ctx) (sels : List Sel) (v : InVal) : Option Value := asObject (items c (.input v) sels)

mutual
/-- `resolve_directive_selections`, `resolve.rs:484-529`. -/
def directiveItems (c : Ctx) (d : DirDef) : List Sel → Option (List (String × Value))
  | [] => some []
  | x :: rest => directiveItem c d x (directiveItems c d rest)
termination_by structural sels => sels

/-- The body of the loop; `after` is what comes of the rest. -/
def directiveItem (c : Ctx) (d : DirDef) :
    Sel → Option (List (String × Value)) → Option (List (String × Value))
  | .field f sels, after => push f.key (directiveField d f.name (inputAnswer c sels)) after
  | .frag _ sels, after => extend (directiveItems c d sels) after
  | .spread _, after => after
termination_by structural x => x
end

/-- The directives of a document, `resolve.rs:581-594`. -/
def directivesOf (d : Doc) : List DirDef := d.filterMap (fun | .directive x => some x | _ => none)

/-- A root type that need not be there, `resolve.rs:567-580`. -/
def rootType (c : Ctx) (name : Option String) (type : TypeDef → Option Value) : Option Value :=
  match name.bind (typeByName c.doc) with
  | some t => type t
  | none => some .null

/-- One field of the schema, `resolve.rs:547-597`. -/
def schemaField (c : Ctx) (name : String) (type : TypeDef → Option Value)
    (directive : DirDef → Option Value) : Option Value :=
  if name = "description" then some .null
  else if name = "types" then
    asArray type ((c.order (keys (typeNames c.doc))).filterMap (lastByName c.doc))
  else if name = "queryType" then
    match (queryTypeName c.doc).bind (typeByName c.doc) with
    | some t => type t
    | none => none
  else if name = "mutationType" then rootType c (mutationTypeName c.doc) type
  else if name = "subscriptionType" then rootType c (subscriptionTypeName c.doc) type
  else if name = "directives" then asArray directive (directivesOf c.doc)
  else if name = "__typename" then some (.str "__Schema")
  else some .null

/-- `resolve_schema_selections`, `resolve.rs:541-608`: inline fragments are not looked into; a spread has
no selections (`selection_item.rs:115`). -/
def schemaItems (c : Ctx) : List Sel → Option (List (String × Value))
  | [] => some []
  | .field f sels :: rest =>
    push f.key
      (schemaField c f.name (typeAnswer c sels) (fun d => asObject (directiveItems c d sels)))
      (schemaItems c rest)
  | .frag _ _ :: rest => schemaItems c rest
  | .spread _ :: rest => schemaItems c rest

/-- `__type`, `resolve.rs:636-664`. -/
def typeNamed (c : Ctx) (args : Option (List (String × Lit))) (type : TypeDef → Option Value) :
    Option Value :=
  match args with
  | none => some .null
  | some args =>
    match args.lookup "name" with
    | some (.str n) => rootType c (some n) type
    | some (.var x) => rootType c (strVar c x) type
    | _ => some .null

/-- One field of the operation, `resolve.rs:634-667`. -/
def rootField (c : Ctx) (root : String) (name : String) (args : Option (List (String × Lit)))
    (schema : Option Value) (type : TypeDef → Option Value) : Option Value :=
  if name = "__schema" then schema
  else if name = "__type" then typeNamed c args type
  else if name = "__typename" then some (.str root)
  else some .null

mutual
/-- `resolve_root_introspection_selections`, `resolve.rs:626-680`. -/
def rootItems (c : Ctx) (root : String) : List Sel → Option (List (String × Value))
  | [] => some []
  | x :: rest => rootItem c root x (rootItems c root rest)
termination_by structural sels => sels

/-- The body of the loop; `after` is what comes of the rest. -/
def rootItem (c : Ctx) (root : String) : Sel → Option (List (String × Value)) → Option (List (String × Value))
  | .field f sels, after =>
    push f.key
      (rootField c root f.name f.args (asObject (schemaItems c sels)) (typeAnswer c sels)) after
  | .frag _ sels, after => extend (rootItems c root sels) after
  | .spread _, after => after
termination_by structural x => x
end

/-- The kinds of operations, and `expect_root_type_name`, `schema.rs:105-124`. -/
inductive OpKind where
  | query
  | mutation
  | subscription
deriving DecidableEq, Repr

def rootName (d : Doc) : OpKind → Option String
  | .query => queryTypeName d
  | .mutation => mutationTypeName d
  | .subscription => subscriptionTypeName d

/-- `resolve_introspection`, `resolve.rs:610-624`. -/
def resolve (c : Ctx) (kind : OpKind) (sels : List Sel) : Option Value :=
  match rootName c.doc kind with
  | some root => asObject (rootItems c root sels)
  | none => none

end Verif.Client
