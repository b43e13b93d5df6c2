import Verif.Client.Model

/-!
# What clients should see of a supergraph

Said without the code's way of walking over documents.
-/

namespace Verif.Client

/-- Marked as not for clients. -/
def Hidden (dirs : List Dir) : Prop := ∃ d ∈ dirs, d.name = "inaccessible"

instance (dirs : List Dir) : Decidable (Hidden dirs) :=
  inferInstanceAs (Decidable (∃ d ∈ dirs, d.name = "inaccessible"))

/-- The directives by which a supergraph says where things come from, who may see them and what they
cost. -/
def federationDirectives : List String :=
  ["link", "core", "join__graph", "join__type", "join__field", "join__implements",
    "join__unionMember", "join__enumValue", "join__directive", "join__owner", "tag", "inaccessible",
    "authenticated", "requiresScopes", "cost", "listSize"]

/-- The types that the definitions of these directives need. -/
def federationTypes : List String :=
  ["link__Import", "link__Purpose", "core__Purpose", "join__Graph", "join__FieldSet",
    "join__DirectiveArguments", "requiresScopes__Scope"]

/-- A type of the supergraph that is for clients. -/
def Shown (d : Doc) (t : TypeDef) : Prop :=
  Def.type t ∈ d ∧ ¬ Hidden t.dirs ∧ t.name ∉ federationTypes

/-- The fields of an object or of an interface. -/
def TypeDef.fields : TypeDef → List Fld
  | .object o => o.fields
  | .interface o => o.fields
  | _ => []

/-- The fields of an input object. -/
def TypeDef.inputs : TypeDef → List InVal
  | .input i => i.fields
  | _ => []

/-- The values of an enum. -/
def TypeDef.values : TypeDef → List EnumVal
  | .enum e => e.values
  | _ => []

/-- What kind of type it is. -/
def TypeDef.kind : TypeDef → String
  | .scalar _ => "SCALAR"
  | .object _ => "OBJECT"
  | .interface _ => "INTERFACE"
  | .union _ => "UNION"
  | .enum _ => "ENUM"
  | .input _ => "INPUT_OBJECT"

/-- The types that every client schema has. -/
def introspectionTypes : List String :=
  ["Boolean", "Float", "Int", "ID", "String", "__Schema", "__Type", "__Field", "__InputValue",
    "__EnumValue", "__TypeKind", "__Directive", "__DirectiveLocation"]

/-- The names of the types in a document, in order. -/
def typeNames (d : Doc) : List String :=
  d.filterMap (fun | .type t => some t.name | _ => none)

/-- A supergraph as composition makes it: no two types have the same name; there is a query type, it
is for clients and so is one of its fields; a type for clients that has fields has one for clients, and
none has the name of a built-in type. -/
structure Composed (d : Doc) (query : String) : Prop where
  distinct : (typeNames d).Nodup
  queryName : queryTypeName d = some query
  queryType : ∃ o : Obj, Shown d (.object o) ∧ o.name = query ∧ ∃ f ∈ o.fields, ¬ Hidden f.dirs
  own : ∀ t, Shown d t → t.name ∉ introspectionTypes
  notEmpty : ∀ t, Shown d t → t.fields ≠ [] → ∃ f ∈ t.fields, ¬ Hidden f.dirs

/-! ## The whole of it -/

def seenDirs (dirs : List Dir) : List Dir := dirs.filter (fun d => d.name ∉ federationDirectives)

/-- Arguments and input fields. -/
def seenInputs (vs : List InVal) : List InVal :=
  (vs.filter (fun v => ¬ Hidden v.dirs)).map (fun v => { v with dirs := seenDirs v.dirs })

def seenField (f : Fld) : Fld := { f with args := seenInputs f.args, dirs := seenDirs f.dirs }

def seenFields (fs : List Fld) : List Fld := (fs.filter (fun f => ¬ Hidden f.dirs)).map seenField

def seenValues (vs : List EnumVal) : List EnumVal :=
  (vs.filter (fun v => ¬ Hidden v.dirs)).map (fun v => { v with dirs := seenDirs v.dirs })

def seenObj (o : Obj) : Obj := { o with dirs := seenDirs o.dirs, fields := seenFields o.fields }

def seenType : TypeDef → TypeDef
  | .scalar t => .scalar { t with dirs := seenDirs t.dirs }
  | .object t => .object (seenObj t)
  | .interface t => .interface (seenObj t)
  | .union t => .union { t with dirs := seenDirs t.dirs }
  | .enum t => .enum { t with dirs := seenDirs t.dirs, values := seenValues t.values }
  | .input t => .input { t with dirs := seenDirs t.dirs, fields := seenInputs t.fields }

def seenDef : Def → Option Def
  | .schema s => some (.schema { s with dirs := seenDirs s.dirs })
  | .type t => if Hidden t.dirs ∨ t.name ∈ federationTypes then none else some (.type (seenType t))
  | .directive d =>
    if d.name ∈ federationDirectives then none else some (.directive { d with args := seenInputs d.args })

/-- What is left of a supergraph. -/
def seen (d : Doc) : Doc := d.filterMap seenDef

end Verif.Client
