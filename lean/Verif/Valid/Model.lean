/-!
# Validation of documents against the schema: documents, the visitor, and the rules on names and
variables

A document is validated by one walk over it. A visitor goes through the document and tells every
rule where it is: which type is in scope, which input type is expected, and what it has just come to.
Here the walk is the list of what the rules are told, in order, each with what the rule can ask of the
visitor there; a rule is a function of that list.

Left out: positions and the texts of errors; comments; directives on variable definitions (the
parser leaves them out too).
-/

namespace Verif.Valid

abbrev Name := String

/-! ## Documents -/

/-- A type, as it is written. Models `query::Type` (lib/graphql-tools/src/parser/common.rs). -/
inductive Ty where
  | named (n : Name)
  | list (t : Ty)
  | nonNull (t : Ty)
deriving DecidableEq, Repr

/-- A value literal. Models `Value` (lib/graphql-tools/src/parser/common.rs:57-67). Floats are kept as
they are written, so that two floats are equal when they are written the same way. -/
inductive Val where
  | null
  | bool (b : Bool)
  | int (i : Int)
  | float (text : String)
  | str (s : String)
  | enum (n : Name)
  | var (n : Name)
  | list (vs : List Val)
  | obj (fs : List (Name × Val))
deriving Repr

/-- The arguments given to a field or a directive, in order. -/
abbrev Args := List (Name × Val)

/-- A directive. Models `Directive` (lib/graphql-tools/src/parser/common.rs:32-37). -/
structure Dir where
  name : Name
  args : Args
deriving Repr

/-- A selection. Models `Selection` (lib/graphql-tools/src/parser/query/ast.rs:100-140). -/
inductive Sel where
  | field (alias_ : Option Name) (name : Name) (args : Args) (dirs : List Dir) (sels : List Sel)
  | spread (name : Name) (dirs : List Dir)
  | inline (cond : Option Name) (dirs : List Dir) (sels : List Sel)
deriving Repr

/-- A variable definition. Models `VariableDefinition`
(lib/graphql-tools/src/parser/query/ast.rs). -/
structure VarDef where
  name : Name
  ty : Ty
  default_ : Option Val
deriving Repr

/-- What an operation does. -/
inductive OpKind where
  | query | mutation | subscription
deriving DecidableEq, Repr

/-- An operation. Models `OperationDefinition` (lib/graphql-tools/src/parser/query/ast.rs:53-98,
lib/graphql-tools/src/ast/ext.rs:43-70, 471-480); a bare selection set is a query with no name, no
variables and no directives, which is what those functions answer for it. -/
structure Op where
  kind : OpKind
  name : Option Name
  vars : List VarDef
  dirs : List Dir
  sels : List Sel
deriving Repr

/-- A fragment definition. Models `FragmentDefinition`
(lib/graphql-tools/src/parser/query/ast.rs:40-51). -/
structure Frag where
  name : Name
  cond : Name
  dirs : List Dir
  sels : List Sel
deriving Repr

/-- A definition in a document. -/
inductive Def where
  | op (o : Op)
  | frag (f : Frag)
deriving Repr

/-- A document: its definitions, in order. -/
abbrev Doc := List Def

/-- The operation a definition is, if it is one. -/
def Def.op? : Def → Option Op
  | .op o => some o
  | .frag _ => none

/-- The fragment a definition is, if it is one. -/
def Def.frag? : Def → Option Frag
  | .frag f => some f
  | .op _ => none

/-- The operations of a document. -/
def ops (d : Doc) : List Op := d.filterMap Def.op?

/-- The fragments of a document. -/
def frags (d : Doc) : List Frag := d.filterMap Def.frag?

/-- `known_fragments.get` (lib/graphql-tools/src/ast/operation_visitor.rs:38-43): of several
fragments with one name, the last. -/
def knownFrag (d : Doc) (n : Name) : Option Frag :=
  (frags d).reverse.find? (fun f => f.name = n)

/-! ## Schemas -/

/-- An argument of a field or a directive, or a field of an input object. -/
structure InputDef where
  name : Name
  ty : Ty
  default_ : Option Val
deriving Repr

/-- A field of an object or an interface. -/
structure FieldDef where
  name : Name
  args : List InputDef
  ty : Ty
deriving Repr

/-- A type of the schema. Models `schema::TypeDefinition`. -/
inductive TypeDef where
  | object (name : Name) (ifaces : List Name) (fields : List FieldDef)
  | interface (name : Name) (ifaces : List Name) (fields : List FieldDef)
  | union (name : Name) (members : List Name)
  | scalar (name : Name)
  | enum (name : Name) (values : List Name)
  | input (name : Name) (fields : List InputDef)
deriving Repr

/-- `name` (lib/graphql-tools/src/ast/ext.rs:403-412). -/
def TypeDef.name : TypeDef → Name
  | .object n _ _ => n
  | .interface n _ _ => n
  | .union n _ => n
  | .scalar n => n
  | .enum n _ => n
  | .input n _ => n

/-- Where a directive can stand in a document. Models `DirectiveLocation`, as far as documents have
such places. -/
inductive Loc where
  | query | mutation | subscription | field | fragmentDefinition | fragmentSpread | inlineFragment
deriving DecidableEq, Repr

/-- A directive of the schema. -/
structure DirDef where
  name : Name
  args : List InputDef
  locations : List Loc
  repeatable : Bool
deriving Repr

/-- A schema: its types and directives, and the names of its root types. Models `schema::Document`;
the root types are what `query_type`, `mutation_type` and `subscription_type`
(lib/graphql-tools/src/ast/ext.rs:97-111) answer. -/
structure Schema where
  types : List TypeDef
  dirs : List DirDef
  query : Name
  mutation : Option Name
  subscription : Option Name

/-- `type_by_name` (lib/graphql-tools/src/ast/ext.rs:73-83). -/
def Schema.typeByName (s : Schema) (n : Name) : Option TypeDef :=
  s.types.find? (fun t => t.name = n)

/-- `directive_by_name` (lib/graphql-tools/src/ast/ext.rs:85-95). -/
def Schema.dirByName (s : Schema) (n : Name) : Option DirDef :=
  s.dirs.find? (fun t => t.name = n)

/-- `field_by_name` (lib/graphql-tools/src/ast/ext.rs:21-31). -/
def TypeDef.fieldByName (t : TypeDef) (n : Name) : Option FieldDef :=
  match t with
  | .object _ _ fs => fs.find? (fun f => f.name = n)
  | .interface _ _ fs => fs.find? (fun f => f.name = n)
  | _ => none

/-- `input_field_by_name` (lib/graphql-tools/src/ast/ext.rs:33-40). -/
def TypeDef.inputByName (t : TypeDef) (n : Name) : Option InputDef :=
  match t with
  | .input _ fs => fs.find? (fun f => f.name = n)
  | _ => none

/-- `inner_type` (lib/graphql-tools/src/ast/ext.rs:213-219). -/
def Ty.inner : Ty → Name
  | .named n => n
  | .list t => t.inner
  | .nonNull t => t.inner

/-- `is_non_null` (lib/graphql-tools/src/ast/ext.rs:229-231). -/
def Ty.isNonNull : Ty → Bool
  | .nonNull _ => true
  | _ => false

/-- `is_leaf_type` (lib/graphql-tools/src/ast/ext.rs:425-430). -/
def TypeDef.isLeaf : TypeDef → Bool
  | .scalar _ => true
  | .enum _ _ => true
  | _ => false

/-- `is_input_type` (lib/graphql-tools/src/ast/ext.rs:432-439). -/
def TypeDef.isInput : TypeDef → Bool
  | .scalar _ => true
  | .enum _ _ => true
  | .input _ _ => true
  | _ => false

/-- `is_composite_type` (lib/graphql-tools/src/ast/ext.rs:441-448). -/
def TypeDef.isComposite : TypeDef → Bool
  | .object _ _ _ => true
  | .interface _ _ _ => true
  | .union _ _ => true
  | _ => false

/-- `is_abstract_type` (lib/graphql-tools/src/ast/ext.rs:414-419). -/
def TypeDef.isAbstract : TypeDef → Bool
  | .interface _ _ _ => true
  | .union _ _ => true
  | _ => false

/-- `is_object_type` (lib/graphql-tools/src/ast/ext.rs:450-452). -/
def TypeDef.isObject : TypeDef → Bool
  | .object _ _ _ => true
  | _ => false

/-- `interfaces` (lib/graphql-tools/src/ast/ext.rs:300-306). -/
def TypeDef.ifaces : TypeDef → List Name
  | .object _ is _ => is
  | .interface _ is _ => is
  | _ => []

/-- `is_required` (lib/graphql-tools/src/ast/ext.rs:288-296). -/
def InputDef.required (a : InputDef) : Bool := a.ty.isNonNull && a.default_.isNone

/-- `starts_with("__")`, on the letters of a name. -/
def reserved (n : Name) : Bool :=
  match n.toList with
  | '_' :: '_' :: _ => true
  | _ => false

/-! ## The visitor -/

/-- What a rule can ask of the visitor: the type that was entered last, as it is written
(`current_type_literal`; `current_type` is the type of the schema with that name), the type in scope
(`current_parent_type`), the input type that is expected (`current_input_type_literal`) and whether
the place has a default (`current_input_type_has_default`). Models `OperationVisitorContext`
(lib/graphql-tools/src/ast/operation_visitor.rs:11-153): each stack is the value on top of it, and a
stack that is put back after a call is a context that is passed down. -/
structure Ctx where
  ty : Option Ty
  parent : Option TypeDef
  input : Option Ty
  dflt : Bool

/-- `current_type` (operation_visitor.rs:59-64, 131-133). -/
def Ctx.cur (s : Schema) (c : Ctx) : Option TypeDef := c.ty.bind (fun t => s.typeByName t.inner)

/-- What a rule is told. Models the methods of `OperationVisitor`
(operation_visitor.rs:477-). The `leave_` methods that no modelled rule has are left out. -/
inductive Ev where
  | doc
  | leaveDoc
  | op (o : Op)
  | frag (f : Frag)
  | leaveFrag
  | varDef (v : VarDef)
  | dir (d : Dir)
  | leaveDir
  | arg (a : Name × Val)
  | sels (ss : List Sel)
  | field (alias_ : Option Name) (name : Name) (args : Args) (dirs : List Dir) (sels : List Sel)
  | leaveField
  | spread (name : Name) (dirs : List Dir)
  | inline (cond : Option Name) (dirs : List Dir)
  | null
  | scalar (v : Val)
  | enum (n : Name)
  | var (n : Name)
  | list (vs : List Val)
  | obj (fs : List (Name × Val))

abbrev Told := List (Ctx × Ev)

/-- The type that the items of a list literal are expected to have (operation_visitor.rs:279-282). -/
def itemType : Option Ty → Option Ty
  | some (.list t) => some t
  | _ => none

mutual
/-- `visit_input_value` (operation_visitor.rs:255-319). -/
def visitVal (s : Schema) (c : Ctx) : Val → Told
  | .null => [(c, .null)]
  | .bool b => [(c, .scalar (.bool b))]
  | .int i => [(c, .scalar (.int i))]
  | .float t => [(c, .scalar (.float t))]
  | .str t => [(c, .scalar (.str t))]
  | .enum n => [(c, .enum n)]
  | .var n => [(c, .var n)]
  | .list vs =>
      (c, .list vs) :: visitVals s { c with input := itemType c.input, dflt := false } vs
  | .obj fs => (c, .obj fs) :: visitObj s c fs
/-- The items of a list literal (operation_visitor.rs:284-288). -/
def visitVals (s : Schema) (c : Ctx) : List Val → Told
  | [] => []
  | v :: vs => visitVal s c v ++ visitVals s c vs
/-- The fields of an object literal (operation_visitor.rs:295-310). -/
def visitObj (s : Schema) (c : Ctx) : List (Name × Val) → Told
  | [] => []
  | f :: fs => visitPair s c f ++ visitObj s c fs
/-- One field of an object literal (operation_visitor.rs:296-309). -/
def visitPair (s : Schema) (c : Ctx) : Name × Val → Told
  | (n, v) =>
      visitVal s { c with
        input := ((c.input.bind (fun t => s.typeByName t.inner)).bind (·.inputByName n)).map (·.ty),
        dflt := (((c.input.bind (fun t => s.typeByName t.inner)).bind (·.inputByName n)).bind
          (·.default_)).isSome } v
end

/-- Where the value of an argument is visited (operation_visitor.rs:241-247). -/
def argCtx (c : Ctx) (defs : Option (List InputDef)) (n : Name) : Ctx :=
  { c with
    input := (defs.bind (fun ds => ds.find? (fun a => a.name = n))).map (·.ty),
    dflt := ((defs.bind (fun ds => ds.find? (fun a => a.name = n))).bind (·.default_)).isSome }

/-- `visit_arguments` (operation_visitor.rs:231-253). -/
def visitArgs (s : Schema) (c : Ctx) (defs : Option (List InputDef)) (args : Args) : Told :=
  args.flatMap (fun a => (argCtx c defs a.1, .arg a) :: visitVal s (argCtx c defs a.1) a.2)

/-- `visit_directives` (operation_visitor.rs:205-229). -/
def visitDirs (s : Schema) (c : Ctx) (dirs : List Dir) : Told :=
  dirs.flatMap (fun d =>
    (c, .dir d) :: visitArgs s c ((s.dirByName d.name).map (·.args)) d.args ++ [(c, .leaveDir)])

/-- `visit_variable_definitions` (operation_visitor.rs:321-342). -/
def visitVars (s : Schema) (c : Ctx) (vars : List VarDef) : Told :=
  vars.flatMap (fun v =>
    ({ c with input := some v.ty, dflt := false }, .varDef v) ::
      match v.default_ with
      | none => []
      | some x => visitVal s { c with input := some v.ty, dflt := false } x)

/-- The type in scope inside a field: what `field_by_name` answers for the type in scope
(operation_visitor.rs:354-358). -/
def fieldTy (p : Option TypeDef) (n : Name) : Option Ty := (p.bind (·.fieldByName n)).map (·.ty)

/-- The arguments that the field has in the schema (operation_visitor.rs:359). -/
def fieldArgs (p : Option TypeDef) (n : Name) : Option (List InputDef) :=
  (p.bind (·.fieldByName n)).map (·.args)

/-- `with_parent_type` (operation_visitor.rs:72-80). -/
def inSet (s : Schema) (c : Ctx) : Ctx := { c with parent := c.cur s }

/-- The context inside a field (operation_visitor.rs:361). -/
def inField (c : Ctx) (n : Name) : Ctx := { c with ty := fieldTy c.parent n }

/-- The context inside an inline fragment (operation_visitor.rs:388-409). -/
def inCond (c : Ctx) : Option Name → Ctx
  | some t => { c with ty := some (.named t) }
  | none => c

mutual
/-- `visit_selection` (operation_visitor.rs:344-421). -/
def visitSel (s : Schema) (c : Ctx) : Sel → Told
  | .field al n args ds sub =>
      (inField c n, .field al n args ds sub) ::
        (visitArgs s (inField c n) (fieldArgs c.parent n) args ++
          visitDirs s (inField c n) ds ++
          ((inSet s (inField c n), .sels sub) :: visitSels s (inSet s (inField c n)) sub) ++
          [(inField c n, .leaveField)])
  | .spread n ds => (c, .spread n ds) :: visitDirs s c ds
  | .inline cond ds sub =>
      (inCond c cond, .inline cond ds) ::
        (visitDirs s (inCond c cond) ds ++
          ((inSet s (inCond c cond), .sels sub) :: visitSels s (inSet s (inCond c cond)) sub))
/-- The selections of a selection set, in order (operation_visitor.rs:434-436). -/
def visitSels (s : Schema) (c : Ctx) : List Sel → Told
  | [] => []
  | x :: xs => visitSel s c x ++ visitSels s c xs
end

/-- `visit_selection_set` (operation_visitor.rs:423-440). -/
def visitSet (s : Schema) (c : Ctx) (ss : List Sel) : Told :=
  (inSet s c, .sels ss) :: visitSels s (inSet s c) ss

/-- The type that an operation starts from (operation_visitor.rs:183-190). -/
def rootOf (s : Schema) : OpKind → Option Name
  | .query => some s.query
  | .mutation => s.mutation
  | .subscription => s.subscription

/-- Nothing on any stack but a type (operation_visitor.rs:31-37, 193-194). -/
def startCtx (t : Option Name) : Ctx :=
  { ty := t.map .named, parent := none, input := none, dflt := false }

/-- `visit_operation_definition`, `visit_fragment_definition` (operation_visitor.rs:177-203,
442-474). -/
def visitDef (s : Schema) : Def → Told
  | .op o =>
      (startCtx (rootOf s o.kind), .op o) ::
        (visitDirs s (startCtx (rootOf s o.kind)) o.dirs ++
          visitVars s (startCtx (rootOf s o.kind)) o.vars ++
          visitSet s (startCtx (rootOf s o.kind)) o.sels)
  | .frag f =>
      (startCtx (some f.cond), .frag f) ::
        (visitDirs s (startCtx (some f.cond)) f.dirs ++ visitSet s (startCtx (some f.cond)) f.sels ++
          [(startCtx (some f.cond), .leaveFrag)])

/-- `visit_document` (operation_visitor.rs:156-167). -/
def visit (s : Schema) (d : Doc) : Told :=
  (startCtx none, .doc) :: (d.flatMap (visitDef s) ++ [(startCtx none, .leaveDoc)])

/-! ## Rules on the names of operations and fragments -/

/-- How often each name was found. Models `store_finding`
(rules/unique_operation_names.rs:61-64, rules/unique_fragment_names.rs:61-64). -/
def countUp : List (Name × Nat) → Name → List (Name × Nat)
  | [], n => [(n, 1)]
  | (m, k) :: rest, n => if m = n then (m, k + 1) :: rest else (m, k) :: countUp rest n

/-- `UniqueOperationNames` (lib/graphql-tools/src/validation/rules/unique_operation_names.rs:17-46):
is an error reported? -/
def uniqueOperationNames (s : Schema) (d : Doc) : Bool :=
  ((visit s d).foldl (fun m e =>
    match e.2 with
    | .op o => match o.name with
        | some n => countUp m n
        | none => m
    | _ => m) []).any (fun e => decide (e.2 > 1))

/-- `LoneAnonymousOperation` (rules/lone_anonymous_operation.rs:26-93): is an error reported? -/
def loneAnonymousOperation (d : Doc) : Bool :=
  (ops d).any (fun o => o.name.isNone && decide ((ops d).length > 1))

/-- `UniqueFragmentNames` (rules/unique_fragment_names.rs:17-46): is an error reported? -/
def uniqueFragmentNames (s : Schema) (d : Doc) : Bool :=
  ((visit s d).foldl (fun m e =>
    match e.2 with
    | .frag f => countUp m f.name
    | _ => m) []).any (fun e => decide (e.2 > 1))

/-- `KnownFragmentNames` (rules/known_fragment_names.rs:26-44): is an error reported? -/
def knownFragmentNames (s : Schema) (d : Doc) : Bool :=
  (visit s d).any (fun e =>
    match e.2 with
    | .spread n _ => (knownFrag d n).isNone
    | _ => false)

/-- A search through a graph that goes no place twice: the places that have been visited after going
to `a`. The fuel bounds the depth of the calls; with as much of it as there are places it is never
used up. -/
def search {α : Type} [DecidableEq α] (next : α → List α) : Nat → List α → α → List α
  | 0, seen, _ => seen
  | n + 1, seen, a =>
      if a ∈ seen then seen else (next a).foldl (search next n) (seen ++ [a])

/-- What `NoUnusedFragments` remembers (rules/no_unused_fragments.rs:14-19). The map from the name of
a fragment to the spreads in it is a list of both; of two fragments with one name the later entry is
the one that is found. -/
structure Unused where
  inUse : List Name := []
  spreads : List Name := []
  current : Option Name := none
  map : List (Name × List Name) := []

/-- The events of `NoUnusedFragments` (rules/no_unused_fragments.rs:22-56). -/
def unusedStep (u : Unused) (e : Ctx × Ev) : Unused :=
  match e.2 with
  | .frag f => { u with current := some f.name, spreads := [] }
  | .leaveFrag =>
      match u.current with
      | some n => { u with current := none, spreads := [], map := (n, u.spreads) :: u.map }
      | none => u
  | .spread n _ =>
      if u.current.isSome then { u with spreads := u.spreads ++ [n] }
      else { u with inUse := u.inUse ++ [n] }
  | _ => u

/-- `fragment_spreads.get` (rules/no_unused_fragments.rs:72). -/
def Unused.get (u : Unused) (n : Name) : List Name := (u.map.lookup n).getD []

/-- The loop of `leave_document` (rules/no_unused_fragments.rs:64-81): the queue and what has been
reached. The fuel bounds the turns. -/
def queueLoop (next : Name → List Name) : Nat → List Name → List Name → List Name
  | 0, reached, _ => reached
  | _ + 1, reached, [] => reached
  | n + 1, reached, x :: queue =>
      if x ∈ reached then queueLoop next n reached queue
      else queueLoop next n (reached ++ [x])
        (queue ++ (next x).filter (fun y => decide (y ∉ reached ++ [x])))

/-- As many turns as the loop can take: every spread is put in the queue at most once. -/
def turns (u : Unused) : Nat := u.inUse.length + (u.map.map (fun e => e.2.length)).sum + 1

/-- `NoUnusedFragments` (rules/no_unused_fragments.rs:21-95): is an error reported? -/
def noUnusedFragments (s : Schema) (d : Doc) : Bool :=
  let u := (visit s d).foldl unusedStep {}
  let reached := queueLoop u.get (turns u) [] u.inUse
  (frags d).any (fun f => decide (f.name ∉ reached))

/-! ## Cycles of fragments -/

/-- `get_fragment_spreads` (lib/graphql-tools/src/ast/ext.rs:506-514). -/
def topSpreads (ss : List Sel) : List Name :=
  ss.flatMap (fun x =>
    match x with
    | .spread n _ => [n]
    | _ => [])

/-- `get_recursive_fragment_spreads` (lib/graphql-tools/src/ast/ext.rs:495-504): the spreads of a
selection set and of the selection sets one level below it. -/
def nearSpreads (ss : List Sel) : List Name :=
  ss.flatMap (fun x =>
    match x with
    | .spread n _ => [n]
    | .field _ _ _ _ sub => topSpreads sub
    | .inline _ _ sub => topSpreads sub)

/-- What `NoFragmentsCycle` remembers: the fragments it has been to, and whether an error was
reported. -/
structure Cyc where
  seen : List Name := []
  bad : Bool := false

/-- `detect_cycles` (rules/no_fragments_cycle.rs:34-133), from one fragment. The explicit stack of the
code, with its frames for leaving, is the stack of the calls; `path` are the names that
`spread_path_index_by_name` has. The fuel bounds the depth of the calls. -/
def detect (d : Doc) : Nat → List Name → Cyc → Frag → Cyc
  | 0, _, st, _ => st
  | n + 1, path, st, f =>
      if f.name ∈ st.seen then st
      else (nearSpreads f.sels).foldl (fun st m =>
        if m ∈ f.name :: path then { st with bad := true }
        else match knownFrag d m with
          | none => st
          | some g => detect d n (f.name :: path) st g) { st with seen := st.seen ++ [f.name] }

/-- `NoFragmentsCycle` (rules/no_fragments_cycle.rs:136-154): is an error reported? -/
def noFragmentsCycle (s : Schema) (d : Doc) : Bool :=
  ((visit s d).foldl (fun st e =>
    match e.2 with
    | .frag f => detect d ((frags d).length + 1) [] st f
    | _ => st) ({} : Cyc)).bad

/-! ## Variables -/

/-- Where a rule is: in an operation or in a fragment. Models `NoUndefinedVariablesScope`,
`NoUnusedVariablesScope` and `Scope` (rules/no_undefined_variables.rs:73-76,
rules/no_unused_variables.rs:74-77, rules/variables_in_allowed_position.rs:111-114). -/
inductive Scope where
  | op (n : Option Name)
  | frag (n : Name)
deriving DecidableEq

mutual
/-- `variables_in_use` (lib/graphql-tools/src/ast/ext.rs:274-284). -/
def varsOf : Val → List Name
  | .var n => [n]
  | .list vs => varsOfL vs
  | .obj fs => varsOfO fs
  | _ => []
/-- The variables of the items of a list. -/
def varsOfL : List Val → List Name
  | [] => []
  | v :: vs => varsOf v ++ varsOfL vs
/-- The variables of the fields of an object. -/
def varsOfO : List (Name × Val) → List Name
  | [] => []
  | f :: fs => varsOfP f ++ varsOfO fs
/-- The variables of one field of an object. -/
def varsOfP : Name × Val → List Name
  | (_, v) => varsOf v
end

/-- What the rules on variables remember (rules/no_undefined_variables.rs:13-18,
rules/no_unused_variables.rs:14-19). A map to lists is a list of pairs. -/
structure VarSt where
  scope : Option Scope := none
  defined : List (Option Name × List Name) := []
  used : List (Scope × Name) := []
  spreads : List (Scope × Name) := []

/-- `defined_variables.insert(name, HashSet::new())`. -/
def insertOp (m : List (Option Name × List Name)) (n : Option Name) :
    List (Option Name × List Name) :=
  m.filter (fun e => e.1 ≠ n) ++ [(n, [])]

/-- `defined_variables.get_mut(name)`, and one more variable. -/
def addVar (m : List (Option Name × List Name)) (n : Option Name) (v : Name) :
    List (Option Name × List Name) :=
  m.map (fun e => if e.1 = n then (e.1, e.2 ++ [v]) else e)

/-- The events of `NoUndefinedVariables` and `NoUnusedVariables`
(rules/no_undefined_variables.rs:79-140, rules/no_unused_variables.rs:80-139). -/
def varStep (st : VarSt) (e : Ctx × Ev) : VarSt :=
  match e.2 with
  | .op o => { st with scope := some (.op o.name), defined := insertOp st.defined o.name }
  | .frag f => { st with scope := some (.frag f.name) }
  | .spread n _ =>
      match st.scope with
      | some sc => { st with spreads := st.spreads ++ [(sc, n)] }
      | none => st
  | .varDef v =>
      match st.scope with
      | some (.op n) => { st with defined := addVar st.defined n v.name }
      | _ => st
  | .arg a =>
      match st.scope with
      | some sc => { st with used := st.used ++ (varsOf a.2).map (fun v => (sc, v)) }
      | none => st
  | _ => st

/-- What was found for a scope in a map from scopes to lists. -/
def at_ (m : List (Scope × Name)) (sc : Scope) : List Name :=
  (m.filter (fun e => e.1 = sc)).map (·.2)

/-- The scopes that a search over the spreads goes to (rules/no_undefined_variables.rs:38-69,
rules/no_unused_variables.rs:39-70). -/
def scopesFrom (st : VarSt) (from_ : Scope) : List Scope :=
  search (fun sc => (at_ st.spreads sc).map .frag) (st.spreads.length + 1) [] from_

/-- `NoUndefinedVariables` (rules/no_undefined_variables.rs:142-167): is an error reported? -/
def noUndefinedVariables (s : Schema) (d : Doc) : Bool :=
  let st := (visit s d).foldl varStep {}
  st.defined.any (fun e =>
    ((scopesFrom st (.op e.1)).flatMap (at_ st.used)).any (fun v => decide (v ∉ e.2)))

/-- `NoUnusedVariables` (rules/no_unused_variables.rs:141-169): is an error reported? -/
def noUnusedVariables (s : Schema) (d : Doc) : Bool :=
  let st := (visit s d).foldl varStep {}
  st.defined.any (fun e =>
    e.2.any (fun v =>
      decide (v ∉ ((scopesFrom st (.op e.1)).flatMap (at_ st.used)).filter (fun v => v ∈ e.2))))

/-- `UniqueVariableNames` (rules/unique_variable_names.rs:29-60): the names found in the operation,
and whether an error was reported. -/
def uniqueVariableNames (s : Schema) (d : Doc) : Bool :=
  ((visit s d).foldl (fun (st : List Name × Bool) e =>
    match e.2 with
    | .op _ => ([], st.2)
    | .varDef v => if v.name ∈ st.1 then (st.1, true) else (st.1 ++ [v.name], st.2)
    | _ => st) ([], false)).2

/-- `VariablesAreInputTypes` (rules/variables_are_input_types.rs:21-44) and what `KnownTypeNames` does
with variables (rules/known_type_names.rs:71-87): is an error reported? -/
def variableTypes (s : Schema) (d : Doc) : Bool :=
  (visit s d).any (fun e =>
    match e.2 with
    | .varDef v =>
        match s.typeByName v.ty.inner with
        | some t => !t.isInput
        | none => !reserved v.ty.inner
    | _ => false)

end Verif.Valid
