import Verif.Valid.Model

/-!
# Validation: the rules on types, fields, arguments, directives and values
-/

namespace Verif.Valid

/-! ## Fields and types -/

/-- Is a selection the field `__typename`? -/
def isTypename : Sel → Bool
  | .field _ n _ _ _ => n = "__typename"
  | _ => false

/-- `FieldsOnCorrectType` (lib/graphql-tools/src/validation/rules/fields_on_correct_type.rs:28-75): is
an error reported? -/
def fieldsOnCorrectType (s : Schema) (d : Doc) : Bool :=
  (visit s d).any (fun e =>
    match e.2 with
    | .op o => o.kind == .subscription && o.sels.any isTypename
    | .field _ n _ _ _ =>
        match e.1.parent with
        | some p => !reserved n && (p.fieldByName n).isNone
        | none => false
    | _ => false)

/-- `LeafFieldSelections` (rules/leaf_field_selections.rs:27-63): is an error reported? -/
def leafFieldSelections (s : Schema) (d : Doc) : Bool :=
  (visit s d).any (fun e =>
    match e.2 with
    | .field _ _ _ _ sub =>
        match e.1.cur s with
        | some t => if t.isLeaf then !sub.isEmpty else sub.isEmpty
        | none => false
    | _ => false)

/-- What `KnownTypeNames` (rules/known_type_names.rs:27-69) and `FragmentsOnCompositeTypes`
(rules/fragments_on_composite_types.rs:28-70) do with the name of a type that a fragment is on. -/
def badCond (s : Schema) (n : Name) : Bool :=
  match s.typeByName n with
  | none => !reserved n
  | some t => !t.isComposite

/-- `KnownTypeNames`, as far as fragments are concerned, and `FragmentsOnCompositeTypes`: is an error
reported? -/
def fragmentTypes (s : Schema) (d : Doc) : Bool :=
  (visit s d).any (fun e =>
    match e.2 with
    | .frag f => badCond s f.cond
    | .inline (some n) _ => badCond s n
    | _ => false)

/-! ## Fragments that can apply -/

/-- `InterfaceType::is_implemented_by` and `UnionType::has_sub_type`, as `has_sub_type` and
`has_concrete_sub_type` call them (lib/graphql-tools/src/ast/ext.rs:308-327, 390-400). -/
def TypeDef.hasSubType (t other : TypeDef) : Bool :=
  match t with
  | .interface n _ _ => other.ifaces.contains n
  | .union _ ms => ms.contains other.name
  | _ => false

/-- `possible_types` (lib/graphql-tools/src/ast/ext.rs:331-363). The types of the schema are in a map
by name; here no two have the same name. -/
def TypeDef.possible (s : Schema) : TypeDef → List TypeDef
  | .interface n _ _ => s.types.filter (fun t => t.ifaces.contains n)
  | .union _ ms => ms.filterMap s.typeByName
  | _ => []

/-- `do_types_overlap` (rules/possible_fragment_spreads.rs:37-65). -/
def typesOverlap (s : Schema) (t1 t2 : TypeDef) : Bool :=
  if t1.name = t2.name then true
  else if t1.isAbstract then
    if t2.isAbstract then (t1.possible s).any (fun p => t2.hasSubType p)
    else t1.hasSubType t2
  else if t2.isAbstract then t2.hasSubType t1
  else false

/-- The test of both methods of `PossibleFragmentSpreads`
(rules/possible_fragment_spreads.rs:74-84, 101-111). -/
def cannotApply (s : Schema) (frag parent : Option TypeDef) : Bool :=
  match frag, parent with
  | some f, some p => f.isComposite && p.isComposite && !typesOverlap s f p
  | _, _ => false

/-- `PossibleFragmentSpreads` (rules/possible_fragment_spreads.rs:67-116): is an error reported? -/
def possibleFragmentSpreads (s : Schema) (d : Doc) : Bool :=
  (visit s d).any (fun e =>
    match e.2 with
    | .inline _ _ => cannotApply s (e.1.cur s) e.1.parent
    | .spread n _ => cannotApply s ((knownFrag d n).bind (fun f => s.typeByName f.cond)) e.1.parent
    | _ => false)

/-! ## Arguments -/

/-- `UniqueArgumentNames` (rules/unique_argument_names.rs:30-84): is an error reported? -/
def uniqueArgumentNames (s : Schema) (d : Doc) : Bool :=
  (visit s d).any (fun e =>
    match e.2 with
    | .field _ _ args _ _ =>
        (args.foldl (fun m a => countUp m a.1) []).any (fun e => decide (e.2 > 1))
    | .dir x => (x.args.foldl (fun m a => countUp m a.1) []).any (fun e => decide (e.2 > 1))
    | _ => false)

/-- `validate_arguments` (rules/provided_required_arguments.rs:73-91): is a required argument
missing? -/
def missingArgs (args : Args) (defs : List InputDef) : Bool :=
  defs.any (fun a => a.required && !args.any (fun b => b.1 = a.name))

/-- `ProvidedRequiredArguments` (rules/provided_required_arguments.rs:27-71): is an error reported? -/
def providedRequiredArguments (s : Schema) (d : Doc) : Bool :=
  (visit s d).any (fun e =>
    match e.2 with
    | .field _ n args _ _ =>
        match fieldArgs e.1.parent n with
        | some defs => missingArgs args defs
        | none => false
    | .dir x =>
        match s.dirByName x.name with
        | some def_ => missingArgs x.args def_.args
        | none => false
    | _ => false)

/-- What `KnownArgumentNames` remembers: the arguments it compares with, and whether an error was
reported. -/
structure KnownArgs where
  known : Option (List InputDef) := none
  bad : Bool := false

/-- The events of `KnownArgumentNames` (rules/known_argument_names.rs:37-121). -/
def knownArgsStep (s : Schema) (st : KnownArgs) (e : Ctx × Ev) : KnownArgs :=
  match e.2 with
  | .dir x =>
      match s.dirByName x.name with
      | some def_ => { st with known := some def_.args }
      | none => st
  | .leaveDir => { st with known := none }
  | .field _ n _ _ _ =>
      match fieldArgs e.1.parent n with
      | some defs => { st with known := some defs }
      | none => st
  | .leaveField => { st with known := none }
  | .arg a =>
      match st.known with
      | some defs => if defs.any (fun b => b.name = a.1) then st else { st with bad := true }
      | none => st
  | _ => st

/-- `KnownArgumentNames`: is an error reported? -/
def knownArgumentNames (s : Schema) (d : Doc) : Bool :=
  ((visit s d).foldl (knownArgsStep s) {}).bad

/-! ## Directives -/

/-- What `KnownDirectives` remembers: the place it came to last, and whether an error was reported. -/
structure KnownDirs where
  recent : Option Loc := none
  bad : Bool := false

/-- The place that an operation is (rules/known_directives.rs:40-45). -/
def OpKind.loc : OpKind → Loc
  | .query => .query
  | .mutation => .mutation
  | .subscription => .subscription

/-- The events of `KnownDirectives` (rules/known_directives.rs:33-161). When the visitor leaves an
operation, a spread or an inline fragment the place is forgotten too; that is left out, since the next
directive is told of only after the next of those has been entered. -/
def knownDirsStep (s : Schema) (st : KnownDirs) (e : Ctx × Ev) : KnownDirs :=
  match e.2 with
  | .op o => { st with recent := some o.kind.loc }
  | .field _ _ _ _ _ => { st with recent := some .field }
  | .leaveField => { st with recent := none }
  | .frag _ => { st with recent := some .fragmentDefinition }
  | .leaveFrag => { st with recent := none }
  | .spread _ _ => { st with recent := some .fragmentSpread }
  | .inline _ _ => { st with recent := some .inlineFragment }
  | .dir x =>
      match s.dirByName x.name with
      | none => { st with bad := true }
      | some def_ =>
          match st.recent with
          | none => st
          | some l => if def_.locations.contains l then st else { st with bad := true }
  | _ => st

/-- `KnownDirectives`: is an error reported? -/
def knownDirectives (s : Schema) (d : Doc) : Bool :=
  ((visit s d).foldl (knownDirsStep s) {}).bad

/-- `check_duplicate_directive` (rules/unique_directives_per_location.rs:31-56): the names that were
found, and whether an error was reported. -/
def dupDirs (s : Schema) (ds : List Dir) : Bool :=
  (ds.foldl (fun (st : List Name × Bool) x =>
    match s.dirByName x.name with
    | none => st
    | some def_ =>
        if def_.repeatable then st
        else if st.1.contains x.name then (st.1, true)
        else (st.1 ++ [x.name], st.2)) ([], false)).2

/-- `UniqueDirectivesPerLocation` (rules/unique_directives_per_location.rs:59-104): is an error
reported? -/
def uniqueDirectives (s : Schema) (d : Doc) : Bool :=
  (visit s d).any (fun e =>
    match e.2 with
    | .op o => dupDirs s o.dirs
    | .field _ _ _ ds _ => dupDirs s ds
    | .frag f => dupDirs s f.dirs
    | .spread _ ds => dupDirs s ds
    | .inline _ ds => dupDirs s ds
    | _ => false)

/-! ## Values -/

/-- `is_custom_scalar` (rules/values_of_correct_type.rs:25-27). -/
def customScalar (n : Name) : Bool :=
  !(n = "String" || n = "Int" || n = "Float" || n = "Boolean" || n = "ID")

/-- The pairs of a built-in scalar and a literal that go together
(rules/values_of_correct_type.rs:51-58). -/
def scalarFits (n : Name) : Val → Bool
  | .int _ => n = "Int" || n = "ID" || n = "Float"
  | .str _ => n = "ID" || n = "String"
  | .float _ => n = "Float"
  | .bool _ => n = "Boolean"
  | _ => false

/-- `validate_value` (rules/values_of_correct_type.rs:29-102): is an error reported? -/
def badLeaf (s : Schema) (t : Ty) (v : Val) : Bool :=
  match s.typeByName t.inner with
  | none => false
  | some (.scalar n) => !scalarFits n v && !customScalar n
  | some (.enum _ vs) =>
      match v with
      | .enum x => !vs.contains x
      | _ => true
  | some _ => true

/-- `ValuesOfCorrectType` (rules/values_of_correct_type.rs:105-181): is an error reported? -/
def valuesOfCorrectType (s : Schema) (d : Doc) : Bool :=
  (visit s d).any (fun e =>
    match e.2, e.1.input with
    | .null, some t => t.isNonNull
    | .scalar v, some t => badLeaf s t v
    | .enum n, some t => badLeaf s t (.enum n)
    | .obj fs, some t =>
        match s.typeByName t.inner with
        | some (.input _ defs) =>
            defs.any (fun f => f.required && !fs.any (fun p => p.1 = f.name)) ||
              fs.any (fun p => !defs.any (fun f => f.name = p.1))
        | _ => false
    | _, _ => false)

/-- `UniqueInputFieldNames` (rules/unique_input_field_names.rs:28-49): is an error reported? -/
def uniqueInputFieldNames (s : Schema) (d : Doc) : Bool :=
  (visit s d).any (fun e =>
    match e.2 with
    | .obj fs =>
        (fs.foldl (fun (st : List Name × Bool) p =>
          if st.1.contains p.1 then (st.1, true) else (st.1 ++ [p.1], st.2)) ([], false)).2
    | _ => false)

/-! ## Where variables are used -/

/-- `is_possible_type` (lib/graphql-tools/src/ast/ext.rs:145-162). -/
def possibleType (super sub : TypeDef) : Bool :=
  match super with
  | .union _ ms => ms.contains sub.name
  | .interface n _ _ => sub.ifaces.contains n
  | _ => false

/-- The last test of `is_subtype` (lib/graphql-tools/src/ast/ext.rs:198-208). -/
def namedSub (s : Schema) (a b : Name) : Bool :=
  match s.typeByName a, s.typeByName b with
  | some x, some y =>
      y.isAbstract && (match x with
        | .interface _ _ _ => true
        | .object _ _ _ => true
        | _ => false) && possibleType y x
  | _, _ => false

/-- `is_subtype` (lib/graphql-tools/src/ast/ext.rs:164-209). -/
def isSubtype (s : Schema) : Ty → Ty → Bool
  | .nonNull a, .nonNull b => isSubtype s a b
  | _, .nonNull _ => false
  | .nonNull a, b => isSubtype s a b
  | .list a, .list b => isSubtype s a b
  | _, .list _ => false
  | .list _, _ => false
  | .named a, .named b => a = b || namedSub s a b

/-- What `VariablesInAllowedPosition` remembers (rules/variables_in_allowed_position.rs:17-22). -/
structure PosSt where
  scope : Option Scope := none
  spreads : List (Scope × Name) := []
  uses : List (Scope × (Name × Ty × Bool)) := []
  defs : List (Scope × VarDef) := []

/-- The events of `VariablesInAllowedPosition` (rules/variables_in_allowed_position.rs:134-196). -/
def posStep (st : PosSt) (e : Ctx × Ev) : PosSt :=
  match e.2 with
  | .op o => { st with scope := some (.op o.name) }
  | .frag f => { st with scope := some (.frag f.name) }
  | .spread n _ =>
      match st.scope with
      | some sc => { st with spreads := st.spreads ++ [(sc, n)] }
      | none => st
  | .varDef v =>
      match st.scope with
      | some sc => { st with defs := st.defs ++ [(sc, v)] }
      | none => st
  | .var n =>
      match st.scope, e.1.input with
      | some sc, some t => { st with uses := st.uses ++ [(sc, n, t, e.1.dflt)] }
      | _, _ => st
  | _ => st

/-- The type that a variable counts as having (rules/variables_in_allowed_position.rs:57-72). -/
def varType (v : VarDef) : Ty :=
  match v.ty, v.default_ with
  | .nonNull t, _ => .nonNull t
  | t, some .null => t
  | t, some _ => .nonNull t
  | t, none => t

/-- The type that the place counts as having (rules/variables_in_allowed_position.rs:76-79). -/
def placeType (t : Ty) (dflt : Bool) : Ty :=
  match t, dflt with
  | .nonNull t, true => t
  | t, _ => t

/-- `collect_incorrect_usages`, of one scope (rules/variables_in_allowed_position.rs:52-94). -/
def badUse (s : Schema) (defs : List VarDef) (u : Name × Ty × Bool) : Bool :=
  match defs.find? (fun v => v.name = u.1) with
  | none => false
  | some v => !isSubtype s (varType v) (placeType u.2.1 u.2.2)

/-- `VariablesInAllowedPosition` (rules/variables_in_allowed_position.rs:117-132): is an error
reported? -/
def variablesInAllowedPosition (s : Schema) (d : Doc) : Bool :=
  let st := (visit s d).foldl posStep {}
  (st.defs.map (·.1)).any (fun from_ =>
    (search (fun sc => (at_ st.spreads sc).map .frag) (st.spreads.length + 1) [] from_).any (fun sc =>
      (st.uses.filter (fun e => e.1 = sc)).any (fun u =>
        badUse s ((st.defs.filter (fun e => e.1 = from_)).map (·.2)) u.2)))

/-! ## The root field of subscriptions -/

/-- `does_fragment_condition_match` (lib/graphql-tools/src/ast/collect_fields.rs:29-60). -/
def condMatches (s : Schema) (cond : Option Name) (t : TypeDef) : Bool :=
  match cond with
  | none => true
  | some n =>
      match s.typeByName n with
      | none => false
      | some c => c.name = t.name || (c.isAbstract && c.hasSubType t)

/-- What `collect_fields` has: the names of the fields, in no order and once each in the code, and the
fragments it has been to. -/
abbrev Coll := List Name × List Name

mutual
/-- `collect_fields_inner` (lib/graphql-tools/src/ast/collect_fields.rs:62-113), with `into` for the
selection set of a fragment. -/
def collectSel (s : Schema) (d : Doc) (t : TypeDef) (into : Coll → Frag → Coll) (st : Coll) : Sel → Coll
  | .field _ n _ _ _ => (st.1 ++ [n], st.2)
  | .inline cond _ sub => if condMatches s cond t then collectSels s d t into st sub else st
  | .spread n _ =>
      if st.2.contains n then st
      else match knownFrag d n with
        | none => (st.1, st.2 ++ [n])
        | some f =>
            if condMatches s (some f.cond) t then into (st.1, st.2 ++ [n]) f else (st.1, st.2 ++ [n])
/-- The items of a selection set, in order. -/
def collectSels (s : Schema) (d : Doc) (t : TypeDef) (into : Coll → Frag → Coll) (st : Coll) :
    List Sel → Coll
  | [] => st
  | x :: xs => collectSels s d t into (collectSel s d t into st x) xs
end

/-- The calls of `collect_fields_inner` on fragments; the fuel bounds their depth. -/
def collectFrag (s : Schema) (d : Doc) (t : TypeDef) : Nat → Coll → Frag → Coll
  | 0, st, _ => st
  | n + 1, st, f => collectSels s d t (collectFrag s d t n) st f.sels

/-- `collect_fields` (lib/graphql-tools/src/ast/collect_fields.rs:8-27): the keys of its map. No
fragment is entered twice, so the fuel is never used up. -/
def collectFields (s : Schema) (d : Doc) (t : TypeDef) (ss : List Sel) : List Name :=
  (collectSels s d t (collectFrag s d t ((frags d).length + 1)) ([], []) ss).1

/-- `SingleFieldSubscriptions` (rules/single_field_subscriptions.rs:27-87): is an error reported? -/
def singleFieldSubscriptions (s : Schema) (d : Doc) : Bool :=
  (ops d).any (fun o =>
    o.kind == .subscription &&
      match s.subscription.bind s.typeByName with
      | none => false
      | some t =>
          decide ((collectFields s d t o.sels).eraseDups.length > 1) ||
            (collectFields s d t o.sels).any reserved)

end Verif.Valid
