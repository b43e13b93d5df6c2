import Verif.Core.Ast
import Verif.Core.Schema
import Verif.Auth.Trie

/-!
# Authorization

`bin/router/src/pipeline/authorization/*`, `bin/router/src/executor/operation_filter.rs` and
`bin/router/src/pipeline/nullify/rebuilder.rs`.
-/

namespace Verif.Auth

/-! ## Rules and their construction from the supergraph -/

/-- `AuthorizationRule`, `authorization/metadata.rs:24-30`. Scope ids are interner positions. -/
inductive Rule where
  | authenticated
  | requiresScopes (groups : List (List Nat))

/-- `SupergraphField`: the two directive lists read in `user_auth_context.rs:226-230`.
`requiresScopes` holds the `scopes:` argument of each `@requiresScopes` directive. -/
structure FieldDef where
  name : String
  authenticated : Nat := 0
  requiresScopes : List Lit := []

/-- `SupergraphDefinition`, as matched in `user_auth_context.rs:187-211`. `ruled` is false for
unions and input objects (`user_auth_context.rs:208-210`). Scalars and enums have no fields. -/
structure TypeDef where
  name : String
  ruled : Bool := true
  authenticated : Nat := 0
  requiresScopes : List Lit := []
  fields : List FieldDef := []

/-- `AuthorizationMetadataError`, `user_auth_context.rs:52-59`. -/
inductive BuildError where
  | invalidScopeValue
  | invalidRequiresScopesArgs
  | duplicateRequiresScopes

/-- `Rodeo::get` of the scope interner: interned strings in order, the id is the position.
(`lasso2` is an external crate; this is its documented behaviour.) -/
def internGet (l : List String) (s : String) : Option Nat := l.findIdx? (· == s)

/-- `Rodeo::get_or_intern`. -/
def internInsert (l : List String) (s : String) : Nat × List String :=
  match internGet l s with
  | some i => (i, l)
  | none => (l.length, l ++ [s])

/-- The element loop of `normalize_and_group`, `user_auth_context.rs:301-310`. -/
def normalizeScopes : List Lit → List String → Except BuildError (List Nat × List String)
  | [], l => .ok ([], l)
  | .str s :: rest, l =>
    let (i, l) := internInsert l s
    match normalizeScopes rest l with
    | .ok (is, l) => .ok (i :: is, l)
    | .error e => .error e
  | _ :: _, _ => .error .invalidScopeValue

/-- `normalize_and_group`, `user_auth_context.rs:291-320`. Sorting the group
(`user_auth_context.rs:318`) is left out: groups are only tested with `all`. -/
def normalizeAndGroup : Lit → List String → Except BuildError (List Nat × List String)
  | .list vs, l =>
    match normalizeScopes vs l with
    | .ok ([], _) => .error .invalidRequiresScopesArgs
    | .ok (i :: is, l) => .ok (i :: is, l)
    | .error e => .error e
  | _, _ => .error .invalidRequiresScopesArgs

/-- The group loop of `normalize_scopes_arg`, `user_auth_context.rs:276-279`. -/
def normalizeGroups : List Lit → List String → Except BuildError (List (List Nat) × List String)
  | [], l => .ok ([], l)
  | v :: rest, l =>
    match normalizeAndGroup v l with
    | .error e => .error e
    | .ok (g, l) =>
      match normalizeGroups rest l with
      | .error e => .error e
      | .ok (gs, l) => .ok (g :: gs, l)

/-- `normalize_scopes_arg`, `user_auth_context.rs:266-289` (sorting left out as above). -/
def normalizeScopesArg : Lit → List String → Except BuildError (List (List Nat) × List String)
  | .list vs, l =>
    match normalizeGroups vs l with
    | .ok ([], _) => .error .invalidRequiresScopesArgs
    | .ok (g :: gs, l) => .ok (g :: gs, l)
    | .error e => .error e
  | _, _ => .error .invalidRequiresScopesArgs

/-- `extract_rule_from_directives`, `user_auth_context.rs:244-263`. -/
def extractRule (authenticated : Nat) (requires : List Lit) (l : List String) :
    Except BuildError (Option Rule × List String) :=
  match requires with
  | _ :: _ :: _ => .error .duplicateRequiresScopes
  | [d] =>
    match normalizeScopesArg d l with
    | .ok (gs, l) => .ok (some (.requiresScopes gs), l)
    | .error e => .error e
  | [] => .ok (if authenticated = 0 then none else some .authenticated, l)

/-- The field loop of `process_type_definition`, `user_auth_context.rs:224-234`. -/
def processFields : List FieldDef → List String →
    Except BuildError (List (String × Rule) × List String)
  | [], l => .ok ([], l)
  | f :: rest, l =>
    match extractRule f.authenticated f.requiresScopes l with
    | .error e => .error e
    | .ok (r, l) =>
      match processFields rest l with
      | .error e => .error e
      | .ok (rules, l) =>
        .ok (match r with | some r => (f.name, r) :: rules | none => rules, l)

/-- The rules collected so far: the three maps threaded through `process_type_definition`,
`user_auth_context.rs:181-186`. -/
structure Rules where
  typeRules : List (String × Rule) := []
  fieldRules : List (String × List (String × Rule)) := []
  scopes : List String := []

/-- `process_type_definition`, `user_auth_context.rs:181-241`. -/
def processType (d : TypeDef) (r : Rules) : Except BuildError Rules :=
  if !d.ruled then .ok r
  else
    match extractRule d.authenticated d.requiresScopes r.scopes with
    | .error e => .error e
    | .ok (rule, scopes) =>
      let typeRules := match rule with
        | some rule => (d.name, rule) :: r.typeRules
        | none => r.typeRules
      match processFields d.fields scopes with
      | .error e => .error e
      | .ok (fr, scopes) =>
        .ok { typeRules := typeRules
              fieldRules := if fr.isEmpty then r.fieldRules else (d.name, fr) :: r.fieldRules
              scopes := scopes }

/-- The loop of `AuthorizationMetadata::build`, `user_auth_context.rs:72-79`. -/
def processTypes : List TypeDef → Rules → Except BuildError Rules
  | [], r => .ok r
  | d :: ds, r =>
    match processType d r with
    | .error e => .error e
    | .ok r => processTypes ds r

/-- The types `type_has_any_auth_recursive` goes to from a type: its possible types, then the
output types of its fields, `user_auth_context.rs:148-175`. -/
def successors (S : Schema) (t : String) : List String :=
  ((S.possible.lookup t).getD []) ++ ((S.typeFields.lookup t).getD []).map (fun p => p.2.out)

/-- The rules `type_has_any_auth_recursive` looks for at a type itself,
`user_auth_context.rs:137-146`. -/
def hasOwnRule (r : Rules) (t : String) : Bool :=
  (r.typeRules.lookup t).isSome || (r.fieldRules.lookup t).any (fun m => !m.isEmpty)

/-- The loops over possible types and fields, `user_auth_context.rs:150-160` and `164-174`: stop
at the first `true`, passing the `visited` set along. -/
def searchAny (go : String → List String → Bool × List String) :
    List String → List String → Bool × List String
  | [], visited => (false, visited)
  | t :: ts, visited =>
    match go t visited with
    | (true, v) => (true, v)
    | (false, v) => searchAny go ts v

/-- `type_has_any_auth_recursive`, `user_auth_context.rs:125-178`: the answer and the `visited`
set. `fuel` bounds the recursion depth; it never runs out when started with `searchFuel`
(`hasAuth_true` in `Lemmas.lean`). -/
def hasAuth (S : Schema) (r : Rules) : Nat → String → List String → Bool × List String
  | 0, _, visited => (true, visited)
  | fuel + 1, t, visited =>
    if visited.contains t then (false, visited)
    else if hasOwnRule r t then (true, t :: visited)
    else searchAny (hasAuth S r fuel) (successors S t) (t :: visited)

/-- More than the number of types a search can visit. -/
def searchFuel (S : Schema) : Nat :=
  ((S.possible.flatMap (·.2)) ++ (S.typeFields.flatMap fun p => p.2.map (·.2.out))).length + 2

/-- `AuthorizationMetadata`, `authorization/metadata.rs:38-47`. -/
structure Metadata extends Rules where
  hasAnyAuth : List (String × Bool)

/-- `compute_type_auth_metadata`, `user_auth_context.rs:102-123`. -/
def computeHasAuth (defs : List TypeDef) (S : Schema) (r : Rules) :
    List (String × Bool) :=
  defs.map fun d => (d.name, (hasAuth S r (searchFuel S) d.name []).1)

/-- `AuthorizationMetadata::build`, `user_auth_context.rs:64-95`. -/
def build (defs : List TypeDef) (S : Schema) : Except BuildError Metadata :=
  match processTypes defs {} with
  | .error e => .error e
  | .ok r => .ok { r with hasAnyAuth := computeHasAuth defs S r }

/-- `AuthorizationMetadata::is_empty`, `user_auth_context.rs:97-99`. -/
def Metadata.isEmpty (m : Metadata) : Bool := m.typeRules.isEmpty && m.fieldRules.isEmpty

/-! ## The user -/

/-- `JwtRequestDetails`: who the request comes from. `none` is `Unauthenticated`; otherwise the
scopes of the token, `None` and an empty list being the same (`user_auth_context.rs:43`). -/
abbrev Jwt := Option (List String)

/-- `UserAuthContext`, `user_auth_context.rs:16-19`. -/
structure User where
  isAuthenticated : Bool
  scopeIds : List Nat

/-- `UserAuthContext::from_jwt` and `::new`, `user_auth_context.rs:23-47`. -/
def userOf (jwt : Jwt) (scopes : List String) : User :=
  match jwt with
  | some ss => { isAuthenticated := true, scopeIds := ss.filterMap (internGet scopes) }
  | none => { isAuthenticated := false, scopeIds := [] }

/-- `is_rule_satisfied`, `authorization/mod.rs:136-149`. -/
def ruleSatisfied (u : User) : Rule → Bool
  | .authenticated => u.isAuthenticated
  | .requiresScopes gs => u.isAuthenticated && gs.any fun g => g.all fun i => u.scopeIds.contains i

/-- `is_type_authorized`, `authorization/mod.rs:105-121`. The per-request cache, keyed by the
address of the name, is left out: the cached answer is a function of the name. -/
def typeAuthorized (m : Metadata) (u : User) (t : String) : Bool :=
  match m.typeRules.lookup t with
  | none => true
  | some r => ruleSatisfied u r

/-- `is_field_authorized`, `authorization/mod.rs:123-134`. -/
def fieldAuthorized (m : Metadata) (u : User) (t f : String) : Bool :=
  match (m.fieldRules.lookup t).bind (·.lookup f) with
  | none => true
  | some r => ruleSatisfied u r

/-- `parent_has_auth`, `authorization/mod.rs:97-103`. -/
def parentHasAuth (m : Metadata) (t : String) : Bool := (m.hasAnyAuth.lookup t).getD true

/-! ## The operation filter -/

/-- The visitor closure given to `OperationFilter::filter`: keep (`true`) or reject a field, given
parent type, field name and output type, and a fragment, given type condition and parent type. -/
structure Visitor where
  fieldOk : String → String → String → Bool
  fragOk : String → String → Bool

/-- The closure of `apply_authorization_to_operation`, `authorization/mod.rs:237-264`. -/
def authVisitor (m : Metadata) (u : User) : Visitor where
  fieldOk parent name out :=
    if !parentHasAuth m parent then true
    else typeAuthorized m u parent && fieldAuthorized m u parent name && typeAuthorized m u out
  fragOk cond parent :=
    if !parentHasAuth m parent then true else typeAuthorized m u cond

/-- `FilteringContext`, `executor/operation_filter.rs:132-138`, without the current path, which is
passed down instead of pushed and popped. An error is kept as its affected path
(`operation_filter.rs:303-317`), before it is joined with dots. -/
structure St where
  decisions : List ((String × String) × Bool) := []
  errors : List (List String) := []
  rejected : List (List Seg) := []

/-- `variable_equals_true`, `executor/execution/plan.rs:110-116`; the coerced variables are given
by which of them are `true`. -/
abbrev Vars := List (String × Bool)

/-- `is_ignored`, `operation_filter.rs:319-333`. -/
def isIgnored (vars : Vars) (skipIf includeIf : Option String) : Bool :=
  (match skipIf with | some v => (vars.lookup v).getD false | none => false) ||
  (match includeIf with | some v => !((vars.lookup v).getD false) | none => false)

/-- The field names of a path, `operation_filter.rs:305-312`. -/
def fieldNames (p : List Seg) : List String :=
  p.filterMap fun | .field k => some k | .fragment _ => none

/-- `OperationFilterError::FieldNotFound`, `operation_filter.rs:14-19`. -/
inductive FilterError where
  | fieldNotFound (parent field : String)
  deriving DecidableEq

/-- The decision cache, `operation_filter.rs:200-213`. -/
def decide? (V : Visitor) (parent name out : String) (st : St) : Bool × St :=
  match st.decisions.lookup (parent, name) with
  | some d => (d, st)
  | none =>
    let d := V.fieldOk parent name out
    (d, { st with decisions := ((parent, name), d) :: st.decisions })

/-- `collect_all_field_paths`, `operation_filter.rs:278-297`, as the list of recorded paths
relative to the current one. -/
def collectAll : List Sel → List (List Seg)
  | [] => []
  | .field f _ :: rest => [.field f.key] :: collectAll rest
  | .frag g s :: rest => (collectAll s).map (.fragment g.cond :: ·) ++ collectAll rest
  | .spread _ :: rest => collectAll rest

/-- `visit_selection_set`, `visit_field` and `visit_inline_fragment`,
`operation_filter.rs:141-276`. The boolean is `NullPropagation::Propagate`. -/
def visit (S : Schema) (vars : Vars) (V : Visitor) (path : List Seg) (parent : String) :
    List Sel → St → Except FilterError (Bool × St)
  | [], st => .ok (false, st)
  | .field f sels :: rest, st =>
    if isIgnored vars f.skipIf f.includeIf then visit S vars V path parent rest st
    else if f.name = "__typename" then visit S vars V path parent rest st
    else
      match S.field parent f.name with
      | none => .error (.fieldNotFound parent f.name)
      | some info =>
        let (ok, st) := decide? V parent f.name info.out st
        let path' := path ++ [.field f.key]
        let r : Except FilterError (Bool × St) :=
          if ok then
            match visit S vars V path' info.out sels st with
            | .error e => .error e
            | .ok (true, st) => .ok (true, { st with rejected := st.rejected ++ [path'] })
            | .ok (false, st) => .ok (false, st)
          else
            .ok (true, { st with rejected := st.rejected ++ [path'],
                                 errors := st.errors ++ [fieldNames path'] })
        match r with
        | .error e => .error e
        | .ok (rejected, st) =>
          match visit S vars V path parent rest st with
          | .error e => .error e
          | .ok (p, st) => .ok ((rejected && info.nullability.isNonNull) || p, st)
  | .frag g sels :: rest, st =>
    if isIgnored vars g.skipIf g.includeIf then visit S vars V path parent rest st
    else
      let path' := path ++ [.fragment g.cond]
      let r : Except FilterError (Bool × St) :=
        if V.fragOk g.cond parent then visit S vars V path' g.cond sels st
        else .ok (false, { st with errors := st.errors ++ [fieldNames path],
                                   rejected := st.rejected ++ (collectAll sels).map (path' ++ ·) })
      match r with
      | .error e => .error e
      | .ok (p, st) =>
        match visit S vars V path parent rest st with
        | .error e => .error e
        | .ok (p', st) => .ok (p || p', st)
  | .spread _ :: rest, st => visit S vars V path parent rest st

/-- `OperationFilter::filter`, `operation_filter.rs:111-129`. -/
def filter (S : Schema) (vars : Vars) (V : Visitor) (root : String) (sels : List Sel) :
    Except FilterError St :=
  match visit S vars V [] root sels {} with
  | .ok (_, st) => .ok st
  | .error e => .error e

/-! ## Rebuilding the operation -/

mutual
/-- `collect_variables_from_value`, `nullify/rebuilder.rs:259-283`. -/
def litVars : Lit → List String
  | .var n => [n]
  | .list vs => litsVars vs
  | .obj fs => entriesVars fs
  | _ => []
def litsVars : List Lit → List String
  | [] => []
  | v :: vs => litVars v ++ litsVars vs
def entriesVars : List (String × Lit) → List String
  | [] => []
  | (_, v) :: fs => litVars v ++ entriesVars fs
end

/-- `collect_field_own_variables`, `rebuilder.rs:228-242`. -/
def fieldVars (f : FieldInfo) : List String :=
  (f.args.getD []).flatMap (fun p => litVars p.2) ++ f.skipIf.toList ++ f.includeIf.toList

/-- `collect_fragment_own_variables`, `rebuilder.rs:246-256`. -/
def fragVars (g : FragInfo) : List String := g.skipIf.toList ++ g.includeIf.toList

/-- `collect_variables_recursive`, `rebuilder.rs:208-224`. -/
def selVars : List Sel → List String
  | [] => []
  | .field f s :: rest => fieldVars f ++ selVars s ++ selVars rest
  | .frag g s :: rest => fragVars g ++ selVars s ++ selVars rest
  | .spread _ :: rest => selVars rest

/-- `rebuild_nulled_selection_set`, `rebuilder.rs:52-134`: the kept items and the variables
collected on the way. `rebuildItems` is the loop body (66-131); the early return (59-62) is
`rebuild`. -/
def rebuildItems (t : Trie) (pos : Nat) : List Sel → List Sel × List String
  | [] => ([], [])
  | .field f s :: rest =>
    let (items, vs) := rebuildItems t pos rest
    match t.find pos (.field f.key) with
    | none => (.field f s :: items, fieldVars f ++ selVars s ++ vs)
    | some (child, nulled) =>
      if nulled then (items, vs)
      else
        let (s', vs') :=
          if t.hasChildren child then rebuildItems t child s else (s, selVars s)
        if s'.isEmpty && !s.isEmpty then (items, vs' ++ vs)
        else (.field f s' :: items, fieldVars f ++ vs' ++ vs)
  | .frag g s :: rest =>
    let (items, vs) := rebuildItems t pos rest
    match t.find pos (.fragment g.cond) with
    | none => (.frag g s :: items, fragVars g ++ selVars s ++ vs)
    | some (child, _) =>
      let (s', vs') :=
        if t.hasChildren child then rebuildItems t child s else (s, selVars s)
      if s'.isEmpty && !s.isEmpty then (items, vs' ++ vs)
      else (.frag g s' :: items, fragVars g ++ vs' ++ vs)
  | .spread _ :: rest => rebuildItems t pos rest

def rebuild (t : Trie) (pos : Nat) (sels : List Sel) : List Sel × List String :=
  if t.hasChildren pos then rebuildItems t pos sels else (sels, selVars sels)

/-- `OperationDefinition`, `query_planner/ast/operation.rs:19-24`; of a variable definition only
the name matters here. -/
structure Operation where
  sels : List Sel
  varDefs : Option (List String)

/-- `rebuild_nulled_operation`, `rebuilder.rs:18-47`. -/
def rebuildOperation (op : Operation) (t : Trie) : Operation :=
  let (sels, used) := rebuild t 0 op.sels
  { sels := sels, varDefs := op.varDefs.map fun ds => ds.filter (used.contains ·) }

/-! ## The decision -/

/-- `AuthorizationDecision`, `authorization/mod.rs:46-63` (the projection plan is not part of this
model). -/
inductive Decision where
  | noChange
  | modified (op : Operation) (errors : List (List String))
  | reject (errors : List (List String))

/-- `apply_authorization_to_operation`, `authorization/mod.rs:204-296`. -/
def apply (m : Metadata) (S : Schema) (vars : Vars) (jwt : Jwt) (rejectMode : Bool)
    (root : String) (op : Operation) : Except FilterError Decision :=
  if m.isEmpty then .ok .noChange
  else
    let u := userOf jwt m.scopes
    if u.isAuthenticated && m.scopes.isEmpty then .ok .noChange
    else
      match filter S vars (authVisitor m u) root op.sels with
      | .error e => .error e
      | .ok st =>
        if st.errors.isEmpty then .ok .noChange
        else if rejectMode then .ok (.reject st.errors)
        else .ok (.modified (rebuildOperation op (Trie.fromPaths st.rejected)) st.errors)

/-- What `enforce_operation_authorization` does with the decision, `authorization/mod.rs:157-202`:
the operation that goes on to planning, or `none` if the request is rejected. `enabled` stands for
the two configuration switches tested first. -/
def enforce (enabled : Bool) (m : Metadata) (S : Schema) (vars : Vars) (jwt : Jwt)
    (rejectMode : Bool) (root : String) (op : Operation) :
    Except FilterError (Option (Operation × List (List String))) :=
  if !enabled then .ok (some (op, []))
  else match apply m S vars jwt rejectMode root op with
    | .error e => .error e
    | .ok .noChange => .ok (some (op, []))
    | .ok (.modified op' errs) => .ok (some (op', errs))
    | .ok (.reject _) => .ok none

end Verif.Auth
