import Verif.Core.Value

/-!
# Error masking

`executor/execution/error_masking.rs`, and where subgraph errors come from:
`executor/response/graphql_error.rs`, `executor/execution_context.rs`,
`executor/execution/plan.rs`.
-/

namespace Verif.Masking

/-- `GraphQLErrorExtensions`, `graphql_error.rs:291-305`. The `BTreeMap` is its entries. -/
structure Exts where
  code : Option String := none
  service : Option String := none
  affectedPath : Option String := none
  rest : List (String × Value) := []

/-- `GraphQLError`, `graphql_error.rs:9-19`, without its locations and path, which masking does not
touch. -/
structure Error where
  message : String
  exts : Exts

/-- `BTreeMap::insert`, on entries in any order. -/
def insertExt (k : String) (v : Value) (m : List (String × Value)) : List (String × Value) :=
  (k, v) :: m.filter (·.1 ≠ k)

/-- One key of `extensions`, `graphql_error.rs:333-357`; `none` is a failure to read it. -/
def readKey (k : String) (v : Value) (e : Exts) : Option Exts :=
  if k = "code" then
    (match e.code, v with
    | none, .str s => some { e with code := some s }
    | _, _ => none)
  else if k = "service" then
    (match e.service, v with
    | none, .str s => some { e with service := some s }
    | _, _ => none)
  else if k = "affectedPath" then
    (match e.affectedPath, v with
    | none, .str s => some { e with affectedPath := some s }
    | none, .null => some e
    | _, _ => none)
  else some { e with rest := insertExt k v e.rest }

/-- `visit_map`, `graphql_error.rs:324-366`. -/
def readExts : List (String × Value) → Exts → Option Exts
  | [], e => some e
  | (k, v) :: kvs, e => (readKey k v e).bind (readExts kvs)

/-- `GraphQLError::add_subgraph_name`, `graphql_error.rs:198-206`. -/
def addSubgraphName (g : String) (e : Error) : Error :=
  { e with exts := { e.exts with
      service := some (e.exts.service.getD g)
      code := some (e.exts.code.getD "DOWNSTREAM_SERVICE_ERROR") } }

/-- `GraphQLError::add_affected_path`, `graphql_error.rs:224-227`. -/
def addAffectedPath (p : String) (e : Error) : Error :=
  { e with exts := { e.exts with affectedPath := some p } }

/-- `ExtensionsMaskingConfig`, `config/error_masking.rs:95-104`, and `RedactExtensionsPlan`,
`error_masking.rs:80-92`. -/
inductive Plan where
  | allow (keys : List String)
  | deny (keys : List String)

/-- `SubgraphErrorMaskingConfig`, `config/error_masking.rs:78-93`. -/
structure SubgraphConfig where
  enabled : Option Bool
  extensions : Option Plan

/-- `ErrorMaskingConfig`, `config/error_masking.rs:7-25`. -/
structure Config where
  enabled : Bool
  message : String
  allEnabled : Bool
  allExtensions : Option Plan
  subgraphs : Option (List (String × SubgraphConfig))

/-- `ErrorMaskingRuntime`, `error_masking.rs:6-16`. -/
structure Runtime where
  message : String
  defaultMasking : Bool
  masking : List (String × Bool)
  defaultExtensions : Option Plan
  extensions : List (String × Option Plan)

/-- `compile_from_config`, `error_masking.rs:43-77`. -/
def compile (c : Config) : Option Runtime :=
  if c.enabled then
    some {
      message := c.message
      defaultMasking := c.allEnabled
      masking := (c.subgraphs.getD []).map fun kv => (kv.1, kv.2.enabled.getD c.allEnabled)
      defaultExtensions := c.allExtensions
      extensions := (c.subgraphs.getD []).map fun kv => (kv.1, kv.2.extensions) }
  else none

/-- `apply_allow_list`, `error_masking.rs:112-145`. -/
def allowOnly (keys : List String) (e : Exts) : Exts where
  code := if keys.contains "code" then e.code else none
  service := if keys.contains "service" then e.service else none
  affectedPath := if keys.contains "affectedPath" then e.affectedPath else none
  rest := e.rest.filter fun kv =>
    (keys.filter fun k => k ≠ "code" ∧ k ≠ "service" ∧ k ≠ "affectedPath").contains kv.1

/-- `remove_field`, `error_masking.rs:147-162`. -/
def removeField (e : Exts) (k : String) : Exts :=
  if k = "code" then { e with code := none }
  else if k = "service" then { e with service := none }
  else if k = "affectedPath" then { e with affectedPath := none }
  else { e with rest := e.rest.filter (·.1 ≠ k) }

/-- `RedactExtensionsPlan::apply`, `error_masking.rs:95-110`. -/
def Plan.apply : Plan → Exts → Exts
  | .allow keys, e => allowOnly keys e
  | .deny keys, e => keys.foldl removeField e

/-- `Option<&Option<Plan>>::and_then(as_ref).or(default)`, `error_masking.rs:31-35`. -/
def extensionsPlan (r : Runtime) (g : String) : Option Plan :=
  match lookup g r.extensions with
  | some (some p) => some p
  | _ => r.defaultExtensions

/-- `ErrorMaskingRuntime::apply`, `error_masking.rs:19-41`. -/
def Runtime.apply (r : Runtime) (e : Error) : Error :=
  match e.exts.service with
  | none => e
  | some g =>
    { message := if (lookup g r.masking).getD r.defaultMasking then r.message else e.message
      exts := match extensionsPlan r g with
        | some p => p.apply e.exts
        | none => e.exts }

/-- Masking of the errors of a response, `plan.rs:672-676`. -/
def mask (c : Config) (es : List Error) : List Error :=
  match compile c with
  | some r => es.map r.apply
  | none => es

/-- `ExecutionContext::handle_errors`, `execution_context.rs:46-72`, without the paths. -/
def handleErrors (g : String) (affected : Option String) (es : List Error) : List Error :=
  es.map fun e =>
    let e := addSubgraphName g e
    match affected with
    | some p => addAffectedPath p e
    | none => e

/-- What the client gets to see of the errors of a response to a fetch. -/
def shownFetch (c : Config) (g : String) (affected : Option String) (es : List Error) : List Error :=
  mask c (handleErrors g affected es)

/-- What the client gets to see of the errors of an event of a subscription, when no other fetch
follows: they go to the execution as initial errors as they are, `plan.rs:385-388`. -/
def shownEvent (c : Config) (_g : String) (es : List Error) : List Error := mask c es

/-- The error for a failing event stream, `plan.rs:360-383`, `execution/error.rs:98-115`,
`serialize_masked_failure`, `plan.rs:184-197`. -/
def shownStreamFailure (c : Config) (g message code : String) : List Error :=
  mask c [addSubgraphName g { message, exts := { code := some code } }]

end Verif.Masking
