/-!
# The request context, as a coprocessor sees and changes it

Files are under bin/router/src/executor/request_context.
-/

namespace Verif.Coproc

/-- JSON values (`sonic_rs::Value`, `ResponseValue`). Numbers are kept as text. -/
inductive JV where
  | null
  | bool (b : Bool)
  | num (t : String)
  | str (s : String)
  | arr (vs : List JV)
  | obj (fs : List (String × JV))

/-- `RequestContext` (domains/mod.rs:109-123, 178-184), with its domains
(domains/operation.rs:15-21, progressive_override.rs:22-29, authentication.rs:14-20, telemetry.rs:14-20,
persisted_documents.rs:16-19). The kind of the operation is kept as its name. Sets are lists. -/
structure Ctx where
  opName : Option String
  opKind : Option String
  unresolved : Option (List String)
  labels : Option (List String)
  jwtScopes : Option (List String)
  jwtStatus : Option Bool
  clientName : Option String
  clientVersion : Option String
  skip : Option Bool
  custom : List (String × JV)

/-- `str::starts_with`. -/
def starts (p key : String) : Bool := p.toList.isPrefixOf key.toList

/-- `HIVE_PREFIX` (domains/mod.rs:22). -/
def hive : String := "hive::"

/-- The first entry with the key gets the value (domains/mod.rs:209-213). -/
def customUpdate (k : String) (v : JV) : List (String × JV) → List (String × JV)
  | [] => []
  | p :: ps => if p.1 = k then (k, v) :: ps else p :: customUpdate k v ps

/-- `CustomContext::apply` (domains/mod.rs:201-216). -/
def customSet (cs : List (String × JV)) (k : String) (v : JV) : List (String × JV) :=
  match v with
  | .null => cs.filter (fun p => p.1 ≠ k)
  | v => if cs.any (fun p => p.1 = k) then customUpdate k v cs else cs ++ [(k, v)]

/-- The strings of an array of strings (`expect_array`, `expect_str`, deser.rs:28-40, 55-68). -/
def strings : JV → Option (List String)
  | .arr vs => vs.mapM (fun v => match v with | .str s => some s | _ => none)
  | _ => none

/-- `set_labels_to_override_value` (progressive_override.rs:32-47). -/
def setLabels (c : Ctx) : JV → Option Ctx
  | .null => some { c with labels := none }
  | v => (strings v).map (fun ls => { c with labels := some ls })

/-- `set_skip_enforcement_value` (persisted_documents.rs:22-31). -/
def setSkip (c : Ctx) : JV → Option Ctx
  | .null => some { c with skip := none }
  | .bool b => some { c with skip := some b }
  | _ => none

/-- `try_set_reserved_key` (domains/mod.rs:128-142), with `set_key_value` of the domains: the first whose
prefix the key has is asked. Failures are `none`: a key that must not be set, one that is not known, and a
value of the wrong type. -/
def setReserved (c : Ctx) (key : String) (v : JV) : Option Ctx :=
  if starts "hive::operation::" key then none
  else if starts "hive::progressive_override::" key then
    if key = "hive::progressive_override::unresolved_labels" then none
    else if key = "hive::progressive_override::labels_to_override" then setLabels c v
    else none
  else if starts "hive::authentication::" key then none
  else if starts "hive::telemetry::" key then none
  else if starts "hive::persisted_documents::" key then
    if key = "hive::persisted_documents::skip_enforcement" then setSkip c v else none
  else none

/-- `RequestContextCoprocessorApi::set` (api/coprocessor.rs:32-40). -/
def setKey (c : Ctx) (key : String) (v : JV) : Option Ctx :=
  if starts hive key then setReserved c key v
  else some { c with custom := customSet c.custom key v }

/-- `apply_patch` (api/coprocessor.rs:43-49). What was set before a failure stays in the code; the request
ends there (`execute`), and this is not followed further. -/
def applyPatch : Ctx → List (String × JV) → Option Ctx
  | c, [] => some c
  | c, (k, v) :: ps => (setKey c k v).bind (fun c => applyPatch c ps)

/-- The present fields of the domains, in order (`impl_domain_serde`, `serialize_all_reserved`,
domains/mod.rs:80-105, 151-154). -/
def reserved (c : Ctx) : List (String × JV) :=
  (c.opName.map (fun s => ("hive::operation::name", JV.str s))).toList ++
  (c.opKind.map (fun s => ("hive::operation::kind", JV.str s))).toList ++
  (c.unresolved.map (fun l => ("hive::progressive_override::unresolved_labels", JV.arr (l.map .str)))).toList ++
  (c.labels.map (fun l => ("hive::progressive_override::labels_to_override", JV.arr (l.map .str)))).toList ++
  (c.jwtScopes.map (fun l => ("hive::authentication::jwt_scopes", JV.arr (l.map .str)))).toList ++
  (c.jwtStatus.map (fun b => ("hive::authentication::jwt_status", JV.bool b))).toList ++
  (c.clientName.map (fun s => ("hive::telemetry::client_name", JV.str s))).toList ++
  (c.clientVersion.map (fun s => ("hive::telemetry::client_version", JV.str s))).toList ++
  (c.skip.map (fun b => ("hive::persisted_documents::skip_enforcement", JV.bool b))).toList

/-- The prefixes of the domains. -/
def prefixes : List String :=
  ["hive::operation::", "hive::progressive_override::", "hive::authentication::", "hive::telemetry::",
    "hive::persisted_documents::"]

/-- `CustomContext::get` (domains/mod.rs:190-195). -/
def lookup (cs : List (String × JV)) (k : String) : Option JV := (cs.find? (fun p => p.1 = k)).map (·.2)

/-- `ContextSelection`: `false`, `true` or a list of keys (config/coprocessor.rs:110-118). -/
inductive Selection where
  | none
  | all
  | keys (ks : List String)

/-- What is sent of the context (`build_request`; deser.rs:71-114). -/
def toldContext (c : Ctx) : Selection → Option (List (String × JV))
  | .none => Option.none
  | .all => some (reserved c ++ c.custom)
  | .keys ks => some (ks.filterMap (fun k =>
      if prefixes.any (fun p => starts p k) then (lookup (reserved c) k).map (fun v => (k, v))
      else (lookup c.custom k).map (fun v => (k, v))))

end Verif.Coproc
