import Verif.Core.Value

/-!
# Persisted documents: from a request to the text of its operation

Models `bin/router/src/pipeline/execution_request.rs` and
`bin/router/src/pipeline/persisted_documents/extract`. Plugins and coprocessors, that may replace
anything, are not modelled. Parsing of JSON and of URLs by libraries is a parameter: a request here
has its body as a value, in which the fields of objects have their order and may come twice.
-/

namespace Verif.Persisted

/-- Bytes of a URL. -/
abbrev Bytes := List UInt8

inductive Err where
  | method
  | contentType
  | body
  | variables
  | extensions
  /-- `PersistedDocumentIdRequired`. -/
  | idRequired
  /-- `GetMissingQueryParam`. -/
  | missingQuery
  | notFound
  | internal
  deriving DecidableEq

/-- `GraphQLParams`, `executor/hooks/on_graphql_params.rs`. -/
structure Params where
  query : Option String := none
  operationName : Option String := none
  variables : Fields := []
  extensions : Option Fields := none

/-- `GraphQLGetInput`, `execution_request.rs:34-44`: the parameters as decoded by the library. -/
structure GetInput where
  query : Option String := none
  operationName : Option String := none
  documentId : Option String := none
  variables : Option String := none
  extensions : Option String := none

/-- `GraphQLPostInput`, `execution_request.rs:58-66`. -/
structure PostInput where
  query : Option String := none
  operationName : Option String := none
  variables : Option Fields := none
  extensions : Option Fields := none
  documentId : Option String := none
  extra : Option Fields := none

/-! ## The body of a POST request -/

/-- A `String`. -/
def asString : Value → Option String
  | .str s => some s
  | _ => none

/-- A map. -/
def asMap : Value → Option Fields
  | .obj fs => some fs
  | _ => none

/-- `GraphQLDocumentIdValue`, `execution_request.rs:68-83`. -/
def asId : Value → Option String
  | .str s => some s
  | .u64 n => some (Nat.repr n)
  | _ => none

/-- `deserialize_once_into_option`, `utils.rs:52-67`: `none` is an error. -/
def once {α : Type} (slot : Option α) (decode : Value → Option α) (v : Value) : Option (Option α) :=
  if slot.isSome then none
  else
    match v with
    | .null => some none
    | v => (decode v).map some

/-- One key of the body, `execution_request.rs:219-240`. -/
def PostInput.field (p : PostInput) (k : String) (v : Value) : Option PostInput :=
  if k = "query" then (once p.query asString v).map fun x => { p with query := x }
  else if k = "operationName" then
    (once p.operationName asString v).map fun x => { p with operationName := x }
  else if k = "variables" then (once p.variables asMap v).map fun x => { p with variables := x }
  else if k = "extensions" then (once p.extensions asMap v).map fun x => { p with extensions := x }
  else if k = "documentId" then (once p.documentId asId v).map fun x => { p with documentId := x }
  else
    match p.extra with
    | some m => some { p with extra := some ((k, v) :: m) }
    | none => some p

/-- The loop of `visit_map`, `execution_request.rs:208-250`. -/
def PostInput.fields (p : PostInput) : Fields → Option PostInput
  | [] => some p
  | (k, v) :: fs =>
    match p.field k v with
    | none => none
    | some p => PostInput.fields p fs

/-- The visitor, `execution_request.rs:199-250`; `capture` is `capture_nonstandard_json_fields`. -/
def visit (capture : Bool) : Value → Option PostInput
  | .obj fs => PostInput.fields { extra := if capture then some [] else none } fs
  | _ => none

/-! ## Where the id is -/

/-- A segment of a template, `url_path_param.rs:49-58`. -/
inductive Seg where
  | id
  | wild
  | lit (s : Bytes)

/-- `PersistedDocumentExtractorConfig`; the parts of JSON paths and of templates are split. -/
inductive Selector where
  | jsonPath (segments : List String)
  | queryParam (name : Bytes)
  | pathParam (template : List Seg)

/-- What is known of a request, `ExtractionContext`, `extract/core.rs:96-102`. -/
structure Ctx where
  extensions : Option Fields
  documentId : Option String
  extra : Option Fields
  path : Bytes
  query : Option Bytes

/-- `PersistedDocumentId::try_from`, `types.rs:26-38`. -/
def nonEmpty (s : String) : Option String := if s = "" then none else some s

/-- `extract_from_json_path`, `json_path.rs:109-122`. Among equal keys the first is taken. -/
def jsonAt : Value → List String → Option String
  | v, [] => asId v
  | .obj fs, s :: rest =>
    match lookup s fs with
    | none => none
    | some v => jsonAt v rest
  | _, _ :: _ => none

/-- `json_path`, `json_path.rs:45-72`. In a map built of the fields of the body the last of equal keys is
found, and `extra` has them in reverse order; in `extensions` too. -/
def Ctx.jsonPath (c : Ctx) : List String → Option String
  | [] => none
  | first :: rest =>
    if first = "query" ∨ first = "operationName" ∨ first = "variables" then none
    else if first = "extensions" then
      match c.extensions, rest with
      | some m, s :: rest => (lookup s m.reverse).bind fun v => jsonAt v rest
      | _, _ => none
    else
      match c.extra with
      | some m => (lookup first m).bind fun v => jsonAt v rest
      | none => none

def amp : UInt8 := 38
def eqs : UInt8 := 61
def percent : UInt8 := 37
def plus : UInt8 := 43

/-- `find_first_value`, `url_query_param.rs:49-109`. `boundary` is `is_pair_boundary` of the position.
The code goes only to the positions of the first byte of the name. -/
def findFirst (name : Bytes) : Bool → Bytes → Option Bytes
  | _, [] => none
  | boundary, c :: rest =>
    if boundary ∧ name <+: (c :: rest) then
      match (c :: rest).drop name.length with
      | [] => none
      | s :: value =>
        if s = amp then none
        else if s ≠ eqs then findFirst name (c = amp) rest
        else
          match value with
          | [] => none
          | v :: _ => if v = amp then none else some (value.takeWhile (· ≠ amp))
    else findFirst name (c = amp) rest

/-- The value of a hexadecimal digit. -/
def hex (b : UInt8) : Option UInt8 :=
  if 48 ≤ b ∧ b ≤ 57 then some (b - 48)
  else if 65 ≤ b ∧ b ≤ 70 then some (b - 55)
  else if 97 ≤ b ∧ b ≤ 102 then some (b - 87)
  else none

/-- `percent_encoding::percent_decode`: what is not an escape is left as it is. -/
def percentDecode : Bytes → Bytes
  | 37 :: a :: b :: rest =>
    match hex a, hex b with
    | some x, some y => (x * 16 + y) :: percentDecode rest
    | _, _ => 37 :: percentDecode (a :: b :: rest)
  | c :: rest => c :: percentDecode rest
  | [] => []
termination_by l => l.length

/-- `decode_if_needed`, `url_query_param.rs:137-166`; `utf8` is `decode_utf8`. -/
def decodeIfNeeded (utf8 : Bytes → Option String) (v : Bytes) : Option String :=
  if ¬ v.contains percent ∧ ¬ v.contains plus then utf8 v
  else if ¬ v.contains plus then utf8 (percentDecode v)
  else utf8 (percentDecode (v.map fun b => if b = plus then 32 else b))

/-- `query_param`, with `QueryParams::get`, `url_query_param.rs:42-47`: the empty name is never found. -/
def Ctx.queryParam (utf8 : Bytes → Option String) (c : Ctx) (name : Bytes) : Option String :=
  match c.query with
  | none => none
  | some q => if name = [] then none else (findFirst name true q).bind (decodeIfNeeded utf8)

/-- The endpoint, `GraphQLEndpointPath::from`, `extract/core.rs:254-268`. -/
def endpointPath (e : Bytes) : Bytes :=
  if e = [] ∨ e = [47] then [47]
  else
    let e := if e.head? = some 47 then e else 47 :: e
    (e.reverse.dropWhile (· = 47)).reverse

/-- `relative_path`, `extract/core.rs:271-284`. -/
def relativePath (endpoint path : Bytes) : Option Bytes :=
  if endpoint = [47] then some path
  else if endpoint <+: path then
    match path.drop endpoint.length with
    | [] => some []
    | c :: rest => if c = 47 then some (c :: rest) else none
  else none

/-- The segments of a path. -/
def segments : Bytes → List Bytes
  | [] => [[]]
  | c :: rest =>
    if c = 47 then [] :: segments rest
    else
      match segments rest with
      | [] => [[c]]
      | s :: ss => (c :: s) :: ss

/-- The match of the only route of a router: parameters are whole segments and not empty. -/
def matchSegs : List Seg → List Bytes → Option (Option Bytes)
  | [], [] => some none
  | .lit s :: ts, p :: ps => if s = p then matchSegs ts ps else none
  | .wild :: ts, p :: ps => if p = [] then none else matchSegs ts ps
  | .id :: ts, p :: ps => if p = [] then none else (matchSegs ts ps).map fun _ => some p
  | _, _ => none

/-- `UrlPathParamExtractor::extract`, `url_path_param.rs:20-26`. The segment is not decoded. -/
def Ctx.pathParam (utf8 : Bytes → Option String) (endpoint : Bytes) (c : Ctx) (t : List Seg) :
    Option String :=
  match relativePath endpoint c.path with
  | none => none
  | some p =>
    match segments p with
    | [] :: ps => ((matchSegs t ps).bind id).bind utf8
    | _ => none

/-- `extract` of the extractors, `extract/extractors`, as made by `build_extractor`,
`extract/core.rs:213-252`. -/
def Selector.extract (utf8 : Bytes → Option String) (endpoint : Bytes) (c : Ctx) :
    Selector → Option String
  | .jsonPath segs =>
    if segs = ["documentId"] then c.documentId.bind nonEmpty else (c.jsonPath segs).bind nonEmpty
  | .queryParam n => (c.queryParam utf8 n).bind nonEmpty
  | .pathParam t => (c.pathParam utf8 endpoint t).bind nonEmpty

/-- `resolve_document_id`, `extract/core.rs:192-210`. -/
def resolveId (utf8 : Bytes → Option String) (endpoint : Bytes) (c : Ctx) : List Selector → Option String
  | [] => none
  | s :: ss =>
    match s.extract utf8 endpoint c with
    | some id => some id
    | none => resolveId utf8 endpoint c ss

/-- Whether a selector needs other fields of the body, `extract/core.rs:213-236`,
`json_path.rs:27-39`. -/
def Selector.needsExtra : Selector → Bool
  | .jsonPath segs =>
    if segs = ["documentId"] ∨ segs = ["extensions", "persistedQuery", "sha256Hash"] then false
    else
      match segs with
      | [] => false
      | s :: _ => decide (s ≠ "extensions")
  | _ => false

/-! ## Requests -/

inductive Method where
  | get
  | post
  | other
  deriving DecidableEq

/-- A request. `ws` are the parameters of an operation of a WebSocket; then the rest is that of its
handshake. -/
structure Request where
  method : Method
  path : Bytes
  rawQuery : Option Bytes
  /-- Whether the content type has `application/json` in it. -/
  jsonContent : Bool
  /-- The result of the library for the query string. -/
  get : Option GetInput
  /-- The body, if it is JSON. -/
  body : Option Value
  ws : Option Params := none

/-- The configuration and what the code calls: the expression for `require_id`, the flag set by
plugins, the store, JSON and UTF-8. -/
structure Config where
  enabled : Bool
  selectors : List Selector
  endpoint : Bytes
  requireId : Request → Except Err Bool
  skip : Request → Option Bool
  store : Option (String → Except Err String)
  json : String → Option Value
  utf8 : Bytes → Option String

/-- `PreparedOperation`, `execution_request.rs:85-91`. -/
structure Prepared where
  params : Params
  id : Option String

/-- `from_graphql_params`, `execution_request.rs:135-160`. -/
def fromParams (cfg : Config) (req : Request) (p : Params) (documentId : Option String)
    (extra : Option Fields) : Prepared :=
  { params := p
    id := if cfg.enabled then
        resolveId cfg.utf8 (endpointPath cfg.endpoint)
          ⟨p.extensions, documentId, extra, req.path, req.rawQuery⟩ cfg.selectors
      else none }

/-- A parameter with JSON, `execution_request.rs:258-279`: `some none` if it is not there or empty. -/
def getJson (json : String → Option Value) : Option String → Option (Option Fields)
  | none => some none
  | some s =>
    if s = "" then some none
    else
      match json s with
      | some (.obj fs) => some (some fs)
      | _ => none

/-- `decode_get`, `execution_request.rs:497-514`, with `from_get`, 94-107, and `try_into`, 253-288. -/
def decodeGet (cfg : Config) (req : Request) : Except Err Prepared :=
  let input : Option GetInput := if req.rawQuery.isNone then some {} else req.get
  match input with
  | none => .error .body
  | some g =>
    match getJson cfg.json g.variables with
    | none => .error .variables
    | some vars =>
      match getJson cfg.json g.extensions with
      | none => .error .extensions
      | some exts =>
        .ok (fromParams cfg req
          { query := g.query, operationName := g.operationName, variables := vars.getD [],
            extensions := exts } g.documentId none)

/-- `decode_post`, `execution_request.rs:516-562`, with `from_post`, 109-133. -/
def decodePost (cfg : Config) (req : Request) : Except Err Prepared :=
  if req.jsonContent = false then .error .contentType
  else
    match req.body.bind (visit (cfg.enabled && cfg.selectors.any Selector.needsExtra)) with
    | none => .error .body
    | some p =>
      .ok (fromParams cfg req
        { query := p.query, operationName := p.operationName, variables := p.variables.getD [],
          extensions := p.extensions } p.documentId p.extra)

/-- `decode_or_use_graphql_params`, `execution_request.rs:473-495`. -/
def decode (cfg : Config) (req : Request) : Except Err Prepared :=
  match req.ws with
  | some p => .ok (fromParams cfg req p none none)
  | none =>
    match req.method with
    | .get => decodeGet cfg req
    | .post => decodePost cfg req
    | .other => .error .method

/-- `enforce_require_id_policy`, `execution_request.rs:564-608`. -/
def enforce (cfg : Config) (req : Request) (op : Prepared) : Except Err Prepared :=
  if cfg.enabled = false then .ok { op with id := none }
  else
    match cfg.requireId req with
    | .error e => .error e
    | .ok require =>
      if require ∧ (cfg.skip req).getD false = false then
        if op.id.isNone then .error .idRequired
        else .ok { op with params := { op.params with query := none } }
      else if op.params.query.isSome then .ok { op with id := none }
      else .ok op

/-- `resolve_query_from_document_id`, `execution_request.rs:610-642`. -/
def resolveQuery (cfg : Config) (op : Prepared) : Except Err Prepared :=
  match op.id with
  | none => .ok op
  | some id =>
    match cfg.store with
    | none => .error .internal
    | some store =>
      match store id with
      | .error e => .error e
      | .ok text => .ok { op with params := { op.params with query := some text } }

/-- `extract_and_resolve`, `execution_request.rs:380-471`, without plugins. -/
def prepare (cfg : Config) (req : Request) : Except Err Prepared :=
  match decode cfg req with
  | .error e => .error e
  | .ok op =>
    match enforce cfg req op with
    | .error e => .error e
    | .ok op => if cfg.enabled ∧ op.params.query.isNone then resolveQuery cfg op else .ok op

/-- The text that is parsed and executed: `get_query`, `execution_request.rs:294-300`, called in
`parser.rs:128`. -/
def textOf (cfg : Config) (req : Request) : Except Err String :=
  match prepare cfg req with
  | .error e => .error e
  | .ok op =>
    match op.params.query with
    | none => .error .missingQuery
    | some text => .ok text

/-! ## Ids of the Hive CDN -/

inductive HiveErr where
  | invalidFormat
  | identityMissing
  | identityPartial
  | notFound
  | sdk
  deriving DecidableEq

/-- `DocumentIdSyntax::try_from`, `resolve/hive.rs:48-105`: whether it is a whole app document id. -/
def isAppId (s : List Char) : Except HiveErr Bool :=
  match s.dropWhile (· ≠ '~') with
  | [] => .ok false
  | _ :: r1 =>
    if s.takeWhile (· ≠ '~') = [] then .error .invalidFormat
    else
      match r1.dropWhile (· ≠ '~') with
      | [] => .error .invalidFormat
      | _ :: r2 =>
        if r1.takeWhile (· ≠ '~') = [] then .error .invalidFormat
        else if r2 = [] then .error .invalidFormat
        else if r2.contains '~' then .error .invalidFormat
        else .ok true

/-- `AppDocumentId::try_from`, `resolve/hive.rs:107-131`. -/
def appId (name version : Option (List Char)) (id : List Char) : Except HiveErr (List Char) :=
  match isAppId id with
  | .error e => .error e
  | .ok true => .ok id
  | .ok false =>
    match name, version with
    | some n, some v => .ok (n ++ '~' :: v ++ '~' :: id)
    | none, none => .error .identityMissing
    | _, _ => .error .identityPartial

/-- What an endpoint answers: a document, another status, or no answer. -/
inductive Answer where
  | document (text : String)
  | status (code : Nat)
  | failed
  deriving DecidableEq

/-- The caches of `PersistedDocumentsManager`,
`lib/hive-console-sdk/src/persisted_documents.rs:19-25`. -/
structure Manager where
  cache : List (List Char × String)
  negative : List (List Char)
  hasNegative : Bool

/-- The loop over the endpoints, `persisted_documents.rs:188-199`, with `resolve_from_endpoint`,
112-162: any other status is `DocumentNotFound`. -/
def fetch : HiveErr → List Answer → Except HiveErr String
  | last, [] => .error last
  | _, .document t :: _ => .ok t
  | _, .status _ :: rest => fetch .notFound rest
  | _, .failed :: rest => fetch .sdk rest

/-- `resolve_document`, `persisted_documents.rs:164-213`; `answers` are those of the endpoints, if they
are asked. -/
def Manager.resolve (m : Manager) (id : List Char) (answers : List Answer) :
    Manager × Except HiveErr String :=
  if m.hasNegative ∧ m.negative.contains id then (m, .error .notFound)
  else
    match (m.cache.find? fun kv => kv.1 == id) with
    | some kv => (m, .ok kv.2)
    | none =>
      match fetch .sdk answers with
      | .ok t => ({ m with cache := (id, t) :: m.cache }, .ok t)
      | .error e =>
        if e = .notFound ∧ m.hasNegative then ({ m with negative := id :: m.negative }, .error e)
        else (m, .error e)

/-- Entries leave the caches at any time. -/
inductive Manager.Step : Manager → Manager → Prop
  | resolve (m : Manager) (id : List Char) (answers : List Answer) : Step m (m.resolve id answers).1
  | evict (m : Manager) (c : List (List Char × String)) (n : List (List Char)) :
      c ⊆ m.cache → n ⊆ m.negative → Step m { m with cache := c, negative := n }

end Verif.Persisted
