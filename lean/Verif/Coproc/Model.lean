import Verif.Coproc.Context

/-!
# Coprocessors: what a request goes through

A coprocessor is a service that the router asks at up to five stages of a request. It is told of the request
or response, and answers that the request goes on, possibly changed, or that it ends here with an answer.
Files are under bin/router/src, and `coprocessor/` stands for bin/router/src/executor/coprocessor/.

Simplifications: if a stage fails, the context may have been changed in part before; here it is as it was, and
nothing depends on it, since the request ends with an error. Times, limits on the size of bodies and
cancelled requests are not modelled. What a coprocessor answers does not have to follow from what it is sent, so here it may answer anything.
-/

namespace Verif.Coproc

/-- Headers, in order: a name can occur more than once, and what counts is the order of the values of one
name. Models `HeaderMap` of ntex. -/
abbrev HeaderMap := List (String × String)

/-- The values of a header. -/
def vals (h : HeaderMap) (n : String) : List String := (h.filter (fun p => p.1 = n)).map (·.2)

/-- `HOP_BY_HOP_HEADERS` (config/headers.rs:11-23). -/
def hopByHop : List String :=
  ["connection", "keep-alive", "proxy-authenticate", "proxy-authorization", "te", "trailer",
    "transfer-encoding", "upgrade", "proxy-connection", "host", "content-length"]

/-- Values that are text: visible ASCII, space and tab (`HeaderValue::from_str`, `HeaderValue::to_str`).
Values of other bytes are written with other characters here. -/
def visible (v : String) : Bool := v.toList.all (fun c => c == '\t' || (32 ≤ c.toNat && c.toNat < 127))

/-- Characters of names of headers. -/
def tokenChar (c : Char) : Bool := c.isAlphanum || "!#$%&'*+-.^_`|~".toList.contains c

/-- `HeaderName::from_str`: names are kept in lower case. -/
def headerName (s : String) : Option String :=
  if s ≠ "" ∧ s.toList.all tokenChar then some (String.ofList (s.toList.map Char.toLower)) else none

/-- A JSON value as it stands in the answer (`LazyValue`): a string, or anything else with its text. -/
inductive Body where
  | str (decoded : String)
  | raw (text : String)

/-- `parse_json_body` (coprocessor/stage.rs:41-50). -/
def Body.text : Body → String
  | .str s => s
  | .raw s => s

/-- `CoprocessorControl` (coprocessor/protocol.rs:12-25). -/
inductive Control where
  | cont
  | brk (status : Nat)
deriving DecidableEq

/-- `StageResponsePayload` (coprocessor/stage.rs:108-117, 176-188). The headers are a map, which comes out
in any order. The context is read as a patch when it is used (coprocessor/runtime.rs:157-161); `none` inside
is a patch that cannot be read. -/
structure Answer where
  version : Nat
  control : Control
  headers : Option (List (String × List String))
  body : Option Body
  context : Option (Option (List (String × JV)))

/-- `try_for_each_parsed` (coprocessor/stage.rs:146-173). The code hands headers on as it goes and stops at
one that is not right; what was handed on is then dropped, with the request or with the response. -/
def parsed : List (String × List String) → Option (List (String × String))
  | [] => some []
  | (n, vs) :: rest =>
    match headerName n with
    | none => none
    | some n' =>
      if hopByHop.contains n' then parsed rest
      else if vs.all visible then (parsed rest).map (fun ps => vs.map (fun v => (n', v)) ++ ps)
      else none

/-- `replace_into` (coprocessor/stage.rs:120-135). -/
def replaceInto (h : HeaderMap) (a : List (String × List String)) : Option HeaderMap :=
  (parsed a).map (fun ps => h.filter (fun p => hopByHop.contains p.1) ++ ps)

/-- `set_header` of the response builder: the header has this value and no other. -/
def setHeader (h : HeaderMap) (p : String × String) : HeaderMap := h.filter (fun q => q.1 ≠ p.1) ++ [p]

/-- `apply_to_response_builder` (coprocessor/stage.rs:137-144). -/
def builtHeaders (a : List (String × List String)) : Option HeaderMap :=
  (parsed a).map (fun ps => ps.foldl setHeader [])

/-- A response. A body that is sent bit by bit is `none`, as is no body: neither is told to coprocessors. -/
structure Response where
  status : Nat
  headers : HeaderMap
  body : Option String
deriving DecidableEq

/-- `break_output` (coprocessor/stage.rs:74-99). -/
def breakOutput (a : Answer) (status : Nat) : Option Response :=
  match a.headers with
  | none => some { status := status, headers := [], body := a.body.map Body.text }
  | some hs => (builtHeaders hs).map (fun h => { status := status, headers := h, body := a.body.map Body.text })

/-- What comes of a stage. -/
inductive Flow (ι : Type) where
  | error
  | brk (r : Response)
  | cont (i : ι) (c : Ctx) (bodyChanged : Bool)

/-- What a stage meets: whether its condition holds (`none` if it cannot be told), and what the
coprocessor sends, with the status (`none` if nothing comes, or nothing could be sent; inside, `none` if it
cannot be read). -/
structure Hook where
  should : Option Bool
  reply : Option (Nat × Option Answer)

/-- `execute_internal` from the answer on (coprocessor/runtime.rs:127-182). -/
def answered {ι : Type} (apply : Answer → ι → Option ι) (a : Answer) (c : Ctx) (i : ι) : Flow ι :=
  if a.version ≠ 1 then .error
  else match a.control with
    | .brk status =>
      match breakOutput a status with
      | some r => .brk r
      | none => .error
    | .cont =>
      match (match a.context with
        | none => some c
        | some none => none
        | some (some ps) => applyPatch c ps) with
      | none => .error
      | some c' =>
        match apply a i with
        | none => .error
        | some i' => .cont i' c' a.body.isSome

/-- `execute`, `execute_internal` (coprocessor/runtime.rs:71-189). -/
def execute {ι : Type} (apply : Answer → ι → Option ι) (hook : Hook) (c : Ctx) (i : ι) : Flow ι :=
  match hook.should with
  | none => .error
  | some false => .cont i c false
  | some true =>
    match hook.reply with
    | none => .error
    | some (status, a) =>
      if 200 ≤ status ∧ status < 300 then
        match a with
        | none => .error
        | some a => answered apply a c i
      else .error

/-- The headers of the answer, if there are any (`if let Some(headers) = parsed.headers`). -/
def newHeaders (a : Answer) (h : HeaderMap) : Option HeaderMap :=
  match a.headers with
  | none => some h
  | some hs => replaceInto h hs

/-- A request over HTTP. -/
structure Request where
  method : String
  path : String
  headers : HeaderMap
  body : String
deriving DecidableEq

/-- `RouterRequestStage::apply_mutations`, and the restored body (coprocessor/stages/router.rs:171-194,
86-97). No payload is an empty body. -/
def applyRouterRequest (a : Answer) (r : Request) : Option Request :=
  (newHeaders a r.headers).map (fun h =>
    { r with headers := h, body := match a.body with | some b => b.text | none => r.body })

/-- `RouterResponseStage::apply_mutations` (coprocessor/stages/router.rs:272-299). -/
def applyRouterResponse (a : Answer) (r : Response) : Option Response :=
  (newHeaders a r.headers).map (fun h =>
    { r with headers := h,
             body := match a.body with
               | some b => if b.text = "" then none else some b.text
               | none => r.body })

/-- `GraphqlResponseStage::apply_mutations` (coprocessor/stages/graphql.rs:387-411). -/
def applyGraphqlResponse (a : Answer) (r : Response) : Option Response :=
  (newHeaders a r.headers).map (fun h =>
    { r with headers := h, body := match a.body with | some b => some b.text | none => r.body })

/-- `GraphQLParams`. Variables and extensions are kept as text. -/
structure Params where
  query : Option String
  operationName : Option String
  variables : String
  extensions : Option String
deriving DecidableEq

/-- `GraphqlBodyPayload` (coprocessor/stages/graphql.rs:517-528). -/
structure Fields where
  query : Option String
  operationName : Option String
  variables : Option String
  extensions : Option String

/-- `query.trim().is_empty()`, with ASCII space only. -/
def blank (s : String) : Bool := s.toList.all Char.isWhitespace

/-- `apply_to` (coprocessor/stages/graphql.rs:469-502). -/
def Fields.applyTo (f : Fields) (p : Params) : Option Params :=
  if f.query.any blank then none
  else some
    { query := f.query.or p.query
      operationName := f.operationName.or p.operationName
      variables := f.variables.getD p.variables
      extensions := f.extensions.or p.extensions }

/-- The request as the GraphQL stages have it: its headers and parameters. -/
structure Gql where
  headers : HeaderMap
  params : Params
deriving DecidableEq

/-- `GraphqlRequestStage::apply_mutations` (coprocessor/stages/graphql.rs:211-229), where `read` reads the
fields of a body (`sonic_rs::from_str`). -/
def applyGraphqlRequest (read : String → Option Fields) (a : Answer) (g : Gql) : Option Gql :=
  (newHeaders a g.headers).bind (fun h =>
    match a.body with
    | none => some { g with headers := h }
    | some b => ((read b.text).bind (fun f => f.applyTo g.params)).map (fun p => { headers := h, params := p }))

/-- `GraphqlAnalysisStage::apply_mutations` (coprocessor/stages/graphql.rs:293-311). -/
def applyAnalysis (a : Answer) (g : Gql) : Option Gql :=
  (newHeaders a g.headers).bind (fun h =>
    match a.body with
    | none => some { g with headers := h }
    | some _ => none)

/-- What is told of headers (`HeaderMapJsonRef`, coprocessor/stage.rs:271-319): the names, each with its
values that are text. The map comes out in any order. -/
def names : HeaderMap → List String
  | [] => []
  | p :: h => if p.1 ∈ names h then names h else p.1 :: names h

/-- See `names`. -/
def toldHeaders (h : HeaderMap) : List (String × List String) :=
  (names (h.filter (fun p => visible p.2))).map (fun n => (n, vals (h.filter (fun p => visible p.2)) n))

/-! ## A request -/

/-- The stages that are configured, and what the coprocessor answers. -/
structure Hooks where
  routerRequest : Option Hook
  graphqlRequest : Option Hook
  analysis : Option Hook
  graphqlResponse : Option Hook
  routerResponse : Option Hook

/-- The rest of the router. `params` reads the parameters of a request, `parse` a document, `valid` is
validation, `run` executes the operation with the headers, parameters and context it has then, and
`failed` is the response to an error, which is one whatever the error here. `finish` adds the headers of
header rules and of CORS (lib.rs:331-342). `wrap` makes the response when the coprocessor ends the request in its
last stage before execution (pipeline/mod.rs:802-821). -/
structure Router (δ : Type) where
  params : Request → Option Params
  parse : Option String → Option δ
  valid : δ → Bool
  run : Gql → Ctx → δ → Response
  read : String → Option Fields
  wrap : Response → Response
  finish : Response → Response
  failed : Response

/-- What was executed. -/
structure Executed (δ : Type) where
  gql : Gql
  doc : δ
  ctx : Ctx

/-- A stage that is not configured does nothing (coprocessor/runtime.rs:262-264, 321-323, 354-356, 372-374,
391-393). -/
def stage {ι : Type} (apply : Answer → ι → Option ι) (hook : Option Hook) (c : Ctx) (i : ι) : Flow ι :=
  match hook with
  | none => .cont i c false
  | some hook => execute apply hook c i

/-- From the last stage before execution on (pipeline/mod.rs:783-823 and what follows). -/
def analysed {δ : Type} (r : Router δ) (hs : Hooks) (g : Gql) (doc : δ) (c : Ctx) :
    Response × Option (Executed δ) × Ctx :=
  match stage applyAnalysis hs.analysis c g with
  | .error => (r.failed, none, c)
  | .brk resp => (r.wrap resp, none, c)
  | .cont g' c' _ => (r.run g' c' doc, some ⟨g', doc, c'⟩, c')

/-- From the parameters on (pipeline/mod.rs:141-402): the document is parsed and validated, then the
coprocessor is asked, and if it gave a body, the document is parsed again. -/
def pipeline {δ : Type} (r : Router δ) (hs : Hooks) (q : Request) (c : Ctx) :
    Response × Option (Executed δ) × Ctx :=
  match r.params q with
  | none => (r.failed, none, c)
  | some p =>
    match r.parse p.query with
    | none => (r.failed, none, c)
    | some doc =>
      if r.valid doc = false then (r.failed, none, c)
      else
        match stage (applyGraphqlRequest r.read) hs.graphqlRequest c ⟨q.headers, p⟩ with
        | .error => (r.failed, none, c)
        | .brk resp => (resp, none, c)
        | .cont g c' changed =>
          if changed then
            match r.parse g.params.query with
            | none => (r.failed, none, c')
            | some doc' => analysed r hs g doc' c'
          else analysed r hs g doc c'

/-- `on_graphql_response` (coprocessor/runtime.rs:381-402) and its use (lib.rs:344-366). -/
def afterGraphql {δ : Type} (r : Router δ) (hs : Hooks) (c : Ctx) (resp : Response) : Response × Ctx :=
  match stage applyGraphqlResponse hs.graphqlResponse c resp with
  | .error => (r.failed, c)
  | .brk resp' => (resp', c)
  | .cont resp' c' _ => (resp', c')

/-- `on_router_response` (coprocessor/runtime.rs:320-345): if the stage fails the client gets an empty
response with status 500. -/
def afterRouter (hs : Hooks) (c : Ctx) (resp : Response) : Response :=
  match stage applyRouterResponse hs.routerResponse c resp with
  | .error => { status := 500, headers := [], body := none }
  | .brk resp' => resp'
  | .cont resp' _ _ => resp'

/-- A request with a coprocessor and no plugins (plugins/plugins_service.rs:78-98, 160-168): what the client gets,
and what was executed. The response of a failed stage is one of status 500
(coprocessor/runtime.rs:303-306, 416-431), here `failed`. -/
def handle {δ : Type} (r : Router δ) (hs : Hooks) (q : Request) (c : Ctx) :
    Response × Option (Executed δ) :=
  match stage applyRouterRequest hs.routerRequest c q with
  | .error => (r.failed, none)
  | .brk resp => (resp, none)
  | .cont q' c' _ =>
    let (resp, ex, c1) := pipeline r hs q' c'
    let (resp, c2) := afterGraphql r hs c1 (r.finish resp)
    (afterRouter hs c2 resp, ex)

end Verif.Coproc
