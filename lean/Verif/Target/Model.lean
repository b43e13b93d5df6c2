/-!
# Where requests to subgraphs go

Models `executor/executors/map.rs`: how the endpoint of a subgraph is found and which executor a request is given to.
An expression is its source; whether it compiles and what it yields are parameters, as is the reading of a URL. Each
call is one step. Timeouts, TLS and the pool of WebSocket connections are left out; a request that would look for an
open connection (`reuse_existing`) is sent over HTTP. Executors have a number, given in the order they are made; an
executor of a subgraph with its own TLS, HTTP/2 or idle time has a client, with connections, of its own.
-/

namespace Verif.Target

/-- `SubscriptionProtocol`. -/
inductive Protocol where
  | http
  | websocket
  | callback
deriving DecidableEq

/-- `UrlOrExpression`, `config/override_subgraph_urls.rs`. -/
inductive Over where
  | url (u : String)
  | expr (e : String)

/-- `http::Uri`, as far as it is used. -/
structure Uri where
  scheme : Option String
  authority : Option String
  path : Option String
deriving DecidableEq

/-- `SubgraphExecutorError`, as far as it is used. -/
inductive Err where
  | notFound
  | build (name : String)
  | expression
  | wrongType
  | parse (endpoint : String)
  | noCallback
deriving DecidableEq

/-- What an expression yields. -/
inductive Value where
  | fails
  | str (s : String)
  | other

/-- `SubgraphExecutorConfig` with the parameters. `wsAll` and `wsOf` have the optional path. -/
structure Config (Req : Type) where
  over : String → Option Over
  all : Option String
  callbacks : String → Bool
  wsAll : Option (Option String)
  wsOf : String → Option (Option String)
  canCall : Bool
  viaWs : String → Bool
  dedupeAll : Bool
  dedupeOf : String → Option Bool
  compiles : String → Bool
  run : String → Req → String → String → Value
  uri : String → Option Uri

/-- A `SubgraphExecutor`. -/
structure Ex where
  kind : Protocol
  name : String
  uri : Uri
  dedupe : Bool
  number : Nat
deriving DecidableEq

/-- `SubgraphExecutorMap`, `map.rs:155-185`, with the number of executors made. -/
structure State where
  static : String → Option String
  exprs : String → Option String
  ignored : List String
  program : Option String
  http : String → String → Option Ex
  subs : String → String → Option Ex
  made : Nat

variable {Req : Type}

/-- Insertion into a map of maps. -/
def put (n e : String) (x : Ex) (m : String → String → Option Ex) : String → String → Option Ex :=
  fun n' e' => if n' = n ∧ e' = e then some x else m n' e'

/-- `get_protocol_for_subgraph`, `config/subscriptions.rs:189-199`. -/
def protocol (c : Config Req) (n : String) : Protocol :=
  if c.callbacks n then .callback
  else if c.wsAll.isSome || (c.wsOf n).isSome then .websocket
  else .http

/-- `get_websocket_path`, `config/subscriptions.rs:202-213`. -/
def wsPath (c : Config Req) (n : String) : Option String := ((c.wsOf n).bind id).or (c.wsAll.bind id)

/-- `convert_to_websocket_endpoint`, `map.rs:771-813`. The parts are taken to make a URL. -/
def toWs (c : Config Req) (n : String) (u : Uri) : Uri :=
  { scheme := some (if u.scheme = some "https" then "wss" else "ws")
    authority := some (u.authority.getD "")
    path := some (((wsPath c n).or u.path).getD "") }

/-- `dedupe_enabled` of `resolve_subgraph_config`, `map.rs:956-1004`. -/
def dedupe (c : Config Req) (n : String) : Bool :=
  match c.dedupeOf n with
  | some b => b
  | none => c.dedupeAll

/-- `register_executor`, `map.rs:819-952`. Deduplication is for executors over HTTP. -/
def register (c : Config Req) (s : State) (n e : String) (sub : Bool) : Except Err (State × Ex) :=
  match c.uri e with
  | none => .error (.parse e)
  | some u =>
    match (if sub then protocol c n else .http) with
    | .http =>
      let x : Ex := ⟨.http, n, u, dedupe c n, s.made⟩
      .ok ({ s with http := put n e x s.http, made := s.made + 1 }, x)
    | .websocket =>
      let x : Ex := ⟨.websocket, n, toWs c n u, false, s.made⟩
      .ok ({ s with subs := put n e x s.subs, made := s.made + 1 }, x)
    | .callback =>
      if c.canCall then
        let x : Ex := ⟨.callback, n, u, false, s.made⟩
        .ok ({ s with subs := put n e x s.subs, made := s.made + 1 }, x)
      else .error .noCallback

/-- One subgraph of `from_http_endpoint_map`, `map.rs:254-280`. -/
def add (c : Config Req) (s : State) (n url : String) : Except Err State :=
  let step : Except Err (State × String) :=
    match c.over n with
    | some (.url u) => .ok ({ s with ignored := s.ignored ++ [n] }, u)
    | some (.expr e) =>
      if c.compiles e then
        .ok ({ s with ignored := s.ignored ++ [n], exprs := fun n' => if n' = n then some e else s.exprs n' }, url)
      else .error (.build n)
    | none => .ok (s, url)
  match step with
  | .error e => .error e
  | .ok (s, e) =>
    match register c { s with static := fun n' => if n' = n then some e else s.static n' } n e false with
    | .error e => .error e
    | .ok (s, _) => .ok s

/-- The loop, `map.rs:254`. -/
def addAll (c : Config Req) : State → List (String × String) → Except Err State
  | s, [] => .ok s
  | s, (n, u) :: r =>
    match add c s n u with
    | .error e => .error e
    | .ok s => addAll c s r

/-- `from_http_endpoint_map`, `map.rs:224-285`, with `GlobalSubgraphUrlOverride::new`, `map.rs:75-88`. The subgraphs
come in any order. -/
def build (c : Config Req) (l : List (String × String)) : Except Err State :=
  match c.all with
  | some e =>
    if c.compiles e then addAll c ⟨fun _ => none, fun _ => none, [], some e, fun _ _ => none, fun _ _ => none, 0⟩ l
    else .error (.build "all")
  | none => addAll c ⟨fun _ => none, fun _ => none, [], none, fun _ _ => none, fun _ _ => none, 0⟩ l

/-- `get_expression_for_subgraph`, `map.rs:94-98`. -/
def global (s : State) (n : String) : Option String := if s.ignored.contains n then none else s.program

/-- `resolve_endpoint`, `map.rs:650-696`. -/
def resolve (c : Config Req) (s : State) (n : String) (q : Req) : Except Err String :=
  match (s.exprs n).or (global s n) with
  | some p =>
    match s.static n with
    | none => .error .notFound
    | some d =>
      match c.run p q d n with
      | .fails => .error .expression
      | .str e => .ok e
      | .other => .error .wrongType
  | none =>
    match s.static n with
    | none => .error .notFound
    | some d => .ok d

/-- `get_or_create_http_executor`, `map.rs:703-717`. -/
def getHttp (c : Config Req) (s : State) (n e : String) : Except Err (State × Ex) :=
  match s.http n e with
  | some x => .ok (s, x)
  | none => register c s n e false

/-- `get_or_create_subscription_executor`, `map.rs:723-737`. -/
def getSub (c : Config Req) (s : State) (n e : String) : Except Err (State × Ex) :=
  match s.subs n e with
  | some x => .ok (s, x)
  | none => register c s n e true

/-- `execute`, `map.rs:334-338, 380-450`, without plugins and the pool. What was registered stays if a later step
fails. -/
def execute (c : Config Req) (s : State) (n : String) (q : Req) : State × Except Err Ex :=
  match resolve c s n q with
  | .error e => (s, .error e)
  | .ok e =>
    match getHttp c s n e with
    | .error e => (s, .error e)
    | .ok (s, x) =>
      if protocol c n = .websocket ∧ c.viaWs n then
        match getSub c s n e with
        | .error e => (s, .error e)
        | .ok (s, x) => (s, .ok x)
      else (s, .ok x)

/-- `subscribe`, `map.rs:577-588`. -/
def subscribe (c : Config Req) (s : State) (n : String) (q : Req) : State × Except Err Ex :=
  match resolve c s n q with
  | .error e => (s, .error e)
  | .ok e =>
    match getSub c s n e with
    | .error e => (s, .error e)
    | .ok (s, x) => (s, .ok x)

end Verif.Target
