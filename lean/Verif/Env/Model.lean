/-!
# Environment variables that override the configuration

Models `config/env_overrides.rs`. What `envconfig` has read from a variable is given as a value; a configuration is
a map from keys to values, in which `set_override` of the `config` crate sets one.
-/

namespace Verif.Env

/-- Values of variables and settings. -/
inductive Val where
  | str (s : List Char)
  | list (l : List (List Char))
  | bool (b : Bool)
  | num (n : Int)
deriving DecidableEq

/-- The variables that are set, `env_overrides.rs:7-73`. -/
abbrev Vars := String → Option Val

/-- A configuration. -/
abbrev Config := String → Option Val

/-- `EnvVarOverridesError`, `env_overrides.rs:75-83`. -/
inductive Err where
  | conflict
  | missing (var : String)
deriving DecidableEq

/-- `set_override`. -/
def set (k : String) (x : Val) (c : Config) : Config := fun k' => if k' = k then some x else c k'

/-- `if let Some(..) = self.x.take() { config = config.set_override(..)? }`, e.g. `env_overrides.rs:92-95`. -/
def setIf (o : Option Val) (k : String) (c : Config) : Config :=
  match o with
  | some x => set k x c
  | none => c

/-- `str::split(',')`. -/
def split : List Char → List (List Char)
  | [] => [[]]
  | c :: r =>
    if c = ',' then [] :: split r
    else
      match split r with
      | h :: t => (c :: h) :: t
      | [] => [[c]]

/-- `str::trim` of blanks. -/
def trim (w : List Char) : List Char :=
  ((w.dropWhile (· == ' ')).reverse.dropWhile (· == ' ')).reverse

/-- Endpoints separated by commas, `env_overrides.rs:148-151, 188-191`. -/
def endpoints : Val → Val
  | .str w => .list ((split w).map trim)
  | x => x

/-- One endpoint, or more, `env_overrides.rs:147-155`. -/
def endpoint : Val → Val
  | .str w => if w.contains ',' then endpoints (.str w) else .str w
  | x => x

/-- `!`, `env_overrides.rs:265`. -/
def negate : Val → Val
  | .bool b => .bool !b
  | x => x

/-- The number of sources, `env_overrides.rs:128-135`. -/
def sources (v : Vars) : Nat :=
  ([v "SUPERGRAPH_FILE_PATH", v "HIVE_CDN_ENDPOINT", v "APOLLO_KEY"].filter (·.isSome)).length

/-- The first settings, `env_overrides.rs:92-126`. -/
def first (v : Vars) (c : Config) : Config :=
  setIf (v "ROUTER_HTTP_WORKERS") "http.workers"
    (setIf (v "HOST") "http.host"
      (setIf (v "PORT") "http.port"
        (setIf (v "LOG_INTERNALS") "log.log_internals"
          (setIf (v "LOG_FILTER") "log.filter"
            (setIf (v "LOG_FORMAT") "log.format"
              (setIf (v "LOG_LEVEL") "log.level" c))))))

/-- A file, `env_overrides.rs:140-144`. -/
def file (v : Vars) (c : Config) : Config :=
  match v "SUPERGRAPH_FILE_PATH" with
  | some p => set "supergraph.path" p (set "supergraph.source" (.str "file".toList) c)
  | none => c

/-- Hive, `env_overrides.rs:146-171`. -/
def hive (v : Vars) (c : Config) : Except Err Config :=
  match v "HIVE_CDN_ENDPOINT" with
  | some e =>
    match v "HIVE_CDN_KEY" with
    | some k =>
      .ok (setIf (v "HIVE_CDN_POLL_INTERVAL") "supergraph.poll_interval"
        (set "supergraph.key" k
          (set "supergraph.endpoint" (endpoint e) (set "supergraph.source" (.str "hive".toList) c))))
    | none => .error (.missing "HIVE_CDN_KEY")
  | none => .ok c

/-- Apollo, `env_overrides.rs:173-195`. -/
def apollo (v : Vars) (c : Config) : Except Err Config :=
  match v "APOLLO_KEY" with
  | some k =>
    match v "APOLLO_GRAPH_REF" with
    | some g =>
      .ok (setIf ((v "APOLLO_UPLINK_ENDPOINTS").map endpoints) "supergraph.endpoint"
        (set "supergraph.graph_ref" g
          (set "supergraph.key" k (set "supergraph.source" (.str "apollo_graphos".toList) c))))
    | none => .error (.missing "APOLLO_GRAPH_REF")
  | none => .ok c

/-- The last settings, `env_overrides.rs:197-267`. -/
def last (v : Vars) (c : Config) : Config :=
  setIf ((v "DISABLE_SUBGRAPH_ERROR_MASKING").map negate) "error_masking.enabled"
    (setIf (v "QUERY_PLANNER_EXPERIMENTAL_ABSTRACT_TYPE_FOLDING") "query_planner.experimental_abstract_type_folding"
      (setIf (v "SUBSCRIPTIONS_ENABLED") "subscriptions.enabled"
        (setIf (v "WEBSOCKET_ENABLED") "websocket.enabled"
          (setIf (v "LABORATORY_ENABLED") "laboratory.enabled"
            (setIf (v "TELEMETRY_TRACING_SAMPLING_RATE") "telemetry.tracing.collect.sampling"
              (setIf (v "HIVE_TARGET") "telemetry.hive.target"
                (setIf (v "HIVE_ACCESS_TOKEN") "telemetry.hive.token"
                  (setIf (v "HIVE_USAGE_REPORTING_ENABLED") "telemetry.hive.usage_reporting.enabled"
                    (setIf (v "HIVE_TRACING_ENABLED") "telemetry.hive.tracing.enabled" c)))))))))

/-- `apply_overrides`, `env_overrides.rs:88-270`. -/
def apply (v : Vars) (c : Config) : Except Err Config :=
  if sources v > 1 then .error .conflict
  else
    match hive v (file v (first v c)) with
    | .error e => .error e
    | .ok c1 =>
      match apollo v c1 with
      | .error e => .error e
      | .ok c2 => .ok (last v c2)

end Verif.Env
