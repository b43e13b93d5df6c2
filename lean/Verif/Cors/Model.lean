import Verif.Headers.Model

/-!
# Cross-origin resource sharing

`bin/router/src/pipeline/cors.rs`.
-/

namespace Verif.Cors

open Verif.Headers

/-- `HeaderValue::to_str`: visible ASCII and tab. -/
def toStr (v : Text) : Option Text :=
  if v.all (fun c => (32 ≤ c.toNat && c.toNat < 127) || c = '\t') then some v else none

/-- `HeaderValue::from_str`: no control characters but tab. -/
def fromStr (v : Text) : Option Text :=
  if v.all (fun c => (32 ≤ c.toNat && c.toNat ≠ 127) || c = '\t') then some v else none

/-- `CORSPolicyConfig`, `config/cors.rs`. A pattern is the set of origins it matches. -/
structure PolicyConfig where
  origins : Option (List Text) := none
  matchOrigin : Option (List (Text → Bool)) := none
  allowCredentials : Option Bool := none
  allowHeaders : Option (List Text) := none
  methods : Option (List Text) := none
  exposeHeaders : Option (List Text) := none
  maxAge : Option Nat := none
  preflight : HeaderMap := []

/-- `CORSConfig`, `config/cors.rs`. -/
structure Config where
  enabled : Bool
  allowAnyOrigin : Bool := false
  policies : List PolicyConfig := []
  allowCredentials : Bool := false
  allowHeaders : Option (List Text) := none
  methods : Option (List Text) := none
  exposeHeaders : Option (List Text) := none
  maxAge : Option Nat := none
  preflight : HeaderMap := []

/-- `CompiledCORSPolicy`, `cors.rs:19-27`. -/
structure Policy where
  methods : Option Text
  allowHeaders : Option Text
  exposeHeaders : Option Text
  allowCredentials : Option Text
  maxAge : Option Text
  preflight : HeaderMap

/-- `header_value_from_list`, `cors.rs:251-256`. -/
def valueFromList : Option (List Text) → Option Text
  | none => none
  | some [] => none
  | some (v :: vs) => fromStr (joinComma (v :: vs))

def trueText : Text := ['t', 'r', 'u', 'e']

def nullText : Text := ['n', 'u', 'l', 'l']

/-- `merge_preflight_headers`, `cors.rs:260-270` (`HeaderMap::extend` appends). -/
def mergePreflight (global overrides : HeaderMap) : HeaderMap :=
  if overrides = [] then global else List.append global overrides

/-- `CompiledCORSPolicy::from_config`, `cors.rs:30-54`. -/
def compilePolicy (p : PolicyConfig) (global : Policy) : Policy where
  methods := (valueFromList p.methods).or global.methods
  allowHeaders := (valueFromList p.allowHeaders).or global.allowHeaders
  exposeHeaders := (valueFromList p.exposeHeaders).or global.exposeHeaders
  allowCredentials :=
    if p.allowCredentials = some true then some trueText else global.allowCredentials
  maxAge := match p.maxAge with
    | some a => fromStr (showNat a)
    | none => global.maxAge
  preflight := mergePreflight global.preflight p.preflight

/-- The global policy, `cors.rs:176-190`. -/
def globalPolicy (c : Config) : Policy where
  methods := valueFromList c.methods
  allowHeaders := valueFromList c.allowHeaders
  exposeHeaders := valueFromList c.exposeHeaders
  allowCredentials := if c.allowCredentials then some trueText else none
  maxAge := c.maxAge.bind fun a => fromStr (showNat a)
  preflight := c.preflight

/-- `CompiledOriginRule`, `cors.rs:113-117`; `build_regex_many` gives the union of the patterns, and
nothing for an empty list (`cors.rs:119-129`). -/
structure Rule where
  origins : List Text
  pattern : Option (Text → Bool)
  policy : Policy

/-- `CompiledOriginRule::try_from_config`, `cors.rs:132-149` (patterns that fail to compile are
reported when the router starts). -/
def compileRule (p : PolicyConfig) (global : Policy) : Rule where
  origins := p.origins.getD []
  pattern := match p.matchOrigin with
    | none => none
    | some [] => none
    | some (r :: rs) => some fun o => (r :: rs).any fun q => q o
  policy := compilePolicy p global

/-- `matches_origin`, `cors.rs:151-165`. -/
def Rule.matchesOrigin (r : Rule) (origin : Text) : Bool :=
  if r.origins.any (fun o => o == origin) then true
  else match r.pattern with
    | none => false
    | some p => p origin

/-- `Cors`, `cors.rs:168-171`. -/
inductive Cors where
  | allowAll (policy : Policy)
  | byOrigin (rules : List Rule)

/-- `Cors::from_config`, `cors.rs:174-208`. -/
def fromConfig (c : Config) : Option Cors :=
  if c.enabled = false then none
  else if c.allowAnyOrigin then some (.allowAll (globalPolicy c))
  else
    match c.policies.map fun p => compileRule p (globalPolicy c) with
    | [] => none
    | rules => some (.byOrigin rules)

/-- `find_policy_for_origin`, `cors.rs:210-218`. -/
def Cors.find (c : Cors) (origin : Text) : Option Policy :=
  match c with
  | .allowAll p => some p
  | .byOrigin rules => (rules.find? fun r => r.matchesOrigin origin).map (·.policy)

/-- `append_vary`, `cors.rs:272-302`. -/
def appendVary (h : HeaderMap) (token : Text) : HeaderMap :=
  match (h.get "vary").bind toStr with
  | some existing =>
    if (splitOn ',' existing).any (fun t => lower (trim t) == lower token) then h
    else
      match (if existing = [] then fromStr token else fromStr (existing ++ [',', ' '] ++ token)) with
      | some v => h.insert "vary" v
      | none => h
  | none =>
    match fromStr token with
    | some v => h.insert "vary" v
    | none => h

/-- An incoming request: the method is what the code asks about. -/
structure Req where
  isOptions : Bool
  headers : HeaderMap

def originToken : Text := ['O', 'r', 'i', 'g', 'i', 'n']

def requestHeadersToken : Text := "Access-Control-Request-Headers".toList

/-- `apply_to`, first part: `Access-Control-Allow-Origin` and `Vary`, `cors.rs:65-69`. -/
def applyOrigin (h : HeaderMap) (origin : Text) : HeaderMap :=
  let h := h.insert "access-control-allow-origin" origin
  if origin ≠ nullText then appendVary h originToken else h

/-- `apply_to`, methods, `cors.rs:72-76`. -/
def applyMethods (p : Policy) (req : Req) (h : HeaderMap) : HeaderMap :=
  match p.methods with
  | some v => h.insert "access-control-allow-methods" v
  | none =>
    match req.headers.get "access-control-request-method" with
    | some m => h.insert "access-control-allow-methods" m
    | none => h

/-- `apply_to`, allowed headers, `cors.rs:79-89`. -/
def applyHeaders (p : Policy) (req : Req) (h : HeaderMap) : HeaderMap :=
  match p.allowHeaders with
  | some v => h.insert "access-control-allow-headers" v
  | none =>
    match req.headers.get "access-control-request-headers" with
    | some m => appendVary (h.insert "access-control-allow-headers" m) requestHeadersToken
    | none => h

/-- Insert a header if there is a value, `cors.rs:91-99`. -/
def insertOpt (h : HeaderMap) (n : Name) : Option Text → HeaderMap
  | some v => h.insert n v
  | none => h

/-- The headers given for preflight responses, `cors.rs:105-109`. -/
def applyPreflight (p : Policy) (req : Req) (h : HeaderMap) : HeaderMap :=
  if req.isOptions then p.preflight.foldl (fun h e => h.insert e.1 e.2) h else h

/-- `CompiledCORSPolicy::apply_to`, `cors.rs:59-110`. -/
def Policy.applyTo (p : Policy) (req : Req) (h : HeaderMap) (origin : Text) : HeaderMap :=
  let h := applyOrigin h origin
  let h := applyMethods p req h
  let h := applyHeaders p req h
  let h := insertOpt h "access-control-allow-credentials" p.allowCredentials
  let h := insertOpt h "access-control-expose-headers" p.exposeHeaders
  let h := insertOpt h "access-control-max-age" p.maxAge
  applyPreflight p req h

/-- `Cors::set_headers`, `cors.rs:234-248`. -/
def Cors.setHeaders (c : Cors) (req : Req) (h : HeaderMap) : HeaderMap :=
  match req.headers.get "origin" with
  | none => h
  | some current =>
    match c.find ((toStr current).getD []) with
    | some p => p.applyTo req h current
    | none => h.insert "access-control-allow-origin" nullText

/-- A response: status and headers. -/
structure Resp where
  status : Nat
  headers : HeaderMap

/-- The order of things for a GraphQL request: an early answer to `OPTIONS`
(`pipeline/mod.rs:127-136`, `cors.rs:220-232`), else the pipeline; then the CORS headers
(`lib.rs:340-342`). Response header rules and coprocessors are not part of it. -/
def handle (cors : Option Cors) (pipeline : Req → Resp) (req : Req) : Resp :=
  match cors with
  | none => pipeline req
  | some c =>
    let r := if req.isOptions then ⟨204, [("content-length", ['0'])]⟩ else pipeline req
    { r with headers := c.setHeaders req r.headers }

end Verif.Cors
