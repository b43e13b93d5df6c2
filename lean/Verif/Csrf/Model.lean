import Verif.Cors.Model

/-!
# CSRF prevention

`bin/router/src/pipeline/csrf_prevention.rs`.
-/

namespace Verif.Csrf

open Verif.Headers Verif.Cors

/-- `CSRFPreventionConfig`, `config/csrf.rs:11-35`. -/
structure Config where
  enabled : Bool
  requiredHeaders : List Name

/-- `NON_PREFLIGHTED_CONTENT_TYPES`, `csrf_prevention.rs:12-16`. -/
def nonPreflighted : List Text :=
  ["application/x-www-form-urlencoded".toList, "multipart/form-data".toList, "text/plain".toList]

/-- `is_simple_content_type`, `csrf_prevention.rs:51-56`. -/
def isSimpleContentType (ct : Text) : Bool :=
  let lowered := lower ct
  nonPreflighted.any fun t => t.isPrefixOf lowered

/-- `request_requires_preflight`, `csrf_prevention.rs:60-65`. -/
def requiresPreflight (headers : HeaderMap) : Bool :=
  match (headers.get "content-type").bind toStr with
  | some ct => !isSimpleContentType ct
  | none => false

/-- `HeaderMap::contains_key`. -/
def containsKey (headers : HeaderMap) (n : Name) : Bool := (headers.getAll n).isEmpty == false

/-- `perform_csrf_prevention`, `csrf_prevention.rs:19-47`: whether the request goes on. -/
def passes (headers : HeaderMap) (c : Config) : Bool :=
  if !c.enabled || c.requiredHeaders.isEmpty then true
  else if requiresPreflight headers then true
  else c.requiredHeaders.any (containsKey headers)

end Verif.Csrf
