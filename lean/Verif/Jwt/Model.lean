import Verif.Core.Value

/-!
# JWT authentication

`jwt/mod.rs`, `jwt/jwks_manager.rs`, `jwt/context.rs` and the cache of claims, `shared_state.rs:277-316`.

What the library `jsonwebtoken` does is a parameter: `header` reads the header of a token, and
`decode` checks the signature of a token with a key and an algorithm, the times, issuer and audience,
and reads the claims. Times are in milliseconds since the epoch.
-/

namespace Verif.Jwt

/-- `Audience`, `context.rs:48-53`. -/
inductive Audience where
  | single (s : String)
  | multiple (ss : List String)

/-- `JwtClaims`, `context.rs:56-81`; `other` stands for the rest. -/
structure Claims where
  iss : Option String
  aud : Option Audience
  exp : Option Nat
  other : String := ""

/-- A key of a set: its id, and the algorithm it is for if it says so. -/
structure Key where
  kid : Option String
  alg : Option String
  material : Nat := 0
  deriving DecidableEq

/-- The header of a token. -/
structure Header where
  kid : Option String
  alg : String

/-- The library. `known` are the names `Algorithm::from_str` takes; `usable` says whether a key makes
a `DecodingKey`. -/
structure Lib where
  header : String → Option Header
  known : String → Bool
  usable : Key → Bool
  decode : Key → String → String → Nat → Option Claims

/-- Where a token is looked for, `config/jwt_auth.rs`. Header names are in lower case. -/
inductive Location where
  | header (name : String) (pre : Option String)
  | cookie (name : String)

/-- `JwtAuthConfig`. -/
structure Config where
  locations : List Location
  requireAuth : Option Bool
  algorithms : Option (List String)
  issuers : Option (List String)
  audiences : Option (List String)

/-- A request: for a header name its first value, if any - `none` inside if it is not text - and the
cookies of the first `cookie` header that can be parsed, in order. -/
structure Request where
  header : String → Option (Option String)
  cookies : List (String × String)

/-- `str::trim`, for spaces. -/
def trim (s : List Char) : List Char :=
  ((s.dropWhile (· == ' ')).reverse.dropWhile (· == ' ')).reverse

/-- `str::strip_prefix`. -/
def stripPrefix : List Char → List Char → Option (List Char)
  | [], s => some s
  | _ :: _, [] => none
  | p :: ps, c :: cs => if p = c then stripPrefix ps cs else none

inductive LookupError where
  | notText | mismatchedPrefix | failed
  deriving DecidableEq

/-- `lookup`, `jwt/mod.rs:56-119`. -/
def find (r : Request) : List Location → Except LookupError (Option String × String)
  | [] => .error .failed
  | .header name pre :: rest =>
    match r.header name with
    | none => find r rest
    | some none => .error .notText
    | some (some v) =>
      (match pre with
      | some p =>
        (match stripPrefix p.toList v.toList with
        | some t => .ok (some p, String.ofList (trim t))
        | none => .error .mismatchedPrefix)
      | none => .ok (none, v))
  | .cookie name :: rest =>
    match lookup name r.cookies with
    | some v => .ok (none, v)
    | none => find r rest

/-- The loop for the `kid`, `jwt/mod.rs:127-135`. -/
def findKid (kid : String) : List (List Key) → Option (List Key)
  | [] => none
  | s :: rest => if s.any (fun k => k.kid == some kid) then some s else findKid kid rest

/-- The loop over the keys of a set for the algorithm, `jwt/mod.rs:139-147`: `none` is an algorithm
the library does not know, which ends the search with an error. -/
def keysHaveAlg (L : Lib) (alg : String) : List Key → Option Bool
  | [] => some false
  | k :: ks =>
    match k.alg with
    | none => keysHaveAlg L alg ks
    | some a => if L.known a then (if a = alg then some true else keysHaveAlg L alg ks) else none

/-- The loop for the algorithm, `jwt/mod.rs:138-148`. -/
def findAlg (L : Lib) (alg : String) : List (List Key) → Option (List Key)
  | [] => none
  | s :: rest =>
    match keysHaveAlg L alg s with
    | none => none
    | some true => some s
    | some false => findAlg L alg rest

/-- `find_matching_jwks`, `jwt/mod.rs:121-151`. -/
def findSet (L : Lib) (h : Header) (sets : List (List Key)) : Option (List Key) :=
  match h.kid.bind (findKid · sets) with
  | some s => some s
  | none => findAlg L h.alg sets

/-- The issuer, `jwt/mod.rs:243-255`. -/
def issuerOk (c : Config) (cl : Claims) : Bool :=
  match c.issuers, cl.iss with
  | some is, some i => is.contains i
  | some _, none => false
  | none, _ => true

/-- The audience, `jwt/mod.rs:257-276`. -/
def audienceOk (c : Config) (cl : Claims) : Bool :=
  match c.audiences, cl.aud with
  | some as, some (.single a) => as.contains a
  | some as, some (.multiple l) => l.all as.contains
  | some _, none => false
  | none, _ => true

/-- The algorithm a key is used with, `jwt/mod.rs:206-210`; `none` is an error. -/
def keyAlg (L : Lib) (h : Header) (k : Key) : Option String :=
  match k.alg with
  | some a => if L.known a then some a else none
  | none => some h.alg

/-- Whether an algorithm is allowed, `jwt/mod.rs:213-219`. -/
def algAllowed (c : Config) (alg : String) : Bool :=
  match c.algorithms with
  | some l => l.contains alg
  | none => true

/-- `try_decode_from_jwk`, `jwt/mod.rs:198-279`, at a time. -/
def tryKey (L : Lib) (c : Config) (h : Header) (token : String) (now : Nat) (k : Key) : Option Claims :=
  if L.usable k then
    match keyAlg L h k with
    | none => none
    | some alg =>
      if algAllowed c alg then
        match L.decode k alg token now with
        | none => none
        | some cl => if issuerOk c cl && audienceOk c cl then some cl else none
      else none
  else none

/-- `authenticate` for the token that was found, `jwt/mod.rs:153-196`. -/
def authenticate (L : Lib) (c : Config) (sets : List (List Key)) (token : String) (now : Nat) :
    Option Claims :=
  match L.header token with
  | none => none
  | some h =>
    match findSet L h sets with
    | none => none
    | some keys => keys.findSome? (tryKey L c h token now)

/-- What a request is taken for. -/
inductive Result where
  | rejected
  | anonymous
  | user (token : String) (pre : Option String) (claims : Claims)

/-- `validate_headers`, `jwt/mod.rs:284-325`, where `validated` is what the cache gives for the token:
the claims, from an earlier or a new validation. -/
def validateHeaders (c : Config) (r : Request) (validated : String → Option Claims) : Result :=
  match find r c.locations with
  | .error _ => if c.requireAuth = some true then .rejected else .anonymous
  | .ok (pre, token) =>
    match validated token with
    | some cl => .user token pre cl
    | none => if c.requireAuth = some true then .rejected else .anonymous

/-! ## The cache -/

/-- `expire_after_create`, `shared_state.rs:283-315`, in milliseconds. -/
def ttl (exp : Option Nat) (now : Nat) : Nat :=
  match exp with
  | none => 5000
  | some e => if e ≤ now / 1000 then 0 else min 5000 ((e - now / 1000) * 1000)

/-- An entry: the claims, when they were validated, when they were inserted, and for how long. -/
structure Entry where
  claims : Claims
  validated : Nat
  inserted : Nat
  life : Nat

/-- A validation that was served from the cache. -/
structure Hit where
  token : String
  claims : Claims
  validated : Nat
  inserted : Nat
  served : Nat

/-- The clock, the sets of keys, the cache, validations that are done and not yet inserted, and, for
the properties, all validations and all hits. -/
structure State where
  clock : Nat
  sets : List (List Key)
  cache : List (String × Entry)
  pending : List (String × Claims × Nat)
  validations : List (String × Claims × Nat × List (List Key))
  hits : List Hit

def initial (sets : List (List Key)) : State := ⟨0, sets, [], [], [], []⟩

/-- The steps of the cache, `cache.try_get_with`, `jwt/mod.rs:301-307`: time passes, keys are fetched
anew, a token is validated, the result is inserted, an entry is served while it lives, an entry is
dropped. -/
inductive Step (L : Lib) (c : Config) : State → State → Prop
  | tick (s : State) (d : Nat) : Step L c s { s with clock := s.clock + d }
  | refresh (s : State) (sets : List (List Key)) : Step L c s { s with sets }
  | validate (s : State) (token : String) (cl : Claims)
      (h : authenticate L c s.sets token s.clock = some cl) :
      Step L c s { s with
        pending := (token, cl, s.clock) :: s.pending
        validations := (token, cl, s.clock, s.sets) :: s.validations }
  | insert (s : State) (token : String) (cl : Claims) (t : Nat) (h : (token, cl, t) ∈ s.pending) :
      Step L c s { s with
        cache := (token, ⟨cl, t, s.clock, ttl cl.exp s.clock⟩) :: s.cache.filter (·.1 ≠ token) }
  | hit (s : State) (token : String) (e : Entry) (h : (token, e) ∈ s.cache)
      (h' : s.clock < e.inserted + e.life) :
      Step L c s { s with hits := ⟨token, e.claims, e.validated, e.inserted, s.clock⟩ :: s.hits }
  | drop (s : State) (token : String) : Step L c s { s with cache := s.cache.filter (·.1 ≠ token) }

/-- Runs. -/
inductive Reach (L : Lib) (c : Config) (sets : List (List Key)) : State → Prop
  | init : Reach L c sets (initial sets)
  | step (s t : State) : Reach L c sets s → Step L c s t → Reach L c sets t

end Verif.Jwt
