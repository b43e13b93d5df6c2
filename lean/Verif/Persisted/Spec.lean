import Verif.Persisted.Model

/-!
# Which id a request has, and which document is executed

Written without the functions of the model; only `percentDecode` is used, which `C29_percent`
specifies.
-/

namespace Verif.Persisted

/-- No key comes twice in an object. -/
inductive Uniq : Value → Prop
  | null : Uniq .null
  | f64 (b) : Uniq (.f64 b)
  | i64 (i) : Uniq (.i64 i)
  | u64 (n) : Uniq (.u64 n)
  | bool (b) : Uniq (.bool b)
  | str (s) : Uniq (.str s)
  | raw (s) : Uniq (.raw s)
  | arr {vs} : (∀ v ∈ vs, Uniq v) → Uniq (.arr vs)
  | obj {fs : Fields} : (fs.map (·.1)).Nodup → (∀ kv ∈ fs, Uniq kv.2) → Uniq (.obj fs)

/-- The value at a path of keys. -/
inductive At : Value → List String → Value → Prop
  | here (v : Value) : At v [] v
  | field (fs : Fields) (k : String) (v : Value) (path : List String) (w : Value) :
      (k, v) ∈ fs → At v path w → At (.obj fs) (k :: path) w

/-- The id a value is: a string that is not empty, or a natural number. -/
inductive IsId : Value → String → Prop
  | str (s : String) : s ≠ "" → IsId (.str s) s
  | num (n : Nat) : IsId (.u64 n) (Nat.repr n)

/-- The parts of a query string between `&`. -/
def pairs : Bytes → List Bytes
  | [] => [[]]
  | c :: rest =>
    if c = 38 then [] :: pairs rest
    else
      match pairs rest with
      | [] => [[c]]
      | p :: ps => (c :: p) :: ps

/-- The part of a pair before the first `=`. -/
def pairKey (p : Bytes) : Bytes := p.takeWhile (· ≠ 61)

/-- The part of a pair behind the first `=`; empty if there is none. -/
def pairValue (p : Bytes) : Bytes := (p.dropWhile (· ≠ 61)).drop 1

/-- The first pair with the name has this value. -/
def FirstValue (name q v : Bytes) : Prop :=
  ∃ pre p post, pairs q = pre ++ p :: post ∧ (∀ p' ∈ pre, pairKey p' ≠ name) ∧ pairKey p = name ∧
    pairValue p = v

/-- A path fits a template; `id` is at the place of the id. -/
inductive Fits : List Seg → List Bytes → Option Bytes → Prop
  | nil : Fits [] [] none
  | lit (s : Bytes) (ts : List Seg) (ps : List Bytes) (id : Option Bytes) :
      Fits ts ps id → Fits (.lit s :: ts) (s :: ps) id
  | wild (p : Bytes) (ts : List Seg) (ps : List Bytes) (id : Option Bytes) :
      p ≠ [] → Fits ts ps id → Fits (.wild :: ts) (p :: ps) id
  | id (p : Bytes) (ts : List Seg) (ps : List Bytes) (id : Option Bytes) :
      p ≠ [] → Fits ts ps id → Fits (.id :: ts) (p :: ps) (some p)

/-- `/a/b/c` for the segments `a`, `b` and `c`. -/
def path : List Bytes → Bytes
  | [] => []
  | s :: ss => 47 :: (s ++ path ss)

/-- The id that a selector finds in a request. -/
inductive Selects (cfg : Config) (req : Request) : Selector → String → Prop
  /-- At a path in the body of a POST request. -/
  | body (keys : List String) (v w : Value) (id : String) :
      req.ws = none → req.method = .post → req.body = some v →
      keys.head? ≠ some "query" → keys.head? ≠ some "operationName" → keys.head? ≠ some "variables" →
      At v keys w → IsId w id → Selects cfg req (.jsonPath keys) id
  /-- The parameter `documentId` of a GET request. -/
  | getId (g : GetInput) (id : String) :
      req.ws = none → req.method = .get → req.rawQuery ≠ none → req.get = some g →
      g.documentId = some id → id ≠ "" → Selects cfg req (.jsonPath ["documentId"]) id
  /-- At a path in the parameter `extensions` of a GET request. -/
  | getExt (g : GetInput) (s : String) (keys : List String) (v w : Value) (id : String) :
      req.ws = none → req.method = .get → req.rawQuery ≠ none → req.get = some g →
      g.extensions = some s → s ≠ "" → cfg.json s = some v → At v keys w → keys ≠ [] → IsId w id →
      Selects cfg req (.jsonPath ("extensions" :: keys)) id
  /-- At a path in the extensions of an operation of a WebSocket. -/
  | wsExt (p : Params) (fs : Fields) (keys : List String) (w : Value) (id : String) :
      req.ws = some p → p.extensions = some fs → At (.obj fs) keys w → keys ≠ [] → IsId w id →
      Selects cfg req (.jsonPath ("extensions" :: keys)) id
  /-- In the query string of the URL, decoded. -/
  | query (name q v : Bytes) (id : String) :
      req.rawQuery = some q → FirstValue name q v → v ≠ [] →
      cfg.utf8 (percentDecode (v.map fun b => if b = 43 then 32 else b)) = some id → id ≠ "" →
      Selects cfg req (.queryParam name) id
  /-- In the path of the URL behind the endpoint. -/
  | path (endpoint : Bytes) (t : List Seg) (ps : List Bytes) (s : Bytes) (id : String) :
      (endpoint = [] ∧ endpointPath cfg.endpoint = [47] ∨
        endpoint = endpointPath cfg.endpoint ∧ endpoint ≠ [47]) →
      req.path = endpoint ++ path ps → (∀ p ∈ ps, (47 : UInt8) ∉ p) → ps ≠ [] → Fits t ps (some s) →
      cfg.utf8 s = some id → id ≠ "" → Selects cfg req (.pathParam t) id

/-- The id of a request: that of the first selector that finds one. -/
def HasId (cfg : Config) (req : Request) (id : String) : Prop :=
  ∃ pre s post, cfg.selectors = pre ++ s :: post ∧ (∀ s' ∈ pre, ∀ i, ¬ Selects cfg req s' i) ∧
    Selects cfg req s id

/-- No object of the request has a key twice. -/
structure Regular (cfg : Config) (req : Request) : Prop where
  body : ∀ v, req.body = some v → Uniq v
  json : ∀ s v, cfg.json s = some v → Uniq v
  ws : ∀ p fs, req.ws = some p → p.extensions = some fs → Uniq (.obj fs)

/-- The names of parameters are sensible, and the template has an id. -/
def GoodSelector : Selector → Prop
  | .jsonPath keys => keys ≠ []
  | .queryParam name => name ≠ [] ∧ (38 : UInt8) ∉ name ∧ (61 : UInt8) ∉ name
  | .pathParam _ => True

/-- Persisted documents are required for the request. -/
structure Required (cfg : Config) (req : Request) : Prop where
  enabled : cfg.enabled = true
  require : cfg.requireId req = .ok true
  noSkip : cfg.skip req ≠ some true

/-- `name~version~id` with parts that are not empty and have no `~`. -/
def AppForm (s : List Char) : Prop :=
  ∃ a b c : List Char, s = a ++ '~' :: (b ++ '~' :: c) ∧ a ≠ [] ∧ b ≠ [] ∧ c ≠ [] ∧ '~' ∉ a ∧ '~' ∉ b ∧
    '~' ∉ c

end Verif.Persisted
