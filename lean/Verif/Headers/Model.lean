import Verif.Core.Text

/-!
# Header rules and Cache-Control

`bin/router/src/executor/headers/{request,response,sanitizer,cache_control}.rs`.
-/

namespace Verif.Headers

/-- A header name, lower-cased as `http::HeaderName` keeps it. -/
abbrev Name := String

/-- `http::HeaderMap` as the list of its entries; the values of one name are in order of arrival.
The order in which the library iterates over different names is not modelled: nothing below
depends on it. -/
abbrev HeaderMap := List (Name × Text)

/-- `HeaderMap::get_all`. -/
def HeaderMap.getAll (h : HeaderMap) (n : Name) : List Text :=
  h.filterMap fun e => if e.1 = n then some e.2 else none

/-- `HeaderMap::get`: the first value. -/
def HeaderMap.get (h : HeaderMap) (n : Name) : Option Text := (h.getAll n).head?

/-- `HeaderMap::append`. -/
def HeaderMap.append (h : HeaderMap) (n : Name) (v : Text) : HeaderMap := List.append h [(n, v)]

/-- `HeaderMap::remove`. -/
def HeaderMap.remove (h : HeaderMap) (n : Name) : HeaderMap := h.filter fun e => e.1 ≠ n

/-- `HeaderMap::insert`: replace all values. -/
def HeaderMap.insert (h : HeaderMap) (n : Name) (v : Text) : HeaderMap := (h.remove n).append n v

/-- `HOP_BY_HOP_HEADERS`, `config/headers.rs:11-23`. -/
def hopByHop : List Name :=
  ["connection", "keep-alive", "proxy-authenticate", "proxy-authorization", "te", "trailer",
   "transfer-encoding", "upgrade", "proxy-connection", "host", "content-length"]

/-- `NEVER_JOIN_HEADERS`, `config/headers.rs:27`. -/
def neverJoin : List Name := ["set-cookie", "www-authenticate"]

/-- `is_denied_header`, `sanitizer.rs:7-9`. -/
def isDenied (n : Name) : Bool := hopByHop.contains n

/-- `is_denied_response_header`, `sanitizer.rs:12-14`. -/
def isDeniedResponse (n : Name) : Bool := isDenied n || ["content-type"].contains n

/-- `is_never_join_header`, `sanitizer.rs:16-18`. -/
def isNeverJoin (n : Name) : Bool := neverJoin.contains n

/-- A compiled regular expression, as the set of names it matches. -/
abbrev Regex := Name → Bool

/-! ## Request rules -/

/-- `RequestHeaderRule`, `plan.rs:27-34` and the structs it refers to. An expression is given by
its outcome on the request at hand: failure, no header value, or a value
(`expression.rs:vrl_value_to_header_value`). -/
inductive RequestRule where
  | propagateNamed (names : List Name) (default : Option Text) (rename : Option Name)
  | propagateRegex (incl excl : Option Regex)
  | insertStatic (name : Name) (value : Text)
  | insertExpression (name : Name) (eval : Except Unit (Option Text))
  | removeNamed (names : List Name)
  | removeRegex (regex : Regex)

/-- The loop of `RequestPropagateNamed::apply_request_headers`, `request.rs:79-88`: the new output
and `matched`. -/
def propagateRequestNames (client : HeaderMap) (rename : Option Name) :
    List Name → HeaderMap → HeaderMap × Bool
  | [], out => (out, false)
  | n :: ns, out =>
    if isDenied n then propagateRequestNames client rename ns out
    else match client.get n with
      | none => propagateRequestNames client rename ns out
      | some v => ((propagateRequestNames client rename ns (out.append (rename.getD n) v)).1, true)

/-- `PropagateRegex`, the test of `request.rs:114-134` and `response.rs:142-162`. -/
def regexSelects (denied : Name → Bool) (incl excl : Option Regex) (n : Name) : Bool :=
  !denied n && (match incl with | some r => r n | none => false) &&
    !(match excl with | some r => r n | none => false)

/-- `insert` unless the header is one that is never joined, `request.rs:150-154` and `175-179`. -/
def putRequest (out : HeaderMap) (n : Name) (v : Text) : HeaderMap :=
  if isNeverJoin n then out.append n v else out.insert n v

/-- `apply_request_headers` of each rule, `request.rs:71-226`. -/
def RequestRule.apply (client : HeaderMap) (out : HeaderMap) : RequestRule → Except Unit HeaderMap
  | .propagateNamed names default rename =>
    match propagateRequestNames client rename names out with
    | (out, true) => .ok out
    | (out, false) =>
      match default, names.head? with
      | some d, some first =>
        let dest := rename.getD first
        if isDenied dest then .ok out else .ok (out.append dest d)
      | _, _ => .ok out
  | .propagateRegex incl excl =>
    .ok (out ++ client.filter fun e => regexSelects isDenied incl excl e.1)
  | .insertStatic n v => .ok (if isDenied n then out else putRequest out n v)
  | .insertExpression n eval =>
    if isDenied n then .ok out
    else match eval with
      | .error e => .error e
      | .ok none => .ok out
      | .ok (some v) => .ok (putRequest out n v)
  | .removeNamed names =>
    .ok (names.foldl (fun out n => if isDenied n then out else out.remove n) out)
  | .removeRegex r =>
    let gone := (out.map (·.1)).filter fun n => !isDenied n && r n
    .ok (gone.foldl HeaderMap.remove out)

/-- `modify_subgraph_request_headers`, `request.rs:17-39`; `rules` are the global rules followed by
those of the subgraph. -/
def modifyRequest (client : HeaderMap) : List RequestRule → HeaderMap → Except Unit HeaderMap
  | [], out => .ok out
  | r :: rs, out =>
    match r.apply client out with
    | .error e => .error e
    | .ok out => modifyRequest client rs out

/-! ## Response rules -/

/-- `HeaderAggregationStrategy`, `plan.rs:120-125`. -/
inductive Strategy where
  | first | last | append
  deriving DecidableEq

/-- `ResponseHeaderAggregator`, `response.rs:315-320`; a hash map as an association list with at
most one entry per name. -/
abbrev Aggregator := List (Name × (Strategy × List Text))

def Aggregator.get (a : Aggregator) (n : Name) : Option (Strategy × List Text) := a.lookup n

/-- `HashMap::insert`. -/
def Aggregator.set (a : Aggregator) (n : Name) (e : Strategy × List Text) : Aggregator :=
  (n, e) :: a.filter fun x => x.1 ≠ n

/-- `HashMap::remove`. -/
def Aggregator.remove (a : Aggregator) (n : Name) : Aggregator := a.filter fun x => x.1 ≠ n

/-- `ResponseHeaderAggregator::write`, `response.rs:350-384`. -/
def Aggregator.write (a : Aggregator) (n : Name) (v : Text) (s : Strategy) : Aggregator :=
  let s := if isNeverJoin n then .append else s
  match a.get n with
  | none => a.set n (s, [v])
  | some (.first, []) => a.set n (.first, [v])
  | some (.last, _) => a.set n (.last, [v])
  | some (.append, vs) => a.set n (.append, vs ++ [v])
  | some (.first, _ :: _) => a

/-- `ResponseHeaderRule`, `plan.rs:96-118`; expressions as for requests. -/
inductive ResponseRule where
  | propagateNamed (names : List Name) (rename : Option Name) (default : Option Text)
      (strategy : Strategy)
  | propagateRegex (incl excl : Option Regex) (strategy : Strategy)
  | insertStatic (name : Name) (value : Text) (strategy : Strategy)
  | insertExpression (name : Name) (eval : Except Unit (Option Text)) (strategy : Strategy)
  | removeNamed (names : List Name)
  | removeRegex (regex : Regex)

/-- The loop of `ResponsePropagateNamed`, `response.rs:93-117`. -/
def propagateResponseNames (sub : HeaderMap) (rename : Option Name) (s : Strategy) :
    List Name → Aggregator → Aggregator × Bool
  | [], a => (a, false)
  | n :: ns, a =>
    if isDeniedResponse n then propagateResponseNames sub rename s ns a
    else
      let vs := if isNeverJoin n then sub.getAll n else (sub.get n).toList
      let a := vs.foldl (fun a v => a.write (rename.getD n) v s) a
      let (a, m) := propagateResponseNames sub rename s ns a
      (a, !vs.isEmpty || m)

/-- `apply_response_headers` of each rule, `response.rs:85-254`. -/
def ResponseRule.apply (sub : HeaderMap) (a : Aggregator) : ResponseRule → Except Unit Aggregator
  | .propagateNamed names rename default s =>
    match propagateResponseNames sub rename s names a with
    | (a, true) => .ok a
    | (a, false) =>
      match default, names.head? with
      | some d, some first =>
        let dest := rename.getD first
        if isDeniedResponse dest then .ok a else .ok (a.write dest d s)
      | _, _ => .ok a
  | .propagateRegex incl excl s =>
    .ok ((sub.filter fun e => regexSelects isDeniedResponse incl excl e.1).foldl
      (fun a e => a.write e.1 e.2 s) a)
  | .insertStatic n v s =>
    if isDeniedResponse n then .ok a
    else .ok (a.write n v (if isNeverJoin n then .append else s))
  | .insertExpression n eval s =>
    if isDeniedResponse n then .ok a
    else match eval with
      | .error e => .error e
      | .ok none => .ok a
      | .ok (some v) => .ok (a.write n v (if isNeverJoin n then .append else s))
  | .removeNamed names =>
    .ok (names.foldl (fun a n => if isDeniedResponse n then a else a.remove n) a)
  | .removeRegex r => .ok (a.filter fun x => isDeniedResponse x.1 || !r x.1)

/-- `apply_subgraph_response_headers`, `response.rs:22-46`. -/
def applyResponse (sub : HeaderMap) : List ResponseRule → Aggregator → Except Unit Aggregator
  | [], a => .ok a
  | r :: rs, a =>
    match r.apply sub a with
    | .error e => .error e
    | .ok a => applyResponse sub rs a

/-- The header part of `process_job_result` over the subgraph responses of a request, in order of
arrival, each with the rules that apply to its subgraph, `execution/plan.rs:1085-1133`. -/
def collect : List (List ResponseRule × HeaderMap) → Aggregator → Except Unit Aggregator
  | [], a => .ok a
  | (rules, sub) :: rest, a =>
    match applyResponse sub rules a with
    | .error e => .error e
    | .ok a => collect rest a

/-- `modify_client_response_headers`, `response.rs:259-289`, one entry. (`join_with_comma`,
`response.rs:293-313`, cannot fail: every value is a valid header value and so is `", "`.) -/
def flushEntry (h : HeaderMap) (n : Name) : Strategy × List Text → HeaderMap
  | (_, []) => h
  | (s, v :: vs) =>
    if isNeverJoin n then h ++ (v :: vs).map fun v => (n, v)
    else if vs.isEmpty then h.insert n v
    else if s = .append then h.insert n (joinComma (v :: vs))
    else h

/-- `modify_client_response_headers`, `response.rs:259-289`. -/
def flush (h : HeaderMap) (a : Aggregator) : HeaderMap :=
  a.foldl (fun h x => flushEntry h x.1 x.2) h

/-! ## Cache-Control -/

/-- `CacheControl`, `cache_control.rs:14-21`. -/
structure CacheControl where
  noStore : Bool := false
  noCache : Bool := false
  mustRevalidate : Bool := false
  isPrivate : Bool := false
  isPublic : Bool := false
  maxAge : Option Nat := none
  deriving DecidableEq

/-- The body of the loop of `parse`, `cache_control.rs:31-68`. -/
def parsePart (p : CacheControl) (part : Text) : Option CacheControl :=
  let part := trim part
  if part = [] then some p
  else
    let (token, value) := match splitOnce '=' part with
      | some (t, v) => (trim t, some (trim v))
      | none => (part, none)
    let token := lower token
    if token = "no-store".toList then some { p with noStore := true }
    else if token = "no-cache".toList then some { p with noCache := true }
    else if token = "must-revalidate".toList then some { p with mustRevalidate := true }
    else if token = "private".toList then some { p with isPrivate := true }
    else if token = "public".toList then some { p with isPublic := true }
    else if token = "max-age".toList then
      match value with
      | none => none
      | some v => (parseU32 v).map fun n => { p with maxAge := some n }
    else none

/-- The loop of `parse`, `cache_control.rs:31-71`. -/
def parseParts : List Text → CacheControl → Option CacheControl
  | [], p => some p
  | part :: parts, p => (parsePart p part).bind (parseParts parts)

/-- `parse`, `cache_control.rs:23-72`. -/
def parse (header : Text) : Option CacheControl :=
  let trimmed := trim header
  if trimmed = [] then none else parseParts (splitOn ',' trimmed) {}

/-- `merge_into`, `cache_control.rs:74-103`. -/
def mergeInto (acc : Option CacheControl) (inc : CacheControl) : CacheControl :=
  match acc with
  | none => inc
  | some e =>
    if e.noStore || e.noCache || e.isPrivate || inc.noStore || inc.noCache || inc.isPrivate then
      { noStore := true, noCache := true }
    else
      { e with
        isPublic := e.isPublic && inc.isPublic
        mustRevalidate := e.mustRevalidate || inc.mustRevalidate
        maxAge := match e.maxAge, inc.maxAge with
          | some a, some b => some (min a b)
          | some a, none => some a
          | none, some b => some b
          | none, none => none }

/-- The parts of `to_header_value`, `cache_control.rs:110-122`. -/
def headerParts (p : CacheControl) : List Text :=
  (if p.isPublic then ["public".toList] else []) ++
  (match p.maxAge with | some a => ["max-age=".toList ++ showNat a] | none => []) ++
  (if p.mustRevalidate then ["must-revalidate".toList] else [])

/-- `to_header_value`, `cache_control.rs:105-125`. -/
def toHeader (p : CacheControl) : Text :=
  if p.noStore || p.noCache || p.isPrivate then "no-store, no-cache".toList
  else joinComma (headerParts p)

/-- `HeaderValue::to_str` succeeds on visible ASCII and tab. -/
def isStr (t : Text) : Bool := t.all fun c => c = '\t' || (32 ≤ c.toNat && c.toNat < 127)

/-- The loop of `finalize`, `cache_control.rs:192-199`. -/
def mergeValues : List Text → Option CacheControl → Option CacheControl
  | [], acc => acc
  | v :: vs, acc =>
    mergeValues vs (if isStr v then match parse v with
      | some p => some (mergeInto acc p)
      | none => acc else acc)

/-- `finalize`, `cache_control.rs:173-225`: from the values collected for `Cache-Control` (if
there is an entry) to the one that replaces them; `none` removes the header. -/
def finalizeValues (values : List Text) (forceNoStore : Bool) (total : Nat) : Option Text :=
  if forceNoStore then some "no-store, no-cache, must-revalidate".toList
  else match mergeValues values none with
    | some m =>
      some (toHeader (if total > values.length then { m with isPublic := false } else m))
    | none => none

/-- `finalize` on the aggregator, `cache_control.rs:173-225`. -/
def finalize (a : Aggregator) (forceNoStore : Bool) (total : Nat) : Aggregator :=
  match a.get "cache-control" with
  | none => a
  | some (_, values) =>
    match finalizeValues values forceNoStore total with
    | some v => a.set "cache-control" (.last, [v])
    | none => a.remove "cache-control"

end Verif.Headers
