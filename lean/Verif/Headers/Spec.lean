import Verif.Headers.Model

/-!
# What a Cache-Control text says, and what the client should see of a response header
-/

namespace Verif.Headers

/-- The comma-separated directives of a header text, without blanks. -/
def directives (h : Text) : List Text := ((splitOn ',' (trim h)).map trim).filter (· ≠ [])

/-- The name of a directive: what stands before `=`, in lower case. -/
def dirName (d : Text) : Text :=
  lower (match splitOnce '=' d with | some (t, _) => trim t | none => d)

/-- The argument of a directive. -/
def dirArg (d : Text) : Option Text := (splitOnce '=' d).map fun x => trim x.2

/-- The header text contains the directive `name`. -/
def Says (h : Text) (name : String) : Prop := ∃ d ∈ directives h, dirName d = name.toList

/-- The (last) `max-age` of the header text is `n` seconds. -/
def MaxAge (h : Text) (n : Nat) : Prop :=
  ∃ pre d post, directives h = pre ++ d :: post ∧ dirName d = "max-age".toList ∧
    (dirArg d).bind parseU32 = some n ∧ ∀ e ∈ post, dirName e ≠ "max-age".toList

/-- A readable, non-blank text all of whose directives are among the six the router knows, with
numeric `max-age`. -/
def Recognised (h : Text) : Prop :=
  isStr h = true ∧ trim h ≠ [] ∧ ∀ d ∈ directives h,
    dirName d ∈ ["no-store".toList, "no-cache".toList, "must-revalidate".toList,
      "private".toList, "public".toList] ∨
    (dirName d = "max-age".toList ∧ ∃ n, (dirArg d).bind parseU32 = some n)

/-- The header text forbids shared caching. -/
def Forbids (h : Text) : Prop := Says h "no-store" ∨ Says h "no-cache" ∨ Says h "private"

/-! ## What response rules do, as a history of offers and withdrawals -/

/-- `offer n v s`: some rule offers value `v` for the client's header `n` with strategy `s`;
`withdraw p`: some rule takes back what has been offered for the names in `p`. -/
inductive Event where
  | offer (n : Name) (v : Text) (s : Strategy)
  | withdraw (p : Name → Bool)

/-- The header lines of a response a rule for the single name `n` looks at: the first one, or all
of them when the header is one that may not be joined. -/
def seen (sub : HeaderMap) (n : Name) : List Text :=
  if isNeverJoin n then sub.getAll n else (sub.getAll n).take 1

/-- What the documentation of the configuration says a rule does with the headers `sub` of a
subgraph response. -/
def ResponseRule.events (sub : HeaderMap) : ResponseRule → List Event
  | .propagateNamed names rename default s =>
    let found := (names.filter fun n => !isDeniedResponse n).flatMap fun n =>
      (seen sub n).map fun v => Event.offer (rename.getD n) v s
    if found ≠ [] then found
    else match default, names with
      | some d, first :: _ =>
        if isDeniedResponse (rename.getD first) then [] else [.offer (rename.getD first) d s]
      | _, _ => []
  | .propagateRegex incl excl s =>
    (sub.filter fun e => !isDeniedResponse e.1 && incl.any (· e.1) && !excl.any (· e.1)).map
      fun e => .offer e.1 e.2 s
  | .insertStatic n v s => if isDeniedResponse n then [] else [.offer n v s]
  | .insertExpression n (.ok (some v)) s => if isDeniedResponse n then [] else [.offer n v s]
  | .insertExpression _ _ _ => []
  | .removeNamed names =>
    (names.filter fun n => !isDeniedResponse n).map fun n => .withdraw (· = n)
  | .removeRegex r => [.withdraw fun n => !isDeniedResponse n && r n]

/-- How one event changes the standing offers for `n`. -/
def stand (n : Name) (acc : List (Text × Strategy)) : Event → List (Text × Strategy)
  | .offer m v s => if m = n then acc ++ [(v, s)] else acc
  | .withdraw p => if p n then [] else acc

/-- The offers for `n` that stand after a history. -/
def standing (n : Name) (evs : List Event) : List (Text × Strategy) := evs.foldl (stand n) []

/-- The header lines the client should see for `n`: `base` are those already there, the strategy
is that of the first standing offer. -/
def clientLines (n : Name) (base : List Text) (offers : List (Text × Strategy)) : List Text :=
  match offers with
  | [] => base
  | (v, s) :: rest =>
    if isNeverJoin n then base ++ offers.map (·.1)
    else match s with
      | .first => [v]
      | .last => [(rest.map (·.1)).getLastD v]
      | .append => [joinComma (v :: rest.map (·.1))]

/-- The history of a whole request. -/
def history (responses : List (List ResponseRule × HeaderMap)) : List Event :=
  responses.flatMap fun r => r.1.flatMap (ResponseRule.events r.2)

end Verif.Headers
