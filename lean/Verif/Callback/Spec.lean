import Verif.Callback.Model

/-!
# What can be seen of subscriptions over callbacks

Everything here is told from what happened: the steps and what they put out.
-/

namespace Verif.Callback

section
variable {R : Type}

/-- The verifier, if this is the step that opens the subscription. -/
def verifierIn (i : Id) : Event × List (Output R) → Option String
  | (.subscribe j v, [.opened _]) => if j = i then some v else none
  | _ => none

/-- The verifier that a subscription was opened with. -/
def verifierOf (i : Id) (t : Trace R) : Option String := t.findSome? (verifierIn i)

/-- A request of somebody who knows the verifier `v` of the subscription `i`. -/
def Genuine (v : String) (i : Id) (r : Request) (b : Body) : Prop :=
  r.protocol = some "callback/1.0" ∧ r.path = i ∧ r.body = some b ∧ b.id = i ∧ b.verifier = v

instance (v : String) (i : Id) (r : Request) (b : Body) : Decidable (Genuine v i r b) := by
  unfold Genuine
  infer_instance

/-- The message in a request. -/
def messageIn (b : Body) : List Message :=
  match b.action, b.payload with
  | .next, some p => [.next p]
  | .complete, _ => [.complete b.errors]
  | _, _ => []

/-- The messages in a step: that of a genuine request that was answered with 204, or the error of the enforcer. -/
def pushed (v : String) (i : Id) : Event × List (Output R) → List Message
  | (.request r, [.status 204]) =>
    match r.body with
    | some b => if Genuine v i r b then messageIn b else []
    | none => []
  | (.evict j, [.evicted _]) => if j = i then [.complete (some [gone])] else []
  | _ => []

/-- All messages for a subscription. -/
def pushes (v : String) (i : Id) (t : Trace R) : List Message := t.flatMap (pushed v i)

/-- Everything that was put out. -/
def outputs (t : Trace R) : List (Output R) := t.flatMap (·.2)

/-- The responses that a subscription has yielded. -/
def answerIn (i : Id) : Output R → Option R
  | .answer j r => if j = i then some r else none
  | _ => none

def answers (i : Id) (t : Trace R) : List R := (outputs t).filterMap (answerIn i)

/-- At no time did more than 16 messages of the subscription wait. -/
def Roomy (v : String) (i : Id) (t : Trace R) : Prop :=
  ∀ a b, t = a ++ b → (pushes v i a).length ≤ (answers i a).length + 16

/-- The reader of the stream has left, after the subscription was opened. -/
def Left (i : Id) (t : Trace R) : Prop := ∃ a o b, t = a ++ (.leave i, o) :: b ∧ verifierOf i a ≠ none

/-- A request was refused. -/
def Refused (o : List (Output R)) : Prop := o = [.status 400] ∨ o = [.status 404]

/-- The time that passes in a step. -/
def ticks : Event × List (Output R) → Nat
  | (.tick n, _) => n
  | _ => 0

/-- The time that has passed. -/
def clock (t : Trace R) : Nat := (t.map ticks).sum

/-- Is this a sign of life: the subscription is opened, or a genuine check is answered with 204. -/
def sign (v : String) (i : Id) : Event × List (Output R) → Bool
  | (.subscribe j _, [.opened _]) => decide (j = i)
  | (.request r, [.status 204]) =>
    match r.body with
    | some b => decide (Genuine v i r b) && decide (b.action = .check)
    | none => false
  | _ => false

/-- The subscription has shown no sign of life for more than `limit`: each was at a time before. -/
def Silent (v : String) (i : Id) (limit : Nat) (t : Trace R) : Prop :=
  ∀ a x b, t = a ++ x :: b → sign v i x = true → limit < clock t - clock a

end

/-- The message at which a subscription ends: nothing follows, a payload that cannot be read, or the last message, whose
errors are told. -/
def EndsAt {R : Type} (read : String → Option R) (i : Id) (o : List (Output R)) : List Message → Prop
  | [] => (∀ es, .errors i es ∉ o) ∧ .failed i ∉ o
  | .next p :: _ => read p = none ∧ .failed i ∈ o
  | .complete es :: _ => .failed i ∉ o ∧ ∀ e l, .errors i (e :: l) ∈ o ↔ es = some (e :: l)

end Verif.Callback
