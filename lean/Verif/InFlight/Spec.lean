import Verif.InFlight.Model

namespace Verif.InFlight

variable {K V E : Type} [DecidableEq K]

/-- The key a caller asked for, and everything that had happened before it did. -/
def arrival (c : Caller) : List (Event K V E) → Option (K × List (Event K V E))
  | [] => none
  | .arrived c' k :: past => if c' = c then some (k, past) else arrival c past
  | _ :: log => arrival c log

/-- What may be said about each event of a log, given the log before it. `keep` is whether
executions keep their window open beyond their result. -/
def Fair (keep : Bool) (log : List (Event K V E)) : Event K V E → Prop
  /- a caller arrives once -/
  | .arrived c _ => arrival c log = none
  /- an execution is for the key its caller asked for, and has one result -/
  | .executed c k v => (∃ past, arrival c log = some (k, past)) ∧
      (∀ k' v', .executed c k' v' ∉ log) ∧ ∀ e, .execFailed c e ∉ log
  /- a joiner gets the result of an execution for its own key whose window was still open when it
  arrived -/
  | .returned c v .joiner => ∃ k past l, arrival c log = some (k, past) ∧ .executed l k v ∈ log ∧
      .ended l ∉ past
  /- a leader gets the result of its own execution, and unless the window is kept it has ended by
  then -/
  | .returned c v .leader => (∃ k, .executed c k v ∈ log) ∧ (keep = false → .ended c ∈ log)
  /- errors are only those of one's own execution -/
  | .failed c e => .execFailed c e ∈ log
  | _ => True

/-- Every event of the log is fair. -/
def FairLog (keep : Bool) : List (Event K V E) → Prop
  | [] => True
  | e :: log => Fair keep log e ∧ FairLog keep log

end Verif.InFlight
