import Verif.Socket.Model

/-!
# What a client may expect of its connection

These definitions speak of the steps taken and of the messages sent only.
-/

namespace Verif.Socket

/-- What a client is told about one operation. -/
inductive Told
  | next (d : Data)
  | error (d : Data)
  | complete
deriving DecidableEq, Repr

/-- What a message tells about the operation `op`. -/
def Out.told? (op : Nat) : Out → Option Told
  | .next o _ d => if o = op then some (.next d) else none
  | .error o _ d => if o = op then some (.error d) else none
  | .complete o _ => if o = op then some .complete else none
  | _ => none

/-- All that was told about the operation `op`, in order. -/
def told (op : Nat) (out : List Out) : List Told := out.filterMap (Out.told? op)

/-- What there is to tell about the operation `op` after one step. -/
def given1 (op : Nat) : Label → List Told
  | .resolve o (.single d) => if o = op then [.next d, .complete] else []
  | .resolve o (.fails d) => if o = op then [.error d] else []
  | .resolve o (.forbidden d) => if o = op then [.error d] else []
  | .event o (.raw d) => if o = op then [.next d] else []
  | .event o (.error d) => if o = op then [.error d, .complete] else []
  | .event o .closed => if o = op then [.complete] else []
  | _ => []

/-- What there is to tell about the operation `op` after all steps of a history: the response or the errors
that came for it, or the events of its subscription. -/
def given (op : Nat) (ls : List Label) : List Told := ls.flatMap (given1 op)

/-- The names of the operations that the client has asked for, in order. -/
def asked : List Label → List Id
  | [] => []
  | .recv (.text (some (.subscribe id))) :: ls => id :: asked ls
  | _ :: ls => asked ls

/-- The name that a message is for. -/
def Out.id? : Out → Option Id
  | .next _ id _ => some id
  | .error _ id _ => some id
  | .complete _ id => some id
  | _ => none

/-- The order in which the messages for an operation come: data, then perhaps errors, then perhaps the end. -/
def Ordered (l : List Told) : Prop :=
  ∃ ds : List Data, ∃ tail : List Told, l = ds.map .next ++ tail ∧
    (tail = [] ∨ tail = [.complete] ∨ (∃ e, tail = [.error e]) ∨ ∃ e, tail = [.error e, .complete])

end Verif.Socket
