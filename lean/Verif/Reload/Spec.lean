import Verif.Reload.Model

/-!
# Reloading the supergraph: what is asked

The source has one version at a time. It gives each a name of its own, and answers to polls what it has.
-/

namespace Verif.Reload

/-- What the source has, and the names of what it had before. -/
structure Source where
  tag : Tag
  sdl : Sdl
  past : List Tag

/-- An answer over HTTP of this source, or none. `seen` is the ETag that was sent with the request. -/
def HonestHttp (w : Source) (seen : Option Tag) : Http → Prop
  | .failed => True
  | .notModified => seen = some w.tag
  | .ok etag body => (etag = none ∨ etag = some w.tag) ∧ (body = none ∨ body = some w.sdl)

/-- An answer of this source as Apollo Uplink gives it. -/
def HonestUplink (w : Source) (seen : Option Tag) : Uplink → Prop
  | .failed => True
  | .result id sdl => id = w.tag ∧ sdl = w.sdl
  | .unchanged id => id = w.tag ∧ seen = some w.tag
  | .fetchError => True

/-- Polls are answered with what the source has, or not at all. -/
def Honest (w : Source) (seen : Option Tag) : Ev → Prop
  | .stat m => m = none ∨ m = some w.tag
  | .read c => c = none ∨ c = some w.sdl
  | .hive as => ∀ a ∈ as, HonestHttp w seen a
  | .storage a => HonestHttp w seen a
  | .uplink as => ∀ a ∈ as, HonestUplink w seen a
  | _ => True

/-- What can be while the source is as it is: `P` says what is allowed to happen. -/
inductive Steps (k : Kind) (polls : Bool) (P : Ev → Prop) (w : Source) (s : St) : St → Prop
  | refl : Steps k polls P w s s
  | step {s' s'' e} : Steps k polls P w s s' → P e → Honest w s'.seen e → step k polls s' e = some s'' →
      Steps k polls P w s s''

/-- What can be while the source changes as well. `later t u` says that the name `u` may follow `t`. -/
inductive Reach (k : Kind) (polls : Bool) (P : Ev → Prop) (later : Tag → Tag → Prop) : Source → St → Prop
  | start {t sdl} : Reach k polls P later { tag := t, sdl := sdl, past := [] } St.start
  | publish {w s t sdl} : Reach k polls P later w s → t ≠ w.tag → t ∉ w.past →
      (∀ u, u = w.tag ∨ u ∈ w.past → later u t) →
      Reach k polls P later { tag := t, sdl := sdl, past := w.tag :: w.past } s
  | step {w s s' e} : Reach k polls P later w s → P e → Honest w s.seen e → step k polls s e = some s' →
      Reach k polls P later w s'

/-- A poll has come to its end, and it got an answer; `s` is the state after it. -/
def Answered (s : St) : Ev → Prop
  | .stat m => m ≠ none ∧ ∀ t, s.pc ≠ .reading t
  | .read c => c ≠ none
  | .hive as => ∃ a ∈ as, a ≠ .failed
  | .storage a => a ≠ .failed ∧ ∀ etag, a ≠ .ok etag none
  | .uplink as => ∃ a, as.find? (fun a => a ≠ .failed) = some a ∧ a ≠ .fetchError
  | _ => False

/-- Nothing is on its way. -/
def Settled (s : St) : Prop :=
  (∀ sdl, s.pc ≠ .sending sdl) ∧ s.chan = none ∧ s.building = none

/-- Whenever the source was asked and answered after its last change and nothing is on its way any more,
requests get what the source has. -/
def Fresh (k : Kind) (polls : Bool) (P : Ev → Prop) (later : Tag → Tag → Prop) : Prop :=
  ∀ w s e s₁ s₂, Reach k polls P later w s → P e → Honest w s.seen e → step k polls s e = some s₁ →
    Answered s₁ e → Steps k polls P w s₁ s₂ → Settled s₂ → s₂.slot = some w.sdl

/-- Building succeeds. -/
def Builds (e : Ev) : Prop := e ≠ .built false

/-- No body of an answer is lost on its way. -/
def Whole : Ev → Prop
  | .hive as => ∀ a ∈ as, ∀ etag, a ≠ .ok etag none
  | _ => True

/-- What the source sent. -/
def bodies : Ev → List Sdl
  | .read c => c.toList
  | .hive as => as.flatMap (fun a => match a with | .ok _ b => b.toList | _ => [])
  | .storage a => match a with | .ok _ b => b.toList | _ => []
  | .uplink as => as.flatMap (fun a => match a with | .result _ sdl => [sdl] | _ => [])
  | _ => []

/-- What requests get, each time it is replaced. -/
def served (k : Kind) (polls : Bool) : St → List Ev → List Sdl
  | _, [] => []
  | s, e :: es =>
      match step k polls s e with
      | some s' => (if e = .built true then s'.slot.toList else []) ++ served k polls s' es
      | none => []

end Verif.Reload
