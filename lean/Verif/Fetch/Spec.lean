import Verif.Fetch.Optimize
import Verif.Walker.Spec

/-!
# What a fetch graph asks for

Words to speak about fetch graphs, without regard to how they are made: which fields their steps ask for, and
where; which values they send; which step waits for which.
-/

namespace Verif.Fetch

open Verif.Walker (Cond)

/-- The values of the variables conditions are about. -/
abbrev Vars := String → Bool

/-- Does a condition hold: what it says about `@skip` and about `@include`. -/
def holds (v : Vars) (c : Cond) : Bool := (c.1.all fun x => !v x) && c.2.all v

/-- A field that is asked for: the key it has in the response, its name and its arguments. -/
structure Ask where
  key : String
  name : String
  args : Args
  deriving DecidableEq

/-- What a field of a selection set asks for. -/
def askOf (f : FieldInfo) : Ask := ⟨f.key, f.name, argsOf f⟩

mutual
/-- All fields an item of a selection set asks for. -/
def askedBy (v : Vars) : Sel → List (List String × Ask)
  | .field f ss =>
    if holds v (condOf f) then
      ([], askOf f) :: (asked v ss).map fun x => (f.key :: x.1, x.2)
    else []
  | .frag g ss => if holds v (fragCond g) then asked v ss else []
  | .spread _ => []
/-- All fields a selection set asks for, at any depth, with the response keys of the fields around them. -/
def asked (v : Vars) : List Sel → List (List String × Ask)
  | [] => []
  | x :: r => askedBy v x ++ asked v r
end

/-- The response key of a segment of a path. -/
def segKey : Seg → Option String
  | .field n a _ _ => some (a.getD n)
  | _ => none

/-- The response keys of a path. -/
def pathKeys (p : MPath) : List String := p.filterMap segKey

/-- The condition of a segment of a path. -/
def condAt : Seg → Cond
  | .field _ _ _ c => c
  | .type _ c => c
  | .list => (none, none)

/-- Do all conditions of a path hold. -/
def pathHolds (v : Vars) (p : MPath) : Bool := p.all fun s => holds v (condAt s)

/-- Is a step executed, and are there places it is executed for. -/
def Step.on (v : Vars) (s : Step) : Bool := holds v s.cond && pathHolds v s.path

/-- All fields a step asks for, with all response keys around them. -/
def Step.asked (v : Vars) (s : Step) : List (List String × Ask) :=
  if s.on v then
    (s.output.flatMap fun o => Fetch.asked v o.2).map fun x => (pathKeys s.path ++ x.1, x.2)
  else []

/-- The steps of a graph. -/
def Graph.all (g : Graph) : List Step := g.steps.filterMap id

/-- All fields the steps of a graph ask for. -/
def Graph.asked (v : Vars) (g : Graph) : List (List String × Ask) := g.all.flatMap (Step.asked v)

/-- The same, with the subgraph that is asked. -/
def Graph.sent (v : Vars) (g : Graph) : List (String × List String × Ask) :=
  g.all.flatMap fun s => (s.asked v).map fun x => (s.service, x)

/-! ## Objects of known types -/

/-- Of which types the objects at a place of the response are; a place is given by the response keys that lead
to it. -/
abbrev Types := List String → String → Bool

mutual
/-- All fields an item asks for, if the objects are of the given types. -/
def ofTypesBy (P : Types) (v : Vars) : List String → Sel → List (List String × Ask)
  | K, .field f ss =>
    if holds v (condOf f) then (K, askOf f) :: ofTypes P v (K ++ [f.key]) ss else []
  | K, .frag g ss => if holds v (fragCond g) && P K g.cond then ofTypes P v K ss else []
  | _, .spread _ => []
/-- All fields a selection set at a place asks for, at any depth, if the objects are of the given types:
fragments for other types are left out. -/
def ofTypes (P : Types) (v : Vars) : List String → List Sel → List (List String × Ask)
  | _, [] => []
  | K, x :: r => ofTypesBy P v K x ++ ofTypes P v K r
end

mutual
/-- The fields of an item have the types they have in the supergraph. -/
def TypedBy (S : Verif.Graph.Super) (P : Types) (K : List String) (t : String) : Sel → Prop
  | .field f ss =>
    ∀ t', fieldType S t f.name = some t' → P (K ++ [f.key]) t' = true ∧ Typed S P (K ++ [f.key]) t' ss
  | .frag g ss => P K g.cond = true → Typed S P K g.cond ss
  | .spread _ => True
/-- For a selection set on objects of a type: the objects its fields lead to are of the types the fields have in
the supergraph. -/
def Typed (S : Verif.Graph.Super) (P : Types) (K : List String) (t : String) : List Sel → Prop
  | [] => True
  | x :: r => TypedBy S P K t x ∧ Typed S P K t r
end

/-! ## Names instead of response keys -/

/-- The name and the arguments of a field. -/
abbrev Named := String × Args

mutual
/-- All fields of an item, by their names. -/
def meantBy (v : Vars) : Sel → List (List Named)
  | .field f ss =>
    if holds v (condOf f) then [(f.name, argsOf f)] :: (meant v ss).map ((f.name, argsOf f) :: ·) else []
  | .frag g ss => if holds v (fragCond g) then meant v ss else []
  | .spread _ => []
/-- All fields of a selection set, at any depth, by their names and the names of the fields around them. -/
def meant (v : Vars) : List Sel → List (List Named)
  | [] => []
  | x :: r => meantBy v x ++ meant v r
end

/-- A field without an alias. -/
abbrev Unnamed (f : FieldInfo) : Prop := f.alias = none

/-! ## Response keys with two meanings -/

/-- Is a field asked for side by side with another that has the same response key, but another name or other
arguments. -/
def rival (v : Vars) (f : FieldInfo) : Sel → Bool
  | .field g _ => holds v (condOf g) && f.key == g.key && !(f.name == g.name && decide (f.args = g.args))
  | _ => false

/-- Is an item such a field. -/
def hasRival (v : Vars) (r : List Sel) : Sel → Bool
  | .field f _ => holds v (condOf f) && r.any (rival v f)
  | _ => false

mutual
/-- Are there such fields within an item. -/
def mixedIn (v : Vars) : Sel → Bool
  | .field f ss => holds v (condOf f) && mixed v ss
  | .frag g ss => holds v (fragCond g) && mixed v ss
  | .spread _ => false
/-- Are there such fields, at any depth. -/
def mixed (v : Vars) : List Sel → Bool
  | [] => false
  | x :: r => hasRival v r x || mixedIn v x || mixed v r
end

/-! ## Graphs in which every response key has one meaning -/

mutual
/-- All fields and fragments within an item. -/
def FitBy (P : FieldInfo → Prop) (Q : FragInfo → Prop) : Sel → Prop
  | .field f ss => P f ∧ Fit P Q ss
  | .frag g ss => Q g ∧ Fit P Q ss
  | .spread _ => True
/-- All fields and fragments of a selection set, at any depth. -/
def Fit (P : FieldInfo → Prop) (Q : FragInfo → Prop) : List Sel → Prop
  | [] => True
  | x :: r => FitBy P Q x ∧ Fit P Q r
end

mutual
/-- It can be checked. -/
def decFitBy (P : FieldInfo → Prop) (Q : FragInfo → Prop) [DecidablePred P] [DecidablePred Q] :
    (s : Sel) → Decidable (FitBy P Q s)
  | .field f ss => @instDecidableAnd _ _ (inferInstanceAs (Decidable (P f))) (decFit P Q ss)
  | .frag g ss => @instDecidableAnd _ _ (inferInstanceAs (Decidable (Q g))) (decFit P Q ss)
  | .spread _ => isTrue trivial
/-- It can be checked. -/
def decFit (P : FieldInfo → Prop) (Q : FragInfo → Prop) [DecidablePred P] [DecidablePred Q] :
    (ss : List Sel) → Decidable (Fit P Q ss)
  | [] => isTrue trivial
  | x :: r => @instDecidableAnd _ _ (decFitBy P Q x) (decFit P Q r)
end

instance (P : FieldInfo → Prop) (Q : FragInfo → Prop) [DecidablePred P] [DecidablePred Q] (ss : List Sel) :
    Decidable (Fit P Q ss) := decFit P Q ss

/-- What response keys mean: a name, an alias and arguments. -/
abbrev Meaning := String → String × Option String × Args

/-- A field has the meaning of its response key. -/
def Means (M : Meaning) (f : FieldInfo) : Prop := M f.key = (f.name, f.alias, f.args)

instance (M : Meaning) : DecidablePred (Means M) := fun f => inferInstanceAs (Decidable (M f.key = _))

/-- A fragment without conditions. -/
abbrev Free (g : FragInfo) : Prop := fragCond g = (none, none)

/-- A segment of a path that is no type condition with an `@include` or `@skip`. -/
def segFree : Seg → Bool
  | .type _ c => decide (c = (none, none))
  | _ => true

/-- A field of an input without alias that has the meaning of its response key. -/
abbrev Bare (M : Meaning) (f : FieldInfo) : Prop := f.alias = none ∧ Means M f

/-- A step in which every response key has its meaning, and only fields have conditions; the step at the root
of the graph asks for nothing. -/
def Calm (M : Meaning) (s : Step) : Prop :=
  s.cond = (none, none) ∧ s.aliases = [] ∧ (s.service = "*" → s.output = []) ∧
    (s.path.all segFree = true ∧ ∀ i ∈ s.input, Fit (Bare M) (fun _ => True) i.2) ∧
    ∀ o ∈ s.output, Fit (Means M) Free o.2

instance (M : Meaning) (s : Step) : Decidable (Calm M s) := inferInstanceAs (Decidable (_ ∧ _))

/-- A graph of such steps. -/
def AllCalm (M : Meaning) (g : Graph) : Prop := ∀ s ∈ g.all, Calm M s

instance (M : Meaning) (g : Graph) : Decidable (AllCalm M g) :=
  inferInstanceAs (Decidable (∀ s ∈ g.all, Calm M s))

/-- Every step but the one at the root waits for another one. -/
def Rooted (g : Graph) : Prop := ∀ n ∈ g.indices, g.parents n = [] → ∀ s ∈ (g.get n).toOption, s.service = "*"

instance (g : Graph) : Decidable (Rooted g) :=
  inferInstanceAs (Decidable (∀ n ∈ g.indices, g.parents n = [] → ∀ s ∈ (g.get n).toOption, s.service = "*"))

/-- The path of a step is that of another and more. -/
def Below (p q : MPath) : Prop := p.length ≤ q.length ∧ q.take p.length = p

instance (p q : MPath) : Decidable (Below p q) := inferInstanceAs (Decidable (_ ∧ _))

/-- Of two steps of which one waits for the other, one is executed at the places of the other, or below them. -/
def Chained (g : Graph) : Prop :=
  ∀ e ∈ g.edges, ∀ a ∈ (g.get e.1).toOption, ∀ b ∈ (g.get e.2).toOption, Below a.path b.path ∨ Below b.path a.path

instance (g : Graph) : Decidable (Chained g) :=
  inferInstanceAs (Decidable (∀ e ∈ g.edges, ∀ a ∈ (g.get e.1).toOption, ∀ b ∈ (g.get e.2).toOption, _))

/-! ## Values that are sent -/

mutual
/-- The fields of an item of an input. -/
def inputField : Sel → List (List String × FieldInfo)
  | .field f ss => ([], f) :: (inputFields ss).map fun x => (f.name :: x.1, x.2)
  | .frag _ ss => inputFields ss
  | .spread _ => []
/-- The fields of an input, with the response keys their values are found under: the value of a field is read
from the key that is its name, and sent under its alias. -/
def inputFields : List Sel → List (List String × FieldInfo)
  | [] => []
  | x :: r => inputField x ++ inputFields r
end

/-- Does a step send the value of another field, or of the same field with other arguments, for one of its
inputs: there is a value where it reads, but nobody asked for the right one to be there. -/
def sendsOther (v : Vars) (g : Graph) (s : Step) : Bool :=
  (s.input.flatMap fun i => inputFields i.2).any fun x =>
    let found := (g.asked v).filter fun y => decide (y.1 = pathKeys s.path ++ x.1 ∧ y.2.key = x.2.name)
    !found.isEmpty &&
      found.all fun y => !decide (y.2.name = x.2.alias.getD x.2.name ∧ y.2.args = argsOf x.2)

/-! ## What subgraphs can be asked for -/

/-- Is a field of a type one a subgraph resolves: it is declared for the subgraph and not external there, or it is
declared for none and the subgraph has the type. -/
def provides (S : Verif.Graph.Super) (svc t f : String) : Bool :=
  f == "__typename" ||
    match S.def? t with
    | none => false
    | some d =>
      match d.fields.lookup f with
      | none => false
      | some x =>
        if x.joins.isEmpty then d.joinTypes.any fun j => j.graph == svc
        else x.joins.any fun j => j.graph == some svc && !j.external

mutual
/-- Does an item for objects of a type ask a subgraph for a field it does not resolve. -/
def foreignBy (S : Verif.Graph.Super) (svc t : String) : Sel → Bool
  | .field f ss => !provides S svc t f.name || foreign S svc ((fieldType S t f.name).getD "") ss
  | .frag g ss => foreign S svc g.cond ss
  | .spread _ => false
/-- Does a selection set for objects of a type ask a subgraph for a field it does not resolve. -/
def foreign (S : Verif.Graph.Super) (svc t : String) : List Sel → Bool
  | [] => false
  | x :: r => foreignBy S svc t x || foreign S svc t r
end

/-- The keys by which a subgraph can be asked for an object of a type. -/
def keysOf (S : Verif.Graph.Super) (svc t : String) : List (List Sel) :=
  match S.def? t with
  | none => []
  | some d => d.joinTypes.filterMap fun j => if j.graph = svc && j.resolvable then j.key.map (·.2) else none

/-- Does what is sent for an object contain all fields of a key. -/
def hasKey (input key : List Sel) : Bool := (inputFields key).all fun x => (inputFields input).contains x

/-! ## Waiting -/

/-- A step that is only executed when another one is done. -/
inductive After (g : Graph) : Nat → Nat → Prop
  | edge {a b : Nat} : (a, b) ∈ g.edges → After g a b
  | trans {a b c : Nat} : After g a b → (b, c) ∈ g.edges → After g a c

/-- Nothing waits for itself. -/
def NoCycle (g : Graph) : Prop := ∀ a, ¬ After g a a

/-- Steps can be numbered so that they wait for steps with smaller numbers only. -/
def Ranked (g : Graph) : Prop := ∃ rank : Nat → Nat, ∀ a b, (a, b) ∈ g.edges → rank a < rank b

/-- All edges are between steps. -/
def EdgesIn (g : Graph) : Prop := ∀ a b, (a, b) ∈ g.edges → a < g.steps.length ∧ b < g.steps.length

/-- A step that waits for another one, and for something that one waits for, does not wait for that other one in
a roundabout way as well. -/
def Straight (g : Graph) : Prop :=
  ∀ p a b, (p, a) ∈ g.edges → (a, b) ∈ g.edges → (p, b) ∈ g.edges → ∀ x, After g a x → ¬ After g x b

/-- The step that stands for another after that is merged into the first. -/
def heir (t s n : Nat) : Nat := if n = s then t else n

/-- Two steps that can be merged: the first does not wait for the second, and the second does not wait for a
third that waits for the first. -/
def Mergeable (g : Graph) (t s : Nat) : Prop := ¬ After g s t ∧ ∀ x, After g t x → ¬ After g x s

/-! ## The fields of an operation -/

/-- The response keys of the fields of a trail. -/
def trailKeys : Walker.Trail → List String
  | [] => []
  | .field f :: r => f.key :: trailKeys r
  | .on _ _ :: r => trailKeys r

/-- Do all conditions on a trail hold. -/
def trailHolds (v : Vars) : Walker.Trail → Bool
  | [] => true
  | .field f :: r => holds v (condOf f) && trailHolds v r
  | .on _ c :: r => holds v c && trailHolds v r

/-- A subgraph has a field of a type: it resolves the field, or there is a field that provides it. -/
def Offers (S : Verif.Graph.Super) (type field graph : String) : Prop :=
  field = "__typename" ∨ (∃ needs, Verif.Graph.Resolves S type field graph needs) ∨
    Verif.Graph.Provided S type field graph

/-- A step of the graph asks for the field at the end of the trail; what is at the end of the trail is of a type
that has the field in the subgraph which is asked. -/
def AsksFor (S : Verif.Graph.Super) (kind : Verif.Graph.OpKind) (v : Vars) (g : Graph) (tr : Walker.Trail)
    (f : FieldInfo) : Prop :=
  ∃ root type, Walker.rootType S kind = some root ∧ Walker.After S root tr type ∧
    ∃ s ∈ g.all, (trailKeys tr, askOf f) ∈ s.asked v ∧ Offers S type f.name s.service

mutual
/-- No fragment of a selection is empty, and there are no spreads: so it is after normalization. -/
def FilledBy : Sel → Prop
  | .field _ ss => Filled ss
  | .frag _ ss => ss ≠ [] ∧ Filled ss
  | .spread _ => False
/-- Of several selections. -/
def Filled : List Sel → Prop
  | [] => True
  | x :: r => FilledBy x ∧ Filled r
end

mutual
/-- None of the fragments of a selection is for a type that cannot be there, see `Walker.Blocked`. -/
def OpenBy (env : Walker.Env) (kind : Verif.Graph.OpKind) : Walker.Trail → Sel → Prop
  | tr, .field f ss => Open env kind (tr ++ [.field f]) ss
  | tr, .frag g ss => ¬ Walker.Blocked env kind tr g.cond ∧
      Open env kind (tr ++ [.on g.cond (g.skipIf, g.includeIf)]) ss
  | _, .spread _ => True
/-- Of several selections. -/
def Open (env : Walker.Env) (kind : Verif.Graph.OpKind) : Walker.Trail → List Sel → Prop
  | _, [] => True
  | tr, x :: r => OpenBy env kind tr x ∧ Open env kind tr r
end

end Verif.Fetch
