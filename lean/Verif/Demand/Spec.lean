import Verif.Demand.Model
/-!
# The cost of an operation, computed directly

No formulas: natural numbers without a bound, the operation with its fragment spreads written out,
the values of the variables at hand.
-/
namespace Verif.Demand

/-! ## Operations without fragment spreads -/

/-- `s'` is `s` with every spread replaced by the fragment it names. -/
inductive Expands (frs : List Frag) : List Sel → List Sel → Prop where
  | nil : Expands frs [] []
  | field {n : Name} {args : List (Name × Value)} {si ii : Option Name} {sub sub' r r' : List Sel} :
      Expands frs sub sub' → Expands frs r r' →
      Expands frs (.field n args si ii sub :: r) (.field n args si ii sub' :: r')
  | frag {c : Name} {si ii : Option Name} {sub sub' r r' : List Sel} :
      Expands frs sub sub' → Expands frs r r' →
      Expands frs (.frag c si ii sub :: r) (.frag c si ii sub' :: r')
  | spread {f : Frag} {sub' r r' : List Sel} : f ∈ frs →
      Expands frs f.sels sub' → Expands frs r r' →
      Expands frs (.spread f.name :: r) (.frag f.cond none none sub' :: r')

/-- Not a spread. -/
def Sel.notSpread : Sel → Prop
  | .spread _ => False
  | _ => True

/-- Every spread inside is of a known fragment with a rank below `r`; an `_entities` field selects
fragments with a type, never by name. -/
inductive Below (frs : List Frag) (rank : Name → Nat) (r : Nat) : Sel → Prop where
  | field {n : Name} {args : List (Name × Value)} {si ii : Option Name} {sub : List Sel} :
      (∀ x ∈ sub, Below frs rank r x) → (n = "_entities" → ∀ x ∈ sub, x.notSpread) →
      Below frs rank r (.field n args si ii sub)
  | frag {c : Name} {si ii : Option Name} {sub : List Sel} :
      (∀ x ∈ sub, Below frs rank r x) → Below frs rank r (.frag c si ii sub)
  | spread {f : Frag} : f ∈ frs → rank f.name < r → Below frs rank r (.spread f.name)

/-- A subgraph operation as the planner makes them: no fragment twice, no cycles. -/
def OpOk (op : Op) : Prop :=
  (op.frags.map Frag.name).Nodup ∧
  ∃ rank : Name → Nat, (∀ f ∈ op.frags, ∀ x ∈ f.sels, Below op.frags rank (rank f.name) x) ∧
    ∃ r, ∀ x ∈ op.sels, Below op.frags rank r x

/-! ## Costs -/

/-- `@skip` and `@include` let the field through. -/
def included (σ : Vars) (skipIf includeIf : Option Name) : Bool :=
  (match skipIf with
    | some v => !varTrue σ v
    | none => true) &&
  (match includeIf with
    | some v => varTrue σ v
    | none => true)

/-- The cost of having a value of a type: `@cost`, otherwise 1 for composite types, 0 for leaves. -/
def costOfType (S : Schema) (n : Name) : Nat :=
  match S.defs.lookup n with
  | some (.object (some w) _) => w.toNat
  | some (.object none _) => 1
  | some (.interface _) => 1
  | some .union => 1
  | some (.enum (some w)) => w.toNat
  | some (.scalar (some w)) => w.toNat
  | _ => 0

/-- A weight, 0 if there is none. -/
def weightOf : Option UInt64 → Nat
  | some w => w.toNat
  | none => 0

mutual
/-- The cost of a variable's value for an argument type: 1 for each input object, the weights of
their fields, and what is inside. -/
def costOfJson (S : Schema) : Json → TypeNode → Nat
  | .arr l, t =>
    match t.unwrapNonNull with
    | .list i => costOfJsons S l i
    | _ => 0
  | .obj fs, t =>
    match t.unwrapNonNull with
    | .named n =>
      match S.defs.lookup n with
      | some (.input ds) => costOfJsonFields S fs ds + 1
      | _ => 0
    | _ => 0
  | _, _ => 0
/-- Of all items. -/
def costOfJsons (S : Schema) : List Json → TypeNode → Nat
  | [], _ => 0
  | x :: r, t => costOfJson S x t + costOfJsons S r t
/-- Of all fields. -/
def costOfJsonFields (S : Schema) : List (Name × Json) → List (Name × InputField) → Nat
  | [], _ => 0
  | (k, v) :: r, ds =>
    (match ds.lookup k with
      | some d => weightOf d.cost + costOfJson S v d.ty
      | none => 0) + costOfJsonFields S r ds
end

mutual
/-- The same for a literal, which may contain variables. -/
def costOfValue (S : Schema) (σ : Vars) : Value → TypeNode → Nat
  | .var n, t =>
    match σ.lookup n with
    | some j => costOfJson S j t
    | none => 0
  | .list l, t =>
    match t.unwrapNonNull with
    | .list i => costOfValues S σ l i
    | _ => 0
  | .obj fs, t =>
    match t.unwrapNonNull with
    | .named n =>
      match S.defs.lookup n with
      | some (.input ds) => costOfValueFields S σ fs ds + 1
      | _ => 0
    | _ => 0
  | _, _ => 0
/-- Of all items. -/
def costOfValues (S : Schema) (σ : Vars) : List Value → TypeNode → Nat
  | [], _ => 0
  | x :: r, t => costOfValue S σ x t + costOfValues S σ r t
/-- Of all fields. -/
def costOfValueFields (S : Schema) (σ : Vars) : List (Name × Value) → List (Name × InputField) → Nat
  | [], _ => 0
  | (k, v) :: r, ds =>
    (match ds.lookup k with
      | some d => weightOf d.cost + costOfValue S σ v d.ty
      | none => 0) + costOfValueFields S σ r ds
end

/-- The cost of the arguments given to a field: their weights, and their values where they are of
an input object type or of lists of one. -/
def costOfArgs (S : Schema) (σ : Vars) (d : FieldDef) : List (Name × Value) → Nat
  | [] => 0
  | (k, v) :: r =>
    weightOf (d.argCosts.lookup k) +
    (match d.argTypes.lookup k with
      | some t =>
        match S.defs.lookup t.inner with
        | some (.input _) => costOfValue S σ v t
        | _ => 0
      | none => 0) + costOfArgs S σ d r

/-- The size a variable's value asks for: the integer (0 if negative) or the length of the list. -/
def sizeOfJson : Json → Option Nat
  | .int i => if i < -9223372036854775808 ∨ (maxU64 : Int) < i then none else some i.toNat
  | .arr l => some l.length
  | _ => none

/-- The field of an object. -/
def fieldOfJson (k : Name) : Json → Option Json
  | .obj fs => fs.lookup k
  | _ => none

/-- What is at a path in a value of a variable. -/
def jsonAt : List Name → Json → Option Json
  | [], j => some j
  | k :: p, j => (fieldOfJson k j).bind (jsonAt p)

/-- The size that what is at a path in an argument asks for. -/
def askedSize (σ : Vars) : List Name → Value → Option Nat
  | p, .var n => ((σ.lookup n).bind (jsonAt p)).bind sizeOfJson
  | [], .int i => some i.toNat
  | [], .list l => some l.length
  | k :: p, .obj fs => (fs.lookup k).bind (askedSize σ p)
  | _, _ => none

/-- The size a slicing argument asks for, if it is given. -/
def sizeAt (σ : Vars) (args : List (Name × Value)) (seg : Name × List Name) : Option Nat :=
  (args.lookup seg.1).bind (askedSize σ seg.2)

/-- The size `@listSize` gives: `assumedSize`, or what the slicing arguments ask for, or the default.
With `requireOneSlicingArgument` there must be exactly one (`slicingOk` below). -/
def sizeOfList (σ : Vars) (dl : UInt64) (ls : ListSize) (args : List (Name × Value)) : Nat :=
  match ls.assumed, ls.slicing with
  | some n, _ => n.toNat
  | none, none => dl.toNat
  | none, some segs =>
    match segs.filterMap (sizeAt σ args) with
    | [] => dl.toNat
    | n :: r => r.foldl max n

/-- Sizes given from above by `sizedFields`: a path of fields from here, a size. -/
abbrev Sizes := List (List Name × Nat)

/-- The size for a field itself. -/
def sizeHere (inh : Sizes) (n : Name) : Option Nat := inh.lookup [n]

/-- What is left below a field. -/
def sizesBelow (inh : Sizes) (n : Name) : Sizes :=
  inh.filterMap fun o =>
    match o.1 with
    | h :: t :: r => if h = n then some (t :: r, o.2) else none
    | _ => none

/-- How often the selections of a field count: a size from above, or by `@listSize` of a list field,
or the default for a list field, or once. -/
def multiplier (σ : Vars) (dl : UInt64) (n : Name) (args : List (Name × Value)) (inh : Sizes)
    (d : FieldDef) : Nat :=
  match sizeHere inh n with
  | some s => s
  | none =>
    if d.ty.isList then
      match d.listSize with
      | some ls => if ls.sized.isNone then sizeOfList σ dl ls args else dl.toNat
      | none => dl.toNat
    else 1

/-- The sizes for what is below: from above, and by `sizedFields` of the field. -/
def sizesFor (σ : Vars) (dl : UInt64) (n : Name) (args : List (Name × Value)) (inh : Sizes)
    (d : FieldDef) : Sizes :=
  sizesBelow inh n ++
    match d.listSize with
    | some ls => (ls.sized.getD []).map (fun p => (p, sizeOfList σ dl ls args))
    | none => []

/-- The greatest cost of the types of the fragments. -/
def costOfEntity (S : Schema) : List Sel → Nat
  | [] => 0
  | .frag c _ _ _ :: r => max (costOfType S c) (costOfEntity S r)
  | _ :: r => costOfEntity S r

mutual
/-- The cost of a selection on type `P`. -/
def cost1 (S : Schema) (σ : Vars) (dl : UInt64) (P : Name) (inh : Sizes) : Sel → Nat
  | .field n args si ii sub =>
    if included σ si ii = false then 0
    else if n = "__typename" then 0
    else if n = "_entities" then
      max dl.toNat 1 * (costOfEntity S sub + costs S σ dl P [] sub)
    else
      match fieldDef S P n with
      | some d =>
        weightOf d.cost + costOfArgs S σ d args +
          multiplier σ dl n args inh d *
            (costOfType S d.ty.inner + costs S σ dl d.ty.inner (sizesFor σ dl n args inh d) sub)
      | none =>
        (sizeHere inh n).getD 1 * (costOfType S P + costs S σ dl P (sizesBelow inh n) sub)
  | .frag c _ _ sub => costs S σ dl c inh sub
  | .spread _ => 0
/-- The cost of a selection set. -/
def costs (S : Schema) (σ : Vars) (dl : UInt64) (P : Name) (inh : Sizes) : List Sel → Nat
  | [] => 0
  | x :: r => cost1 S σ dl P inh x + costs S σ dl P inh r
end

/-- `c` is the cost of a subgraph operation: 10 for a mutation, and its selections. -/
def OpCost (S : Schema) (σ : Vars) (dl : UInt64) (op : Op) (c : Nat) : Prop :=
  ∃ s, Expands op.frags op.sels s ∧
    c = (if op.kind = .mutation then 10 else 0) + costs S σ dl (S.root op.kind) [] s

/-! ## Side conditions -/

/-- The cost of each argument value fits the machine integers. -/
def argsFit (S : Schema) (σ : Vars) (d : FieldDef) (args : List (Name × Value)) : Prop :=
  ∀ k v t, (k, v) ∈ args → d.argTypes.lookup k = some t → costOfValue S σ v t ≤ maxU64

mutual
/-- `argsFit` everywhere in a selection. -/
def inputsFit1 (S : Schema) (σ : Vars) (P : Name) : Sel → Prop
  | .field n args _ _ sub =>
    if n = "_entities" then inputsFit S σ P sub
    else
      match fieldDef S P n with
      | some d => argsFit S σ d args ∧ inputsFit S σ d.ty.inner sub
      | none => inputsFit S σ P sub
  | .frag c _ _ sub => inputsFit S σ c sub
  | .spread _ => True
/-- `argsFit` everywhere in a selection set. -/
def inputsFit (S : Schema) (σ : Vars) (P : Name) : List Sel → Prop
  | [] => True
  | x :: r => inputsFit1 S σ P x ∧ inputsFit S σ P r
end

/-- A list field that requires one slicing argument is given exactly one. -/
def sliceOk (σ : Vars) (ls : ListSize) (args : List (Name × Value)) : Prop :=
  ls.assumed = none → ls.requireOne = true → ∀ segs, ls.slicing = some segs →
    (segs.filterMap (sizeAt σ args)).length = 1

mutual
/-- `sliceOk` everywhere in a selection that is included. -/
def slicingOk1 (S : Schema) (σ : Vars) (P : Name) : Sel → Prop
  | .field n args si ii sub =>
    included σ si ii = true →
      if n = "_entities" then slicingOk S σ P sub
      else
        match fieldDef S P n with
        | some d => (∀ ls, d.listSize = some ls → sliceOk σ ls args) ∧ slicingOk S σ d.ty.inner sub
        | none => slicingOk S σ P sub
  | .frag c _ _ sub => slicingOk S σ c sub
  | .spread _ => True
/-- `sliceOk` everywhere in a selection set. -/
def slicingOk (S : Schema) (σ : Vars) (P : Name) : List Sel → Prop
  | [] => True
  | x :: r => slicingOk1 S σ P x ∧ slicingOk S σ P r
end

/-! ## Plans -/

mutual
/-- The subgraph calls a plan consists of, for the values of the variables. -/
def calls (σ : Vars) : PlanNode → List Fetch
  | .fetch f => [f]
  | .flatten n => calls σ n
  | .sequence l => callsAll σ l
  | .parallel l => callsAll σ l
  | .condition v t e => if varTrue σ v then callsOpt σ t else callsOpt σ e
  | .subscription f => [f]
  | .defer p l => callsOpt σ p ++ callsAll σ l
/-- Of all nodes. -/
def callsAll (σ : Vars) : List PlanNode → List Fetch
  | [] => []
  | n :: r => calls σ n ++ callsAll σ r
/-- Of a node, if there is one. -/
def callsOpt (σ : Vars) : Option PlanNode → List Fetch
  | some n => calls σ n
  | none => []
end

end Verif.Demand
