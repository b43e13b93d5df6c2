/-!
# Depth, alias and directive limits

`bin/router/src/pipeline/validation/{max_depth_rule,max_aliases_rule,max_directives_rule,shared}.rs`.
-/

namespace Verif.Limits

abbrev Name := String

/-- The parts of a parsed selection the rules look at (`Selection` of `graphql_tools`): the name of
a field, whether it has an alias, the number of directives, the children. An operation or fragment
definition is treated like an inline fragment with its directives and selections: the rules treat
`CountableNode::{OperationDefinition, FragmentDefinition, InlineFragment}` alike
(`shared.rs:39-67`). -/
inductive Item where
  | field (name : Name) (aliased : Bool) (dirs : Nat) (children : List Item)
  | inline (dirs : Nat) (children : List Item)
  | spread (name : Name) (dirs : Nat)

/-- `CountableNode::selection_set`, `shared.rs:39-49`. -/
def Item.children : Item → List Item
  | .field _ _ _ cs => cs
  | .inline _ cs => cs
  | .spread _ _ => []

/-- `known_fragments`. -/
abbrev Fragments := Name → Option Item

/-- `VisitedFragment`, `shared.rs:108-111`. -/
inductive Mark where
  | counted (n : Nat)
  | visiting
  deriving DecidableEq

abbrev Marks := Name → Option Mark

def Marks.set (m : Marks) (f : Name) (k : Mark) : Marks := fun g => if g = f then some k else m g

/-- Outcome of a counting function: the count or "limit exceeded", and the marks. -/
abbrev Outcome := Except Unit Nat × Marks

/-! ## Depth -/

/-- `MaxDepthRuleConfig`. -/
structure DepthConfig where
  n : Nat
  ignoreIntrospection : Bool
  flattenFragments : Bool

/-- `max_depth_rule.rs:57-64`. -/
def ignored (cfg : DepthConfig) : Item → Bool
  | .field name _ _ _ => cfg.ignoreIntrospection && (name == "__schema" || name == "__type")
  | _ => false

/-- `increase_by`, `max_depth_rule.rs:76-84`. -/
def increase (cfg : DepthConfig) : Item → Nat
  | .field _ _ _ _ => 1
  | _ => if cfg.flattenFragments then 0 else 1

/-- The loop over the children, `max_depth_rule.rs:73-94`; `rec` is the recursive call. -/
def depthLoop (cfg : DepthConfig) (rec : Marks → Item → Nat → Option Outcome) (p : Nat) :
    List Item → Nat → Marks → Option Outcome
  | [], depth, m => some (.ok depth, m)
  | c :: cs, depth, m =>
    match rec m c (p + increase cfg c) with
    | none => none
    | some (.error e, m) => some (.error e, m)
    | some (.ok d, m) => depthLoop cfg rec p cs (max depth d) m

/-- The part for fragment spreads, `max_depth_rule.rs:97-135`. -/
def depthSpread (cfg : DepthConfig) (known : Fragments)
    (rec : Marks → Item → Nat → Option Outcome) (f : Name) (p depth : Nat) (m : Marks) :
    Option Outcome :=
  let p := if cfg.flattenFragments then p else p + 1
  match m f with
  | some (.counted d) =>
    if p + d > cfg.n then some (.error (), m) else some (.ok (p + d), m)
  | some .visiting => some (.ok depth, m)
  | none =>
    let m := m.set f .visiting
    match known f with
    | none => some (.ok depth, m)
    | some body =>
      match rec m body 0 with
      | none => none
      | some (.error e, m) => some (.error e, m)
      | some (.ok d, m) =>
        let m := m.set f (.counted d)
        if p + d > cfg.n then some (.error (), m) else some (.ok (max depth (p + d)), m)

/-- `count_depth`, `max_depth_rule.rs:50-139`, with a bound on the recursion depth; `none` if it
is exhausted (`C13_terminates` shows it never is). -/
def countDepth (cfg : DepthConfig) (known : Fragments) :
    Nat → Marks → Item → Nat → Option Outcome
  | 0, _, _, _ => none
  | fuel + 1, m, node, p =>
    if ignored cfg node then some (.ok 0, m)
    else if p > cfg.n then some (.error (), m)
    else
      match depthLoop cfg (countDepth cfg known fuel) p node.children p m with
      | none => none
      | some (.error e, m) => some (.error e, m)
      | some (.ok depth, m) =>
        match node with
        | .spread f _ => depthSpread cfg known (countDepth cfg known fuel) f p depth m
        | _ => some (.ok depth, m)

/-! ## Aliases and directives -/

/-- The loop over the children, `max_aliases_rule.rs:66-72`, `max_directives_rule.rs:63-69`. -/
def sumLoop (n : Nat) (rec : Marks → Item → Option Outcome) :
    List Item → Nat → Marks → Option Outcome
  | [], total, m => some (.ok total, m)
  | c :: cs, total, m =>
    match rec m c with
    | none => none
    | some (.error e, m) => some (.error e, m)
    | some (.ok k, m) =>
      if total + k > n then some (.error (), m) else sumLoop n rec cs (total + k) m

/-- The part for fragment spreads, `max_aliases_rule.rs:75-106`, `max_directives_rule.rs:72-101`. -/
def sumSpread (n : Nat) (known : Fragments) (rec : Marks → Item → Option Outcome) (f : Name)
    (total : Nat) (m : Marks) : Option Outcome :=
  match m f with
  | some (.counted k) => if total + k > n then some (.error (), m) else some (.ok (total + k), m)
  | some .visiting => some (.ok total, m)
  | none =>
    let m := m.set f .visiting
    match known f with
    | none => some (.ok total, m)
    | some body =>
      match rec m body with
      | none => none
      | some (.error e, m) => some (.error e, m)
      | some (.ok k, m) =>
        let m := m.set f (.counted k)
        if total + k > n then some (.error (), m) else some (.ok (total + k), m)

/-- `count_aliases`, `max_aliases_rule.rs:50-110`, and `count_directives`,
`max_directives_rule.rs:49-105`: the same function but for what a single node counts, `own`. -/
def countSum (own : Item → Nat) (n : Nat) (known : Fragments) :
    Nat → Marks → Item → Option Outcome
  | 0, _, _ => none
  | fuel + 1, m, node =>
    if own node > n then some (.error (), m)
    else
      match sumLoop n (countSum own n known fuel) node.children (own node) m with
      | none => none
      | some (.error e, m) => some (.error e, m)
      | some (.ok total, m) =>
        match node with
        | .spread f _ => sumSpread n known (countSum own n known fuel) f total m
        | _ => some (.ok total, m)

/-- `max_aliases_rule.rs:57-61`. -/
def ownAliases : Item → Nat
  | .field _ true _ _ => 1
  | _ => 0

/-- `CountableNode::get_directives`, `shared.rs:55-63`, `max_directives_rule.rs:57-59`. -/
def ownDirectives : Item → Nat
  | .field _ _ d _ => d
  | .inline d _ => d
  | .spread _ d => d

/-! ## Documents -/

/-- An operation or fragment definition: number of directives and selections. -/
structure Definition where
  dirs : Nat
  selections : List Item

/-- `CountableNode::{OperationDefinition, FragmentDefinition}`. -/
def Definition.node (d : Definition) : Item := .inline d.dirs d.selections

/-- A document: its operations and its fragment definitions. -/
structure Doc where
  operations : List Definition
  fragments : List (Name × Definition)

/-- Number of nodes of a selection. -/
def Item.size : Item → Nat
  | .field _ _ _ cs => 1 + sizes cs
  | .inline _ cs => 1 + sizes cs
  | .spread _ _ => 1
where
  sizes : List Item → Nat
    | [] => 0
    | c :: cs => Item.size c + sizes cs

def Doc.known (d : Doc) : Fragments := fun f => (d.fragments.lookup f).map Definition.node

/-- A recursion depth the functions do not exceed. -/
def Doc.fuel (d : Doc) : Nat :=
  (d.fragments.length + 1) *
    ((d.fragments.map fun f => f.2.node.size).sum + (d.operations.map fun o => o.node.size).sum + 1)

/-- The loop of `enter_document`, `max_depth_rule.rs:142-160` (also `max_aliases_rule.rs:112-132`,
`max_directives_rule.rs:107-130`): the number of errors reported; `none` if the recursion bound was
exhausted. -/
def runOps (count : Marks → Item → Option Outcome) : List Definition → Marks → Option Nat
  | [], _ => some 0
  | op :: ops, m =>
    match count m op.node with
    | none => none
    | some (.ok _, m) => runOps count ops m
    | some (.error _, m) => (runOps count ops m).map (· + 1)

/-- `MaxDepthRule` on a document. -/
def maxDepth (cfg : DepthConfig) (d : Doc) : Option Nat :=
  runOps (fun m op => countDepth cfg d.known d.fuel m op 0) d.operations fun _ => none

/-- `MaxAliasesRule` on a document. -/
def maxAliases (n : Nat) (d : Doc) : Option Nat :=
  runOps (countSum ownAliases n d.known d.fuel) d.operations fun _ => none

/-- `MaxDirectivesRule` on a document. -/
def maxDirectives (n : Nat) (d : Doc) : Option Nat :=
  runOps (countSum ownDirectives n d.known d.fuel) d.operations fun _ => none

end Verif.Limits
