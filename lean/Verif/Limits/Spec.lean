import Verif.Limits.Model

/-!
# What the limits should count: the document with its fragments written out
-/

namespace Verif.Limits

mutual
/-- `Expands known i t`: `t` is `i` with every fragment spread replaced by the content of the
fragment (wrapped once for the spread and once for the definition, so that the directives of both
stay); spreads of unknown fragments become empty. -/
inductive Expands (known : Fragments) : Item → Item → Prop where
  | field : ExpandsAll known cs ts → Expands known (.field n a d cs) (.field n a d ts)
  | inline : ExpandsAll known cs ts → Expands known (.inline d cs) (.inline d ts)
  | known : known f = some body → Expands known body t →
      Expands known (.spread f d) (.inline d [t])
  | unknown : known f = none → Expands known (.spread f d) (.inline d [])
inductive ExpandsAll (known : Fragments) : List Item → List Item → Prop where
  | nil : ExpandsAll known [] []
  | cons : Expands known c t → ExpandsAll known cs ts → ExpandsAll known (c :: cs) (t :: ts)
end

mutual
/-- The depth of the deepest node of an item standing at depth `p`: fields count 1, inline
fragments 1 or (flattened) 0; introspection fields and what is below them do not count if so
configured. -/
def Item.depth (cfg : DepthConfig) (p : Nat) : Item → Nat
  | .field name _ _ cs =>
    if cfg.ignoreIntrospection ∧ (name = "__schema" ∨ name = "__type") then 0
    else max p (Item.depths cfg p cs)
  | .inline _ cs => max p (Item.depths cfg p cs)
  | .spread _ _ => p
def Item.depths (cfg : DepthConfig) (p : Nat) : List Item → Nat
  | [] => 0
  | c :: cs =>
    max (Item.depth cfg (p + match c with
      | .field _ _ _ _ => 1
      | _ => if cfg.flattenFragments then 0 else 1) c) (Item.depths cfg p cs)
end

mutual
/-- The sum of `own` over all nodes. -/
def Item.total (own : Item → Nat) : Item → Nat
  | .field n a d cs => own (.field n a d cs) + Item.totals own cs
  | .inline d cs => own (.inline d cs) + Item.totals own cs
  | .spread f d => own (.spread f d)
def Item.totals (own : Item → Nat) : List Item → Nat
  | [] => 0
  | c :: cs => Item.total own c + Item.totals own cs
end

/-- The fragment names an item spreads, directly. -/
def Item.spreads : Item → List Name
  | .field _ _ _ cs => all cs
  | .inline _ cs => all cs
  | .spread f _ => [f]
where
  all : List Item → List Name
    | [] => []
    | c :: cs => Item.spreads c ++ all cs

/-- No fragment spreads itself, directly or indirectly: fragments can be ranked. -/
def Acyclic (known : Fragments) : Prop :=
  ∃ rank : Name → Nat, ∀ f body, known f = some body → ∀ g ∈ body.spreads, rank g < rank f

end Verif.Limits
