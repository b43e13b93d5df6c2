import Verif.Fetch.Plan
import Verif.Fetch.Spec
import Verif.Walker.Examples

/-!
# Supergraphs and operations

Small supergraphs the theorems about fetch graphs are shown on.
-/

namespace Verif.Fetch.Ex

open Verif.Graph (Super JoinField FieldDef Def)
open Verif.Walker.Ex

/-- A field with an argument. -/
def fa (n : String) (i : Int) (ss : List Sel := []) : Sel :=
  .field { name := n, args := some [("u", .int i)] } ss
/-- A field with an alias. -/
def as (a n : String) (ss : List Sel := []) : Sel := .field { name := n, alias := some a } ss
/-- A field with `@include`. -/
def inc (x : String) : Sel → Sel
  | .field f ss => .field { f with includeIf := some x } ss
  | y => y

def ext (g : String) : JoinField := { graph := some g, external := true }
def req (g : String) (r : List Sel) : JoinField := { graph := some g, requires := some ("r", r) }

/-- The product of `boxes`. `flat`, `flat2`, `fy` and `shipping` are in `b` and require fields of `a`. -/
def boxTypes : List (String × Def) :=
  [obj "Product" [jt "a" (some "id"), jt "b" (some "id")]
    [("id", { typeName := "ID" }),
     ("sku", { typeName := "ID", joins := [inG "a"] }),
     ("price", { typeName := "Int", joins := [inG "b"] }),
     ("box", { typeName := "Box", joins := [inG "a", ext "b"] }),
     ("w", { typeName := "Int", joins := [inG "a", ext "b"] }),
     ("y", { typeName := "Int", joins := [inG "a", ext "b"] }),
     ("flat", { typeName := "Int", joins := [req "b" [fa "w" 1]] }),
     ("flat2", { typeName := "Int", joins := [req "b" [fa "w" 2]] }),
     ("fy", { typeName := "Int", joins := [req "b" [fld "y"]] }),
     ("shipping", { typeName := "Int", joins := [req "b" [fld "box" [fa "w" 1]]] })],
   obj "Box" [jt "a", jt "b"] [("w", { typeName := "Int", joins := [inG "a", ext "b"]  })]]

/-- Products are found in `a`. -/
def boxes : Super :=
  sup (query ["a"] [("product", { typeName := "Product", joins := [inG "a"] })] :: boxTypes) ["a", "b"]

/-- Products are found in `a`, in a shop. -/
def shops : Super :=
  sup (query ["a"] [("shop", { typeName := "Shop", joins := [inG "a"] })] ::
    obj "Shop" [jt "a"] [("product", { typeName := "Product", joins := [inG "a"] })] :: boxTypes) ["a", "b"]

/-- `est` in `c` requires a field of `a` and one of `b`; `q` of what it leads to requires a field of `a`. -/
def estimates : Super := sup
  [query ["a"] [("product", { typeName := "Product", joins := [inG "a"] })],
   obj "Product" [jt "a" (some "id"), jt "b" (some "id"), jt "c" (some "id")]
    [("id", { typeName := "ID" }),
     ("w", { typeName := "Int", joins := [inG "a", ext "c"] }),
     ("y", { typeName := "Int", joins := [inG "b", ext "c"] }),
     ("est", { typeName := "Est", joins := [req "c" [fld "w", fld "y"]] })],
   obj "Est" [jt "a" (some "k"), jt "c" (some "k")]
    [("k", { typeName := "ID" }),
     ("p", { typeName := "Int", joins := [inG "a", ext "c"] }),
     ("v", { typeName := "Int", joins := [inG "c"] }),
     ("q", { typeName := "Int", joins := [req "c" [fld "p"]] })]] ["a", "b", "c"]

/-- Products are found in `a` by their `id`; `b` has the same key, `c` knows products by their `sku` only. `flat` in
`b` requires a field of `c`. -/
def skus : Super := sup
  [query ["a"] [("product", { typeName := "Product", joins := [inG "a"] })],
   obj "Product" [jt "a" (some "id"), jt "b" (some "id"), jt "c" (some "sku")]
    [("id", { typeName := "ID", joins := [inG "a", inG "b"] }),
     ("sku", { typeName := "ID", joins := [inG "b", inG "c"] }),
     ("w", { typeName := "Int", joins := [inG "c", ext "b"] }),
     ("flat", { typeName := "Int", joins := [req "b" [fld "w"]] })]] ["a", "b", "c"]

/-- Products are found in `a` by their `id`; `b` knows them by their `sku`, `c` by both. `flat` in `b` requires a
field of `a`. -/
def thirds : Super := sup
  [query ["a"] [("product", { typeName := "Product", joins := [inG "a"] })],
   obj "Product" [jt "b" (some "sku"), jt "a" (some "id"), jt "c" (some "id"), jt "c" (some "sku")]
    [("id", { typeName := "ID", joins := [inG "a", inG "c"] }),
     ("sku", { typeName := "ID", joins := [inG "b", inG "c"] }),
     ("w", { typeName := "Int", joins := [inG "a", ext "b"] }),
     ("flat", { typeName := "Int", joins := [req "b" [fld "w"]] })]] ["a", "b", "c"]

/-- Products are found in `a`, products they are related to in `b`. `flat` in `b` requires a field of `a`. -/
def relatives : Super := sup
  [query ["a"] [("product", { typeName := "Product", joins := [inG "a"] })],
   obj "Product" [jt "a" (some "id"), jt "b" (some "id")]
    [("id", { typeName := "ID" }),
     ("w", { typeName := "Int", joins := [inG "a", ext "b"] }),
     ("related", { typeName := "Product", joins := [inG "b"] }),
     ("flat", { typeName := "Int", joins := [req "b" [fld "w"]] })]] ["a", "b"]

/-- Products are found in `b`. Each of `q` in `b`, `r` in `a`, `s` in `b` and `t` in `a` requires the one before it,
and `t` requires `q` too; `p` is in `a`. -/
def endless : Super := sup
  [query ["b"] [("product", { typeName := "Product", joins := [inG "b"] })],
   obj "Product" [jt "b" (some "id"), jt "a" (some "id")]
    [("id", { typeName := "ID", joins := [inG "a", inG "b"] }),
     ("p", { typeName := "Int", joins := [inG "a", ext "b"] }),
     ("q", { typeName := "Int", joins := [req "b" [fld "p"], ext "a"] }),
     ("r", { typeName := "Int", joins := [req "a" [fld "q"], ext "b"] }),
     ("s", { typeName := "Int", joins := [req "b" [fld "r"], ext "a"] }),
     ("t", { typeName := "Int", joins := [req "a" [fld "q", fld "s"]] })]] ["a", "b"]

/-- `make` and `touch` are in `a`, `wipe` is in `b`. -/
def muts : Super := { sup
  [query ["a", "b"] [("x", { typeName := "Int", joins := [inG "a"] })],
   obj "Mutation" [jt "a", jt "b"]
     [("make", { typeName := "Product", joins := [inG "a"] }),
      ("wipe", { typeName := "Int", joins := [inG "b"] }),
      ("touch", { typeName := "Int", joins := [inG "a"] })],
   obj "Product" [jt "a" (some "id"), jt "b" (some "id")]
    [("id", { typeName := "ID" }),
     ("name", { typeName := "String", joins := [inG "a"] }),
     ("price", { typeName := "Int", joins := [inG "b"] })]] ["a", "b"] with mutationType := some "Mutation" }

/-- What `make` of `a` returns leads back to the queries, which are in `b`. -/
def reentry : Super := { sup
  [query ["a", "b"] [("x", { typeName := "Int", joins := [inG "b"] }), ("y", { typeName := "Int", joins := [inG "b"] })],
   obj "Mutation" [jt "a", jt "b"] [("make", { typeName := "Payload", joins := [inG "a"] })],
   obj "Payload" [jt "a"] [("query", { typeName := "Query", joins := [inG "a"] })]] ["a", "b"] with
  mutationType := some "Mutation" }

/-- A fragment with `@include`. -/
def incOn (x t : String) (ss : List Sel) : Sel := .frag { cond := t, includeIf := some x } ss

/-- All variables are true. -/
def yes : Vars := fun _ => true
/-- All variables are false. -/
def no : Vars := fun _ => false

/-- The one plan there is, if it fits. -/
def only (p : Graph → Bool) : List (Except Err Graph) → Bool
  | [.ok g] => p g
  | _ => false

/-- The one plan there is, if it was not made for a reason. -/
def fails (e : Err) : List (Except Err Graph) → Bool
  | [.error x] => decide (x = e)
  | _ => false

theorem only_some {p : Graph → Bool} : ∀ {l : List (Except Err Graph)}, only p l = true →
    ∃ g, l = [.ok g] ∧ p g = true
  | [.ok g], h => ⟨g, rfl, h⟩
  | [.error _], h => by simp [only] at h
  | [], h => by simp [only] at h
  | _ :: _ :: _, h => by simp [only] at h

theorem fails_some {e : Err} : ∀ {l : List (Except Err Graph)}, fails e l = true → l = [.error e]
  | [.ok _], h => by simp [fails] at h
  | [.error x], h => by
    simp only [fails, decide_eq_true_eq] at h
    rw [h]
  | [], h => by simp [fails] at h
  | _ :: _ :: _, h => by simp [fails] at h

/-- Steps that are closed under waiting: what waits for one of them is one of them. -/
def closed (g : Graph) (l : List Nat) : Bool := g.edges.all fun e => !l.contains e.1 || l.contains e.2

theorem closed_after {g : Graph} {l : List Nat} (h : closed g l = true) {a b : Nat} (hab : After g a b)
    (ha : a ∈ l) : b ∈ l := by
  have key : ∀ {a b}, (a, b) ∈ g.edges → a ∈ l → b ∈ l := by
    intro a b e ha
    have := List.all_eq_true.1 h _ e
    simpa [ha] using this
  induction hab with
  | edge e => exact key e ha
  | trans _ e ih => exact key e ih

end Verif.Fetch.Ex
