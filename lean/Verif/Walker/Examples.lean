import Verif.Walker.Built
import Verif.Graph.Complete

/-!
# Supergraphs to try the theorems on
-/

namespace Verif.Walker.Ex

open Verif.Graph

def fld (n : String) (ss : List Sel := []) : Sel := .field { name := n } ss
def on (t : String) (ss : List Sel) : Sel := .frag { cond := t } ss

def jt (g : String) (k : Option String := none) : JoinType :=
  { graph := g, key := k.map fun k => (k, [fld k]) }

def obj (n : String) (js : List JoinType) (fs : List (String × FieldDef)) : String × Def :=
  (n, { name := n, kind := .object, joinTypes := js, fields := fs })

def query (gs : List String) (fs : List (String × FieldDef)) : String × Def :=
  obj "Query" (gs.map (jt ·)) fs

def sup (defs : List (String × Def)) (gs : List String) : Super :=
  { defs := defs, graphs := gs.map fun g => (g, g) }

def inG (g : String) : JoinField := { graph := some g }

def off : Overrides.Context := { flags := [], dice := 0 }
def lit : Overrides.Context := { flags := ["l"], dice := 0 }

/-- What a segment is, in words: the field, the key, and the subgraph it leads to. -/
def word (G : Moves) (s : Seg Path) : String :=
  (match Moves.edge? G s.edge with
    | some e =>
      (match e.weight with
        | .entry _ _ => "enter"
        | .field m => m.name
        | .reentry n _ _ => n ++ "!"
        | .entity k _ _ => "by " ++ k
        | .abstract t => "on " ++ t
        | .selfie t => "is " ++ t
        | .ioType t _ => "as " ++ t) ++ "@" ++
      (match G.node e.dst with
        | some n => n.graph.getD ""
        | none => "?")
    | none => "?")

/-- The paths the planner finds, in words. -/
inductive Plan where
  | paths (p : List (List (List (List String))))
  | noPaths (f : String)
  | other
  deriving DecidableEq

def plan (S : Super) (c : Overrides.Context) (sels : List Sel) : Plan :=
  match build S with
  | .error _ => .other
  | .ok G =>
    match walk ⟨G, S, c⟩ .query sels with
    | .ok o => .paths (o.map (·.map (·.map (·.segs.map (word G)))))
    | .error (.noPaths n) => .noPaths n
    | .error _ => .other

/-- `shipping` of subgraph `b` requires `weight` of subgraph `a`. -/
def shop : Super := sup
  [query ["a"] [("product", { typeName := "Product", joins := [inG "a"] })],
   obj "Product" [jt "a" (some "id"), jt "b" (some "id")]
    [("id", { typeName := "ID" }),
     ("weight", { typeName := "Int", joins := [inG "a", { graph := some "b", external := true }] }),
     ("shipping", {
        typeName := "Int"
        joins := [{ graph := some "b", requires := some ("weight", [fld "weight"]) }] })]] ["a", "b"]

/-- `Query.a` provides `x` of products, `User.favorite` provides `y`. -/
def views : Super := sup
  [query ["s", "o"]
    [("a", { typeName := "Product", joins := [{ graph := some "s", provides := some ("x", [fld "x"]) }] }),
     ("user", { typeName := "User", joins := [inG "s"] })],
   obj "User" [jt "s"]
    [("favorite", {
        typeName := "Product"
        joins := [{ graph := some "s", provides := some ("y", [fld "y"]) }] })],
   obj "Product" [jt "s" (some "id"), jt "o" (some "id")]
    [("id", { typeName := "ID" }),
     ("x", { typeName := "Int", joins := [inG "o", { graph := some "s", external := true }] }),
     ("y", { typeName := "Int", joins := [inG "o", { graph := some "s", external := true }] })]] ["s", "o"]

/-- `top` moves from `a`, which provides `x`, to `b` under a label. -/
def moving : Super := sup
  [query ["a", "b"]
    [("top", { typeName := "Product", joins :=
        [{ graph := some "a", provides := some ("x", [fld "x"]), label := some (.custom "l") },
         { graph := some "b", overrideFrom := some "a", label := some (.custom "l") }] }),
     ("hot", { typeName := "Product", joins :=
        [{ graph := some "a", label := some (.custom "l") },
         { graph := some "b", overrideFrom := some "a", label := some (.custom "l") }] })],
   obj "Product" [jt "a" (some "id"), jt "b" (some "id")]
    [("id", { typeName := "ID" }),
     ("x", { typeName := "Int", joins := [inG "b", { graph := some "a", external := true }] })]] ["a", "b"]

/-- `top`, of a union type, moves from `a` to `b` under a label. -/
def unions : Super := sup
  [query ["a", "b"]
    [("top", { typeName := "U", joins :=
        [{ graph := some "a", label := some (.custom "l") },
         { graph := some "b", overrideFrom := some "a", label := some (.custom "l") }] })],
   ("U", { name := "U", kind := .union, joinTypes := [jt "a", jt "b"], members := [("a", "X"), ("b", "X")] }),
   obj "X" [jt "a", jt "b"] [("v", { typeName := "Int" })]] ["a", "b"]

/-- In `a` the field `f` gives books. -/
def media : Super := sup
  [query ["a", "b"]
    [("f", { typeName := "Media", joins := [{ graph := some "a", typeInGraph := some "Book" }, inG "b"] })],
   ("Media", {
      name := "Media", kind := .interface, joinTypes := [jt "b"]
      fields := [("title", { typeName := "String" })] }),
   ("Book", {
      name := "Book", kind := .object, joinTypes := [jt "a", jt "b"]
      fields := [("title", { typeName := "String" }), ("pages", { typeName := "Int", joins := [inG "a"] })]
      implements := [("b", "Media")] })] ["a", "b"]

/-- Products are found by `foo { bar }`, and only `c` has `foo { baz }`. -/
def nested : Super :=
  let key (g : String) : JoinType := { graph := g, key := some ("foo { bar }", [fld "foo" [fld "bar"]]) }
  sup
  [query ["b"] [("product", { typeName := "Product", joins := [inG "b"] })],
   obj "Product" [key "b", key "c"] [("foo", { typeName := "Foo" })],
   obj "Foo" [jt "b", jt "c"]
    [("bar", { typeName := "Int" }), ("baz", { typeName := "Int", joins := [inG "c"] })]] ["b", "c"]

/-- `price` moves from `a` to `b` under a label; `c` has it too, but products are not found there. -/
def priced : Super := sup
  [query ["d", "c"] [("product", { typeName := "Product", joins := [inG "d"] }),
     ("deal", { typeName := "Product", joins := [inG "c"] })],
   obj "Product" [jt "a" (some "id"), jt "b" (some "id"), jt "c", jt "d" (some "id")]
    [("id", { typeName := "ID" , joins := [inG "a", inG "b", inG "d"]}),
     ("price", { typeName := "Int", joins :=
        [{ graph := some "a", label := some (.custom "l") },
         { graph := some "b", overrideFrom := some "a", label := some (.custom "l") }, inG "c"] })]]
  ["a", "b", "c", "d"]

/-- `a` has all of the items, `b` some of it; `pages` moves from `a` to `b` under a label. -/
def library : Super := sup
  [query ["a", "b"]
    [("item", { typeName := "Media", joins := [inG "a"] }), ("top", { typeName := "Book" })],
   ("Media", {
      name := "Media", kind := .interface, joinTypes := [jt "a", jt "b"]
      fields := [("title", { typeName := "String" })] }),
   ("Book", {
      name := "Book", kind := .object, joinTypes := [jt "a" (some "id"), jt "b" (some "id")]
      fields := [("id", { typeName := "ID" }), ("title", { typeName := "String" }),
        ("pages", { typeName := "Int", joins :=
          [{ graph := some "a", label := some (.custom "l") },
           { graph := some "b", overrideFrom := some "a", label := some (.custom "l") }] })]
      implements := [("a", "Media"), ("b", "Media")] })] ["a", "b"]

end Verif.Walker.Ex
