import Verif.Fetch.Sels

/-!
# Fields of one key and different types

Fields of different types in one selection set may have the same response key and types that GraphQL does not
let stand beside each other. The planner looks for them in each fetch and gives them an alias, which is taken
back in the response. Models `query_planner/ast/mismatch_finder.rs` and
`query_planner/planner/fetch/optimize/type_mismatches.rs`.

What the code takes to be there (`unwrap`, `unreachable!`) is there, or the result is `none`.
-/

namespace Verif.Mismatch

open Verif.Fetch

/-- `TypeNode`, `state/supergraph_state.rs:1097-1101`. -/
inductive Ty where
  | named (n : String)
  | list (t : Ty)
  | nonNull (t : Ty)
deriving DecidableEq

/-- `inner_type`, `supergraph_state.rs:1123-1129`. -/
def Ty.inner : Ty → String
  | .named n => n
  | .list t => t.inner
  | .nonNull t => t.inner

/-- `can_be_merged_with`, `supergraph_state.rs:1132-1139`. -/
def Ty.merges : Ty → Ty → Bool
  | .list a, .list b => a.merges b
  | .nonNull a, .nonNull b => a.merges b
  | .named a, .named b => a == b
  | _, _ => false

/-- What is asked of the schemas: the type of a field of a type in the subgraph
(`mismatch_finder.rs:166-182`), does the subgraph have a type, is a type composite in the supergraph
(`supergraph_state.rs:963-970`). -/
structure Sub where
  field : String → String → Option Ty
  known : String → Bool
  composite : String → Bool

/-- `is_introspection_field`, `selection_set.rs:300-302`. -/
def meta_ (n : String) : Bool := "__".toList.isPrefixOf n.toList

/-- The segment of a field, `mismatch_finder.rs:96-100`. -/
def segOf (f : FieldInfo) : Seg := .field f.name f.alias f.args (condOf f)

/-- The types that were met, `encountered_field_to_type`, `mismatch_finder.rs:82`. -/
def met (k : String) : List (String × Ty) → Option Ty
  | [] => none
  | (k', t) :: r => if k' = k then some t else met k r

/-- Do two types clash, `mismatch_finder.rs:185-195`: the first one met, and another. -/
def clash (S : Sub) (a b : Ty) : Bool := !a.merges b && (!S.composite a.inner || !S.composite b.inner)

/-- A field whose type clashes with that of the first one with its key is reported, `mismatch_finder.rs:184-206`. -/
def report (S : Sub) (p : MPath) (f : FieldInfo) (ty : Ty) (enc : List (String × Ty)) : List MPath :=
  match met f.key enc with
  | some a => if clash S a ty then [p ++ [segOf f]] else []
  | none => []

/-- The first type of a key is kept, `mismatch_finder.rs:207-209`. -/
def keep (k : String) (ty : Ty) (enc : List (String × Ty)) : List (String × Ty) :=
  match met k enc with
  | some _ => enc
  | none => (k, ty) :: enc

/-- How much there is to do. -/
def size : List Sel → Nat
  | [] => 0
  | .field _ ss :: r => 1 + size ss + size r
  | .frag _ ss :: r => 1 + size ss + size r
  | .spread _ :: r => 1 + size r

/-- How much there is to do in a queue. -/
def total : List (String × MPath × List Sel) → Nat
  | [] => 0
  | x :: q => 1 + 2 * size x.2.2 + total q

theorem total_append (a b : List (String × MPath × List Sel)) : total (a ++ b) = total a + total b := by
  induction a with
  | nil => simp [total]
  | cons x a ih => simp only [List.cons_append, total, ih]; omega

/-- `handle_selection_set` and `handle_field`, `mismatch_finder.rs:70-217`: the queue of one level, with what
was met there. -/
def go (S : Sub) : List (String × MPath × List Sel) → List (String × Ty) → Option (List MPath)
  | [], _ => some []
  | (_, _, []) :: q, enc => go S q enc
  | (t, p, .field f ss :: r) :: q, enc =>
    if meta_ f.name then go S ((t, p, r) :: q) enc
    else
      match S.field t f.name with
      | none => none
      | some ty =>
        match (if ss.isEmpty || !S.known ty.inner then some [] else go S [(ty.inner, p ++ [segOf f], ss)] []),
            go S ((t, p, r) :: q) (keep f.key ty enc) with
        | some a, some b => some (report S p f ty enc ++ a ++ b)
        | _, _ => none
  | (t, p, .frag g ss :: r) :: q, enc =>
    if S.known g.cond then go S ((t, p, r) :: (q ++ [(g.cond, p ++ [.type [g.cond] (fragCond g)], ss)])) enc
    else none
  | (_, _, .spread _ :: _) :: _, _ => none
termination_by q => total q
decreasing_by
  all_goals simp only [total, size, total_append]
  all_goals omega

/-- `find_mismatches_in_node`, `mismatch_finder.rs:30-60`. -/
def find (S : Sub) : Selections → Option (List (String × MPath))
  | [] => some []
  | (t, ss) :: r =>
    if S.known t then
      match go S [(t, [], ss)] [], find S r with
      | some a, some b => some (a.map (fun p => (t, p)) ++ b)
      | _, _ => none
    else none

/-- A renaming to be taken back in the response: the path with the alias and the key, `type_mismatches.rs:86-96`. -/
abbrev Rewrite := MPath × String × String

/-- The alias is given to the first field that the last segment leads to, `type_mismatches.rs:67-100`. -/
def alias_ (s : Seg) (p : MPath) (items : List Sel) : Except Err (List Sel × Rewrite) :=
  let a := (nextAlias items (2 * items.length) 0).1
  match items.find? (fits s) with
  | some (.field f _) =>
    match updateFirst (fits s) (setAlias a) items with
    | some items' => .ok (items', (p, a, f.key))
    | none => .error .missingPath
  | _ => .error .missingPath

/-- One conflict, `type_mismatches.rs:56-102`: when its field is not found, nothing is done. -/
def fixOne (out : Selections × List Rewrite) (m : String × MPath) : Selections × List Rewrite :=
  match m.2.getLast? with
  | none => out
  | some s =>
    match updateDef m.1 (updateAt (alias_ s m.2.dropLast) m.2.dropLast) out.1 with
    | .ok (o, r) => (o, out.2 ++ [r])
    | .error _ => out

/-- `fix_conflicting_type_mismatches`, `type_mismatches.rs:20-120`, for one step. -/
def fix (S : Sub) (out : Selections) : Option (Selections × List Rewrite) :=
  (find S out).map (fun ms => ms.foldl fixOne (out, []))

end Verif.Mismatch
