import Verif.Keys.Model
/-!
# Minification of subgraph operations

Models `bin/router/src/query_planner/ast/minification/{mod,stats,transform,selection_id}.rs`: selection sets
that occur more than once in an operation for a subgraph are moved into named fragments.

Simplifications, for the whole file:
* `HashMap<SelectionId, _>` is a list of pairs with different keys; the counts of `Stats` are the list of the
  ids counted, most recent first;
* of the supergraph only the fields of each type and the names of their types are kept;
* the two hashers are arbitrary functions, `FxHasher` of the words written, `DefaultHasher` of the type name
  and the number written.
-/
namespace Verif.Minify
open Verif Verif.Keys

/-! ## Ids -/

/-- The hashers: `FxHasher` and `DefaultHasher`. -/
structure Hashers where
  fx : List Word → Nat
  dh : String → Nat → Nat

/-- `impl ASTHash for SelectionSet` with `ORDER_INDEPENDENT = true` (hash.rs 103-119): the hashes of the items,
combined by xor; the items as in `hash.rs` 146-153, 168-189, 214-226. -/
def setHash (fx : List Word → Nat) : List Sel → Nat
  | [] => 0
  | .field f s :: rest =>
    fx (.str f.name :: (optWords f.alias ++ (.num (setHash fx s) :: fieldEnd fx f))) ^^^ setHash fx rest
  | .frag g s :: rest =>
    fx (.str g.cond :: .num (setHash fx s) ::
      (condWords "@include" g.includeIf ++ condWords "@skip" g.skipIf)) ^^^ setHash fx rest
  | .spread n :: rest => fx [.str n] ^^^ setHash fx rest

/-- `generate_selection_id` (selection_id.rs 10-15). -/
def selId (H : Hashers) (t : String) (s : List Sel) : Nat := H.dh t (setHash H.fx s)

/-! ## The supergraph -/

/-- `definitions` of `SupergraphState`: for each type its fields with the inner type (`inner_type`). -/
structure Schema where
  defs : List (String × List (String × String))
  query : String
  mutation : Option String
  subscription : Option String

/-- `MinificationError` (error.rs 1-13). -/
inductive Err where
  | typeNotFound | noRoot | fieldNotFound | spread | entities
deriving DecidableEq, Repr

/-- `is_introspection_field` (selection_set.rs): the name starts with two underscores. -/
def introspection (f : FieldInfo) : Bool := f.name.toList.take 2 == ['_', '_']

/-! ## Counting -/

/-- The beginning of `walk_and_collect_stats` (stats.rs 49-69): empty sets are not counted, repeated ones not
entered. -/
def enter (H : Hashers) (S : Schema) (t : String) (items : List Sel)
    (k : List (String × String) → List Nat → Except Err (List Nat)) (seen : List Nat) : Except Err (List Nat) :=
  if items.isEmpty then .ok seen
  else
    let seen := selId H t items :: seen
    if seen.count (selId H t items) > 1 then .ok seen
    else
      match S.defs.lookup t with
      | none => .error .typeNotFound
      | some fields => k fields seen

mutual
/-- The loop of `walk_and_collect_stats` (stats.rs 71-140). -/
def walkItems (H : Hashers) (S : Schema) (fields : List (String × String)) :
    List Sel → List Nat → Except Err (List Nat)
  | [], seen => .ok seen
  | .field f sub :: r, seen =>
    if introspection f then walkItems H S fields r seen
    else if f.name = "_entities" then
      match walkEntities H S sub seen with
      | .ok seen => walkItems H S fields r seen
      | .error e => .error e
    else
      match fields.lookup f.name with
      | none => .error .fieldNotFound
      | some u =>
        match enter H S u sub (fun fs seen => walkItems H S fs sub seen) seen with
        | .ok seen => walkItems H S fields r seen
        | .error e => .error e
  | .frag g sub :: r, seen =>
    match enter H S g.cond sub (fun fs seen => walkItems H S fs sub seen) seen with
    | .ok seen => walkItems H S fields r seen
    | .error e => .error e
  | .spread _ :: _, _ => .error .spread
/-- The loop over the selections of `_entities` (stats.rs 84-110). -/
def walkEntities (H : Hashers) (S : Schema) : List Sel → List Nat → Except Err (List Nat)
  | [], seen => .ok seen
  | .field f _ :: r, seen => if introspection f then walkEntities H S r seen else .error .entities
  | .frag g sub :: r, seen =>
    match enter H S g.cond sub (fun fs seen => walkItems H S fs sub seen) seen with
    | .ok seen => walkEntities H S r seen
    | .error e => .error e
  | .spread _ :: _, _ => .error .spread
end

/-! ## Fragments -/

/-- `FragmentDefinition` (ast/fragment.rs). -/
structure Frag where
  name : String
  cond : String
  items : List Sel

/-- `Fragments` and `next_fragment_name_idx` (transform.rs 16, 34-35). -/
structure St where
  frags : List (Nat × Frag)
  next : Nat

/-- `ALPHABET` (transform.rs 297). -/
def alphabet : List Char := "abcdefghijklmnopqrstuvwxyzABCDEFGHIJKLMNOPQRSTUVWXYZ".toList

/-- The `while` loop (transform.rs 308-311); `n` bounds the number of digits. -/
def digits : Nat → Nat → List Char
  | 0, _ => []
  | n + 1, i => if i = 0 then [] else alphabet.getD (i % 52) 'a' :: digits n (i / 52)

/-- `generate_fragment_name` (transform.rs 298-314). -/
def fragName (i : Nat) : String :=
  if i < 52 then String.ofList [alphabet.getD i 'a'] else String.ofList (digits i i)

/-- `transform_selection_set` and `get_or_create_fragment` (transform.rs 57-93, 253-295). `k` is
`transform_selection_set_items` for the set. -/
def orFragment (H : Hashers) (dup : Nat → Bool) (t : String) (items : List Sel)
    (k : St → Except Err (List Sel × St)) (st : St) : Except Err (List Sel × St) :=
  let i := selId H t items
  if dup i then
    match st.frags.lookup i with
    | some fr => .ok ([.spread fr.name], st)
    | none =>
      let name := fragName st.next
      match k ⟨(i, ⟨name, t, []⟩) :: st.frags, st.next + 1⟩ with
      | .error e => .error e
      | .ok (new, st') =>
        .ok ([.spread name], ⟨(i, ⟨name, t, new⟩) :: st'.frags.filter (fun p => p.1 != i), st'.next⟩)
  else k st

mutual
/-- `transform_selection_set_items`, `transform_field`, `transform_inline_fragment`
(transform.rs 95-251). -/
def tItems (H : Hashers) (S : Schema) (dup : Nat → Bool) (t : String) :
    List Sel → St → Except Err (List Sel × St)
  | [], st => .ok ([], st)
  | .field f sub :: r, st =>
    if introspection f then
      match tItems H S dup t r st with
      | .ok (out, st) => .ok (.field f sub :: out, st)
      | .error e => .error e
    else if f.name = "_entities" then
      match tEntities H S dup sub st with
      | .error e => .error e
      | .ok (new, st) =>
        match tItems H S dup t r st with
        | .ok (out, st) => .ok (.field f new :: out, st)
        | .error e => .error e
    else
      match (S.defs.lookup t).bind (·.lookup f.name) with
      | none => .error .fieldNotFound
      | some u =>
        match orFragment H dup u sub (fun st => tItems H S dup u sub st) st with
        | .error e => .error e
        | .ok (new, st) =>
          match tItems H S dup t r st with
          | .ok (out, st) => .ok (.field f new :: out, st)
          | .error e => .error e
  | .frag g sub :: r, st =>
    match orFragment H dup g.cond sub (fun st => tItems H S dup g.cond sub st) st with
    | .error e => .error e
    | .ok (new, st) =>
      match tItems H S dup t r st with
      | .ok (out, st) => .ok (.frag g new :: out, st)
      | .error e => .error e
  | .spread n :: r, st =>
    match tItems H S dup t r st with
    | .ok (out, st) => .ok (.spread n :: out, st)
    | .error e => .error e
/-- The loop over the selections of `_entities` (transform.rs 176-211). -/
def tEntities (H : Hashers) (S : Schema) (dup : Nat → Bool) : List Sel → St → Except Err (List Sel × St)
  | [], st => .ok ([], st)
  | .field f sub :: r, st =>
    if introspection f then
      match tEntities H S dup r st with
      | .ok (out, st) => .ok (.field f sub :: out, st)
      | .error e => .error e
    else .error .entities
  | .frag g sub :: r, st =>
    match orFragment H dup g.cond sub (fun st => tItems H S dup g.cond sub st) st with
    | .error e => .error e
    | .ok (new, st) =>
      match tEntities H S dup r st with
      | .ok (out, st) => .ok (.frag g new :: out, st)
      | .error e => .error e
  | .spread n :: r, st =>
    match tEntities H S dup r st with
    | .ok (out, st) => .ok (.spread n :: out, st)
    | .error e => .error e
end

/-- Insertion by name. -/
def insertFrag (x : Frag) : List Frag → List Frag
  | [] => [x]
  | y :: r => if x.name ≤ y.name then x :: y :: r else y :: insertFrag x r

/-- `fragments_vec.sort()` (transform.rs 46-47). -/
def sortFrags : List Frag → List Frag
  | [] => []
  | x :: r => insertFrag x (sortFrags r)

/-- `OperationDefinition`: kind and selections; name and variables are passed on as they are. -/
structure Op where
  kind : Option Keys.Kind
  items : List Sel

/-- `Document` (ast/document.rs). -/
structure Doc where
  kind : Option Keys.Kind
  items : List Sel
  frags : List Frag

/-- `get_root_type_name` (mod.rs 23-40). -/
def rootType (S : Schema) : Option Keys.Kind → Option String
  | none => some S.query
  | some .query => some S.query
  | some .mutation => S.mutation
  | some .subscription => S.subscription

/-- `minify_operation`, `Stats::from_operation`, `transform_operation` (mod.rs 14-21, stats.rs 15-27,
transform.rs 18-55). -/
def minify (H : Hashers) (S : Schema) (op : Op) : Except Err Doc :=
  match rootType S op.kind with
  | none => .error .noRoot
  | some root =>
    match enter H S root op.items (fun fs seen => walkItems H S fs op.items seen) [] with
    | .error e => .error e
    | .ok seen =>
      if seen.all (fun i => seen.count i ≤ 1) then .ok ⟨op.kind, op.items, []⟩
      else
        let dup := fun i => decide (1 < seen.count i)
        match orFragment H dup root op.items (fun st => tItems H S dup root op.items st) ⟨[], 0⟩ with
        | .error e => .error e
        | .ok (items, st) => .ok ⟨op.kind, items, sortFrags (st.frags.map (·.2))⟩

end Verif.Minify
