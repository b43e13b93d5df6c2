import Verif.Rewrites.Model
/-
Specification for response rewrites: concrete positions in a response.
-/
namespace Verif.Rewrites

/-- One step from a value to a member. -/
inductive Step where
  | key (k : String)
  | idx (i : Nat)
  deriving DecidableEq

/-- The value at a concrete position. -/
def at? : List Step → Value → Option Value
  | [], v => some v
  | .key k :: p, .obj fs => match lookup k fs with
    | some v => at? p v
    | none => none
  | .idx i :: p, .arr vs => match vs[i]? with
    | some v => at? p v
    | none => none
  | _ :: _, _ => none

/-- `Addr sat path v p`: the rewrite path `path` addresses the concrete position `p` of `v`
(lists are entered at every index, type tests are evaluated on the object). -/
inductive Addr (sat : Sat) : List Seg → Value → List Step → Prop
  | here (v) : Addr sat [] v []
  | arr {seg rest vs i v p} : vs[i]? = some v → Addr sat (seg :: rest) v p →
      Addr sat (seg :: rest) (.arr vs) (.idx i :: p)
  | type {conds rest fs p} : typeTest sat fs conds = true → Addr sat rest (.obj fs) p →
      Addr sat (.typenameEquals conds :: rest) (.obj fs) p
  | key {k rest fs v p} : lookup k fs = some v → Addr sat rest v p →
      Addr sat (.key k :: rest) (.obj fs) (.key k :: p)

/-- `AddrObj sat path v p fs`: a rename path `... key k` addresses, at position `p` of `v`, the
object with fields `fs` (the object in which `k` is renamed). -/
inductive AddrObj (sat : Sat) : List Seg → Value → List Step → Fields → Prop
  | here {k fs} : AddrObj sat [.key k] (.obj fs) [] fs
  | arr {path vs i v p fs} : vs[i]? = some v → AddrObj sat path v p fs →
      AddrObj sat path (.arr vs) (.idx i :: p) fs
  | type {conds rest gs p fs} : typeTest sat gs conds = true → AddrObj sat rest (.obj gs) p fs →
      AddrObj sat (.typenameEquals conds :: rest) (.obj gs) p fs
  | key {k rest gs v p fs} : rest ≠ [] → lookup k gs = some v → AddrObj sat rest v p fs →
      AddrObj sat (.key k :: rest) (.obj gs) (.key k :: p) fs

/-- The key renamed by a path. -/
def lastKey : List Seg → Option String
  | [] => none
  | [.key k] => some k
  | [.typenameEquals _] => none
  | _ :: rest => lastKey rest

/-- Renaming `old` to `new` in `fs` keeps its place: every other key is on the same side of
both, and `new` is not already taken. -/
def KeepsPlace (old new : String) (fs : Fields) : Prop :=
  ∀ kv ∈ fs, kv.1 ≠ old → kv.1 ≠ new ∧ (kv.1 < old ↔ kv.1 < new)

end Verif.Rewrites
