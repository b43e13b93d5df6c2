import Verif.Core.Ast
import Verif.Keys.Model

/-!
# The router's own part of an operation

`executor/introspection/partition.rs`, `pipeline/introspection_policy.rs` and `pipeline/mod.rs:760-762`.
-/

namespace Verif.Introspection
open Verif.Keys (Op VarDef Kind)

/-- `partition.rs:70`: fields whose name begins with `__`, except `__typename`. -/
def isIntro (name : String) : Bool := ['_', '_'].isPrefixOf name.toList && name != "__typename"

/-- `partition_selection_set`, `partition.rs:60-172`: the part for subgraphs and the part for the
router. The `level` of the code is passed on but never looked at. -/
def partition : List Sel → List Sel × List Sel
  | [] => ([], [])
  | .field f s :: rest =>
    let p := partition rest
    if isIntro f.name then (p.1, .field f s :: p.2)
    else
      let q := partition s
      (if s.isEmpty || !q.1.isEmpty then .field f q.1 :: p.1 else p.1,
        if q.2.isEmpty then p.2 else .field f q.2 :: p.2)
  | .frag g s :: rest =>
    let p := partition rest
    let q := partition s
    (if q.1.isEmpty then p.1 else .frag g q.1 :: p.1, if q.2.isEmpty then p.2 else .frag g q.2 :: p.2)
  | .spread n :: rest =>
    let p := partition rest
    (.spread n :: p.1, p.2)

mutual
/-- `Value::variable_usages`, `query_planner/ast/value.rs`. -/
def litVars : Lit → List String
  | .var n => [n]
  | .list vs => litsVars vs
  | .obj fs => entriesVars fs
  | _ => []

def litsVars : List Lit → List String
  | [] => []
  | v :: vs => litVars v ++ litsVars vs

def entriesVars : List (String × Lit) → List String
  | [] => []
  | (_, v) :: fs => litVars v ++ entriesVars fs
end

/-- `variable_usages`, `query_planner/ast/selection_set.rs:80-85`, 266-285, 327-340 (a set in the
code). A spread uses none, `selection_item.rs:99-107`. -/
def usages : List Sel → List String
  | [] => []
  | .field f s :: rest =>
    entriesVars (f.args.getD []) ++ (f.includeIf.toList ++ (f.skipIf.toList ++ (usages s ++ usages rest)))
  | .frag g s :: rest => g.includeIf.toList ++ (g.skipIf.toList ++ (usages s ++ usages rest))
  | .spread _ :: rest => usages rest

/-- `PartitionedOperation`, `partition.rs:9-14`. -/
structure Parts where
  downstream : Op
  introspection : Option Op

/-- `partition_operation`, `partition.rs:17-52`. -/
def partitionOp (op : Op) : Parts :=
  let p := partition op.sels
  { downstream := ⟨op.kind, p.1, op.vars⟩
    introspection :=
      if p.2.isEmpty then none
      else some ⟨op.kind, p.2, op.vars.map (·.filter fun d => (usages p.2).contains d.name)⟩ }

/-- `BooleanOrProgram`, as `compile_introspection_policy` makes it, `introspection_policy.rs:14-27`; a
program is a function of the request that may fail. -/
inductive Policy (ρ : Type) where
  | value (b : Bool)
  | program (run : ρ → Option Bool)

/-- `compile_introspection_policy`, `introspection_policy.rs:14-27`. -/
def compile {ρ : Type} : Option (Bool ⊕ (ρ → Option Bool)) → Policy ρ
  | some (.inl b) => .value b
  | some (.inr run) => .program run
  | none => .value true

/-- `handle_introspection_policy`, `introspection_policy.rs:29-54`: may the request go on? An
expression that fails is an error. -/
def allowed {ρ : Type} (policy : Policy ρ) (request : ρ) : Bool :=
  match policy with
  | .value b => b
  | .program run => (run request).getD false

/-- `execute_pipeline`, `mod.rs:760-762`: the operation goes on to be planned. -/
def admitted {ρ : Type} (policy : Policy ρ) (request : ρ) (op : Op) : Bool :=
  match (partitionOp op).introspection with
  | some _ => allowed policy request
  | none => true

end Verif.Introspection
