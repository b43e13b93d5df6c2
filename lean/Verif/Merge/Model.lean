import Verif.Core.Value
/-
Model of /repo/bin/router/src/executor/response/merge.rs.
-/
namespace Verif

mutual
/-- `deep_merge` / `deep_merge_internal`, merge.rs:5-34. The `&mut target` becomes the result. -/
def deepMerge : Value → Value → Value
  -- merge.rs:12 — a null source is a no-op
  | t, .null => t
  -- merge.rs:17
  | .obj t, .obj s => .obj (mergeObjects t s)
  -- merge.rs:22
  | .arr t, .arr s => .arr (mergeZip t s)
  -- merge.rs:30 — kinds differ, or scalars: replace
  | _, s => s
termination_by t s => sizeOf t + sizeOf s

/-- `for (t, s) in target_arr.iter_mut().zip(source_arr)`, merge.rs:22-26. Extra target elements
stay, extra source elements are ignored. -/
def mergeZip : List Value → List Value → List Value
  | t :: ts, s :: ss => deepMerge t s :: mergeZip ts ss
  | ts, _ => ts
termination_by t s => sizeOf t + sizeOf s

/-- `deep_merge_objects`, merge.rs:36-86: the two early returns (40-48) and the loop. -/
def mergeObjects : Fields → Fields → Fields
  | t, [] => t
  | [], s => s
  -- merge.rs:56-76, the head comparison of the two-pointer loop
  | (tk, tv) :: t, (sk, sv) :: s =>
    match compare tk sk with
    | .lt => (tk, tv) :: mergeObjects t ((sk, sv) :: s)
    | .gt => (sk, sv) :: mergeObjects ((tk, tv) :: t) s
    | .eq => (tk, deepMerge tv sv) :: mergeObjects t s
termination_by t s => sizeOf t + sizeOf s
end

/-- Merging a sequence of responses in arrival order into the accumulated data
(execution/plan.rs:1079-1318, `process_job_result` calls `deep_merge` once per finished job). -/
def mergeAll (acc : Value) (rs : List Value) : Value := rs.foldl deepMerge acc

/-! ### Reading a JSON document -/

/-- Insert into a list of entries ordered by key, before the first larger or equal key. -/
def insertField (kv : String × Value) : Fields → Fields
  | [] => [kv]
  | x :: xs => if kv.1 ≤ x.1 then kv :: x :: xs else x :: insertField kv xs

/-- `entries.sort_unstable_by_key(|(k, _)| *k)`, value.rs:365 (and :182). The library's sort is
modelled by an insertion sort; on distinct keys all sorts give the same list. -/
def sortFields (fs : Fields) : Fields := fs.foldr insertField []

mutual
/-- `ValueVisitor`, value.rs:294-368 (and `Value::from`, value.rs:152-186): read a JSON document
into a `Value`. The document is given as a `Value` whose object entries are in document order. -/
def readJson : Value → Value
  | .arr vs => .arr (readJsonList vs)
  | .obj fs => .obj (sortFields (readJsonFields fs))
  | v => v
/-- `visit_seq`, value.rs:344-353. -/
def readJsonList : List Value → List Value
  | [] => []
  | v :: vs => readJson v :: readJsonList vs
/-- the entry loop of `visit_map`, value.rs:360-363. -/
def readJsonFields : Fields → Fields
  | [] => []
  | (k, v) :: fs => (k, readJson v) :: readJsonFields fs
end

end Verif
