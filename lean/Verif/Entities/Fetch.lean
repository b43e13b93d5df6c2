import Verif.Merge.Model
import Verif.Entities.Requires

/-!
# Fetching entities

The entity fetches of `bin/router/src/executor/execution/plan.rs`: building the representations,
putting the results in their places, and the errors of `execution_context.rs` and
`response/graphql_error.rs`.

`hash` stands for `to_hash` (`Requires.feed` behind a hasher), `rewrite` for the input rewrites.
Rust hash maps are association lists.
-/

namespace Verif.Entities

open Verif.Projection (Buf)

/-! ## Building the representations -/

/-- `representation_hash_to_index`, `index` and `filtered_representations`. -/
structure Sent where
  table : List (Nat × Nat)
  index : Nat
  buf : Buf

/-- The state of the callback: also `representation_hashes`. -/
structure Visit where
  hashes : List (Option Nat)
  sent : Sent

/-- The callback of `plan.rs:989-1027` and `:1527-1564`. -/
def visit (hash : Value → Nat) (rewrite : Value → Value)
    (send : Value → Buf → Bool → Buf × Bool) (entity : Value) (s : Visit) : Visit :=
  match entity with
  | .null => { s with hashes := s.hashes ++ [none] }
  | entity =>
    let h := hash entity
    let hashes := s.hashes ++ [some h]
    let isFirst := s.sent.table.isEmpty
    match s.sent.table.lookup h with
    | some _ => { s with hashes }
    | none =>
      let r := send (rewrite entity) s.sent.buf isFirst
      if r.2 then ⟨hashes, ⟨(h, s.sent.index) :: s.sent.table, s.sent.index + 1, r.1⟩⟩
      else ⟨hashes, { s.sent with buf := r.1 }⟩

/-- The walk along one path. -/
def visitPath (S : Schema) (hash : Value → Nat) (rewrite : Value → Value)
    (send : Value → Buf → Bool → Buf × Bool) (path : List Seg) (data : Value) (s : Sent) : Visit :=
  walk S (visit hash rewrite send) path data ⟨[], s⟩

/-- The start, `plan.rs:976-982` and `:1504-1507`. -/
def Sent.start : Sent := ⟨[], 0, ['[']⟩

/-- `filtered_representations` once the bracket is closed. -/
def Sent.text (s : Sent) : Buf := s.buf ++ [']']

/-- Preparing a flatten fetch, `plan.rs:963-1048`: nothing is fetched if nothing is represented. -/
def prepareFlatten (S : Schema) (hash : Value → Nat) (rewrite : Value → Value)
    (send : Value → Buf → Bool → Buf × Bool) (path : List Seg) (data : Value) : Option Visit :=
  let v := visitPath S hash rewrite send path data .start
  if v.sent.table.isEmpty then none else some v

/-- The walks along the distinct paths of an alias, in the order of their first occurrence,
`plan.rs:1512-1571`. -/
def visitPaths (S : Schema) (hash : Value → Nat) (rewrite : Value → Value)
    (send : Value → Buf → Bool → Buf × Bool) (data : Value) :
    List (List Seg) → List (List Seg × List (Option Nat)) → Sent →
    List (List Seg × List (Option Nat)) × Sent
  | [], done, s => (done, s)
  | p :: ps, done, s =>
    match done.lookup p with
    | some _ => visitPaths S hash rewrite send data ps done s
    | none =>
      let v := visitPath S hash rewrite send p data s
      visitPaths S hash rewrite send data ps (done ++ [(p, v.hashes)]) v.sent

/-- Preparing one alias of a batch, `plan.rs:1503-1596`: its paths with their hashes, and what is
sent. -/
def prepareAlias (S : Schema) (hash : Value → Nat) (rewrite : Value → Value)
    (send : Value → Buf → Bool → Buf × Bool) (data : Value) (paths : List (List Seg)) :
    List (List Seg × List (Option Nat)) × Sent :=
  let r := visitPaths S hash rewrite send data paths [] .start
  (paths.map fun p => (p, (r.1.lookup p).getD []), r.2)

/-! ## Putting the results in their places -/

/-- `entity_index_error_map`. -/
abbrev ErrMap := List (Nat × List Pos)

/-- `entry(entity_index).or_insert_with(Vec::new).push(error_path)`. -/
def ErrMap.push (m : ErrMap) (i : Nat) (p : Pos) : ErrMap :=
  match m with
  | [] => [(i, [p])]
  | (j, ps) :: m => if j = i then (j, ps ++ [p]) :: m else (j, ps) :: ErrMap.push m i p

/-- The callback of `plan.rs:1218-1249` and `:1452-1480`; its state is the counter and the error
map. -/
def place (hashes : List (Option Nat)) (table : List (Nat × Nat)) (entities : List Value) :
    Step (Nat × Option ErrMap) := fun target ep s =>
  match hashes[s.1]? with
  | some (some h) =>
    match table.lookup h with
    | none => (target, (s.1 + 1, s.2))
    | some i =>
      let m := match ep, s.2 with
        | some p, some m => some (m.push i p)
        | _, m => m
      match entities[i]? with
      | some e => (deepMerge target e, (s.1 + 1, m))
      | none => (target, (s.1 + 1, m))
  | _ => (target, (s.1 + 1, s.2))

/-- Merging the entities along a path, `plan.rs:1197-1250` and `:1439-1481`. The error map is there
if the response has errors. -/
def placeAll (S : Schema) (hashes : List (Option Nat)) (table : List (Nat × Nat))
    (entities : List Value) (path : List Seg) (data : Value) (m : Option ErrMap) :
    Value × Option ErrMap :=
  let r := edit S (place hashes table entities) path data (m.map fun _ => []) (0, m)
  (r.1, r.2.2)

/-- `merge_batch_alias_entities`, `plan.rs:1413-1485`, without the output rewrites. -/
def placeAlias (S : Schema) (table : List (Nat × Nat)) (entities : Option (List Value))
    (paths : List (List Seg × List (Option Nat))) (data : Value) (hasErrors : Bool) :
    Value × Option ErrMap :=
  let m : Option ErrMap := if hasErrors then some [] else none
  match entities with
  | none => (data, m)
  | some entities =>
    if table.isEmpty then (data, m)
    else paths.foldl (fun r p => placeAll S p.2 table entities p.1 r.1 r.2) (data, m)

/-! ## Errors -/

/-- `GraphQLError` and its extensions, `graphql_error.rs:12-33`. `rest` is everything that is only
passed on. -/
structure GErr where
  path : Option Pos
  service : Option String := none
  code : Option String := none
  affected : Option String := none
  rest : String := ""
  deriving DecidableEq

/-- `GraphQLErrorPath::entity_index_and_path`, `graphql_error.rs:278-290`. -/
def entityIndex : Pos → Option (Nat × Pos)
  | .key k :: .idx i :: rest => if k = "_entities" then some (i, rest) else none
  | _ => none

/-- `normalize_entity_error`, `graphql_error.rs:97-119`. -/
def normalizeError (m : ErrMap) (e : GErr) : List GErr :=
  match e.path.bind entityIndex with
  | none => [e]
  | some (i, rest) =>
    match m.lookup i with
    | none => [e]
    | some ps => ps.map fun p => { e with path := some (p ++ rest) }

/-- `add_subgraph_name` and `add_affected_path`, `graphql_error.rs:198-227`. -/
def annotate (subgraph : String) (affected : Option String) (e : GErr) : GErr :=
  { e with
    service := some (e.service.getD subgraph)
    code := some (e.code.getD "DOWNSTREAM_SERVICE_ERROR")
    affected := match affected with
      | some a => some a
      | none => e.affected }

/-- `handle_errors`, `execution_context.rs:47-72`: the errors that are added. -/
def handleErrors (subgraph : String) (affected : Option String) (errors : List GErr)
    (m : Option ErrMap) : List GErr :=
  errors.flatMap fun e =>
    match m with
    | some m => normalizeError m (annotate subgraph affected e)
    | none => [annotate subgraph affected e]

/-- `take_entities_by_key`, `value.rs:58-70`: the array of that key. That it is removed does not
matter here, as every alias has its own key. -/
def takeEntities (key : String) : Value → Option (List Value)
  | .obj fs => match getKey fs key with
    | some (.arr vs) => some vs
    | _ => none
  | _ => none

/-- Processing the response of a flatten fetch, `plan.rs:1182-1263`: the new data and the errors that
are added. The output rewrites are left out. -/
def finishFlatten (S : Schema) (subgraph affected : String) (path : List Seg) (v : Visit)
    (response : Value) (errors : Option (List GErr)) (data : Value) : Value × List GErr :=
  match takeEntities "_entities" response with
  | some entities =>
    let r := placeAll S v.hashes v.sent.table entities path data (errors.map fun _ => [])
    (r.1, handleErrors subgraph (some affected) (errors.getD []) r.2)
  | none => (data, handleErrors subgraph (some affected) (errors.getD []) none)

/-- The alias an error of a batch belongs to, `plan.rs:1350-1365`. If two had the same name the last
one would win; they are distinct. -/
def aliasOf (aliases : List String) (e : GErr) : Option Nat :=
  match e.path with
  | some (.key k :: _) => aliases.findIdx? (· = k)
  | _ => none

/-- `path.segments.first_mut()` becomes `_entities`, `plan.rs:1367-1377`. -/
def toEntities (e : GErr) : GErr :=
  match e.path with
  | some (.key _ :: p) => { e with path := some (.key "_entities" :: p) }
  | _ => e

/-- `partition_batch_errors_by_alias`, `plan.rs:1325-1389`: the errors of an alias, if it has any. -/
def errorsOf (aliases : List String) (errors : List GErr) (i : Nat) : Option (List GErr) :=
  match errors.filter (aliasOf aliases · = some i) with
  | [] => none
  | es => some (es.map toEntities)

/-- The errors of no alias, `plan.rs:1343`. -/
def unmatched (aliases : List String) (errors : List GErr) : List GErr :=
  errors.filter (aliasOf aliases · = none)

/-- What is kept for an alias of a batch: its name, its paths with their hashes, its table, and the
path as text if there is just one, `plan.rs:1591-1595` and `:1289-1293`. -/
structure AliasState where
  name : String
  paths : List (List Seg × List (Option Nat))
  table : List (Nat × Nat)
  affected : Option String

/-- Processing the response of a batch, `plan.rs:1264-1315`, for the aliases from the `i`-th on. -/
def finishAliases (S : Schema) (subgraph : String) (names : List String) (response : Value)
    (errors : List GErr) : Nat → List AliasState → Value → List GErr → Value × List GErr
  | _, [], data, out => (data, out)
  | i, a :: as, data, out =>
    let es := errorsOf names errors i
    let r := placeAlias S a.table (takeEntities a.name response) a.paths data es.isSome
    finishAliases S subgraph names response errors (i + 1) as r.1
      (out ++ handleErrors subgraph a.affected (es.getD []) r.2)

/-- `plan.rs:1264-1315`. -/
def finishBatch (S : Schema) (subgraph : String) (aliases : List AliasState) (response : Value)
    (errors : List GErr) (data : Value) : Value × List GErr :=
  let names := aliases.map (·.name)
  let r := finishAliases S subgraph names response errors 0 aliases data []
  (r.1, r.2 ++ handleErrors subgraph none (unmatched names errors) none)

end Verif.Entities
