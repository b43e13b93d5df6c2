import Verif.Core.Ast
import Verif.Core.Feed
import Verif.Core.Value

/-!
# Keys of caches and of request deduplication

What is fed to the hashers whose results identify operations, query plans and requests:
`query_planner/ast/hash.rs`, `pipeline/normalize.rs`, `pipeline/query_plan.rs`, `pipeline/parser.rs`,
`pipeline/mod.rs`, `executor/executors/dedupe.rs`.

There are two hashers. `Xxh3` reads bytes: it is a function `xxh` of the list of bytes. `FxHasher`
reads words, one for each `write`: it is a function `fx` of the list of words. Both are arbitrary.
-/

namespace Verif.Keys

/-- One `write` to `FxHasher`: the bytes of a string (with the `0xff` that follows), or a number;
numbers of all widths are the same to it. -/
inductive Word where
  | str (s : String)
  | num (n : Nat)
  deriving DecidableEq

/-- A signed 64-bit integer as the unsigned one with the same bits. -/
def bits (i : Int) : Nat := (i % 2 ^ 64).toNat

/-! ## Operations, `query_planner/ast/hash.rs` with `ORDER_INDEPENDENT = false` -/

mutual
/-- `impl ASTHash for Value`, `hash.rs:306-336`. -/
def litWords : Lit → List Word
  | .list vs => litsWords vs
  | .obj fs => entriesWords fs
  | .null => [.str "null"]
  | .int i => [.num (bits i)]
  | .float b => [.num b]
  | .enum s => [.str s]
  | .bool b => [.num b.toNat]
  | .str s => [.str s]
  | .var s => [.str s]

/-- The items of a list, `hash.rs:309-313`. -/
def litsWords : List Lit → List Word
  | [] => []
  | v :: vs => litWords v ++ litsWords vs

/-- The entries of an object, `hash.rs:314-319`. -/
def entriesWords : List (String × Lit) → List Word
  | [] => []
  | (k, v) :: fs => .str k :: (litWords v ++ entriesWords fs)
end

/-- `impl ASTHash for ArgumentsMap`, `hash.rs:239-255`. -/
def argsHash (fx : List Word → Nat) (args : List (String × Lit)) : Nat :=
  args.foldl (fun h kv => h ^^^ fx (.str kv.1 :: litWords kv.2)) 0

/-- `Option<String>::hash`. -/
def optWords : Option String → List Word
  | none => [.num 0]
  | some s => [.num 1, .str s]

/-- `@include` or `@skip` with its variable, `hash.rs:178-186`. -/
def condWords (directive : String) : Option String → List Word
  | none => []
  | some v => [.str directive, .str v]

/-- `hash.rs:174-176`. -/
def argsWords (fx : List Word → Nat) : Option (List (String × Lit)) → List Word
  | none => []
  | some args => [.num (argsHash fx args)]

/-- What follows the selections of a field, `hash.rs:174-188`. -/
def fieldEnd (fx : List Word → Nat) (f : FieldInfo) : List Word :=
  argsWords fx f.args ++ (condWords "@include" f.includeIf ++
    (condWords "@skip" f.skipIf ++ [.num f.omitted.toNat]))

/-- `impl ASTHash` for `SelectionSet`, `SelectionItem`, `FieldSelection` and
`InlineFragmentSelection`, `hash.rs:103-124`, 146-153, 168-189, 214-226. -/
def selWords (fx : List Word → Nat) : List Sel → List Word
  | [] => []
  | .field f s :: rest =>
    .str f.name :: (optWords f.alias ++ (selWords fx s ++ (fieldEnd fx f ++ selWords fx rest)))
  | .frag g s :: rest =>
    .str g.cond :: (selWords fx s ++
      (condWords "@include" g.includeIf ++ (condWords "@skip" g.skipIf ++ selWords fx rest)))
  | .spread n :: rest => .str n :: selWords fx rest

/-- `TypeNode`, `query_planner/state/supergraph_state.rs`. -/
inductive TypeNode where
  | named (n : String)
  | list (t : TypeNode)
  | nonNull (t : TypeNode)
  deriving DecidableEq

/-- `impl ASTHash for TypeNode`, `hash.rs:288-303`. -/
def typeWords : TypeNode → List Word
  | .named n => [.str n]
  | .list t => .str "list" :: typeWords t
  | .nonNull t => .str "non_null" :: typeWords t

/-- `VariableDefinition`, `query_planner/ast/operation.rs`. -/
structure VarDef where
  name : String
  type : TypeNode
  default : Option Lit

/-- The default value, through `impl ASTHash for Option`, `hash.rs:91-101`. -/
def defaultWords : Option Lit → List Word
  | none => [.num 0]
  | some v => .num 1 :: .num 1 :: litWords v

/-- `impl ASTHash for VariableDefinition`, `hash.rs:280-286`. -/
def varWords (v : VarDef) : List Word := .str v.name :: (typeWords v.type ++ defaultWords v.default)

/-- `impl ASTHash for Vec<VariableDefinition>`, `hash.rs:257-278`. -/
def varsHash (fx : List Word → Nat) (vs : List VarDef) : Nat :=
  vs.foldl (fun h v => h ^^^ fx (varWords v)) 0

/-- The variable definitions, through `impl ASTHash for Option`, `hash.rs:91-101`. -/
def varsWords (fx : List Word → Nat) : Option (List VarDef) → List Word
  | none => [.num 0]
  | some vs => [.num 1, .num 1, .num (varsHash fx vs)]

inductive Kind where
  | query | mutation | subscription
  deriving DecidableEq

/-- `OperationDefinition`, `query_planner/ast/operation.rs:17-25`, without its name, which is not
hashed. -/
structure Op where
  kind : Option Kind
  sels : List Sel
  vars : Option (List VarDef)

/-- `impl ASTHash for &OperationKind`, `hash.rs:68-76`. -/
def kindText : Kind → String
  | .query => "kind:query"
  | .mutation => "kind:mutation"
  | .subscription => "kind:subscription"

/-- `impl ASTHash for OperationDefinition`, `hash.rs:78-89`. -/
def opWords (fx : List Word → Nat) (op : Op) : List Word :=
  .num 1 :: .num 1 :: .str (kindText (op.kind.getD .query)) ::
    (selWords fx op.sels ++ varsWords fx op.vars)

/-- `ast_hash`, `hash.rs:61-65`. -/
def opHash (fx : List Word → Nat) (op : Op) : Nat := fx (opWords fx op)

/-! ## Query plans and documents -/

/-- `StableOverrideContext`, `pipeline/progressive_override.rs:130-137`; `BTreeMap`s are their
entries. -/
structure Overrides where
  flags : List (String × Bool)
  percentages : List (Nat × Bool)

/-- `#[derive(Hash)]` of `StableOverrideContext`. -/
def overrideBytes (c : Overrides) : List Nat :=
  le8 c.flags.length ++ c.flags.flatMap (fun kv => hashStr kv.1 ++ [kv.2.toNat]) ++
    (le8 c.percentages.length ++ c.percentages.flatMap fun kv => le8 kv.1 ++ [kv.2.toNat])

/-- `calculate_cache_key`, `pipeline/query_plan.rs:182-188`. -/
def planKey (xxh : List Nat → Nat) (fx : List Word → Nat) (op : Op) (c : Overrides) : Nat :=
  xxh (le8 (opHash fx op) ++ overrideBytes c)

/-- `Option<String>::hash`, on bytes. -/
def optBytes : Option String → List Nat
  | none => le8 0
  | some s => le8 1 ++ hashStr s

/-- The key of the parse cache, `pipeline/parser.rs:133-137`; `graphql_params.query` is an option. -/
def parseBytes (query : Option String) : List Nat := optBytes query

/-- The key of the normalization cache, `pipeline/normalize.rs:150-158`. -/
def normalizeBytes (query operationName : Option String) : List Nat :=
  match operationName with
  | some n => optBytes query ++ hashStr n
  | none => parseBytes query

/-- `hash_normalized_operation`, `pipeline/normalize.rs:108-128`. -/
def combinedHash (xxh : List Nat → Nat) (fx : List Word → Nat) (op : Op) (intro : Option Op) : Nat :=
  match intro with
  | none => xxh (le8 (opHash fx op) ++ [0])
  | some i => xxh (le8 (opHash fx op) ++ ([1] ++ le8 (opHash fx i)))

/-! ## Requests, `pipeline/mod.rs:922-1026` -/

mutual
/-- `hash_graphql_value`, `mod.rs:981-1026`. A number is represented by the first of `as_i64`,
`as_u64` and `as_f64` that has an answer. -/
def jsonBytes : Value → List Nat
  | .null => [0]
  | .bool b => [1, b.toNat]
  | .i64 i => 2 :: 0 :: le8 (bits i)
  | .u64 n => 2 :: 1 :: le8 n
  | .f64 b => 2 :: 2 :: le8 b
  | .str s => 3 :: hashStr s
  | .obj fs => 4 :: (le8 fs.length ++ membersBytes fs)
  | .arr vs => 5 :: (le8 vs.length ++ itemsBytes vs)
  | .raw _ => []

def itemsBytes : List Value → List Nat
  | [] => []
  | v :: vs => jsonBytes v ++ itemsBytes vs

def membersBytes : List (String × Value) → List Nat
  | [] => []
  | (k, v) :: fs => hashStr k ++ (jsonBytes v ++ membersBytes fs)
end

/-- `hash_graphql_variables`, `mod.rs:959-974`. The `HashMap` is its entries, in any order. -/
def mapBytes (m : List (String × Value)) : List Nat :=
  let keys := (m.map (·.1)).mergeSort (fun a b => decide (a ≤ b))
  le8 keys.length ++ keys.flatMap fun k =>
    hashStr k ++ (match lookup k m with | some v => jsonBytes v | none => [])

/-- `HeaderValue::to_str`: visible ASCII and tabs. -/
def headerText (v : List Nat) : Option String :=
  if v.all (fun b => (32 ≤ b && b < 127) || b == 9) then some (String.ofList (v.map Char.ofNat)) else none

/-- `RouterRequestDedupeHeaderPolicy`, `shared_state.rs:50-66`. -/
inductive HeaderPolicy where
  | all | none | only (names : List String)

/-- `should_include`, `shared_state.rs:58-65`. -/
def HeaderPolicy.includes : HeaderPolicy → String → Bool
  | .all, _ => true
  | .none, _ => false
  | .only names, n => names.contains n

/-- The order of pairs of strings, as `sort_unstable` uses it. -/
def pairLe (a b : String × String) : Bool := decide (a.1 < b.1) || (a.1 == b.1 && decide (a.2 ≤ b.2))

/-- The headers that count, `mod.rs:931-936`. Headers are pairs of a name and the bytes of a
value. -/
def countedHeaders (p : HeaderPolicy) (headers : List (String × List Nat)) : List (String × String) :=
  ((headers.filter fun h => p.includes h.1).filterMap fun h => (headerText h.2).map (h.1, ·)).mergeSort pairLe

/-- A request, as far as it is told apart from others. `method` is the index of one of the standard
methods. -/
structure Request where
  method : Nat
  path : String
  headers : List (String × List Nat)
  schema : Nat
  op : Op
  intro : Option Op
  variables : List (String × Value)
  extensions : Option (List (String × Value))

/-- `connection_fingerprint`, `mod.rs:922-943`, before hashing. -/
def connectionBytes (p : HeaderPolicy) (r : Request) : List Nat :=
  le8 r.method ++ (hashStr r.path ++ ((le8 (countedHeaders p r.headers).length ++
    (countedHeaders p r.headers).flatMap fun h => hashStr h.1 ++ hashStr h.2) ++ le8 r.schema))

/-- `extensions.map_or(0, hash_graphql_extensions)`, `mod.rs:454-457`. -/
def extensionsHash (xxh : List Nat → Nat) : Option (List (String × Value)) → Nat
  | none => 0
  | some m => xxh (mapBytes m)

/-- `inbound_request_fingerprint`, `mod.rs:945-957`, as called in `mod.rs:447-466`. -/
def fingerprint (xxh : List Nat → Nat) (fx : List Word → Nat) (p : HeaderPolicy) (r : Request) : Nat :=
  xxh (le8 (xxh (connectionBytes p r)) ++ (le8 (combinedHash xxh fx r.op r.intro) ++
    (le8 (xxh (mapBytes r.variables)) ++ le8 (extensionsHash xxh r.extensions))))

/-! ## Requests to subgraphs, `executor/executors/dedupe.rs` -/

/-- `SendRequestOpts`, `executor/executors/http.rs:195-204`, as far as it is hashed. The endpoint is
its text. -/
structure Outgoing where
  method : Nat
  endpoint : String
  headers : List (String × List Nat)
  body : List Nat

/-- `BTreeMap::insert`. -/
def insertKey {α : Type} (k : String) (v : α) : List (String × α) → List (String × α)
  | [] => [(k, v)]
  | (k', v') :: rest =>
    if k < k' then (k, v) :: (k', v') :: rest
    else if k = k' then (k, v) :: rest
    else (k', v') :: insertKey k v rest

/-- One header, `dedupe.rs:15-17`. -/
def addHeader (m : List (String × String)) (h : String × List Nat) : List (String × String) :=
  match headerText h.2 with
  | some t => insertKey h.1 t m
  | none => m

/-- The map of headers, `dedupe.rs:13-18`. -/
def headerMap (headers : List (String × List Nat)) : List (String × String) :=
  headers.foldl addHeader []

/-- `impl Hash for SendRequestOpts`, `dedupe.rs:10-25`. -/
def outgoingBytes (o : Outgoing) : List Nat :=
  le8 o.method ++ (hashStr o.endpoint ++ ((le8 (headerMap o.headers).length ++
    (headerMap o.headers).flatMap fun h => hashStr h.1 ++ hashStr h.2) ++
    (le8 o.body.length ++ o.body)))

end Verif.Keys
