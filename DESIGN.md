# Formal model of graphql-hive/router — design

`/repo` is read as text only. The model is in `/verif/lean/Verif`, one directory
per area:

* `Verif/<Area>/Model.lean`  — definitions, each with a comment `/repo` file and lines.
* `Verif/<Area>/Spec.lean`   — the small independent specification (only where one is needed).
* `Verif/<Area>/Lemmas.lean` — helper lemmas.
* `Verif/<Area>/Props.lean`  — the property theorems, named `Cnn_...`, with a
  non-vacuity `example` beside each of them.

All paths below are relative to `/repo/bin/router/src` unless they start with `lib/`.

## Trusted base

* Lean 4.33.0's kernel, and the axioms `propext`, `Classical.choice`, `Quot.sound`.
  No theorem uses any other axiom; `sorry`, `native_decide`, `bv_decide` are not used.
* The reading of the Rust code: nothing here runs the code. Each definition cites what it models.
* External code taken as parameters: xxh3/fx hashing (we reason about the byte
  stream that is fed to the hasher, and take equality of hashes as a relation that
  contains equality of streams), regular expressions (an arbitrary predicate), clocks
  (an arbitrary function), sockets and file systems (operations in a history), the
  JSON number printer/parser, VRL expressions (arbitrary functions).
* Rust integers are modelled by `Nat`/`Int`, except where saturation or wrap-around is
  part of the property (demand control), where the saturating operations are modelled.
* Allocation, memory safety of the `unsafe` SIMD code, floating point formatting and
  tokio's scheduling fairness are not modelled.

## Plan per property

| id | model | proof |
|----|-------|-------|
| C01 | `Value`, `deep_merge` as structural recursion on two sorted association lists | induction; lookup characterisation; sortedness invariant |
| C02 | same | induction on compatible pairs; permutation induction |
| C03 | Rust std `binary_search_by` loop, exactly | loop invariant; sortedness from the reader's sort |
| C04 | `KeyRenamer`, `ValueSetter` | negation by witness for sortedness, `_partial` when the renamed key keeps its place |
| C05–C06 | operation filter, trie, rebuilder, checker | induction over selections |
| C07 | scope interner, rule evaluation | decision logic against string-level spec |
| C08 | trie insert/find | induction over paths |
| C09–C10 | projector writing to a buffer | refinement to a completion semantics on values followed by a renderer |
| C11 | escape table, chunked loop | table by `decide`, then induction; round trip through an independent decoder |
| C12 | `collect_variables`, `validate_runtime_value` | against inductive conformance relation |
| C13–C14 | memoised counters | against expansion semantics, with fuel elimination |
| C15–C16 | decision logic | case analysis |
| C17 | parse, merge, finalize | fold invariant |
| C18–C19 | header plans, aggregator | fold invariant |
| C20 | transition system of callers, cells and the map | invariant over traces |
| C21–C23 | token streams fed to the hashers | prefix-freeness; negations by witness where the stream is ambiguous |
| C24 | two traversals | functional correspondence by induction |
| C25 | transition system | invariant over traces |
| C26–C27 | decision logic | case analysis, list lemmas |
| C28 | TTL arithmetic | omega |
| C29–C30 | decision logic; history machine | invariant |
| C31 | cost expressions, saturating arithmetic | denotational equality |
| C32 | branch and bound over abstract costs | validity proved; optimality refuted by witness, conditional theorem |
| C33 | in-degree waves | invariant |
| C34–C35 | plan node optimizer | denotation of plans as multisets of fetches |
| C36–C37 | decision logic | case analysis |
| C38 | condition algebra | denotational equality |
| C39 | normalization passes | CollectFields semantics, pass by pass |
| C40 | partition | induction |
| C41 | bounded channel machine | invariant over traces |
| C42 | representation writer | refinement to a value-level projection and a renderer |
| C43–C44 | transition system of pump, broadcast channel and receivers | invariant over traces; negation by witness with deduplication |
| C45 | requires-projection of lists | induction; witness |
| C46 | token stream of the request fingerprint for subgraph deduplication | as C21 |
| C47 | token lookup, key choice, claims checks; signature check a parameter | case analysis against a relation |
| C48 | transition system of interleaved requests sharing the parse, validation, normalization and plan caches | invariant over traces |
| C49 | body reader over chunks | loop invariant |
| C50 | minifier of subgraph operations; hash of selection sets a parameter | expansion of fragments gives back the operation |
| C51 | builder of response plans, and the projector of C09–C10 | path semantics of plans against CollectFields; induction over the operation and over plan height |
| C52, C53, C54 | the search for paths on the graph of the supergraph | ways along trails as specification, mutual induction over search and requirements; measure for every loop; negation by witness; for operations of one subgraph, progress by induction over the operation |
| C55 | the builder of the graph | every link has a reason in the supergraph, every reason a link |
| C56 | both | induction over the use of edges by paths and requirements |
| C57–C61 | the fetch graph: how it is made of paths, and the passes that optimize it | negation by witness, from the supergraph and the operation to the optimized graph; for graphs in which response keys have one meaning, what the steps ask for is shown to be the same after every pass, by induction over the selection sets and over the passes |
| C62 | the edges of the fetch graph | ways in the graph before and after every pass: merging two steps makes a cycle only if one waits for the other through a third one, which the conditions of the passes exclude, by invariants over their loops |
| C63 | the same model | negation by witness, from the supergraph and the operation to the optimized graph |
| C64 | the same model, with the trees of paths and their merging | induction over trees: whatever is on a path of the merged tree is carried by the step it is entered in, and no later step takes it away |
| C65 | the loops of the passes, with a bound that the code does not have | the bound is not reached: steps are merged only finitely often, and between merges each entry of the queue stands for fewer ways through the graph, which has no cycle; rounds make the graph smaller |
| C66, C67, C69 | the readers of streams as functions of frames of bytes; how a response is read is a parameter | the loop over a buffer is a function of the bytes so far: induction over frames, with the buffer as what is left; the lines and parts of a stream as specification |
| C68, C70 | the writers of streams; heartbeats at any time | reading the written stream by the HTML standard, by RFC 2046 and by the router's own readers: induction over what happens to the writer |
| C71, C72 | the callback endpoint, the buffer of 16 and the stream, as steps that interleave in any order | an invariant over histories that ties the buffer to what was accepted and what was yielded; a refused request is shown to leave the state as it was |
| C73, C74 | entries, pending removals, the two loops of the enforcer, the clock | invariants over histories: entries, marks and last signs of life agree with what happened |
| C75 | the walk of the visitor as the list of what rules are told; each rule as a function of it | each rule is shown equivalent to a statement on documents that knows no visitor; the loops over spreads are shown to reach what an inductive relation reaches |
| C76 | the search with its stack, over the spreads the code collects | the search finds exactly the cycles of near spreads; that deep ones are missed is refuted with a document |
| C77 | the maps from scopes to uses and spreads, the search from every operation | what is found from an operation is what it uses by the inductive definition |
| C78 | the type in scope along the walk, the rules as functions of what is told | what is told of a selection is what an inductive relation on documents says; the rules are shown equivalent to statements with it; the exceptions refuted with documents |
| C79 | the directive rules with the place they keep | a generic lemma on rules that keep a state over the walk |
| C80 | the three rules, one with the arguments it keeps over the walk | the same lemma; that the kept arguments are those of another field is refuted with a document |
| C81 | possible types and their overlap | overlap in a well formed schema is shown to be the existence of a common object type |
| C82 | the expected input type along the walk of values | accepted is shown equivalent to an inductive relation with three exceptions; without those it is the relation the specification has; the exceptions refuted with documents |
| C83 | the fields seen in object literals | induction over values |
| C84 | uses with the type and default of their places, by scope, the search of C77, `is_subtype` | the uses found from an operation are those of an inductive definition, and the comparison of types is that of the specification |
| C85 | the collection of fields with the fragments it has been to | a depth-first search that visits each fragment once finds what is reached; the aliases refuted with a document |
| C86 | the functions of the rule as calls with fuel, with what they remember | a call that answers that there is a conflict is shown to have found one as an inductive relation on documents defines it; without spreads and lists every one is found; the rest refuted with documents |
| C87 | the same calls | the depth of a selection set with its fragments bounds the calls if there are no cycles; a document for which no fuel is enough refutes the rest |
| C88 | the `Display` implementations of planned documents as functions to texts; the lexical and syntactic grammar of the language as inductive relations, from the specification | by induction over documents the text has tokens that the grammar gives the document; tokens and documents of a text are unique, by a scanner and by a parser with ideal literals |
| C89 | the tokenizer and the parsers of `combine` as total functions with fuel; the same grammar | soundness: what each parser takes is in the grammar; completeness: what is in the grammar is taken, given conditions on tokens; each condition that is needed has a document that refutes the rest |
| C90 | the same parsers, with a panic as an outcome | no parser panics if block strings can be read; with white space of one byte the cut is at a character; a document that panics refutes the rest |
| C91 | the tokenizer with its limit | the tokens with a limit are those without, or have an error, by induction over the text; two documents refute the rest |
| C92 | the loop of `minify_query` over the tokens of the model of the tokenizer | each token is taken again from its text if what follows may follow; in an accepted document no number stands before dots, by induction over the parsers |
| C93 | the transformer with its `Keep`/`Replace`, its two uses, and the definitions of introspection | both walks are a filter followed by a map where something changes; composed, they are the specification definition by definition |
| C94 | the loop that fills the tables, and the lookups | what the loop leaves under a name, by induction over the definitions; the second level adds nothing where interfaces are implemented with what they implement |
| C95 | a connection as a state with the steps of its frame handler, subscription tasks and timers | each step moves one operation from list to list; what was told is what came, by induction over the history; a stopped operation never comes back |
| C96 | the functions that gather headers, with the payload as a list in any order | the last entry wins; for payloads in lower case the kept values are the current ones, by induction over the operations |
| C97 | the entries of the pool with the steps of callers, attempts and owners; each step is one access to the map | an invariant of fourteen clauses, among them that entries and attempts belong together; who is on whose list, by induction over the history |
| C98 | the task that owns a connection, its queue, permits and timer, with time | invariants: the count of operations, when the last ended, where each waiting caller is, the order of commands |
| C99 | the map of operations of a connection with the steps of its reader and of guards | what was put into each stream is a function of the history that looks at this operation only |
| C100 | the same model | the part before the loss; a refutation: an operation started after it |
| C101 | the resolver of introspection over documents of the client's schema; selections are trees, so that the depth is that of the operation | the fields of `__Schema`, `__Type`, … as a relation between objects (`Tells`); that answers show them, by induction over selections. Seven refutations |
| C102 | the same model, panics are `none` | every lookup that must succeed does; the client's schema is closed if the visible part of the supergraph is |
| C103 | the same model after the model of the client's schema (C93) | the client's schema is a function of what is visible |
| C104 | removing literals, sorting and writing the text of an operation, on the documents of `Text` | the result is clean, by induction; documents that are alike have the same stripped document (noninterference) |
| C105 | the same; sorting is any function that permutes and orders by key | the tokens that are written derive the sorted document in the grammar, and the text lexes to these tokens; sorted lists with different keys are unique; refutations where order is kept |
| C106 | the buffer and the batches of the usage agent; each step takes a lock once | what was kept is a permutation of what is pending, buffered and handed over, by induction over the history |
| C107 | exclusion, sampling and the bounded set of keys; the hash is a parameter | the set is the last distinct keys inserted (refinement); each decision is a function of the history before it |
| C108 | `produce_report` with the processor of operations as a parameter | by induction over the batch; a refutation: two operations of one document |
| C109 | collecting schema coordinates, as a fold over what the visitor of `Valid` tells, with the field it is in | what was collected stays; the search through input types, with its set of visited types, is complete and bounded by the types (invariant of a depth-first search); soundness step by step, of the names and of the marks that a value was given; refutations for directives, lists that cannot be null and introspection |
| C110 | the cache of processed operations, its callers as programs of two steps, evictions at any time | invariant on reachable states; a schedule that panics |
| C111 | the four loaders, the task that polls, the channel, the task that builds and the place requests take it from, as one transition system | by induction on the run: what is served is a sublist of what was on its way and what the source sent |
| C112 | the same beside a source that changes; what an honest source answers is a small specification | invariant: if the name that is remembered is that of what the source has, the newest on its way is what it has; refutations for builds that fail once, bodies that are lost, files with older times and sources that are asked once |
| C113 | selecting for a request, the cache of runtimes with its cells, calls in steps, and the task that cleans up | invariants: cells have owners, entries are distinct and bounded, every entry is waited for once messages are read; a schedule in which messages are sent in the wrong order |
| C114 | the answer of a coprocessor, how headers are read, replaced and built, and what each of the five stages changes | what a header's values are after the change is given per name; by induction on the headers of the answer; refutations for repeated headers of an answer that ends the request, and for values that are not text |
| C115 | the request context with its domains, the patch and the selection | by induction on the patch |
| C116 | a request through all stages, with parsing, validation and execution as parameters | by cases on the stages; a document that a coprocessor gives is not validated |
| C117 | the plan, the aggregator and its merging into the extensions of the response | what is kept of a key, by induction on the responses and their entries; keys are distinct, so merging finds each once |
| C118 | the channel, the thread that collects spans and its exports, as steps in any order | an invariant over all runs: where each span is, by counting; that traces are segments of what was taken; the limits. Partial: shutdown loses spans when exports are concurrent or the channel is full, and late spans are dropped |
| C119 | the search for conflicts, level by level with its queue, and the renaming | a level as an inductive relation; induction on the search: it finds nothing exactly when all levels are clean, and what it finds is a conflict; the alias is new by counting names. Partial: three types, nullability of objects, and conflicts below composite fields are refuted |
| C120 | the folding of fragments, with the comparison of selection sets and their merging | what objects of given types are asked for along a path, by recursion on the selection set; comparison, merging and folding keep it, by induction. Partial: that the arguments are accepted is refuted |
| C121 | reading, matching and writing of status codes, the choice of settings, and a request through a breaker that is a parameter | the documented forms as an inductive relation; cases and arithmetic. Partial: that other strings are refused is refuted |
| C122 | the overrides one after the other, on a configuration that is a map from keys to values | a table of variables and settings as specification; a lookup through every override. Partial: refuted for variables that belong to a source of the supergraph and are set without it |
| C123 | the maps of endpoints, expressions and executors, with requests and subscriptions as steps | the documented order of overrides as specification; an invariant over all histories. Partial: reuse is refuted where subscriptions are over HTTP |
| C124 | registering and resolving of timeouts, with expressions as a parameter | an invariant of the map of timeouts; cases. Partial: refuted if the expression for all fails or depends on a default |

## What is modelled

Paths are relative to `/repo/bin/router/src` unless they start with `lib/`.

| area | code |
|------|------|
| `Merge` | `executor/response/merge.rs`, the reader and `binary_search` of `executor/response/value.rs` |
| `Rewrites` | `executor/execution/rewrites.rs` |
| `Auth` | `pipeline/authorization/*`, `pipeline/trie.rs`, `pipeline/nullify/*`, `executor/operation_filter.rs`: interner, rules, trie, collector, rebuilder |
| `Projection` | `executor/projection/response.rs` and the condition algebra of `plan.rs` |
| `Builder` | the rest of `executor/projection/plan.rs`: from the normalized operation to the plan |
| `Json` | `executor/json_writer.rs` with its vectorised loop; a grammar of JSON texts as specification |
| `Variables` | `executor/variables/mod.rs` |
| `Limits` | depth, alias, directive rules of `pipeline/validation/*` |
| `Cors`, `Csrf` | `pipeline/cors.rs`, `pipeline/csrf_prevention.rs` |
| `Headers` | `executor/headers/{request,response,plan,cache_control,sanitizer}.rs` |
| `InFlight` | `executor/executors/inflight.rs` |
| `Keys` | the fingerprints of requests and operations: `query_planner/ast/hash.rs`, `pipeline/{mod,normalize,query_plan}.rs`, `shared_state.rs`, `executor/executors/dedupe.rs` |
| `Entities` | `executor/projection/request.rs`, entity deduplication, batches, error paths of `executor/execution/plan.rs` |
| `LongLived`, `Subs` | `pipeline/long_lived_client_limit.rs`; `pipeline/active_subscriptions.rs`, `executor/executors/subscription_buffer.rs` |
| `Masking` | `executor/execution/error_masking.rs`, `executor/response/graphql_error.rs` |
| `Jwt` | `jwt/*` without the cryptography |
| `Persisted` | `pipeline/persisted_documents/*`, file and storage reload |
| `Demand` | `executor/execution/demand_control/*`, but for the measured cost of responses |
| `Best` | `query_planner/planner/{best.rs,tree/*}` as far as the choice of paths |
| `Plan` | `query_planner/planner/query_plan.rs`, `query_planner/planner/query_plan/optimize.rs`, the plan executor's control flow |
| `Overrides` | `pipeline/progressive_override.rs`, override edges of `query_planner/graph/{edge,mod}.rs` |
| `Normalize` | `query_planner/ast/normalization/*` |
| `Introspection` | partition of introspection fields and the policy |
| `Gate` | request pipeline: body reader, operation kind, content negotiation, caches |
| `Minify` | `query_planner/ast/minification/*` |
| `Graph` | `query_planner/graph/*`, from a supergraph whose definitions and join directives are parsed: nodes, edges, views of `@provides`, unions, interface objects |
| `Walker` | `query_planner/planner/walker/*`: direct and indirect paths, requirements and their cycles, look-ahead, narrowing, best paths |
| `Fetch` | `query_planner/planner/fetch/*`, `query_planner/planner/tree/query_tree{,_node}.rs`, `query_planner/ast/{safe_merge,merge_path}.rs`: from the paths of the walker to the fetch graph and through its optimizers; not `optimize/fold_concrete_selections_to_interfaces.rs` and `type_mismatches.rs`, which are in `Fold` and `Mismatch` |
| `Stream` | `executor/executors/{sse,multipart_subscribe}.rs`, `pipeline/{sse,multipart_subscribe}.rs`: bytes, UTF-8 and white space as in Rust's `str`; not the JSON of responses (a parameter), the HTTP headers, `parse_boundary_from_header` and the 10 seconds between heartbeats |
| `Callback` | `pipeline/http_callback.rs`, `executor/executors/{http_callback,subscription_buffer}.rs`, the enforcer of heartbeats in `schema_state.rs`: each lock or channel operation is one step, steps of all subscriptions interleave freely; not the JSON of bodies, how identifiers are drawn, the request that opens a subscription and when the enforcer runs |
| `Valid` | `lib/graphql-tools/src/ast/{operation_visitor,ext}.rs`, `lib/graphql-tools/src/validation/rules/*.rs`: documents after parsing, the walk, and each rule as "is an error reported"; `OverlappingFieldsCanBeMerged` with `Value::compare`; not positions and texts of errors |
| `Text` | `query_planner/ast/{value,selection_set,operation,fragment,document}.rs` (`Display`), `executor/json_writer.rs` (`write_named_operation`), `executor/execution/operation_name.rs`; `lib/graphql-tools/src/parser/{tokenizer,common,helpers}.rs`, `parser/query/{grammar,minify}.rs` (`minify_query`): texts are lists of characters; `f64` is a parameter of which `FloatsOk` is assumed (reading what `Display` writes gives the number back); not positions and texts of errors, nor the parser for schemas |
| `Client` | `query_planner/consumer_schema/*`, `query_planner/utils/schema_transformer.rs`, `executor/introspection/{schema,resolve}.rs`: documents after parsing; the text of a default value is that of the document; not type extensions (the code panics on them), positions, the hash |
| `Socket` | `pipeline/websocket_server.rs`, `executors/websocket_common.rs`, the messages of `executors/graphql_transport_ws.rs`, the headers of `config/websocket.rs`: one connection; the pipeline yields any outcome. Whether frames are handled one at a time is up to the server library: the model lets handlers overlap. Not: JSON of messages, metrics |
| `Pool` | `executors/websocket_pool.rs`, `executors/websocket_client.rs` after the handshake: the pool, the owner of a connection, the connection. Names of attempts, callers and connections come from a clock; writing a message is one step. Not: connecting, TLS, heartbeats, metrics, dropping the whole pool |
| `Usage` | `lib/hive-console-sdk/src/agent/{buffer,usage_agent}.rs`, `helpers.rs`, `utils.rs` 520-788, `graphql-tools/src/ast/operation_transformer.rs`, `parser/query/minify.rs`: the reported text, decisions, buffer, batches and their reports. The hash of a key (xxh3) and, in reports, the processor of operations are parameters. `sort_unstable_by` is any function that permutes and orders; the escapes of strings are left out, as only empty strings are written; `ryu` is assumed to write zero as `0.0`. `utils.rs` 20-515 and 797-876 are modelled too: schema coordinates are kept as what they are of, and a set comes out in any order. Not: sending, retries, the timer of flushes |
| `Reload` | `supergraph/{base,file,hive,storage,apollo_graphos}.rs`, `supergraph_fetcher/async_fetcher.rs` 19-91, `schema_state.rs` 330-372, 453-527 (as success or failure), 534-676, 718-777 and 811-990. Texts are opaque, and so is what is built. Not: retries, circuit breakers and time, the interval that Uplink asks for, plugins' hooks on loading, the heartbeat task (see `Callback`), what a runtime consists of |
| `Coproc` | `executor/coprocessor/{stage,runtime}.rs` and `stages/{router,graphql}.rs` (what answers do; of what is sent, the headers and the context), `executor/request_context/{domains,deser,api/coprocessor}`, `plugins_service.rs` 78-98 and 160-168, where the stages are called in `pipeline/mod.rs` 319-347 and 783-823 and `lib.rs` 331-366. The coprocessor may answer anything. Parsing, validation and execution are parameters, and so is reading a body as parameters. Not: the client of the coprocessor, conditions, plugins, the limit of the body, what the router itself writes to the context during a request |
| `Extensions` | `executor/extensions/{plan,compile,aggregator}.rs`. Values are opaque |
| `Traces` | `telemetry/traces/trace_batch_span_processor.rs`. Spans are an identity, a trace and whether they are a root; whether an export succeeds is up to the exporter |
| `Mismatch` | `query_planner/ast/mismatch_finder.rs`, `query_planner/planner/fetch/optimize/type_mismatches.rs` for one step. The schema is asked for types of fields, known types and composite types; where the code would panic there is no result |
| `Fold` | `query_planner/planner/fetch/optimize/fold_concrete_selections_to_interfaces.rs` for one step, without `rewrite_root_output`; `query_planner/ast/semantic_eq.rs`; rounds of normalizing and folding (`optimize/mod.rs:35-59`) for one selection set. Not composed with the other optimizers in `Fetch` |
| `Breaker` | `StatusCodeMatcher` in `config/traffic_shaping.rs`, the breakers in `executor/executors/map.rs`. Not the states of a breaker, which are in the library `recloser`; strings are lists of characters |
| `Env` | `apply_overrides` in `config/env_overrides.rs`. Not the reading of variables (`envconfig`) nor the layers of the library `config`, where an override is taken to set one key; trimming is of blanks only |
| `Target` | endpoints and executors in `executor/executors/map.rs`, `config/override_subgraph_urls.rs`, the protocol in `config/subscriptions.rs`. Expressions and URLs are parameters; each call is one step; TLS, plugins and the pool are left out. `Timeout` has the timeouts, without the timer |

Not modelled: the parsing of supergraph documents, configuration loading,
telemetry, the HTTP and WebSocket clients below the level of messages, plugins and
VRL, TLS. Properties that would need them are stated with their results as parameters.

## Axioms

Every theorem in `MANIFEST.json` depends on a subset of `propext`, `Classical.choice`, `Quot.sound`
(checked with `#print axioms` and by `vcheck`).

## Where the code does not have the property

Each is a theorem with a concrete witness or for all inputs. They are statements about the model; the
lines they rest on are cited at the definitions.

* C04_rename_hides_keys: renaming a key in place leaves the keys unsorted, later lookups miss it;
  C04_rename_panics_without_key: an empty path panics.
* C09_custom_scalar: a `null` custom scalar is raw text and does not propagate. C10_typename_breaks_out:
  a subgraph's `__typename` is written without escaping.
* C12_input_object, C12_int, C12_integer_id, C12_error_anonymous: input objects are not looked into,
  `Int` takes 64 bits, integers are no `ID`s, errors do not name the variable.
* C13_spread_counts_twice: without flattening, a named spread counts as two levels.
* C15_*: `Origin: null` matches, unmatched origins get no `Vary`, a second `Vary` line is lost,
  credentials cannot be switched off by a policy. C16_*: prefixes of content types are compared.
* C17_*: unrecognised, second and missing `Cache-Control` headers. C18_*: a rename rule can forward
  hop-by-hop headers.
* C20_two_executions_one_key: two executions for one key may overlap.
* C21_binary_header, C46_binary_header, C46_repeated_header, C22_*, C23_*: fingerprints that do not tell
  apart what they should, whatever the hash function.
* C24_shifted, C27_path_leaks, C42_malformed, C45_null_items_dropped: entities.
* C26_subscription_event, C26_other_service: errors that escape masking.
* C28_after_expiry: a cached token is served up to a second after it expired.
* C29_hive_collision, C29_hive_unavailable, C30_startup_race, C30_failed_read_not_retried: persisted
  documents.
* C31_wraps, C31_cache_wrong_plan, C31_unsliced, C31_measure_refuses, C31_skipped_fragment_counts:
  demand control.
* C32_never_searches, C32_not_optimal: the branch and bound search stops at once; the greedy choice is
  not the cheapest.
* C34_null_argument, C34_representations, C50_null_argument: `null` and `"null"` are not told apart; a
  client variable may be called `representations`.
* C36_union, C36_hundred_missed: progressive overrides.
* C37_first_of_several, C37_stream_only_executes; C48_coprocessor_unvalidated.
* C38_enum_error_lost, C38_guard_of_disjunction: conditions of response plans.
* C39_introspection_panics: an inline fragment without a type below an introspection field panics.
* C43_dedupe_leader_misses, C44_dedupe_leak: deduplicated subscriptions.
* C47_unknown_algorithm, C47_prefix_ends_search: JWT.
* C51_nested_fragment: a narrowing fragment inside a fragment on an abstract type (kept by
  normalization when it has directives) loses its type condition, so an object of another type gets
  `null` members or becomes `null`. C51_emptied_fragment: a selection set emptied by normalization
  (`@skip(if: true)`) makes the whole object of the data visible. C51_narrowed_field: with field types
  narrowed in object types, fields can be lost, depending on the order of a hash set.
* C54_nested_key_refuted: two fields under a field of a composite key can each be planned but not both
  (`RequirementCycleChecker` takes any overlap with the key for a cycle). C54_progressive_override_refuted:
  a field under a labelled override that a third subgraph has too is looked for only in the third one.
  C54_requires_refuted, C54_fragment_refuted: there are paths but no fetch graph, because a step with
  two parents gets a requirement, or a path leads through a conditional fragment on `Query`.
  C54_third_subgraph_refuted: the same, if the subgraph of the field is reached by a key of a third subgraph.
  C54_recursive_type_refuted: `{ product { related { flat } } }`, where `flat` has `@requires` and `related` is of
  the type of `product`, in the subgraph of `flat`: the key is looked for at the wrong place.
* C55_provided_elsewhere_refuted: views of `@provides` on one type and subgraph are shared, so what one
  field provides is taken to be provided by another. C55_type_in_subgraph_refuted: the narrower type of a
  field in a subgraph (`@join__field(type:)`) is ignored, so an operation that could be planned is refused.
* C56_provides_refuted, C56_union_refuted: the edges for `@provides` and for union types carry no
  override, so a subgraph is asked for a field that has moved away.
* C57_alias_refuted: `id: sku` beside a key `id` gives `{ id: sku id }`, which a subgraph rejects.
  C57_condition_refuted: the same for a required field beside a conditional one with other arguments.
* C58_other_arguments_refuted: if the client asks for the required field with other arguments, below
  another field, the value for the client is sent instead. C58_two_values_refuted: two fields that require
  one field with different arguments are merged into one step, with one value. C58_panic_refuted: a
  required field with arguments below a field the client asks for too makes the planner panic.
* C59_nested_refuted: a second mutation starts before the fields below the first one are fetched.
* C60_skipped_refuted: a field with the condition of a field before it that is in another subgraph is asked
  for in any case.
* C61_lost_refuted: a step without a condition is merged into one with a condition, if they are not
  fetches of entities (a field that leads back to `Query`). C61_same_alias_refuted: only for selection sets
  no valid operation has.
* C62_shared_parents_refuted, C62_crossed_siblings_refuted: graphs for which merging children or siblings makes a
  cycle. C62_tangled_refuted: an operation for which merging siblings does. The pairs are chosen before any of them
  is merged: `(x, y)` and `(y, z)` are both merged although `x` and `z` wait for each other.
* C65_planning_goes_on_refuted: the planner never answers that operation. Merging siblings goes round the cycle for
  ever, and nothing stops it.
* C63_foreign_field_refuted, C63_foreign_key_refuted: the key for coming back to a subgraph with required fields
  is chosen among the keys of the subgraphs reachable from it, instead of its own.
* C67_line_ends_refuted: events whose lines end with CR, or with LF and CR LF in turn, are never delivered.
* C68_complete_refuted: `event: complete` is sent without data, so by the HTML standard a client sees no such event.
  C68_newline_refuted: an answer with a line break in it (the raw text of a custom scalar) is cut.
* C69_split_refuted: if the last delimiter is split before its `--`, reading does not end. C69_parts_refuted: an
  answer that has the text of the delimiter in a string is cut there.
* C70_apollo_late_refuted, C70_delivery_late_refuted: the delimiter that ends a part is sent with the next part, so the
  last answer is not complete for a client until there is another answer, a heartbeat or the end.
* C72_errors_refuted, C72_slow_refuted: if 16 messages wait, the next is dropped although it is answered with 204; if it
  is the one that completes the subscription, its errors are lost and the stream ends as if all were well.
* C74_late_refuted: a check that is accepted between the two loops of the enforcer does not save the subscription.
* C76_cycles_refuted: a fragment that spreads itself two levels below its own selection set, as in
  `fragment A on T { a { a { ...A } } }`, is accepted.
* C78_fields_refuted: `{ user { __foo } }` is accepted: names with two underscores are not looked up.
* C78_nothing_below_refuted: `{ __schema { nonsense } }` is accepted, and every mutation if the schema
  has none: where no type is in scope nothing is looked up.
* C80_arguments_refuted: `{ user(id: 1) { __typename(id: 2) } }` is accepted: arguments of a field that
  is not found are looked up among those of the field before.
* C82_values_refuted: `{ ids(of: [null]) }` is accepted for `of: [Int!]!`; C82_others_refuted: `[1]` and
  `{}` are accepted for `Int`, and so is `3000000000`.
* C84_positions_refuted: `query Q($x: String) { ids(of: [$x]) }` is accepted for `of: [Int!]!`.
* C85_one_root_field_refuted: `subscription { a: news(of: 1) { id } b: news(of: 2) { id } }` is accepted.
* C86_fragments_refuted, C86_lists_refuted: conflicts are missed. `{ q: a { k: x } q: a { ...F } r: a { k: y }
  r: a { ...F } } fragment F on T { ...G } fragment G on T { k: x }` is accepted: a fragment that is
  spread in a fragment is compared with the first fields only, as the list of visited fragments is not
  kept per fields, and the loop ends at the first that was visited. `{ k: f(l: [1]) k: f(l: [1, 2]) }` is
  accepted, as lists are compared as far as both go.
* C87_ends_refuted: validation of `{ a { ...A } ...A } fragment A on T { a { a { ...A } } }` does not end: comparing
  the field `a { ...A }` with the fragment comes back to comparing it with the fragment. In the code that is
  unbounded recursion, so the stack overflows. The rule on cycles accepts the document (C76), and would not
  prevent this if it rejected it, as all the rules run in one walk.
- **C88** A number that is not finite, such as the literal `1e400`, is sent as `inf`, which reads as an enum
  value. A float that is a whole number is sent as an integer literal (`1.0` as `1`); the specification
  lets that pass as the same number, `C88_float_kind_refuted` shows it.
- **C89** `unquote_string` reads `\b` as U+0010 instead of U+0008; `check_exp` rejects exponents that begin
  with `0` or `9`, such as `1e9`; characters written as a pair of surrogates are rejected; `[1"c"]` is
  rejected, as a quote does not end a number; in a block string, a blank line shorter than the indent keeps
  its spaces; directives on variables are rejected; a fragment with the name `on` is accepted. Outside the
  theorems but also seen: `\u{...}` is rejected, `\u+041` and a carriage return inside a string are accepted.
- **C90** `unquote_block_string` panics on the block string `x`, ` y`, `U+3000`, ` z` (one line each): the indent of
  one byte is cut inside of the wide blank of the third line.
- **C91** Strings, block strings and floats are not counted, so documents with more tokens than the limit are
  accepted; a document with exactly as many tokens as the limit is rejected.
- **C93** a union still names its members that are inaccessible, and a type the inaccessible interfaces
  that it implements (`C93_union_members_refuted`, `C93_interfaces_refuted`); where all fields of a type
  are inaccessible, all of them are shown, since an empty list counts as unchanged
  (`C93_all_fields_marked_refuted`; composition should not let such a supergraph through).
- **C95** A client that completes a subscription and uses its name again may lose the new one without a word: the
  guard of the old task removes whatever is kept under the name (`C95_name_again_refuted`; it needs the old task to
  be late). When a subscription fails, `complete` is sent after `error`, which the protocol forbids
  (`C95_after_errors_refuted`).
- **C96** With `persist`, the payload of the documentation (`Authorization`) leaves the old and the new token beside
  each other, and the order of the hash map decides which is used (`C96_kept_case_refuted`); headers are not kept
  where the payload has them in an object `headers` (`C96_kept_nested_refuted`) or where there is no payload
  (`C96_kept_bare_refuted`).
- **C100** An operation that is started after the connection was lost, and before the owner has noticed, is never told:
  its stream neither yields anything nor ends (`C100_lost_refuted`). The owner's `select!` picks at random between
  the next command and the notice; writing to the server still works, for instance after a close frame of the server.
- **C101** The interfaces of an interface are null (`C101_interfaces_refuted`); the possible types of an interface
  contain interfaces (`C101_possibleTypes_refuted`); the reason of `@deprecated` without one is null and not the
  default (`C101_reason_refuted`); deprecated arguments and input fields are told although `includeDeprecated` is
  not given (`C101_args_refuted`); fragments directly under `__schema`, which normalization leaves if they have a
  condition, are ignored (`C101_fragments_refuted`); a field that is asked for in two places gives two entries
  instead of one with both selections (`C101_merge_refuted`); an object of the name `Mutation` is told to be the
  mutation type although the schema definition names none (`C101_mutation_refuted`).
- **C108** Two operations of one document are reported under one key, and only the first name is told
  (`C108_name_refuted`): the key is the hash of the whole document, and the map of operations keeps the first record.
- **C105** Order is told in three places: directives of spreads are not sorted (`C105_order_refuted`), the arguments of
  the directives of fragments are not sorted (`C105_fragment_refuted`), both for every way of sorting; and fields of the
  same name, which differed in their aliases, stay in the order they had (`C105_fields_refuted`).
- **C109** Arguments of directives are reported as arguments of the field around them (`C109_directive_args_refuted`:
  `me @include(if: true)` reports `Query.me.if`). Input objects inside a list that cannot be null are not reported, as
  the visitor does not look through `!` (`C109_lists_refuted`). In the default of a variable `null` counts as a
  value (`C109_null_refuted`). An operation or fragment with a directive that has an
  argument is not reported at all (`C109_directive_refuted`), and neither is an operation that asks for `__schema` or
  `__type` besides other fields (`C109_introspection_refuted`).
- **C110** `process` asks the cache whether it has the operation and expects to get it afterwards; if the entry is
  evicted between the two, it panics, in a request or in the task that sends reports (`C110_panics_refuted`).
- **C112** A supergraph that could not be built is not built again until the source changes, as its name is
  remembered when it is loaded (`C112_build_refuted`, `C112_build_fresh_refuted`); building includes loading persisted
  documents, which can fail for a moment, and at the start this leaves the router without a supergraph. The fetcher of
  the Hive CDN keeps the ETag before the body is read, so a connection lost while reading has the same effect
  (`C112_body_refuted`). A file that is replaced by one with an older time is not loaded (`C112_time_refuted`). A source
  that is not polled is asked once, also if it does not answer (`C112_once_refuted`).
- **C113** The messages to the task that cleans up are sent after the lock of the cache is released. If a supergraph is
  pushed out and brought back at the same time, they can arrive in the wrong order, and what belongs to it stays in the
  cache after it was retired (`C113_cleanup_refuted`).
- **C114** An answer that ends the request sets its headers one by one, each in place of the one before, so of several
  values of one header (two cookies, say) the client gets the last (`C114_break_refuted`). Headers whose values are not
  ASCII text are not told to the coprocessor, so one that answers with the headers it was told deletes them
  (`C114_echo_refuted`).
- **C116** A document that the coprocessor gives at the GraphQL request is parsed but not validated
  (`C116_validated_refuted`).
- **C118** With more than one concurrent export (not the default), shutdown flushes the queue but does not wait
  for the tasks it spawned: complete traces are neither exported nor counted (`Case.C118_shutdown_refuted`). When
  the channel is full, the message to shut down cannot be sent and traces that wait go uncounted
  (`Case.C118_full_refuted`). Spans that end after the root of their trace are never exported
  (`Case.C118_late_refuted`). With batches of size 0, which is not refused, exporting never ends
  (`Case.C118_progress_refuted`).
- **C119** Of three fields with one key and three types in three fragments, the second and the third get the same
  alias and still are in conflict, so that the subgraph refuses the operation (`Case.C119_three_refuted`). An object
  that may be null beside one that may not is not found (`Case.C119_null_refuted`), nor are conflicts below two
  composite fields with one key (`Case.C119_below_refuted`). Each can come of a field of an interface that is asked
  for by type.
- **C120** Only the names of fields are looked at before folding. Objects may have arguments on a field that their
  interface does not have: a field with such an argument in fragments on all the objects is folded, and the
  subgraph refuses the operation (`Case.C120_args_refuted`).
- **C121** Strings such as `999` and `+503` are accepted as status codes, which neither the documentation nor the schema
  of the setting allows (`Case.C121_forms_refuted`); they do match just the status they name.
- **C122** `HIVE_CDN_KEY`, `HIVE_CDN_POLL_INTERVAL`, `APOLLO_GRAPH_REF` and `APOLLO_UPLINK_ENDPOINTS` only count if
  the source they belong to is named in the environment as well. A key in the environment with the endpoint in the
  configuration has no effect, without an error (`Case.C122_key_refuted`).
- **C123** Where subscriptions are over HTTP, their executor is looked for in one map and put in the other, so each
  subscription makes a new executor, which takes the place of that for queries (`Case.C123_reuse_refuted`). If the
  subgraph has settings for TLS, HTTP/2 or idle time, its client and open connections are replaced too.
- **C124** The timeout for all is evaluated for every request, so a subgraph with a fixed timeout of its own cannot be
  asked if the expression for all fails (`Case.C124_fixed_refuted`); and for a subgraph without its own the expression
  is evaluated twice, the second time with a `.default` (`Case.C124_twice_refuted`).

Seen in the code but outside the model: the etag of a supergraph is stored before the supergraph is
checked (`supergraph/storage.rs`).

## Seeded bugs

`seeded/LOG.jsonl` has one line per edit of the model, made in a scratch copy: what was edited, the
claim that breaks, the theorems that failed, and those that were tightened when none did.
