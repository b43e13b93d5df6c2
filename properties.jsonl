{"id": "C01", "title": "Merging subgraph responses keeps every value and its key order", "statement": "When a subgraph's response is merged into the accumulated response data, the result is again a well formed response (object keys strictly increasing, so no key twice); every key of either side is present; a key on one side only keeps its value; a key on both sides holds the merge of the two values; a null from the later response never erases data already there.", "quantifier": "all accumulated values and all incoming values, of any depth and width", "why_tests_cant": "The merge is a hand written two pointer walk over sorted key lists, recursive through objects and arrays: the cases are the interleavings of two arbitrary key sequences at every depth.", "anchors": ["bin/router/src/executor/response/merge.rs:deep_merge", "bin/router/src/executor/response/value.rs:Value"]}
{"id": "C02", "title": "Responses of parallel fetches can be merged in any arrival order", "statement": "If two subgraph responses agree wherever both give a non-null value (same leaf values, same list lengths), merging them into the accumulated data in either order gives the same data. More generally any permutation of pairwise agreeing responses gives the same data.", "quantifier": "all accumulated data, all lists of pairwise agreeing responses, all arrival orders", "why_tests_cant": "Parallel fetches finish in a schedule dependent order; the number of orders and of overlapping shapes is unbounded.", "anchors": ["bin/router/src/executor/response/merge.rs:deep_merge", "bin/router/src/executor/execution/plan.rs:process_job_result"]}
{"id": "C03", "title": "Looking a key up in a response object finds it exactly when it is there", "statement": "For a response object whose keys are sorted, the key lookup used everywhere in execution returns the value stored under that key if the key is present and nothing otherwise; response objects built by the JSON reader satisfy the sortedness it needs.", "quantifier": "all objects, all keys", "why_tests_cant": "Binary search is correct only under an ordering invariant that must hold for all objects produced anywhere.", "anchors": ["bin/router/src/executor/response/value.rs", "bin/router/src/executor/projection/response.rs", "bin/router/src/executor/utils/traverse.rs"]}
{"id": "C04", "title": "Response rewrites leave objects that can still be searched", "statement": "Applying an output rewrite (renaming an internally aliased key back, or setting a value) to a subgraph response gives a response in which every key present can still be looked up, and only the addressed keys change.", "quantifier": "all rewrites, all responses", "why_tests_cant": "The rewrite edits a sorted list in place; whether the order survives depends on the neighbouring keys of arbitrary responses.", "anchors": ["bin/router/src/executor/execution/rewrites.rs:KeyRenamer,ValueSetter", "bin/router/src/query_planner/planner/fetch/optimize/apply_internal_aliases_patching.rs"]}
{"id": "C05", "title": "No unauthorized field is ever sent to a subgraph", "statement": "With authorization directives enabled, in the operation that goes on to planning after authorization in filter mode, every field that is not disabled by its own @skip/@include variables satisfies the rules of its parent type, of the field itself and of its output type; in reject mode the operation goes on only if this already holds for the whole original operation.", "quantifier": "all supergraph rule sets, all user scope sets, all operations of any depth, all variable assignments", "why_tests_cant": "Soundness must hold for every nesting of fields, aliases and fragments and every combination of rules; a single missed shape is a data leak.", "anchors": ["bin/router/src/pipeline/authorization/mod.rs:apply_authorization_to_operation", "bin/router/src/executor/operation_filter.rs", "bin/router/src/pipeline/nullify/rebuilder.rs"]}
{"id": "C06", "title": "Authorization removes nothing it need not remove", "statement": "If every requested field satisfies its rules the operation is passed on unchanged and no error is produced. Otherwise each field that violates a rule gives exactly one error with its response path, and a field is dropped only if its path was rejected, it is below a rejected one, or everything selected below it was dropped or a non-null child was rejected.", "quantifier": "all rule sets, user contexts, operations and variables", "why_tests_cant": "Completeness is a statement over all operations.", "anchors": ["bin/router/src/pipeline/authorization/mod.rs", "bin/router/src/executor/operation_filter.rs", "bin/router/src/pipeline/nullify/rebuilder.rs"]}
{"id": "C07", "title": "Scope requirements mean: some alternative is fully granted", "statement": "A rule @requiresScopes(scopes: [[...],...]) admits a request iff the request is authenticated and for at least one inner list all scopes are among the scopes of the token; scopes in the token the schema never mentions have no effect; an @authenticated rule admits exactly the authenticated requests.", "quantifier": "all scope matrices, all token scope lists", "why_tests_cant": "Scopes are interned to integers and compared as sets; equivalence with the string level meaning ranges over all interner contents.", "anchors": ["bin/router/src/pipeline/authorization/mod.rs:AuthorizationChecker::is_rule_satisfied", "bin/router/src/pipeline/authorization/user_auth_context.rs"]}
{"id": "C08", "title": "The set of rejected paths is stored faithfully", "statement": "After building the path trie from any list of paths, walking a path through it ends on a marked node exactly if that path is in the list; building is insensitive to order and repetition.", "quantifier": "all lists of paths, all probe paths", "why_tests_cant": "Statement about all sets of strings sharing arbitrary prefixes.", "anchors": ["bin/router/src/pipeline/trie.rs:PathIndex"]}
{"id": "C09", "title": "Null propagation in the client response follows the schema", "statement": "For every field selected by the client, a missing or null value becomes null in the response if the field is nullable; if it is non-null the null moves to the closest nullable ancestor (possibly the whole data). Nothing else becomes null because of it, and no selected key is missing from a surviving object.", "quantifier": "all data trees, all projection plans, all variable values", "why_tests_cant": "The projector writes bytes directly and truncates its buffer to undo partial output: correctness is about all interleavings of writes and truncations at every depth.", "anchors": ["bin/router/src/executor/projection/response.rs:project_selection_set,project_selection_set_with_map,project_by_operation"]}
{"id": "C10", "title": "The response body is the JSON text of the projected data", "statement": "The bytes written for `data` are exactly the JSON rendering of the projected value: the separators, brackets and escapes match, so a JSON parser reads back the projected value.", "quantifier": "all data trees and plans whose response keys are GraphQL names", "why_tests_cant": "Text assembly with a shared buffer, comma flags and truncation; holds or fails only over all shapes.", "anchors": ["bin/router/src/executor/projection/response.rs", "bin/router/src/executor/json_writer.rs"]}
{"id": "C11", "title": "Strings survive JSON escaping", "statement": "For every string, the escaped text written by the router is a valid JSON string literal which decodes to the original string, and the text does not depend on where chunk boundaries fall or on bytes beyond the end of the string.", "quantifier": "all byte strings, all chunk sizes, all garbage following the string", "why_tests_cant": "256 byte values, unbounded lengths, chunked SIMD processing.", "anchors": ["bin/router/src/executor/json_writer.rs:format_string,escape_unchecked,QUOTE_TAB,NEED_ESCAPED"]}
{"id": "C12", "title": "Only variable values of the declared types are executed", "statement": "A request is passed on to execution only if each variable has a value conforming to its declared type (null only where nullable, list elements recursively, built-in scalars of the right JSON kind, enum values declared), with defaults filled in for absent variables; otherwise it fails with an error naming the variable.", "quantifier": "all variable definitions, all JSON inputs", "why_tests_cant": "Recursion over list/non-null wrappers and all JSON values.", "anchors": ["bin/router/src/pipeline/coerce_variables.rs", "bin/router/src/executor/variables/mod.rs:collect_variables,validate_runtime_value"]}
{"id": "C13", "title": "The depth limit rejects exactly the documents that are too deep", "statement": "With a maximum depth n configured, an operation is rejected iff the depth of the operation with all fragment spreads expanded exceeds n; the check terminates for all documents, also those whose fragments form cycles.", "quantifier": "all documents, fragment tables, limits", "why_tests_cant": "Memoised recursion over a fragment graph; the property compares with full expansion, exponentially larger than any test.", "anchors": ["bin/router/src/pipeline/validation/max_depth_rule.rs", "bin/router/src/pipeline/validation/shared.rs"]}
{"id": "C14", "title": "Alias and directive limits count what the expanded document contains", "statement": "With a maximum number of aliases (directives) n, an operation is rejected iff the number of aliases (directives) in it, counting each fragment spread as the aliases (directives) of its fragment, exceeds n.", "quantifier": "all documents, limits", "why_tests_cant": "As C13: memoised counts over fragment graphs versus full expansion.", "anchors": ["bin/router/src/pipeline/validation/max_aliases_rule.rs", "bin/router/src/pipeline/validation/max_directives_rule.rs"]}
{"id": "C15", "title": "CORS headers are only issued to allowed origins", "statement": "Access-Control-Allow-Origin echoes the request origin only if a configured policy matches it (first match wins, `*` handled as configured), credentials are allowed only if configured, preflight requests are answered without reaching the GraphQL pipeline, and Vary contains Origin exactly once whenever the answer depends on it.", "quantifier": "all CORS configurations, all request methods and header values", "why_tests_cant": "Policy lists with inheritance and regex parameters: all combinations.", "anchors": ["bin/router/src/pipeline/cors.rs"]}
{"id": "C16", "title": "Browser simple requests never get through CSRF prevention", "statement": "With CSRF prevention on and a required header configured, a request is let through iff it carries one of the required headers or a content type other than the three simple ones (compared case insensitively, ignoring parameters).", "quantifier": "all header sets and configurations", "why_tests_cant": "All strings as content types.", "anchors": ["bin/router/src/pipeline/csrf_prevention.rs"]}
{"id": "C17", "title": "The client's Cache-Control is never weaker than a contributing subgraph's", "statement": "If Cache-Control propagation is on and the response carries a Cache-Control header, then its max-age is at most the max-age of each contributing subgraph response, it is private/no-store/no-cache as soon as one contributor said so, and it is public only if every contributor said public.", "quantifier": "all sequences of subgraph responses and header texts", "why_tests_cant": "Merging is a fold over arbitrary many parsed headers with poisoning and counters.", "anchors": ["bin/router/src/executor/headers/cache_control.rs"]}
{"id": "C18", "title": "Hop-by-hop headers are not forwarded", "statement": "Whatever the header rules, a request to a subgraph and a response to a client do not carry hop-by-hop headers copied from the other side.", "quantifier": "all rule sets, header maps", "why_tests_cant": "All combinations of named, regex, rename and default rules.", "anchors": ["bin/router/src/executor/headers/request.rs", "bin/router/src/executor/headers/response.rs", "bin/router/src/executor/headers/sanitizer.rs"]}
{"id": "C19", "title": "Response header aggregation follows the configured algorithm", "statement": "For each propagated response header, first/last/append gives the first value, the last value or all values in arrival order; headers that must not be joined by commas (set-cookie) are sent as separate header lines, each exactly once.", "quantifier": "all sequences of subgraph responses", "why_tests_cant": "All sequences of arrivals.", "anchors": ["bin/router/src/executor/headers/response.rs:ResponseHeaderAggregator"]}
{"id": "C20", "title": "Deduplicated subgraph requests share the result of one execution made for them", "statement": "In any interleaving of callers, cancellations and failures, a caller that joined an in-flight request receives a result computed for its own key by an execution that had not finished before the caller arrived; all callers attached to one execution receive the same result.", "quantifier": "all interleavings of claim, init, success, failure, cancellation and cleanup", "why_tests_cant": "Concurrency: all schedules of any number of callers.", "anchors": ["bin/router/src/executor/executors/inflight.rs", "bin/router/src/executor/executors/http.rs"]}
{"id": "C21", "title": "Only identical inbound requests are deduplicated", "statement": "Two client requests share one execution only if they have the same method, path, selected headers, operation, variables and extensions: the byte stream fed to the fingerprint determines these components.", "quantifier": "all pairs of requests", "why_tests_cant": "Injectivity of a serialisation over all pairs of nested JSON values.", "anchors": ["bin/router/src/pipeline/mod.rs:inbound_request_fingerprint,hash_graphql_variables,hash_graphql_value", "bin/router/src/shared_state.rs"]}
{"id": "C22", "title": "Operations with different meaning never share a cached query plan", "statement": "The key under which a query plan is cached distinguishes any two normalized operations that are not the same up to the order of arguments and variable definitions.", "quantifier": "all pairs of normalized operations", "why_tests_cant": "Injectivity over all pairs of operations.", "anchors": ["bin/router/src/query_planner/ast/hash.rs", "bin/router/src/pipeline/query_plan.rs:calculate_cache_key", "bin/router/src/pipeline/normalize.rs"]}
{"id": "C23", "title": "Entities are deduplicated only if their representations are equal", "statement": "Two entities collected for one subgraph entity fetch are sent as one representation only if the representations that would be sent for them are equal.", "quantifier": "all pairs of entities, all requires selections", "why_tests_cant": "Injectivity of a hash stream over pairs of nested values.", "anchors": ["bin/router/src/executor/response/value.rs:to_hash,hash_with_requires", "bin/router/src/executor/execution/plan.rs:prepare_execution_job", "bin/router/src/executor/projection/request.rs:project_requires"]}
{"id": "C24", "title": "Entity results land on the objects they were fetched for", "statement": "For a flattened entity fetch, the traversal that collects representations and the one that writes results back visit the same objects in the same order, so the i-th returned entity is merged into exactly the objects whose representation was sent as the i-th, and nothing else in the data changes.", "quantifier": "all data trees, flatten paths, schemas, returned entity lists", "why_tests_cant": "Alignment of two independently written traversals over all trees and paths.", "anchors": ["bin/router/src/executor/utils/traverse.rs", "bin/router/src/executor/execution/plan.rs:merge_batch_alias_entities,process_job_result"]}
{"id": "C25", "title": "The limit on long lived clients is never exceeded and slots are never leaked", "statement": "With limit n > 0, at any time at most n long lived clients (websocket, subscriptions) hold a slot; a request is refused only if n slots are held at that moment; each slot is released exactly once; limit 0 means unlimited.", "quantifier": "all interleavings of reservations and drops", "why_tests_cant": "Concurrency: all histories.", "anchors": ["bin/router/src/pipeline/long_lived_client_limit.rs"]}
{"id": "C26", "title": "Masked error details never reach the client", "statement": "With error masking on, the error sent to the client contains the configured message instead of the subgraph message and only extension keys the policy of that subgraph lets through.", "quantifier": "all errors, all masking configurations", "why_tests_cant": "All extension maps and allow/deny configurations.", "anchors": ["bin/router/src/executor/execution/error_masking.rs"]}
{"id": "C27", "title": "Subgraph errors point to the client's own paths", "statement": "An error of an entity fetch with path [_entities, i, rest...] is reported once for each response location whose representation was the i-th, with the path location ++ rest; other errors are reported once; no error is lost.", "quantifier": "all error lists, all path tables", "why_tests_cant": "All shapes of error paths and dedup tables.", "anchors": ["bin/router/src/executor/response/graphql_error.rs", "bin/router/src/executor/execution/plan.rs:partition_batch_errors_by_alias"]}
{"id": "C28", "title": "Cached JWT claims are not used after expiry", "statement": "A cached authentication result is served only while the token is unexpired and at most five seconds after validation.", "quantifier": "all tokens, all clock readings", "why_tests_cant": "Statement over all times.", "anchors": ["bin/router/src/shared_state.rs:JwtClaimsExpiry", "bin/router/src/jwt/mod.rs"]}
{"id": "C29", "title": "Require-id mode executes only stored documents", "statement": "With persisted documents required and not skipped, the operation text executed is exactly the text the store returns for the id of the request; ad hoc query text sent by the client is never executed; a request without id is rejected.", "quantifier": "all requests, stores, configurations", "why_tests_cant": "Decision logic over all request shapes and extractor lists.", "anchors": ["bin/router/src/pipeline/execution_request.rs:enforce_require_id_policy", "bin/router/src/pipeline/persisted_documents/"]}
{"id": "C30", "title": "A bad reload of persisted documents never loses the last good set", "statement": "In any history of file changes, polls and failed reads, lookups are answered from the last successfully loaded manifest, and after a successful reload following the last change, from the current one.", "quantifier": "all histories of changes, polls, failures", "why_tests_cant": "All histories.", "anchors": ["bin/router/src/pipeline/persisted_documents/resolve/storage.rs:reload_if_needed", "bin/router/src/pipeline/persisted_documents/resolve/fs.rs"]}
{"id": "C31", "title": "Demand control: enforced budgets are never exceeded by an executed operation", "statement": "In enforce mode an operation runs only if its estimated cost is at most the configured maximum; the estimate is the saturating sum of the per subgraph estimates; compiling the cost formula once and evaluating it with the variables gives the same number as computing the cost directly on the operation with these variables.", "quantifier": "all operations, plans, cost directives, variable values", "why_tests_cant": "Constant folding and saturation over all expressions.", "anchors": ["bin/router/src/pipeline/demand_control/formula.rs", "bin/router/src/pipeline/demand_control/runtime.rs"]}
{"id": "C32", "title": "The planner picks one way to resolve each field, and the cheapest combination", "statement": "The plan search returns a combination using exactly one candidate path per requested leaf, whose cost is no more than that of every other combination.", "quantifier": "all candidate sets of any size", "why_tests_cant": "Optimality of branch and bound over an exponential search space.", "anchors": ["bin/router/src/query_planner/planner/best.rs"]}
{"id": "C33", "title": "Fetches run after the fetches they depend on, each exactly once", "statement": "The query plan built from a fetch graph contains each fetch step exactly once and after all the steps it depends on; if there is a dependency cycle or an unreachable step, planning fails with an error instead of dropping a step.", "quantifier": "all fetch graphs", "why_tests_cant": "All graphs.", "anchors": ["bin/router/src/query_planner/planner/query_plan.rs:build_query_plan_from_fetch_graph"]}
{"id": "C34", "title": "Batching entity fetches preserves every fetch", "statement": "Merging parallel entity fetches to one subgraph into a batch keeps, for each original fetch, its flatten path, its requires and its selection in exactly one alias; variables of the same name are merged only if they have the same definition; generated variable names never clash.", "quantifier": "all lists of plan nodes", "why_tests_cant": "All groupings of fetches and all variable names.", "anchors": ["bin/router/src/query_planner/planner/query_plan/optimize.rs"]}
{"id": "C35", "title": "@skip and @include plan branches run exactly when their variable says so", "statement": "A conditional part of the plan is executed iff the controlling boolean variable has the right value; merging neighbouring condition nodes does not change which fetches run.", "quantifier": "all plans and variable assignments", "why_tests_cant": "All plans and assignments.", "anchors": ["bin/router/src/executor/execution/plan.rs:condition_node_by_variables", "bin/router/src/query_planner/planner/query_plan/optimize.rs:optimize_plan_sequence", "bin/router/src/query_planner/planner/plan_nodes.rs"]}
{"id": "C36", "title": "Progressive overrides send a consistent share of traffic", "statement": "A labelled override is active iff the label is activated for the request; a percentage override is active iff the request's dice value is below the percentage, so 0% is never and 100% always; two requests that share a cached plan have the same outcome for every override the plan depends on.", "quantifier": "all requests, percentages, labels", "why_tests_cant": "All values of the dice and percentages.", "anchors": ["bin/router/src/pipeline/progressive_override.rs", "bin/router/src/executor/request_context/domains/progressive_override.rs"]}
{"id": "C37", "title": "GET requests never execute mutations", "statement": "An operation executed for a GET request is never a mutation; subscriptions execute only when enabled and the client accepts a streaming response.", "quantifier": "all requests", "why_tests_cant": "Decision logic over all requests and configurations.", "anchors": ["bin/router/src/pipeline/mod.rs"]}
{"id": "C38", "title": "Type conditions combine exactly", "statement": "Combining type conditions (union, intersection) and projection conditions (and, or, simplification) denotes exactly the union/intersection of the sets of runtime types and variable assignments they accept.", "quantifier": "all conditions, type names, variable assignments", "why_tests_cant": "Algebra over an infinite set of conditions.", "anchors": ["bin/router/src/executor/projection/plan.rs:TypeCondition,FieldProjectionCondition"]}
{"id": "C39", "title": "Normalization does not change what is selected", "statement": "For every concrete type and variable assignment, the fields (response keys, field names, arguments) selected by the normalized operation are those selected by the original operation according to GraphQL's CollectFields.", "quantifier": "all operations, schemas, runtime types, variables", "why_tests_cant": "All operations.", "anchors": ["bin/router/src/query_planner/ast/normalization/"]}
{"id": "C40", "title": "Introspection is answered by the router and everything else by subgraphs", "statement": "Splitting an operation sends each introspection field to the router part and each other field to the subgraph part, each in its place, and nothing is lost or duplicated; with introspection disabled by policy, an operation containing __schema or __type is rejected.", "quantifier": "all operations", "why_tests_cant": "All nestings.", "anchors": ["bin/router/src/executor/introspection/partition.rs", "bin/router/src/pipeline/introspection_policy.rs"]}
{"id": "C41", "title": "A slow subscriber never blocks the subgraph stream and sees events in order", "statement": "With a bounded buffer of capacity n, forwarding never blocks the upstream; the events a consumer sees are a subsequence of the events emitted, in order and without repetition; an event is dropped only if n undelivered events were buffered; nothing is forwarded after the consumer has gone.", "quantifier": "all interleavings of upstream events and consumer reads", "why_tests_cant": "All schedules.", "anchors": ["bin/router/src/executor/executors/subscription_buffer.rs"]}
{"id": "C42", "title": "Representations contain only what the plan requires", "statement": "The representation of an entity sent to a subgraph contains the entity's __typename and, of the entity's data, only fields listed in the fetch's requires for that type; the text is well formed JSON; an entity with nothing to send is skipped.", "quantifier": "all entities, requires selections", "why_tests_cant": "All nestings, with text rollback.", "anchors": ["bin/router/src/executor/projection/request.rs"]}
{"id": "C43", "title": "Subscription clients see events in order, and a schema reload ends them with an error", "statement": "The events delivered to a client of a (possibly shared) subscription are a subsequence of the events the subgraph emitted after the client subscribed, in order and without repetition, and complete if they fit the channel; the client that opened the subscription reads from the first event; when the schema is reloaded every client still reading receives the reload error as its last event, however slow it is.", "quantifier": "all interleavings of upstream events, client reads, joins, departures and reloads; all channel capacities", "why_tests_cant": "All schedules and lag patterns.", "anchors": ["bin/router/src/pipeline/active_subscriptions.rs", "bin/router/src/pipeline/mod.rs: execute_planned_request", "bin/router/src/shared_state.rs: SharedRouterStreamResponse"]}
{"id": "C44", "title": "When all clients of a subscription have gone, the upstream subscription is stopped", "statement": "If every client of a subscription has disconnected, the next event of the upstream is not forwarded and the upstream subscription is dropped.", "quantifier": "all interleavings; with and without request deduplication", "why_tests_cant": "Leaks depend on reference ownership over all histories.", "anchors": ["bin/router/src/pipeline/mod.rs: execute_planned_request", "bin/router/src/shared_state.rs: SharedRouterStreamResponse::clone", "bin/router/src/executor/executors/inflight.rs: get_or_try_init_with_guard"]}
{"id": "C45", "title": "Required values reach the subgraph unchanged", "statement": "A value that a subgraph requires (a field of an entity listed in the fetch's requires, without a selection of its own) appears in the representation with the JSON value it has in the data gathered so far, list items and their positions included.", "quantifier": "all values, nested lists of any depth", "why_tests_cant": "Nested values are unbounded; the dropped-item cases are corner cases of the writer.", "anchors": ["bin/router/src/executor/projection/request.rs: project_requires"]}
{"id": "C46", "title": "Only identical subgraph requests are deduplicated", "statement": "Two in-flight requests to subgraphs share one response only if they have the same method, endpoint, headers and body.", "quantifier": "all pairs of outgoing requests", "why_tests_cant": "A collision needs a particular pair of requests; tests compare a few.", "anchors": ["bin/router/src/executor/executors/dedupe.rs", "bin/router/src/executor/executors/http.rs:SendRequestOpts"]}
{"id": "C47", "title": "Only requests with a token that a configured key vouches for are authenticated", "statement": "A request is taken for that of a user only if it carries, at the first configured place where it carries anything, a token that a configured key verifies with an allowed algorithm that fits the key, from a configured issuer and for configured audiences only; such tokens are accepted; and when authentication is required no other request is executed.", "quantifier": "all requests, tokens, key sets, configurations", "why_tests_cant": "All combinations of tokens, keys and configurations.", "anchors": ["bin/router/src/jwt/mod.rs"]}
{"id": "C48", "title": "Caches of parsed, validated and normalized operations are invisible", "statement": "Whatever requests came before or are served at the same time, in any interleaving, and whatever the caches hold or have evicted, a request ends exactly as it would in a router without caches serving it alone; in particular an operation runs only if the text sent was parsed and found valid for the supergraph of this request.", "quantifier": "all histories and interleavings of requests, all evictions, all supergraphs, all engines (parser, validator, normalizer)", "why_tests_cant": "A stale or wrongly shared cache entry shows only in particular histories.", "anchors": ["bin/router/src/pipeline/parser.rs:parse_operation_with_cache", "bin/router/src/pipeline/validation/mod.rs:validate_operation_with_cache", "bin/router/src/pipeline/normalize.rs:normalize_request_with_cache", "bin/router/src/pipeline/mod.rs:graphql_request_handler"]}
{"id": "C49", "title": "Request size limits hold for every way of sending a request", "statement": "A request passes the size limits exactly if its header block, its declared length and its complete payload are within them, and then its body is the payload byte for byte; however it is sent, the router holds at most the allowed number of bytes plus one chunk, and stops reading after the limit.", "quantifier": "all headers, declared lengths, chunkings, limits", "why_tests_cant": "All chunkings of unbounded streams.", "anchors": ["bin/router/src/http_utils/body.rs", "bin/router/src/pipeline/mod.rs:graphql_request_handler"]}
{"id": "C50", "title": "Minified subgraph operations select the same as before", "statement": "When repeated selection sets of an operation for a subgraph are moved into named fragments, the document is well formed (every spread names exactly one fragment, whose type is the type selected on) and selects exactly what the operation selected, provided different selection sets of the operation get different ids; valid operations are minified without failing, and the order of root fields is kept.", "quantifier": "all valid operations of any depth and any number of repeated selection sets, all hash functions without collisions among the sets of the operation", "why_tests_cant": "Nested repeated sets, placeholders and generated names interact over unbounded documents; a wrong reuse changes what a subgraph is asked.", "anchors": ["bin/router/src/query_planner/ast/minification/mod.rs", "bin/router/src/query_planner/ast/minification/stats.rs", "bin/router/src/query_planner/ast/minification/transform.rs: transform_operation, get_or_create_fragment, generate_fragment_name", "bin/router/src/query_planner/ast/minification/selection_id.rs"]}
{"id": "C51", "title": "The response has the fields the operation selects and no others", "statement": "For an object of runtime type T in a response, the members written are exactly those GraphQL's CollectFields selects for T from the client's operation under the request's variables: fields inside fragments whose type condition T meets and whose @skip/@include let them through, each response key once, and so at every level below. Fields the planner added for its own use are not shown, and no selected field is missing.", "quantifier": "for every schema, every valid normalized operation on it, every assignment of the variables, every path into a response (any depth, any runtime types), and all data that is as the schema says", "why_tests_cant": "Selections of one response key under overlapping type conditions and directives are merged into one plan tree whose guards and conditions are combined and simplified; whether a field shows depends on all combinations of runtime types and variables at once, so a table of cases covers a vanishing part.", "anchors": ["bin/router/src/executor/projection/plan.rs: FieldProjectionPlan::from_operation, from_selection_set, process_field, process_inline_fragment, merge_plan, merge_matching, resolve_variants, merge_variants_for_type, remove_redundant_child_guards", "bin/router/src/executor/projection/response.rs: project_by_operation, project_selection_set_with_map, check", "bin/router/src/executor/introspection/schema.rs: PossibleTypes"]}
{"id": "C52", "title": "Every leaf of an operation is reached by paths that subgraphs can serve", "statement": "When planning succeeds, each leaf field of the operation has at least one path, and every such path starts at the operation's root, follows the fields and type conditions of the operation to that leaf, takes only moves that the supergraph and the request's override flags allow, finds the fields a key or @requires needs from the same place, and costs as much as the other paths kept for the leaf. A fragment is left out only where a subgraph on the way cannot give objects of its type.", "quantifier": "all well-formed supergraphs, all normalized operations of any depth, all sets of active override labels", "why_tests_cant": "The search walks a graph with cycles, prunes by cost and visited sets and recurses into requirements; a wrong pruning shows only on particular supergraph shapes.", "anchors": ["bin/router/src/query_planner/planner/walker/mod.rs: walk_operation, process_selection, process_field, process_inline_fragment", "bin/router/src/query_planner/planner/walker/pathfinder.rs: find_direct_paths, find_indirect_paths, can_satisfy_edge", "bin/router/src/query_planner/planner/walker/path.rs", "bin/router/src/query_planner/planner/walker/best_path.rs"]}
{"id": "C53", "title": "Planning an operation ends", "statement": "For every operation, the search for paths ends with paths or with an answer that there are none: no loop or recursion of it goes on for ever, it does not panic, and it never meets a node or edge that the graph lacks, even when keys and requirements of subgraphs depend on each other in circles.", "quantifier": "all supergraphs whose graph is built and whose root has an entry, all operations, all sets of active labels", "why_tests_cant": "Termination over all graphs with cycles of keys and requirements is a statement about all runs; a test can only time out on the shapes it tries.", "anchors": ["bin/router/src/query_planner/planner/walker/pathfinder.rs: find_indirect_paths, can_satisfy_edge, RequirementCycleChecker", "bin/router/src/query_planner/planner/walker/mod.rs: walk_operation"]}
{"id": "C54", "title": "What the subgraphs can resolve together is planned", "statement": "If for every leaf of an operation there is a way through the subgraphs that resolves it, planning the operation succeeds.", "quantifier": "all well-formed supergraphs and all operations with a way to each leaf", "why_tests_cant": "A false refusal depends on how pruning, exclusion of visited subgraphs and look-ahead interact for one supergraph; the shapes are unbounded.", "anchors": ["bin/router/src/query_planner/planner/walker/mod.rs: process_field, field_target_subgraph_ids", "bin/router/src/query_planner/planner/walker/pathfinder.rs: find_indirect_paths, RequirementCycleChecker"]}
{"id": "C55", "title": "The planner's graph says what the supergraph says", "statement": "Every move the planner can take is one the supergraph declares: a field leads to its type in a subgraph that resolves or provides it, needing exactly what its @requires says; a key leads to the same type in a subgraph that resolves it by that key; a type condition stays in its subgraph. Conversely every field a subgraph resolves, every resolvable key, every implementation of an interface and every entry of a root type is among the moves.", "quantifier": "all well-formed supergraphs without interface objects", "why_tests_cant": "The graph is built by several passes over all definitions and joins with node and edge deduplication; a lost or invented edge depends on combinations of directives across subgraphs.", "anchors": ["bin/router/src/query_planner/graph/mod.rs: build_graph, build_root_edges, build_field_edges, build_entity_reference_edges, build_viewed_field_edges", "bin/router/src/query_planner/graph/{node,edge}.rs", "bin/router/src/query_planner/state/supergraph_state.rs"]}
{"id": "C56", "title": "Subgraphs are asked only for fields that are theirs in this request", "statement": "No path of a plan, and none of the paths that fetch keys and required fields for it, asks a subgraph for a field that another subgraph has taken over with @override, for good or under a label that is active in the request; nor for a field it has itself taken over under a label that is not active.", "quantifier": "all well-formed supergraphs, all operations, all sets of active labels", "why_tests_cant": "The rule must hold on every edge of every path, nested requirements included, for every combination of labels.", "anchors": ["bin/router/src/query_planner/planner/walker/pathfinder.rs: can_satisfy_edge", "bin/router/src/query_planner/graph/edge.rs: satisfies_override_rules", "bin/router/src/query_planner/graph/mod.rs: build_field_edges", "bin/router/src/pipeline/progressive_override.rs"]}
{"id": "C57", "title": "Every response key in a subgraph operation has one meaning", "statement": "In an operation the router sends to a subgraph, two fields of one selection set with the same response key have the same name and the same arguments, whatever the client has asked for and whatever keys and required fields the router has added: subgraphs reject operations in which response keys conflict.", "quantifier": "all supergraphs, operations and values of the variables of conditions", "why_tests_cant": "The fields meet in steps that are merged by five passes, in an order that depends on the whole graph; whether two of them conflict depends on aliases, arguments, keys and requirements together.", "anchors": ["bin/router/src/query_planner/planner/fetch/selections.rs: safe_migrate_from_another, migrate_from_another", "bin/router/src/query_planner/planner/fetch/optimize/utils.rs: perform_fetch_step_merge", "bin/router/src/query_planner/ast/safe_merge.rs", "bin/router/src/query_planner/planner/fetch/fetch_graph.rs"]}
{"id": "C58", "title": "A subgraph gets the values its field requires", "statement": "If a field has @requires, the values the router sends along when it asks for the field are the values of the required fields with the required arguments, also if the client asks for the same fields with other arguments or under other names.", "quantifier": "all supergraphs with @requires, all operations", "why_tests_cant": "Conflicts are resolved by aliases that are patched into all later steps; each merge and each order of merges must be followed by the right patch.", "anchors": ["bin/router/src/query_planner/planner/fetch/optimize/apply_internal_aliases_patching.rs", "bin/router/src/query_planner/ast/safe_merge.rs", "bin/router/src/query_planner/planner/fetch/fetch_graph.rs: process_requires_field_edge"]}
{"id": "C59", "title": "Fields of a mutation are executed one after the other", "statement": "The root fields of a mutation are executed in the order in which the client wrote them; a field starts only when the one before, with everything below it, is done.", "quantifier": "all supergraphs, all mutations", "why_tests_cant": "The order must survive all merges of steps and hold for every schedule of the executor.", "anchors": ["bin/router/src/query_planner/planner/fetch/optimize/turn_mutations_into_sequence.rs", "bin/router/src/query_planner/planner/fetch/optimize/merge_siblings.rs", "bin/router/src/query_planner/planner/query_plan.rs"]}
{"id": "C60", "title": "A field that is skipped is not asked for", "statement": "A field whose @skip or @include says that it is to be left out, or that is below such a field or fragment, is not asked of a subgraph, unless another field needs it.", "quantifier": "all supergraphs, operations and values of variables", "why_tests_cant": "Conditions move between fields, fragments, paths and whole steps as steps are merged; one that is dropped shows only for some values of the variables.", "anchors": ["bin/router/src/query_planner/planner/fetch/fetch_graph.rs", "bin/router/src/query_planner/planner/fetch/optimize/utils.rs: perform_fetch_step_merge", "bin/router/src/query_planner/planner/fetch/optimize/batch_multi_type.rs"]}
{"id": "C61", "title": "Optimizing a plan loses no field", "statement": "Whatever the steps of a plan ask for before they are merged, moved, batched, pruned and normalized, they ask for afterwards, for all values of the variables.", "quantifier": "all fetch graphs, all numbers of optimization rounds, all values of variables", "why_tests_cant": "The passes are repeated until nothing changes, on graphs of any size; a field can be lost in any of them by a path, a type or a condition that does not fit.", "anchors": ["bin/router/src/query_planner/planner/fetch/optimize/mod.rs: optimize", "bin/router/src/query_planner/planner/fetch/optimize/*.rs", "bin/router/src/query_planner/planner/fetch/selections.rs"]}
{"id": "C62", "title": "Optimizing a plan keeps what waits for what", "statement": "If a step waits for another one, then after any merge or removal of steps what has become of it still waits for what has become of the other, unless they have become one; and no step comes to wait for itself.", "quantifier": "all fetch graphs", "why_tests_cant": "Edges are rewired with every merge and removed if there is a detour; the graphs are of any shape.", "anchors": ["bin/router/src/query_planner/planner/fetch/optimize/utils.rs: perform_fetch_step_merge, is_reachable_via_alternative_upstream_path", "bin/router/src/query_planner/planner/fetch/optimize/deduplicate_and_prune_fetch_steps.rs"]}
{"id": "C63", "title": "A subgraph is asked for fields it has, by keys it knows", "statement": "Every operation the router sends to a subgraph asks only for fields that subgraph resolves; and every entity fetch sends, for each type, all fields of one of the keys by which that subgraph can be asked for the type.", "quantifier": "all valid supergraphs, all operations that are planned, all fetches of the plan", "why_tests_cant": "Whether the key that is chosen is the right one depends on which other subgraphs have the type, by which keys, and in which order they are listed in the supergraph; the test suite has a few supergraphs out of infinitely many.", "anchors": ["bin/router/src/query_planner/planner/fetch/fetch_graph.rs: find_satisfiable_key, process_requires_field_edge, process_entity_move_edge"]}
{"id": "C64", "title": "Every field of an operation is asked for", "statement": "For every operation that is planned, each field it selects is asked for by one of the fetches of the plan whenever the conditions on the way to it hold: at the same place, under the same response key, with the same arguments, and in a subgraph that has the field.", "quantifier": "all valid supergraphs, all operations that are planned, all ways to choose paths, all values of variables", "why_tests_cant": "The fetch graph is built by recursion over trees of any depth, with key hops, requirements and mutations in any order; a field that is left out anywhere is silently null.", "anchors": ["bin/router/src/query_planner/planner/fetch/fetch_graph.rs: build_fetch_graph_from_query_tree, process_query_node", "bin/router/src/query_planner/planner/tree/query_tree.rs: QueryTree::merge_trees", "bin/router/src/query_planner/planner/best.rs: find_best_combination"]}
{"id": "C65", "title": "Planning comes to an end", "statement": "For every operation on every supergraph, planning comes to an end: each pass over the steps of a plan stops, and passes are repeated only a finite number of times.", "quantifier": "all valid supergraphs, all operations, all graphs of steps the passes are run on", "why_tests_cant": "The passes are loops with queues and no bound; whether they stop depends on the shape of the graph of steps, and a loop that does not stop cannot be observed by a test, only missed.", "anchors": ["bin/router/src/query_planner/planner/fetch/optimize/mod.rs: optimize", "bin/router/src/query_planner/planner/fetch/optimize/merge_siblings.rs: merge_siblings", "bin/router/src/query_planner/planner/fetch/optimize/merge_children_with_parents.rs: merge_children_with_parents", "bin/router/src/query_planner/planner/fetch/optimize/merge_passthrough_child.rs: merge_passthrough_child", "bin/router/src/query_planner/planner/fetch/optimize/batch_multi_type.rs: batch_multi_type"]}
{"id": "C66", "title": "What is read from an event stream does not depend on how the network splits it", "statement": "If a subgraph answers a subscription with server-sent events, the responses the router reads, and whether it takes the stream as ended, depend only on the bytes of the stream, and not on the frames they arrive in; except that a stream for which more than 10 MiB have to be kept at once ends with an error. A stream of at most 10 MiB never ends with that error.", "quantifier": "all streams of bytes (valid or not), all ways to split them into frames, all ways to read responses", "why_tests_cant": "A stream of n bytes can be split in 2^(n-1) ways, and a split can fall inside a line break, a field name or a character of several bytes.", "anchors": ["bin/router/src/executor/executors/sse.rs: parse_to_stream, find_sse_event_boundary, parse"]}
{"id": "C67", "title": "Each event of a subgraph arrives once and in order", "statement": "Whatever events a subgraph sends as server-sent events, written in any way the standard allows, the router delivers the data of each event `next` once and in order, up to the event `complete`; comments, other fields and other events change nothing.", "quantifier": "all sequences of events, all orders of their lines, all ways to split the stream into frames", "why_tests_cant": "Sequences of events are unbounded, and lines, comments and frames can be combined in any way.", "anchors": ["bin/router/src/executor/executors/sse.rs: parse_to_stream, find_sse_event_boundary, parse"]}
{"id": "C68", "title": "A client of an event stream sees each answer once, in order, and the end", "statement": "Whatever answers a subscription has, with heartbeats between them at any time, a client that reads the stream as the HTML standard says sees each answer once, in order and as soon as it was sent, and no other events; and it sees that the subscription has ended. A router that has this router as a subgraph reads the same answers.", "quantifier": "all sequences of answers and heartbeats, finished or not, all answers", "why_tests_cant": "Heartbeats can come between any two answers, and answers can be any text the subgraphs can cause.", "anchors": ["bin/router/src/pipeline/sse.rs: create_stream"]}
{"id": "C69", "title": "Each part of a multipart stream arrives once and in order, however it is split", "statement": "Whatever parts a subgraph sends in a multipart stream, and whatever frames they arrive in, the router delivers the payload of each part once and in order, none for heartbeats, and takes the stream as ended after the last delimiter.", "quantifier": "all boundaries, all sequences of parts with any headers and any JSON objects, all ways to split the stream into frames", "why_tests_cant": "Splits can fall inside a delimiter or a line break, parts are unbounded in number and size, and a payload can have any text in it.", "anchors": ["bin/router/src/executor/executors/multipart_subscribe.rs: parse_to_stream, find_next_part, parse_part, extract_body_after_headers, extract_payload"]}
{"id": "C70", "title": "A client of a multipart stream sees each answer once, in order and in time, and the end", "statement": "Whatever answers a subscription has, a client that reads the multipart stream as RFC 2046 says sees each answer once, in order and as soon as it was sent, and sees that the stream has ended. A router that has this router as a subgraph reads the same answers.", "quantifier": "both kinds of multipart streams, all sequences of answers and heartbeats, finished or not", "why_tests_cant": "Answers and heartbeats can come in any order and number, and the time between two answers is unbounded.", "anchors": ["bin/router/src/pipeline/multipart_subscribe.rs: create_incremental_delivery_stream, create_apollo_multipart_http_stream"]}
{"id": "C71", "title": "Only a subgraph that knows a subscription's secret can speak for it", "statement": "A request to the callback endpoint is accepted only if it is for a subscription that is open, names it in path and body, has the protocol header and the secret that the subscription was opened with. Any other is answered with 400 or 404, and everything goes on as if it had not been sent. Each event that a client gets is from an accepted request for its own subscription.", "quantifier": "all histories of subscriptions, requests, polls, removals, time and heartbeat checks in any order; all requests", "why_tests_cant": "Requests of anybody can come at any moment between the steps of any number of subscriptions.", "anchors": ["bin/router/src/pipeline/http_callback.rs: handler, validate_protocol, validate_payload", "bin/router/src/executor/executors/http_callback.rs: subscribe"]}
{"id": "C72", "title": "Events sent by callback reach the client once, in order, and with the errors at the end", "statement": "What a subgraph sends for a subscription and the router accepts with 204 is delivered to the client once and in the order in which it was accepted. A poll gets what is waiting. The stream ends at a payload that cannot be read or at the message that completes it, and the errors of that message are told.", "quantifier": "all histories, all payloads, any number of events between two polls", "why_tests_cant": "Events come at any pace relative to the reader, and entries are removed while messages wait.", "anchors": ["bin/router/src/pipeline/http_callback.rs: handle_next, handle_complete", "bin/router/src/executor/executors/http_callback.rs: subscribe", "bin/router/src/executor/executors/subscription_buffer.rs: try_send_or_drop"]}
{"id": "C73", "title": "A subscription by callback is open exactly as long as it is needed", "statement": "As long as a client reads and nobody has completed the subscription, checks and events with its secret are accepted. Once its stream has ended or the client has left, and pending removals are done, nothing is kept for it and everything sent for it is refused for ever.", "quantifier": "all histories, all interleavings of ends, departures, removals and requests", "why_tests_cant": "Removals race with requests, with the end of the stream and with the heartbeat check.", "anchors": ["bin/router/src/executor/executors/http_callback.rs: CallbackSubscriptionGuard, subscribe", "bin/router/src/pipeline/http_callback.rs: handler", "bin/router/src/schema_state.rs: heartbeat enforcer"]}
{"id": "C74", "title": "Subscriptions without heartbeats are ended, others are not", "statement": "The router ends a subscription for missed heartbeats only if it was opened, and the last check for it accepted, longer ago than the interval and the grace period. A subscription that is silent for longer when the router looks is ended: nothing is kept for it, what is sent for it is refused, and its client is told.", "quantifier": "all histories, all times, all limits", "why_tests_cant": "Checks can come at any moment, also between the two loops of the enforcer.", "anchors": ["bin/router/src/schema_state.rs: heartbeat enforcer", "bin/router/src/pipeline/http_callback.rs: handle_check"]}
{"id": "C75", "title": "Operations and fragments of accepted documents can be told apart, exist and are used", "statement": "The rules on names accept a document exactly if no two named operations have one name, an operation without a name is alone, no two fragments have one name, every spread names a fragment of the document, and every fragment is spread in an operation, directly or through other fragments.", "quantifier": "all schemas, all documents: any number of operations and fragments, spreads at any depth, cycles of fragments included", "why_tests_cant": "Reaching a fragment goes over graphs of any shape.", "anchors": ["lib/graphql-tools/src/validation/rules/unique_operation_names.rs: UniqueOperationNames", "lib/graphql-tools/src/validation/rules/lone_anonymous_operation.rs: LoneAnonymousOperation", "lib/graphql-tools/src/validation/rules/unique_fragment_names.rs: UniqueFragmentNames", "lib/graphql-tools/src/validation/rules/known_fragment_names.rs: KnownFragmentNames", "lib/graphql-tools/src/validation/rules/no_unused_fragments.rs: NoUnusedFragments", "lib/graphql-tools/src/ast/operation_visitor.rs: visit_document"]}
{"id": "C76", "title": "Documents with cycles of fragments are rejected, and only those", "statement": "If fragments have names of their own, the rule on cycles rejects a document exactly if some fragment is spread in itself, directly or through other fragments, at any depth.", "quantifier": "all documents, spreads at any depth, cycles of any length", "why_tests_cant": "Cycles can have any length and stand at any depth.", "anchors": ["lib/graphql-tools/src/validation/rules/no_fragments_cycle.rs: NoFragmentsCycle, detect_cycles", "lib/graphql-tools/src/ast/ext.rs: get_recursive_fragment_spreads"]}
{"id": "C77", "title": "Variables of accepted operations are distinct, of input types, defined and used", "statement": "When operations can be told apart, the rules on variables accept a document exactly if in every operation no two variables have one name, no variable has a type of the schema that is not an input type, every variable used in the operation or in a fragment it reaches is defined, and every variable defined is used there.", "quantifier": "all schemas, all documents, values of any depth, fragments reached by any path", "why_tests_cant": "Uses stand in values of any depth and in fragments reached over any graph, shared between operations.", "anchors": ["lib/graphql-tools/src/validation/rules/unique_variable_names.rs: UniqueVariableNames", "lib/graphql-tools/src/validation/rules/variables_are_input_types.rs: VariablesAreInputTypes", "lib/graphql-tools/src/validation/rules/no_undefined_variables.rs: NoUndefinedVariables", "lib/graphql-tools/src/validation/rules/no_unused_variables.rs: NoUnusedVariables", "lib/graphql-tools/src/validation/rules/known_type_names.rs: KnownTypeNames", "lib/graphql-tools/src/ast/ext.rs: variables_in_use"]}
{"id": "C78", "title": "Accepted documents select only fields that exist, and fragments are on types that can be selected on", "statement": "In every accepted document each field is `__typename` or one that the type in scope has, it has selections of its own exactly if its type is not a leaf, and each fragment is on an object, interface or union of the schema.", "quantifier": "all schemas, all documents, selections at any depth, through inline fragments and fragments", "why_tests_cant": "The type in scope depends on the whole path to the field, of any length.", "anchors": ["lib/graphql-tools/src/validation/rules/fields_on_correct_type.rs: FieldsOnCorrectType", "lib/graphql-tools/src/validation/rules/leaf_field_selections.rs: LeafFieldSelections", "lib/graphql-tools/src/validation/rules/fragments_on_composite_types.rs: FragmentsOnCompositeTypes", "lib/graphql-tools/src/validation/rules/known_type_names.rs: KnownTypeNames", "lib/graphql-tools/src/ast/operation_visitor.rs: visit_selection_set"]}
{"id": "C79", "title": "Directives of accepted documents are known, allowed where they stand and not repeated", "statement": "A document is accepted by the rules on directives exactly if every directive on an operation, a fragment, a field, a spread or an inline fragment is one of the schema, may stand at that kind of place, and stands there at most once unless it is repeatable.", "quantifier": "all schemas, all documents, directives at any depth", "why_tests_cant": "The rule keeps where it is in a variable that every event of the walk changes; it must be right after every walk.", "anchors": ["lib/graphql-tools/src/validation/rules/known_directives.rs: KnownDirectives", "lib/graphql-tools/src/validation/rules/unique_directives_per_location.rs: UniqueDirectivesPerLocation"]}
{"id": "C80", "title": "Arguments of accepted documents are defined, given once, and given where they must be", "statement": "In every accepted document each argument of a field or directive is one it has in the schema, none is given twice, and each argument that cannot be null and has no default is given.", "quantifier": "all schemas, all documents, fields and directives at any depth", "why_tests_cant": "The rule on names keeps the arguments of the last field or directive in a variable across the whole walk.", "anchors": ["lib/graphql-tools/src/validation/rules/known_argument_names.rs: KnownArgumentNames", "lib/graphql-tools/src/validation/rules/unique_argument_names.rs: UniqueArgumentNames", "lib/graphql-tools/src/validation/rules/provided_required_arguments.rs: ProvidedRequiredArguments"]}
{"id": "C81", "title": "Fragments of accepted documents stand where they can apply", "statement": "If no two fragments have one name and the schema is well formed, a document is accepted exactly if every fragment, inline or spread, stands where there can be an object of its type: some object type is or implements or is a member of both the type of the fragment and the type in scope.", "quantifier": "all well formed schemas, all documents, all pairs of objects, interfaces and unions", "why_tests_cant": "Ranges over all pairs of types of all schemas.", "anchors": ["lib/graphql-tools/src/validation/rules/possible_fragment_spreads.rs: PossibleFragmentSpreads, do_types_overlap", "lib/graphql-tools/src/ast/ext.rs: has_sub_type, possible_types"]}
{"id": "C82", "title": "Values of accepted documents have the type that is expected", "statement": "In every accepted document each literal given as an argument or as the default of a variable can be used as the type that is expected there: scalars, enums, lists at every depth, and input objects whose fields are known, given where they must be and of the right type; and no document whose values all fit is rejected.", "quantifier": "all schemas, all documents, literals of any depth", "why_tests_cant": "Literals and types nest to any depth.", "anchors": ["lib/graphql-tools/src/validation/rules/values_of_correct_type.rs: ValuesOfCorrectType", "lib/graphql-tools/src/ast/operation_visitor.rs: visit_input_value"]}
{"id": "C83", "title": "No object literal of an accepted document gives a field twice", "statement": "A document is accepted by the rule exactly if no object literal in it, in arguments or defaults, at any depth, gives a field twice.", "quantifier": "all documents, literals of any depth", "why_tests_cant": "Literals nest to any depth.", "anchors": ["lib/graphql-tools/src/validation/rules/unique_input_field_names.rs: UniqueInputFieldNames"]}
{"id": "C84", "title": "Variables of accepted operations are used only where their types are allowed", "statement": "In every accepted document a variable is used, in its operation or in a fragment it reaches, only where its type can be used: with the same type up to being non-null, or where it can be null because the variable or the place has a default; and no document in which that holds is rejected.", "quantifier": "all schemas with input types for inputs, all documents, variables in values of any depth, fragments reached by any path", "why_tests_cant": "Uses stand in values of any depth and in fragments reached over any graph; types nest to any depth.", "anchors": ["lib/graphql-tools/src/validation/rules/variables_in_allowed_position.rs: VariablesInAllowedPosition, collect_incorrect_usages", "lib/graphql-tools/src/ast/ext.rs: is_subtype"]}
{"id": "C85", "title": "An accepted subscription has one root field", "statement": "In every accepted document a subscription has at most one field in its response, counting those in fragments that apply to the subscription type, and it is not one of introspection.", "quantifier": "all schemas, all documents, fragments reached by any path", "why_tests_cant": "Root fields are collected over graphs of fragments of any shape.", "anchors": ["lib/graphql-tools/src/validation/rules/single_field_subscriptions.rs: SingleFieldSubscriptions", "lib/graphql-tools/src/ast/collect_fields.rs: collect_fields"]}
{"id": "C86", "title": "Fields that share a key in the response are rejected exactly if they cannot be merged", "statement": "A document is rejected by the rule exactly if some selection set has two fields with one key in the response, in it or in fragments of it, that are in conflict: different fields or different arguments while both can be in one response, or types that cannot stand for each other, or such fields among those selected on their values.", "quantifier": "all schemas, all documents, selections of any depth, fragments spread over any graph", "why_tests_cant": "Conflicts are between all pairs of fields at all depths, through fragments of any shape; the rule remembers which fragments it has compared over the whole walk.", "anchors": ["lib/graphql-tools/src/validation/rules/overlapping_fields_can_be_merged.rs: OverlappingFieldsCanBeMerged, find_conflict, collect_conflicts_between_fields_and_fragment", "lib/graphql-tools/src/ast/ext.rs: Value::compare"]}
{"id": "C87", "title": "Validation of every document comes to an end", "statement": "For every document the search for fields that cannot be merged comes to an end, also if fragments spread each other in a circle.", "quantifier": "all schemas, all documents, fragments spread over any graph", "why_tests_cant": "Ranges over all graphs of fragments; a test can only show that the graphs it has end.", "anchors": ["lib/graphql-tools/src/validation/rules/overlapping_fields_can_be_merged.rs: collect_conflicts_between_fields_and_fragment, collect_conflicts_between_fragments, find_conflicts_between_sub_selection_sets", "lib/graphql-tools/src/validation/validate.rs: validate"]}
{"id": "C88", "title": "The text sent to a subgraph reads as the planned operation", "statement": "The text that is sent for a fetch, with or without the name of the operation written into it, is a document of the GraphQL language and reads, by its grammar, as the operation that was planned: the same fields, arguments, values, conditions, variables and fragments, and as nothing else.", "quantifier": "all planned documents, selections and values of any depth, all strings, all names of operations", "why_tests_cant": "Strings, names and nesting are unbounded; a wrong escape or a missing separator shows only where the pieces meet.", "anchors": ["bin/router/src/query_planner/ast/value.rs: Display for Value", "bin/router/src/query_planner/ast/selection_set.rs: Display for FieldSelection, InlineFragmentSelection", "bin/router/src/query_planner/ast/operation.rs: Display for OperationDefinition, operation name position", "bin/router/src/query_planner/ast/document.rs: Display for Document", "bin/router/src/executor/json_writer.rs: write_named_operation", "bin/router/src/executor/execution/operation_name.rs: OperationNameFactory"]}
{"id": "C89", "title": "A document is read the way the GraphQL language defines", "statement": "A text is accepted exactly if it is a document of the GraphQL language, and then as the document it reads as by the grammar: the same definitions, fields, arguments and values.", "quantifier": "all texts", "why_tests_cant": "Ranges over all texts; tokens and nesting are unbounded.", "anchors": ["lib/graphql-tools/src/parser/tokenizer.rs: TokenStream", "lib/graphql-tools/src/parser/query/grammar.rs: parse_query, handle_token_stream", "lib/graphql-tools/src/parser/common.rs: value, unquote_string, unquote_block_string"]}
{"id": "C90", "title": "Reading a document does not crash", "statement": "For every text, reading it ends with a document or with an error.", "quantifier": "all texts, with or without a limit of tokens", "why_tests_cant": "Ranges over all texts, with characters of any length in bytes at any place.", "anchors": ["lib/graphql-tools/src/parser/common.rs: unquote_block_string", "lib/graphql-tools/src/parser/query/grammar.rs: parse_query", "bin/router/src/pipeline/parser.rs"]}
{"id": "C91", "title": "The limit of tokens is what decides", "statement": "With a limit of n tokens a document is accepted exactly if it is accepted without a limit and has at most n tokens.", "quantifier": "all texts, all limits", "why_tests_cant": "Ranges over all texts and limits; tokens are taken by many branches of the tokenizer, each of which has to count.", "anchors": ["lib/graphql-tools/src/parser/tokenizer.rs: TokenStream::new_with_token_limit, advance_token, take_token", "bin/router/src/config/limits.rs: MaxTokensRuleConfig", "bin/router/src/pipeline/parser.rs"]}
{"id": "C92", "title": "The minified text of a document reads as the document", "statement": "For every document that the router accepts, the minified text that it keeps and reports exists, is accepted under the same limits, reads as the same document and is its own minified text; documents that differ only in white space, commas and comments have the same minified text.", "quantifier": "all texts, all limits of tokens", "why_tests_cant": "Ranges over all texts; whether two tokens may touch depends on every pair of tokens and on what strings hold.", "anchors": ["lib/graphql-tools/src/parser/query/minify.rs: minify_query", "bin/router/src/pipeline/parser.rs: ParseCacheEntry::try_new, parse_operation_with_cache", "lib/graphql-tools/src/parser/tokenizer.rs: TokenStream"]}
{"id": "C93", "title": "Clients see exactly what is for them", "statement": "For every composed supergraph, the schema that clients are given (and against which their operations are checked) has exactly the types, fields, arguments, input fields, enum values, union members and interfaces that are not marked inaccessible and not there for federation, with the types, defaults and descriptions they have in the supergraph, and the types and fields of introspection; it has no directive of federation.", "quantifier": "all supergraph documents", "why_tests_cant": "Ranges over all supergraphs; the walk keeps or replaces each part depending on whether anything below it changed, so what is shown of one part depends on its siblings.", "anchors": ["bin/router/src/query_planner/consumer_schema/mod.rs: ConsumerSchema::create_consumer_schema", "bin/router/src/query_planner/consumer_schema/prune_inacessible.rs: PruneInaccessible", "bin/router/src/query_planner/consumer_schema/strip_schema_internals.rs: StripSchemaInternals", "bin/router/src/query_planner/utils/schema_transformer.rs: SchemaTransformer"]}
{"id": "C94", "title": "What execution knows of the schema is what the schema says", "statement": "For every well-formed schema, the router takes an object for a type exactly when it is that type, implements that interface or is a member of that union; it finds a field on a type exactly when the type has it, with its type and with non-null and list where the type says so at each level; and it knows the kind of each name and the values of each enum.", "quantifier": "all well-formed schemas, all names of types, conditions and fields", "why_tests_cant": "Ranges over all schemas, with any nesting of interfaces, unions and list types; the tables are filled in one pass, closed one level further, and the order of definitions must not matter.", "anchors": ["bin/router/src/executor/introspection/schema.rs: SchemaMetadata, PossibleTypes::entity_satisfies_type_condition, schema_metadata, field_nullability"]}
{"id": "C95", "title": "A client's WebSocket connection keeps to the protocol", "statement": "For every history of a connection: the client is acknowledged at most once, and before that no operation is run and nothing is told about any; operations that come too early, a second initialisation, a name in use and a missing initialisation close the connection with the code the protocol has for it; about each operation, under its name, the client is told exactly what came for it, in order, and nothing after its errors or its end; a subscription is cut off only when the client says so or the connection ends, and then it does stop.", "quantifier": "all sequences of frames, outcomes of operations and events of subscriptions, all interleavings of frame handlers, subscription tasks and timers, all points at which the connection is lost", "why_tests_cant": "Ranges over all interleavings of the frame handler with the tasks of subscriptions, whose clean-up may come after the name was used again.", "anchors": ["bin/router/src/pipeline/websocket_server.rs: ws_service, handle_text_frame, SubscriptionGuard", "bin/router/src/executor/executors/websocket_common.rs: WsState, handshake_timeout, heartbeat, parse_frame_to_text", "bin/router/src/executor/executors/graphql_transport_ws.rs: CloseCode, ClientMessage, ServerMessage"]}
{"id": "C96", "title": "Operations over WebSocket get the headers that the configuration says", "statement": "For every configuration, payload of the connection and extensions of operations: each operation gets exactly the headers of the sources that are accepted, its own before those of the connection; where they are kept, later operations get the values last in use, and otherwise no operation has anything to do with another.", "quantifier": "all configurations of the headers of WebSockets, all payloads and extensions, all sequences of operations, all orders in which a hash map may yield its entries", "why_tests_cant": "Ranges over all sequences of operations and over the order of a hash map, which differs from run to run.", "anchors": ["bin/router/src/pipeline/websocket_server.rs: parse_headers_from_object, parse_headers_from_connection_init_payload, parse_headers_from_extensions, handle_text_frame", "bin/router/src/config/websocket.rs: WebSocketHeadersConfig"]}
{"id": "C97", "title": "Requests to a subgraph share one WebSocket connection of their own", "statement": "For every history of the pool of WebSocket connections: who asks for a connection gets one to the same subgraph and endpoint with the same headers, open when it asked or made since; for each of these there is at most one open connection or one attempt to connect at any time; an open connection is always found; who waits is told exactly once, with the attempt it waits for, however attempts fail or are cancelled; what is left over of an old attempt or connection never touches a new one.", "quantifier": "all sequences and interleavings, on any number of threads, of requests, requests that are given up, attempts that succeed, fail or are cancelled, connections that close and evictions that come late", "why_tests_cant": "The claim is about every interleaving of callers, attempts and owners of connections on several threads; a test sees a few schedules.", "anchors": ["bin/router/src/executor/executors/websocket_pool.rs: WebSocketPool::get_initialized, get_or_initialize, InitializationCleanup, notify_waiters, PooledWebSocketExecutor::evict_if_current"]}
{"id": "C98", "title": "A shared connection to a subgraph serves its commands in order and closes only when idle", "statement": "For every history of a pooled connection: each request gets at most one answer; it is told that its operation has started exactly if that operation runs or ran; operations are started in the order of the commands; the connection closes for being idle only if no operation runs and none ran for the idle timeout; once it is closed nothing is started any more, every command taken in before is answered with the error, and everyone else is turned away.", "quantifier": "all sequences and interleavings of submitted, given up and finished operations, failures of the connection, firing of the idle timer and passing of time, all capacities and timeouts", "why_tests_cant": "The race between the idle timer, the queue and callers with a permit has unboundedly many schedules.", "anchors": ["bin/router/src/executor/executors/websocket_pool.rs: PooledWebSocketExecutor::submit, ConnectionOwner::run, OperationCompletionGuard, ConnectionShutdown"]}
{"id": "C99", "title": "Operations that share a connection to a subgraph do not mix", "statement": "For every history of a connection to a subgraph: the stream of each operation yields exactly what the server said to that operation from its start to its end, in order; operations never have the same name; the server is told once that an operation is complete, and only if the router gave it up while it went on.", "quantifier": "all sequences of messages from the server, also for names that are not in use, all interleavings with operations that are started, given up and cancelled", "why_tests_cant": "Ranges over all interleavings of any number of operations on one connection and over all behaviour of the server.", "anchors": ["bin/router/src/executor/executors/websocket_client.rs: WsClient::subscribe, next_subscription_id, SubscriptionGuard, dispatch_loop, handle_text_frame, DispatcherGuard"]}
{"id": "C100", "title": "When the connection to a subgraph is lost, its operations end with an error", "statement": "For every history of a connection to a subgraph: once the connection is lost every operation that was started on it, before or after, ends, and with an error.", "quantifier": "all sequences of messages and operations, all moments at which the connection is lost", "why_tests_cant": "Depends on the order in which two events that happened at once are noticed, which is random.", "anchors": ["bin/router/src/executor/executors/websocket_client.rs: WsClient::init, subscribe, DispatcherGuard", "bin/router/src/executor/executors/websocket_pool.rs: ConnectionOwner::run"]}
{"id": "C101", "title": "Introspection says what the schema says", "statement": "For every schema and every operation that asks for __schema or __type, the answer has exactly the fields that are asked for, and each is what the GraphQL specification says of this schema: kinds, names, fields, arguments, types, interfaces, possible types, enum values, input fields, directives, defaults and deprecations, with what is deprecated only if that is asked for.", "quantifier": "all schemas, all introspection operations of any depth with aliases and fragments, all values of variables, all orders in which hash tables are walked", "why_tests_cant": "Types refer to each other, so that answers of any depth can be asked for; a test compares one operation on one schema.", "anchors": ["bin/router/src/executor/introspection/resolve.rs: resolve_introspection, resolve_schema_field, resolve_type_definition, resolve_field, resolve_input_value, resolve_enum_value, resolve_directive, resolve_wrapper_type"]}
{"id": "C102", "title": "Introspection never crashes", "statement": "For every supergraph whose visible parts only mention visible types, every introspection operation is answered.", "quantifier": "all composed supergraphs, all introspection operations, all values of variables", "why_tests_cant": "The resolver has calls that panic if a type is missing; whether one is reached depends on schema and operation.", "anchors": ["bin/router/src/executor/introspection/resolve.rs: resolve_type, resolve_schema_selections", "bin/router/src/query_planner/consumer_schema/mod.rs: ConsumerSchema::create_consumer_schema", "bin/router/src/executor/introspection/schema.rs: SchemaMetadata"]}
{"id": "C103", "title": "Introspection does not tell what is hidden", "statement": "Two supergraphs that differ only in what is marked @inaccessible or is there for federation get the same answers to every introspection operation.", "quantifier": "all pairs of composed supergraphs of which clients see the same, all introspection operations", "why_tests_cant": "It compares the answers of two schemas for all operations; absence of a leak cannot be seen in single answers.", "anchors": ["bin/router/src/executor/introspection/resolve.rs: resolve_introspection", "bin/router/src/query_planner/consumer_schema/prune_inacessible.rs: PruneInaccessible", "bin/router/src/query_planner/consumer_schema/strip_schema_internals.rs: StripSchemaInternals"]}
{"id": "C104", "title": "Usage reports tell no literals and no aliases", "statement": "For every operation: the text that is reported for it has no literal but zeros and empty strings and no alias; operations that differ only in literals, also in default values, lists, input objects and arguments of directives, and in aliases are reported with the same text, byte for byte.", "quantifier": "all documents of the language, all pairs of documents that differ in literals and aliases", "why_tests_cant": "That nothing leaks is a claim about pairs of all documents; a test sees single texts.", "anchors": ["lib/hive-console-sdk/src/agent/utils.rs: StripLiteralsTransformer, normalize_operation", "lib/graphql-tools/src/ast/operation_transformer.rs: OperationTransformer", "lib/graphql-tools/src/parser/query/minify.rs: minify_query_document"]}
{"id": "C105", "title": "A usage report tells the operation itself, whatever its order", "statement": "For every operation: the text that is reported for it is a document of the language and reads as the same operation up to literals, aliases and order; two operations are reported with the same text if and only if they differ only in these.", "quantifier": "all documents of the language and pairs of them", "why_tests_cant": "Ranges over all documents and all ways of reordering them at any depth.", "anchors": ["lib/hive-console-sdk/src/agent/utils.rs: SortSelectionsTransform, normalize_operation", "lib/graphql-tools/src/parser/query/minify.rs: minify_query_document"]}
{"id": "C106", "title": "A report of usage that is kept is handed over once", "statement": "For every history of the usage agent: every report that was kept is, at any time, exactly once either about to enter the buffer, in the buffer or in a batch handed over for sending; batches hold reports in the order in which they entered the buffer; the buffer never holds more than its size and no batch is empty or holds more than one report more than that; after a last flush all that was kept is in batches.", "quantifier": "all sequences and interleavings of added reports and flushes, all sizes of the buffer", "why_tests_cant": "Ranges over all interleavings of tasks that add reports and tasks that flush.", "anchors": ["lib/hive-console-sdk/src/agent/usage_agent.rs: add_report_with_request, flush, handle_drained", "lib/hive-console-sdk/src/agent/buffer.rs: Buffer::add, Buffer::drain"]}
{"id": "C107", "title": "Exclusion and sampling of usage reports do what is configured", "statement": "For every history of the usage agent: an excluded report is never sent; with a rate of one all others are kept; with a rate of zero none is, save the first of each key where sampling is at least once; with at-least-once sampling the first report of each key is kept; the set of keys never grows over its capacity and inserting never panics.", "quantifier": "all histories, configurations, random choices and hash functions without collisions among the keys that occur", "why_tests_cant": "Ranges over all histories of keys, also longer than the capacity of the set, where old keys are forgotten.", "anchors": ["lib/hive-console-sdk/src/agent/usage_agent.rs: should_exclude, should_sample, sampling_key_hash", "lib/hive-console-sdk/src/helpers.rs: FifoSet"]}
{"id": "C108", "title": "A usage report accounts for each operation of its batch", "statement": "For every batch: the report has one entry per operation that is valid and not introspection, in order, with its time, duration, outcome and client; the size is the number of entries; the key of each entry leads to the text, the coordinates and the name of the operation; if nothing is left nothing is sent.", "quantifier": "all batches of reports and all outcomes of processing their operations", "why_tests_cant": "Ranges over all batches and over all ways in which operations in them share a key.", "anchors": ["lib/hive-console-sdk/src/agent/usage_agent.rs: produce_report, send_report"]}
{"id": "C109", "title": "A usage report names the parts of the schema that the operation uses", "statement": "For every schema and operation: the report names every field the operation selects with the type it is selected on, every argument given to a field, every field given in an input object, every enum value and scalar given as a literal and all that is inside the types of its variables, and says of arguments and input fields whether a value was given; it names nothing the schema does not have; and there is a report for every operation that selects fields of the schema.", "quantifier": "all schemas, all documents, all orders in which sets come out", "why_tests_cant": "Ranges over all schemas, also recursive input types, and all documents at any depth; a field that is left out of reports looks unused and is deleted.", "anchors": ["lib/hive-console-sdk/src/agent/utils.rs: collect_schema_coordinates, SchemaCoordinatesVisitor, OperationProcessor::transform", "lib/graphql-tools/src/ast/operation_visitor.rs: visit_document, OperationVisitorContext"]}
{"id": "C110", "title": "Reports are built the same way whoever else builds reports, and building them does not crash", "statement": "For every number of calls that run at the same time, and whatever the cache drops when: every answer of the cache of processed operations is what the operation is reported as, and no call panics.", "quantifier": "all schedules of concurrent calls and of evictions", "why_tests_cant": "The order of the steps of concurrent calls and of evictions cannot be enumerated.", "anchors": ["lib/hive-console-sdk/src/agent/utils.rs: OperationProcessor::process", "lib/hive-console-sdk/src/agent/usage_agent.rs: produce_report, handle_drained"]}
{"id": "C111", "title": "A bad supergraph never replaces a good one", "statement": "For every source of the supergraph, every sequence of answers to polls and every order in which loading and building go on: requests get the supergraph that was built last; supergraphs are built in the order in which the source sent them, so an older one never replaces a newer one; a poll that fails, a source that does not answer and a supergraph that cannot be built leave requests with the one they had; and once there is one there always is.", "quantifier": "all sources, all sequences of answers, all interleavings of loader, channel and builder", "why_tests_cant": "Ranges over all histories of the source and all interleavings of polling and building.", "anchors": ["bin/router/src/schema_state.rs: SupergraphBackgroundLoaderTask::run, SchemaState::new_from_config, ConfiguredSupergraph::build", "bin/router/src/supergraph: file.rs, hive.rs, storage.rs, apollo_graphos.rs", "lib/hive-console-sdk/src/supergraph_fetcher/async_fetcher.rs: fetch_supergraph"]}
{"id": "C112", "title": "What the source has is what requests get in the end", "statement": "For every source that gives each version a name of its own (ETag, id or time of modification) and answers polls with what it has: whenever a poll was answered after the last change and nothing is on its way any more, requests get the supergraph that the source has, whatever failed before and however the source changed while it was asked.", "quantifier": "all sources, all histories of changes, failures and polls, all interleavings", "why_tests_cant": "Ranges over all points in time at which the source changes or fails during a poll.", "anchors": ["bin/router/src/supergraph/file.rs: load_with_polling", "lib/hive-console-sdk/src/supergraph_fetcher/async_fetcher.rs: fetch_supergraph, update_latest_etag", "bin/router/src/supergraph/storage.rs: fetch_supergraph", "bin/router/src/supergraph/apollo_graphos.rs: load", "bin/router/src/schema_state.rs: SupergraphBackgroundLoaderTask::run"]}
{"id": "C113", "title": "A request is served with one supergraph, and with what was built for it", "statement": "For every number of concurrent requests and whatever is reloaded, evicted and retired meanwhile: all parts of a request get the same supergraph; what the router built for it was built for this supergraph and no other; what is in the cache is used and not built again; no more than ten supergraphs of plugins are kept; and what belongs to a retired supergraph is removed.", "quantifier": "all schedules of requests, reloads, evictions, retirements and of the task that cleans up", "why_tests_cant": "The schedules cannot be enumerated.", "anchors": ["bin/router/src/schema_state.rs: SchemaState::select_supergraph, resolve_runtime, RuntimeCacheCleanupTask"]}
{"id": "C114", "title": "A coprocessor's answer does what it says, and nothing else", "statement": "For every stage, request, response and answer of the coprocessor: a request goes on only if the stage's condition excludes it, and then unchanged, or if a well-formed answer of the right version with a good status says so. It goes on with exactly the headers, body and GraphQL parameters that the answer gives and the rest as it was; method, path and status are never changed, and headers of the connection (Host, Content-Length, ...) stay. If the answer ends the request, the client gets its status, its body and all its headers. A coprocessor that answers with the headers it was told changes none.", "quantifier": "all requests, responses, headers and answers, at all five stages", "why_tests_cant": "Answers are arbitrary: all combinations of names, repeated values, missing parts and failures cannot be tried.", "anchors": ["bin/router/src/executor/coprocessor/stage.rs: Stage::break_output, StageResponseHeaders, HeaderMapJsonRef", "bin/router/src/executor/coprocessor/runtime.rs: StageRuntime::execute_internal", "bin/router/src/executor/coprocessor/stages/router.rs: apply_mutations", "bin/router/src/executor/coprocessor/stages/graphql.rs: apply_mutations, GraphqlBodyPayload::apply_to"]}
{"id": "C115", "title": "A coprocessor cannot change what the router says of itself, and sees only what is selected", "statement": "For every request context and every patch a coprocessor answers with: what the router says of the operation, authentication, client and unresolved labels stays; a patch that names a reserved key which is not open to coprocessors is refused, and one that names none is not; keys of its own get the value that the patch gives last, null removes them, and other keys stay; the two open keys (labels to override, skip enforcement) get what the patch says; and the coprocessor is told the selected keys and no others.", "quantifier": "all contexts, all patches, all selections of keys", "why_tests_cant": "Ranges over all keys and all sequences of patches.", "anchors": ["bin/router/src/executor/request_context/api/coprocessor.rs: RequestContextCoprocessorApi", "bin/router/src/executor/request_context/domains: try_set_reserved_key, CustomContext::apply", "bin/router/src/executor/request_context/deser.rs: SelectedRequestContext"]}
{"id": "C116", "title": "Nothing is executed that the coprocessor ended, and what is executed is what it left and was validated", "statement": "For every request and whatever the coprocessor answers at each stage: if it ends the request, or fails, at any stage before execution, nothing is executed; if anything is executed, it is the document, headers, parameters and context that the last stage left; and what is executed was validated.", "quantifier": "all requests, all documents, all answers at all stages, including failures", "why_tests_cant": "Ranges over all combinations of answers at the stages.", "anchors": ["bin/router/src/plugins/plugins_service.rs: PluginService::call", "bin/router/src/pipeline/mod.rs: graphql_request_handler, execute_pipeline", "bin/router/src/lib.rs: graphql_endpoint_dispatch", "bin/router/src/executor/coprocessor/runtime.rs: on_router_request, on_graphql_request, on_graphql_analysis, on_graphql_response, on_router_response"]}
{"id": "C117", "title": "A client gets the extensions of subgraphs that it should, and never a query plan of theirs", "statement": "For every configuration of the propagation of extensions and whatever subgraphs answer, in whatever order: extensions that the router or a plugin set are never replaced; of other keys a client gets exactly those that are allowed and that some subgraph gave, with the first value, the last one or the list of all in order, as configured; `queryPlan` is never taken from a subgraph; extensions that are not an object are ignored; and without propagation nothing is added.", "quantifier": "all configurations, all sequences of subgraph responses, all keys", "why_tests_cant": "Ranges over all sequences of responses and repeated keys.", "anchors": ["bin/router/src/executor/extensions/aggregator.rs: ExtensionsAggregator::write, merge_into, apply_subgraph_extensions", "bin/router/src/executor/extensions/compile.rs: compile_extensions_plan", "bin/router/src/executor/execution/plan.rs: execute_query_plan"]}
{"id": "C118", "title": "Every span is exported or counted as dropped, traces are exported whole, and memory stays bounded", "statement": "Whenever spans end and however the thread that collects them is scheduled: each span that ended is at every time in exactly one place - waiting, in an unfinished trace, in one that is to be exported, handed to the exporter, or dropped - and the counters say how many were dropped. A trace that is exported has all its spans up to its root, in order, up to the limit per trace, and none of others. Unfinished traces, spans per trace, traces per batch and concurrent exports stay within their limits. Unfinished traces are dropped by the first sweep after their lifetime and not before. After shutdown, every span that ended before it was asked for has been handed to the exporter or counted.", "quantifier": "all limits, all sequences of ended spans, flushes and shutdowns, all schedules and times", "why_tests_cant": "Ranges over all interleavings of ending spans, timers, exports and shutdown.", "anchors": ["bin/router/src/telemetry/traces/trace_batch_span_processor.rs: TraceBatchSpanProcessor::on_end, shutdown_with_timeout; TraceAggregator::run, process_message, handle_span, sweep, drain_active_traces, flush_export_queue; ActiveTrace::add_span"]}
{"id": "C119", "title": "A subgraph is not asked for fields of conflicting types under one key", "statement": "For every schema and every selection set that is sent to a subgraph: if fields with the same response key stand at one level, directly or in fragments, and their types in the subgraph cannot stand beside each other, all but one are renamed, so that the subgraph accepts the operation, and the response is renamed back to the keys that were asked for. Where there is no such conflict nothing is renamed. An alias is one that nothing else in the selection set has.", "quantifier": "all schemas, all selection sets with nested fields and fragments", "why_tests_cant": "Ranges over all selection sets and combinations of types.", "anchors": ["bin/router/src/query_planner/ast/mismatch_finder.rs: SelectionMismatchFinder::find_mismatches_in_node, handle_selection_set, handle_field", "bin/router/src/query_planner/planner/fetch/optimize/type_mismatches.rs: fix_conflicting_type_mismatches", "bin/router/src/query_planner/ast/safe_merge.rs: safe_next_alias_name"]}
{"id": "C120", "title": "Folding fragments into an interface does not change what is asked for", "statement": "For every schema, every selection set of a fetch and all values of variables: when the planner replaces fragments on the objects of an interface by one on the interface, an object of each type the subgraph can return at that place is asked for the same fields with the same response keys and arguments as before, at every depth, with @skip and @include taken into account. What is asked for still are fields of the types they are asked of, with arguments these take, so that the subgraph accepts the operation. Where there is nothing to fold nothing is changed, and folding again and again comes to an end.", "quantifier": "all schemas, all selection sets with nested fields, fragments and conditions, all values of variables, all types of objects, with and without the experimental folding into any interface", "why_tests_cant": "Ranges over all schemas and selection sets and over the types of objects a subgraph may return.", "anchors": ["bin/router/src/query_planner/planner/fetch/optimize/fold_concrete_selections_to_interfaces.rs: fold_concrete_selections_to_interfaces, rewrite_selection_set, rewrite_inline_fragments, try_fold_into_interface", "bin/router/src/query_planner/ast/semantic_eq.rs: SemanticEq", "bin/router/src/query_planner/ast/selection_set.rs: merge_selection_set"]}
{"id": "C121", "title": "A circuit breaker counts exactly the configured status codes and changes no response", "statement": "For every entry of error_status_codes in a documented form (an exact status from 100 to 599, Nx and Nxx wildcards in either case) the entry matches exactly the statuses it stands for, and everything else is refused. For every subgraph the settings are its own, or else the global ones, or else the default. Every request a breaker lets through has its response or error handed on unchanged, and is counted as a failure exactly if it is an error or its status matches an entry. Entries that are written out are read back the same.", "quantifier": "all strings and numbers in the configuration, all statuses, all combinations of settings, all responses and errors", "why_tests_cant": "Ranges over all entries and statuses and all combinations of settings.", "anchors": ["bin/router/src/config/traffic_shaping.rs: StatusCodeMatcher::matches, parse_str, Serialize, Deserialize", "bin/router/src/executor/executors/map.rs: register_circuit_breaker, execute"]}
{"id": "C122", "title": "Environment variables win over the configuration file", "statement": "For every environment and configuration: a setting whose environment variable is set has the variable's value, and every other setting keeps the value of the configuration. If a source of the supergraph is named in the environment (a file, Hive or Apollo) it is the one used, with its key, graph, endpoints and interval; naming two, or one without its key or graph, is an error, and nothing else is. Several endpoints are the words between commas without the blanks around them.", "quantifier": "all sets of environment variables, all configurations, all values", "why_tests_cant": "Ranges over all combinations of more than twenty variables with every configuration.", "anchors": ["bin/router/src/config/env_overrides.rs: EnvVarOverrides::apply_overrides, EnvVarOverridesError"]}
{"id": "C123", "title": "Requests to a subgraph go to the endpoint that is configured, over executors used again", "statement": "For every configuration, supergraph and history of requests: a request to a subgraph goes to the URL of the subgraph's own override, else of the override for all, else of the supergraph, where an expression is evaluated with this request, the URL in the supergraph and the name of the subgraph; it fails if the expression fails or yields no string. It is sent over the protocol configured for the subgraph, with its own settings. Requests to the same endpoint of a subgraph use the same executor.", "quantifier": "all override and subscription settings, all supergraphs, all expressions and what they yield, all sequences of requests and subscriptions", "why_tests_cant": "Executors are kept by subgraph and endpoint over the whole life of the router, so the property ranges over all histories.", "anchors": ["bin/router/src/executor/executors/map.rs: from_http_endpoint_map, resolve_endpoint, get_or_create_http_executor, get_or_create_subscription_executor, register_executor, convert_to_websocket_endpoint, execute, subscribe", "bin/router/src/config/override_subgraph_urls.rs: OverrideSubgraphUrlsConfig", "bin/router/src/config/subscriptions.rs: get_protocol_for_subgraph, get_websocket_path"]}
{"id": "C124", "title": "A request to a subgraph is limited by the subgraph's own timeout, or else by the one for all", "statement": "For every configuration, supergraph and request: a subgraph with a timeout of its own has that timeout, where an expression can use the timeout for all as its default; a subgraph without one has the timeout for all. A request fails for its timeout only if an expression it depends on fails.", "quantifier": "all settings, all subgraphs, all requests, all expressions and what they yield", "why_tests_cant": "Ranges over all expressions and requests and all combinations of settings.", "anchors": ["bin/router/src/executor/executors/map.rs: register_subgraph_timeout, resolve_subgraph_timeout, resolve_timeout, compile_duration_or_expression", "bin/router/src/vrl/expressions.rs: ValueOrProgram::resolve"]}
