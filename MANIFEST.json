{
 "claims": [
  {
   "property": "C01",
   "status": "proved",
   "theorems": [
    "Verif.C01_merge_meets_spec",
    "Verif.C01_spec_deterministic"
   ],
   "note": "deep_merge meets an independent merge relation, which is shown deterministic; results stay sorted."
  },
  {
   "property": "C02",
   "status": "proved",
   "theorems": [
    "Verif.C02_merge_swap",
    "Verif.C02_merge_any_order",
    "Verif.C02_disagreement_is_order_dependent"
   ],
   "note": "Any permutation of pairwise agreeing responses; the agreement hypothesis is shown necessary."
  },
  {
   "property": "C03",
   "status": "proved",
   "theorems": [
    "Verif.C03_lookup_exact",
    "Verif.C03_reader_wf",
    "Verif.C03_reader_lookup"
   ],
   "note": "Rust's binary search loop against plain lookup; the JSON reader establishes sortedness when a document has no repeated keys (sort modelled by insertion sort)."
  },
  {
   "property": "C04",
   "status": "partial",
   "theorems": [
    "Verif.Rewrites.C04_setter",
    "Verif.Rewrites.C04_rename_hides_keys",
    "Verif.Rewrites.C04_rename_partial",
    "Verif.Rewrites.C04_rename_contents",
    "Verif.Rewrites.C04_rename_panics_without_key"
   ],
   "note": "Value setter proved in full. The key renamer violates the property (witness C04_rename_hides_keys): it renames in place without re-sorting; proved when the new key keeps its place, and the contents in all cases."
  },
  {
   "property": "C05",
   "status": "proved",
   "theorems": [
    "Verif.Auth.C05_no_unauthorized_field_sent"
   ],
   "note": "Operation handed to planning; stated over static types as in the code: rules of object types reached through an interface without rules are not consulted (see DESIGN.md)."
  },
  {
   "property": "C06",
   "status": "proved",
   "theorems": [
    "Verif.Auth.C06_only_removed_leaves_go",
    "Verif.Auth.C06_errors_are_denials",
    "Verif.Auth.C06_rejected_iff",
    "Verif.Auth.C06_variables_kept"
   ],
   "note": "Leaves removed are exactly those under a removed path; errors exactly the denials; reject mode; variable definitions."
  },
  {
   "property": "C07",
   "status": "proved",
   "theorems": [
    "Verif.Auth.C07_scope_rules",
    "Verif.Auth.C07_malformed_rules_refused"
   ],
   "note": "OR of AND-groups, token presence, malformed directives refused."
  },
  {
   "property": "C08",
   "status": "proved",
   "theorems": [
    "Verif.Auth.C08_trie_faithful"
   ],
   "note": "Trie built from any path list, looked up with any path."
  },
  {
   "property": "C09",
   "status": "partial",
   "theorems": [
    "Verif.Projection.C09_nonnull_partial",
    "Verif.Projection.C09_object_reason",
    "Verif.Projection.C09_list_reason",
    "Verif.Projection.C09_keys",
    "Verif.Projection.C09_custom_scalar"
   ],
   "note": "Proved for data without custom scalars: the body written has no null in a non-null position at any depth unless data is null, an object or list is nulled only because of a null in a non-null position, and a surviving object has every selected key. Disagreement: a null for a custom scalar is kept as raw text and never propagates (C09_custom_scalar). The positions are those of the plan; that the plan is the operation's is C51."
  },
  {
   "property": "C10",
   "status": "partial",
   "theorems": [
    "Verif.Projection.C10_body",
    "Verif.Projection.C10_selected",
    "Verif.Projection.C10_typename_breaks_out"
   ],
   "note": "The body is the JSON text of the completed data, errors and extensions, when response keys, type names in the schema and __typename values from subgraphs need no escaping; JSON texts have one reading (Denotes.unique). Disagreement: a __typename from a subgraph is written unescaped and can add members (C10_typename_breaks_out). That the plan is the operation's is C51."
  },
  {
   "property": "C11",
   "status": "proved",
   "theorems": [
    "Verif.Json.C11_round_trip",
    "Verif.Json.C11_independent",
    "Verif.Json.C11_injective",
    "Verif.Json.C11_named_operation",
    "Verif.Json.C11_characters"
   ],
   "note": "Every byte string, address and memory content; includes memory safety of the vectorised writer. Surrogate-pair escapes are not in the decoder specification; the writer never emits them."
  },
  {
   "property": "C12",
   "status": "partial",
   "theorems": [
    "Verif.Variables.C12_conforms_partial",
    "Verif.Variables.C12_accepts_partial",
    "Verif.Variables.C12_request_partial",
    "Verif.Variables.C12_not_rejected_partial",
    "Verif.Variables.C12_missing",
    "Verif.Variables.C12_input_object",
    "Verif.Variables.C12_int",
    "Verif.Variables.C12_integer_id",
    "Verif.Variables.C12_error_anonymous"
   ],
   "note": "Proved for scalars and enums with 32-bit Ints. Missing because false: input objects are not validated (C12_input_object), Int takes 64 bits (C12_int), errors about values do not name the variable (C12_error_anonymous)."
  },
  {
   "property": "C13",
   "status": "proved",
   "theorems": [
    "Verif.Limits.C13_terminates",
    "Verif.Limits.C13_written_out",
    "Verif.Limits.C13_depth_limit",
    "Verif.Limits.C13_spread_counts_twice"
   ],
   "note": "Depth rule exact on documents without cyclic fragments (against the written-out document) and terminating on all documents; with flatten_fragments=false a named spread counts two levels (C13_spread_counts_twice)."
  },
  {
   "property": "C14",
   "status": "proved",
   "theorems": [
    "Verif.Limits.C14_terminates",
    "Verif.Limits.C14_alias_limit",
    "Verif.Limits.C14_directive_limit"
   ],
   "note": "Alias and directive rules exact on documents without cyclic fragments, terminating on all."
  },
  {
   "property": "C15",
   "status": "partial",
   "theorems": [
    "Verif.Cors.C15_origin",
    "Verif.Cors.C15_null_origin_allowed",
    "Verif.Cors.C15_echo_only_allowed_partial",
    "Verif.Cors.C15_no_origin",
    "Verif.Cors.C15_disabled",
    "Verif.Cors.C15_credentials",
    "Verif.Cors.C15_credentials_not_revocable",
    "Verif.Cors.C15_preflight",
    "Verif.Cors.C15_vary_partial",
    "Verif.Cors.C15_unmatched_no_vary",
    "Verif.Cors.C15_methods_headers",
    "Verif.Cors.C15_second_vary_line_lost"
   ],
   "note": "Origin, credentials, methods/headers and preflight in full; Vary only for matched origins other than null and responses with at most one Vary line. The English claim is false for Origin: null (C15_null_origin_allowed), for unmatched origins (C15_unmatched_no_vary) and for two Vary lines (C15_second_vary_line_lost)."
  },
  {
   "property": "C16",
   "status": "partial",
   "theorems": [
    "Verif.Csrf.C16_sound",
    "Verif.Csrf.C16_exact_partial",
    "Verif.Csrf.C16_case_insensitive",
    "Verif.Csrf.C16_prefix_too_strict",
    "Verif.Csrf.C16_enabled_alone_checks_nothing",
    "Verif.Csrf.C16_space_slips_through"
   ],
   "note": "Safety in full (values without leading white space, as HTTP parsers leave them). The converse is false of the code: prefixes are compared, so text/plain-graphql is refused (C16_prefix_too_strict)."
  },
  {
   "property": "C17",
   "status": "partial",
   "theorems": [
    "Verif.Headers.C17_cache_control_partial",
    "Verif.Headers.C17_errors_and_mutations",
    "Verif.Headers.C17_end_to_end",
    "Verif.Headers.C17_unrecognised_header_ignored",
    "Verif.Headers.C17_second_line_ignored",
    "Verif.Headers.C17_silence_hidden"
   ],
   "note": "Merge of recognised Cache-Control values is exactly the restrictive merge (poison, minimum lifetime, public only if all and as many values as responses), read back from the emitted text; end to end through the aggregator. Missing: values the router does not recognise, later lines and silent subgraphs, where the property fails (witnesses)."
  },
  {
   "property": "C18",
   "status": "partial",
   "theorems": [
    "Verif.Headers.C18_requests_partial",
    "Verif.Headers.C18_responses_partial",
    "Verif.Headers.C18_rename_forwards_hop_by_hop",
    "Verif.Headers.C18_rename_returns_hop_by_hop"
   ],
   "note": "No rule sequence sets a hop-by-hop header in either direction unless a propagate rule renames to it; the rename loophole is proved to exist. Headers nominated by Connection are not stripped by the code and not covered."
  },
  {
   "property": "C19",
   "status": "proved",
   "theorems": [
    "Verif.Headers.C19_response_headers"
   ],
   "note": "All rule kinds, any sequence of responses, every header name; strategies read off a history of offers and withdrawals."
  },
  {
   "property": "C20",
   "status": "proved",
   "theorems": [
    "Verif.InFlight.C20_joiner_result",
    "Verif.InFlight.C20_leader_result",
    "Verif.InFlight.C20_one_result",
    "Verif.InFlight.C20_own_errors",
    "Verif.InFlight.C20_no_lost_waiter",
    "Verif.InFlight.C20_one_execution_per_cell",
    "Verif.InFlight.C20_two_executions_one_key"
   ],
   "note": "Transition system of the in-flight map with once-cells; every interleaving of claims, executions, failures, cancellations and guard drops, with and without a kept guard. Exclusiveness per key is not claimed: C20_two_executions_one_key shows two executions for one key can overlap."
  },
  {
   "property": "C21",
   "status": "partial",
   "theorems": [
    "Verif.Keys.C21_same_partial",
    "Verif.Keys.C21_ignored",
    "Verif.Keys.C21_order",
    "Verif.Keys.C21_map_order",
    "Verif.Keys.C21_binary_header"
   ],
   "note": "Equal fingerprints imply equal method, path, selected headers, schema, operation, variables and extensions, assuming no accidental clash of the hash functions on these two requests. Missing: selected headers that are not text are ignored (C21_binary_header), and operations confused as in C22."
  },
  {
   "property": "C22",
   "status": "partial",
   "theorems": [
    "Verif.Keys.C22_plan_partial",
    "Verif.Keys.C22_plain_literals",
    "Verif.Keys.C22_variable_order",
    "Verif.Keys.C22_documents",
    "Verif.Keys.C22_fragment_scope",
    "Verif.Keys.C22_fragment_condition",
    "Verif.Keys.C22_variable_as_string",
    "Verif.Keys.C22_nested_object",
    "Verif.Keys.C22_null_as_string",
    "Verif.Keys.C22_nested_list"
   ],
   "note": "Equal plan keys imply the same operation and overrides, for operations without fragments conditions ambiguities (Tidy) and literals that are not confused, assuming no accidental hash clash. Missing because false: the witnesses show pairs of different operations with the same key whatever the hash function."
  },
  {
   "property": "C23",
   "status": "partial",
   "theorems": [
    "Verif.Entities.C23_same_partial",
    "Verif.Entities.C23_nested_lists",
    "Verif.Entities.C23_number_as_text",
    "Verif.Entities.C23_signed",
    "Verif.Entities.C23_nested_type",
    "Verif.Entities.C23_alias",
    "Verif.Entities.C23_interface"
   ],
   "note": "Proved for representations whose values have the same shape and no nested type-dependent selections; the witnesses show six ways in which different representations feed the same bytes to the hash"
  },
  {
   "property": "C24",
   "status": "proved",
   "theorems": [
    "Verif.Entities.C24_results",
    "Verif.Entities.C24_nothing_sent",
    "Verif.Entities.C24_batch",
    "Verif.Entities.C24_shifted"
   ],
   "note": "Assuming no two entities with different representations have the same hash (C23) and the flatten path leads to the same positions when the entities arrive; C24_shifted shows the latter is needed. Output rewrites are left out."
  },
  {
   "property": "C25",
   "status": "proved",
   "theorems": [
    "Verif.LongLived.C25_limit_respected",
    "Verif.LongLived.C25_at_most_limit",
    "Verif.LongLived.C25_refused_only_when_full",
    "Verif.LongLived.C25_unlimited",
    "Verif.LongLived.C25_slot_reused"
   ],
   "note": "Compare-and-exchange loop modelled step by step; all interleavings."
  },
  {
   "property": "C26",
   "status": "partial",
   "theorems": [
    "Verif.Masking.C26_fetch_partial",
    "Verif.Masking.C26_message_partial",
    "Verif.Masking.C26_stream_failure",
    "Verif.Masking.C26_off",
    "Verif.Masking.C26_read_tidy",
    "Verif.Masking.C26_nothing_else",
    "Verif.Masking.C26_subscription_event",
    "Verif.Masking.C26_other_service"
   ],
   "note": "Errors of fetches are masked by the policy of the service they name (C26_fetch_partial, C26_message_partial), failing event streams as well, and nothing but messages and extensions changes. The code does less in two cases: errors of subscription events carry no service name and are never masked (C26_subscription_event), and a subgraph can name another service in its own extensions and so choose the policy (C26_other_service)."
  },
  {
   "property": "C27",
   "status": "partial",
   "theorems": [
    "Verif.Entities.C27_errors",
    "Verif.Entities.C27_no_entities",
    "Verif.Entities.C27_batch",
    "Verif.Entities.C27_batch_none_lost",
    "Verif.Entities.C27_path_leaks"
   ],
   "note": "Holds when the response has the entities (same assumptions as C24). When it has none the error keeps its path into _entities: C27_path_leaks. For batches the data must keep its positions from path to path."
  },
  {
   "property": "C28",
   "status": "partial",
   "theorems": [
    "Verif.Jwt.C28_validated",
    "Verif.Jwt.C28_bounds_partial",
    "Verif.Jwt.C28_prompt",
    "Verif.Jwt.C28_after_expiry"
   ],
   "note": "Every cached result served was validated before by current keys, is served for less than 5 s after insertion and less than 1 s after expiry; the last second is real (C28_after_expiry), since time is truncated to seconds. How moka applies the time to live is assumed."
  },
  {
   "property": "C29",
   "status": "proved",
   "theorems": [
    "Verif.Persisted.C29_stored",
    "Verif.Persisted.C29_served",
    "Verif.Persisted.C29_no_id",
    "Verif.Persisted.C29_unique",
    "Verif.Persisted.C29_query_ignored",
    "Verif.Persisted.C29_optional",
    "Verif.Persisted.C29_expression_error",
    "Verif.Persisted.C29_percent",
    "Verif.Persisted.C29_percent_plain",
    "Verif.Persisted.C29_hive_syntax",
    "Verif.Persisted.C29_hive_injective",
    "Verif.Persisted.C29_hive_form",
    "Verif.Persisted.C29_hive_collision",
    "Verif.Persisted.C29_hive_partial",
    "Verif.Persisted.C29_hive_text",
    "Verif.Persisted.C29_hive_unavailable",
    "Verif.Persisted.C29_hive_fallback"
   ],
   "note": "Every request (GET, POST, WebSocket), selector list and store, for JSON whose objects have no key twice and sensible parameter names. Headers that name the app are not checked for ~ (C29_hive_collision); a failing CDN is taken for a missing document and remembered (C29_hive_unavailable). Coprocessors that replace the request after this stage are not modelled."
  },
  {
   "property": "C30",
   "status": "proved",
   "theorems": [
    "Verif.Persisted.Reload.C30_last_good",
    "Verif.Persisted.Reload.C30_current",
    "Verif.Persisted.Reload.C30_settles",
    "Verif.Persisted.Reload.C30_startup_race",
    "Verif.Persisted.Reload.C30_failed_read_not_retried",
    "Verif.Persisted.Reload.C30_store_last_good",
    "Verif.Persisted.Reload.C30_store_current",
    "Verif.Persisted.Reload.C30_store_bad",
    "Verif.Persisted.Reload.C30_manifest",
    "Verif.Persisted.Reload.C30_manifest_refused"
   ],
   "note": "Files with a watcher and stored objects; all interleavings of changes, events, torn and failed reads. A change between the first read and the start of the watcher is missed (C30_startup_race) and a failed read is not tried again (C30_failed_read_not_retried)."
  },
  {
   "property": "C31",
   "status": "partial",
   "theorems": [
    "Verif.Demand.C31_cost_defined",
    "Verif.Demand.C31_estimate_partial",
    "Verif.Demand.C31_sum_of_subgraphs",
    "Verif.Demand.C31_cache_transparent",
    "Verif.Demand.C31_enforced_estimate",
    "Verif.Demand.C31_enforced_partial",
    "Verif.Demand.C31_refused_iff_partial",
    "Verif.Demand.C31_measure",
    "Verif.Demand.C31_slicing_accepted",
    "Verif.Demand.C31_subgraph_budget_partial",
    "Verif.Demand.C31_wraps",
    "Verif.Demand.C31_cache_wrong_plan",
    "Verif.Demand.C31_unsliced",
    "Verif.Demand.C31_measure_refuses",
    "Verif.Demand.C31_skipped_fragment_counts"
   ],
   "note": "The compiled formula evaluated with the variables equals the cost computed directly on the operation (spec in Demand/Spec.lean, exact naturals), capped at 2^64-1, in total and per subgraph; the estimate is the saturating sum of the subgraphs; enforce lets through only what is within the maximum, budgets of subgraphs likewise; the cache is transparent where equal hashes mean equal plans. Partial: needs argument costs below 2^64 (C31_wraps) and plans determined by the hash (C31_cache_wrong_plan); both conditions are violated by the code in the witnesses."
  },
  {
   "property": "C32",
   "status": "partial",
   "theorems": [
    "Verif.Best.C32_never_searches",
    "Verif.Best.C32_found",
    "Verif.Best.C32_unresolvable",
    "Verif.Best.C32_one_per_leaf",
    "Verif.Best.C32_factor_partial",
    "Verif.Best.C32_optimal_partial",
    "Verif.Best.C32_mutation_fields_apart",
    "Verif.Best.C32_not_optimal"
   ],
   "note": "The property as stated fails of the code: C32_not_optimal gives a two field query whose plan costs 2005 while a combination of cost 1004 exists, and C32_never_searches shows why (the bound at the root is never below the greedy cost, so the branch and bound search ends before it looks at any combination). Proved: a plan exists whenever every leaf has a path (C32_found, C32_unresolvable), it consists of one path per leaf and nothing else and costs what its places cost (C32_one_per_leaf), root fields of a mutation are never merged (C32_mutation_fields_apart), the cost is at most the number of leaves times that of any combination (C32_factor_partial), and it is the cheapest if at most one leaf has several paths (C32_optimal_partial). Missing: optimality in general, which is false."
  },
  {
   "property": "C33",
   "status": "partial",
   "theorems": [
    "Verif.Plan.C33_order_partial",
    "Verif.Plan.C33_waves",
    "Verif.Plan.C33_cycle",
    "Verif.Plan.C33_unreachable",
    "Verif.Plan.C33_planned",
    "Verif.Plan.C33_no_panic"
   ],
   "note": "Executions of the plan do each step's work exactly once and after all it depends on (C33_order_partial); the waves have each step once, after those it depends on (C33_waves, for all graphs); no plan with a cycle or an unreachable step; a plan otherwise; no panic. Missing: subscription steps in the theorem on executions, and fetches whose selections the batcher takes for equal though they differ (see C34_null_argument)."
  },
  {
   "property": "C34",
   "status": "partial",
   "theorems": [
    "Verif.Plan.C34_kept_partial",
    "Verif.Plan.C34_names_partial",
    "Verif.Plan.C34_work_partial",
    "Verif.Plan.C34_hash_sees",
    "Verif.Plan.C34_hash_sees_fragment",
    "Verif.Plan.C34_names_agree",
    "Verif.Plan.C34_null_argument",
    "Verif.Plan.C34_representations"
   ],
   "note": "Assumes that selections taken for equal (equal hashes and equal field names) are equal: Distinct. Without it the property fails: C34_null_argument. A client variable named representations is defined twice: C34_representations."
  },
  {
   "property": "C35",
   "status": "proved",
   "theorems": [
    "Verif.Plan.C35_condition",
    "Verif.Plan.C35_condition_parallel",
    "Verif.Plan.C35_merge",
    "Verif.Plan.C35_plan_partial",
    "Verif.Plan.C35_absent",
    "Verif.Plan.C35_null"
   ],
   "note": "Condition nodes in sequences and in parallel nodes, merging of neighbours; C35_plan_partial: in executions of a plan exactly the steps whose conditions hold are started (with the hypotheses of C33_order_partial). A variable without a value runs neither branch: C35_absent; the planner's operations have it non-null."
  },
  {
   "property": "C36",
   "status": "partial",
   "theorems": [
    "Verif.Overrides.C36_label_partial",
    "Verif.Overrides.C36_full",
    "Verif.Overrides.C36_zero",
    "Verif.Overrides.C36_share",
    "Verif.Overrides.C36_hundred_partial",
    "Verif.Overrides.C36_shared_plan",
    "Verif.Overrides.C36_active_labels",
    "Verif.Overrides.C36_undetermined",
    "Verif.Overrides.C36_union",
    "Verif.Overrides.C36_hundred_missed"
   ],
   "note": "Proved for fields whose type is not a union and dice below the maximum. Missing because false: union fields lose the label of the override (C36_union), and a 100% override misses the last value of the dice (C36_hundred_missed)."
  },
  {
   "property": "C37",
   "status": "proved",
   "theorems": [
    "Verif.Gate.C37_get",
    "Verif.Gate.C37_subscription",
    "Verif.Gate.C37_answer",
    "Verif.Gate.C37_stream",
    "Verif.Gate.C37_asked",
    "Verif.Gate.C37_unknown",
    "Verif.Gate.C37_named_unique",
    "Verif.Gate.C37_first_of_several",
    "Verif.Gate.C37_stream_only_executes"
   ],
   "note": "Every reachable state of the concurrent request model. Found: several operations without a name run the first; a stream-only client's mutation is executed and then answered with an error."
  },
  {
   "property": "C38",
   "status": "proved",
   "theorems": [
    "Verif.Projection.C38_union",
    "Verif.Projection.C38_intersect",
    "Verif.Projection.C38_and",
    "Verif.Projection.C38_or",
    "Verif.Projection.C38_check",
    "Verif.Projection.C38_directives",
    "Verif.Projection.C38_simplify",
    "Verif.Projection.C38_merge",
    "Verif.Projection.C38_children",
    "Verif.Projection.C38_guard",
    "Verif.Projection.C38_guard_of_disjunction",
    "Verif.Projection.C38_enum_error_lost"
   ],
   "note": "Union, intersection, conjunction, disjunction, directives, simplification, merging and guards of conditions mean what they say; check lets a field through exactly when its condition is met. Two disagreements are proved as theorems: merging two variants of an enum field can lose the invalid-value error (C38_enum_error_lost) and the guard of a disjunction is unsound (C38_guard_of_disjunction, not reached by the plan builder)."
  },
  {
   "property": "C39",
   "status": "proved",
   "theorems": [
    "Verif.Normalize.C39_selects_the_same",
    "Verif.Normalize.C39_introspection_panics",
    "Verif.Normalize.C39_introspection_panics_always",
    "Verif.Normalize.C39_valid_succeeds"
   ],
   "note": "All passes of the normalization pipeline (drop skipped, normalize fields, inline spreads, flatten, type expansion, merges, deduplication), the conversion to the planner's tree and the injected type names. The result selects the same paths of runtime types, response keys, fields and arguments under every variable assignment; hypotheses are what validation guarantees of documents and schemas. C39_introspection_panics*: on a condition-less inline fragment below an introspection field the code panics, so there is no result. C39_valid_succeeds: every valid operation (typed fields, acyclic known fragments, conditioned inline fragments below introspection fields) is normalized without error or panic."
  },
  {
   "property": "C40",
   "status": "proved",
   "theorems": [
    "Verif.Introspection.C40_subgraphs",
    "Verif.Introspection.C40_router",
    "Verif.Introspection.C40_router_part",
    "Verif.Introspection.C40_variables",
    "Verif.Introspection.C40_policy",
    "Verif.Introspection.C40_config"
   ],
   "note": "Exact split of the selected leaves, for all nestings; policy. The resolver of introspection fields is not modelled. Nested selections under __schema in inline fragments are ignored by the resolver (executor/introspection/resolve.rs:601 tests for spreads)."
  },
  {
   "property": "C41",
   "status": "proved",
   "theorems": [
    "Verif.Subs.C41_in_order",
    "Verif.Subs.C41_never_blocks",
    "Verif.Subs.C41_drop_only_when_full",
    "Verif.Subs.C41_accounted",
    "Verif.Subs.C41_stops"
   ],
   "note": "Bounded channel of drain_into/buffered."
  },
  {
   "property": "C42",
   "status": "proved",
   "theorems": [
    "Verif.Entities.C42_representation",
    "Verif.Entities.C42_only_required",
    "Verif.Entities.C42_typename",
    "Verif.Entities.C42_required_sent",
    "Verif.Entities.C42_malformed"
   ],
   "note": "For tidy selections (nothing that writes a field before a fragment that is just __typename and applies to the same object); C42_malformed shows what happens otherwise."
  },
  {
   "property": "C43",
   "status": "partial",
   "theorems": [
    "Verif.Subs.C43_in_order",
    "Verif.Subs.C43_reload_error_seen",
    "Verif.Subs.C43_error_is_last",
    "Verif.Subs.C43_leader_from_start",
    "Verif.Subs.C43_dedupe_leader_misses"
   ],
   "note": "Order, completeness and reload error proved for all schedules; with deduplication the first client subscribes late and may miss events (C43_dedupe_leader_misses), contrary to the comment in the code."
  },
  {
   "property": "C44",
   "status": "partial",
   "theorems": [
    "Verif.Subs.C44_upstream_stops_partial",
    "Verif.Subs.C44_dedupe_keeps_upstream",
    "Verif.Subs.C44_dedupe_leak"
   ],
   "note": "Holds without deduplication; with deduplication it fails: the receiver parked in the in-flight cell keeps the pump alive."
  },
  {
   "property": "C45",
   "status": "partial",
   "theorems": [
    "Verif.Entities.C45_unchanged_partial",
    "Verif.Entities.C45_null_items_dropped"
   ],
   "note": "Holds for values without null in lists; null items are dropped from required lists: C45_null_items_dropped."
  },
  {
   "property": "C46",
   "status": "partial",
   "theorems": [
    "Verif.Keys.C46_same_partial",
    "Verif.Keys.C46_repeated_header",
    "Verif.Keys.C46_binary_header"
   ],
   "note": "For text headers occurring once. Missing because false: repeated headers count only once and binary ones not at all."
  },
  {
   "property": "C47",
   "status": "proved",
   "theorems": [
    "Verif.Jwt.C47_vouched",
    "Verif.Jwt.C47_accepts",
    "Verif.Jwt.C47_required",
    "Verif.Jwt.C47_user",
    "Verif.Jwt.C47_found",
    "Verif.Jwt.C47_prefix_ends_search",
    "Verif.Jwt.C47_unknown_algorithm"
   ],
   "note": "Verification of the signature by the library jsonwebtoken is a parameter. A key of unknown algorithm hides other keys (C47_unknown_algorithm), another prefix ends the search (C47_prefix_ends_search)."
  },
  {
   "property": "C48",
   "status": "proved",
   "theorems": [
    "Verif.Gate.C48_transparent",
    "Verif.Gate.C48_same",
    "Verif.Gate.C48_validated",
    "Verif.Gate.C48_only_valid",
    "Verif.Gate.C48_coprocessor_unvalidated"
   ],
   "note": "Transition system of interleaved requests with shared caches and evictions; assumes no hash clash among the inputs of the history. Plugins not modelled. Found: a coprocessor may replace the text after validation (C48_coprocessor_unvalidated)."
  },
  {
   "property": "C49",
   "status": "proved",
   "theorems": [
    "Verif.Gate.Body.C49_accepted",
    "Verif.Gate.Body.C49_memory",
    "Verif.Gate.Body.C49_taken",
    "Verif.Gate.Body.C49_stops"
   ],
   "note": "Exact characterization of accepted requests and bounds on memory and bytes read."
  },
  {
   "property": "C50",
   "status": "proved",
   "theorems": [
    "Verif.Minify.C50_same_selections",
    "Verif.Minify.C50_names_distinct",
    "Verif.Minify.C50_null_argument"
   ],
   "note": "Proved for hash functions that give different ids to different selection sets of the operation (Faithful); C50_null_argument shows that the hypothesis is not met by the code's hash for null and the string \"null\", for any hash function: the subgraph is then asked for the wrong argument. Type conditions are those of the supergraph."
  },
  {
   "property": "C51",
   "status": "partial",
   "theorems": [
    "Verif.Builder.C51_selected_partial",
    "Verif.Builder.C51_response_partial",
    "Verif.Builder.C51_nested_fragment",
    "Verif.Builder.C51_emptied_fragment",
    "Verif.Builder.C51_narrowed_field"
   ],
   "note": "For valid operations whose fragments inside fragments do not narrow further, on schemas whose object types do not narrow the fields of their interfaces: the plan shows a path, for whatever variables, exactly if CollectFields asks for it, and the object written for conforming data has exactly the selected keys, each once, at every level. Disagreements in the code: a narrowing fragment within a fragment on an abstract type loses its type condition and a whole object can become null (C51_nested_fragment); a selection set emptied by normalization shows the whole object (C51_emptied_fragment); narrowed field types can drop fields (C51_narrowed_field). Not claimed: the order of keys, which is that of first appearance over all types."
  },
  {
   "property": "C52",
   "status": "partial",
   "theorems": [
    "Verif.Walker.C52_leaves_are_resolved_partial"
   ],
   "note": "Proved for supergraphs without interface objects, over all operations and labels; interface objects are missing."
  },
  {
   "property": "C53",
   "status": "proved",
   "theorems": [
    "Verif.Walker.C53_search_ends",
    "Verif.Walker.C53_root_has_entry"
   ],
   "note": "For every supergraph whose graph is built; the entry the theorem asks for exists as soon as a subgraph resolves a field of the root type (second theorem)."
  },
  {
   "property": "C54",
   "status": "partial",
   "theorems": [
    "Verif.Walker.C54_one_subgraph_partial",
    "Verif.Walker.C54_nested_key_refuted",
    "Verif.Walker.C54_progressive_override_refuted",
    "Verif.Fetch.C54_requires_refuted",
    "Verif.Fetch.C54_fragment_refuted",
    "Verif.Fetch.C54_third_subgraph_refuted",
    "Verif.Fetch.C54_recursive_type_refuted"
   ],
   "note": "The full statement (FindsAll) is false of the code: two families of operations are refused although every leaf has a way, and for two more there are paths but no fetch graph. Proved: an operation that one subgraph can resolve by itself is always planned, in supergraphs without interface objects, unions and @provides; operations over several subgraphs are missing. A further witness: a field with @requires in a subgraph that is reached by a key of a third subgraph. And: such a field below a field of the same type in the same subgraph."
  },
  {
   "property": "C55",
   "status": "partial",
   "theorems": [
    "Verif.Walker.C55_moves_are_true_partial",
    "Verif.Walker.C55_moves_are_there",
    "Verif.Walker.C55_provided_elsewhere_refuted",
    "Verif.Walker.C55_type_in_subgraph_refuted"
   ],
   "note": "Both directions for supergraphs without interface objects. That a provided field is provided on this path is false (witness), and so is that a narrower type of a field in a subgraph is used (witness)."
  },
  {
   "property": "C56",
   "status": "partial",
   "theorems": [
    "Verif.Walker.C56_overrides_are_kept_partial",
    "Verif.Walker.C56_provides_refuted",
    "Verif.Walker.C56_union_refuted"
   ],
   "note": "Proved for fields without @provides and not of a union type; for those two it is false (witnesses). Interface objects are missing."
  },
  {
   "property": "C57",
   "status": "partial",
   "theorems": [
    "Verif.Fetch.C57_alias_refuted",
    "Verif.Fetch.C57_condition_refuted",
    "Verif.Fetch.C57_one_meaning_partial"
   ],
   "note": "False of the code (two witnesses, from operation to optimized graph). Proved: optimizing never makes conflicts in graphs in which response keys have one meaning and only fields have conditions."
  },
  {
   "property": "C58",
   "status": "partial",
   "theorems": [
    "Verif.Fetch.C58_other_arguments_refuted",
    "Verif.Fetch.C58_two_values_refuted",
    "Verif.Fetch.C58_panic_refuted",
    "Verif.Fetch.C58_right_values_partial"
   ],
   "note": "False of the code (three witnesses). Proved: in graphs in which response keys have one meaning, whatever is sent after optimizing is the value of the required field with its arguments."
  },
  {
   "property": "C59",
   "status": "partial",
   "theorems": [
    "Verif.Fetch.C59_root_fields_in_order_partial",
    "Verif.Fetch.C59_nested_refuted"
   ],
   "note": "Proved for the steps of the root fields themselves. That what is below a field is done before the next one starts is false of the code (witness)."
  },
  {
   "property": "C60",
   "status": "partial",
   "theorems": [
    "Verif.Fetch.C60_skipped_refuted",
    "Verif.Fetch.C60_optimizing_asks_for_nothing_new_partial"
   ],
   "note": "False of the code (witness). Proved: optimizing asks for nothing new, if only fields have conditions and response keys have one meaning."
  },
  {
   "property": "C61",
   "status": "partial",
   "theorems": [
    "Verif.Fetch.C61_lost_refuted",
    "Verif.Fetch.C61_merged_steps_ask_for_all_partial",
    "Verif.Fetch.C61_optimizing_loses_nothing_partial",
    "Verif.Fetch.C61_renaming_loses_no_field",
    "Verif.Fetch.C61_same_alias_refuted",
    "Verif.Fetch.C61_the_client_keeps_its_keys",
    "Verif.Fetch.C61_normalizing_asks_for_the_same",
    "Verif.Fetch.C61_a_batch_keeps_its_condition"
   ],
   "note": "False of the code for conditions on steps that are no entity fetches (witness). Proved: any merge of two steps keeps all that both ask for, with all conditions, if the target is an entity fetch or has no condition; the whole of optimize loses nothing, if only fields have conditions and response keys have one meaning; merging with renaming loses no field and leaves the response keys of the client; normalizing asks for the same fields of objects of any types; batching keeps conditions. Two aliases that are the same are a witness that renaming needs its hypothesis."
  },
  {
   "property": "C62",
   "status": "partial",
   "theorems": [
    "Verif.Fetch.C62_merging_keeps_the_order",
    "Verif.Fetch.C62_merging_makes_no_cycle_partial",
    "Verif.Fetch.C62_children_can_be_merged",
    "Verif.Fetch.C62_pruning_keeps_the_order",
    "Verif.Fetch.C62_merging_passthroughs_makes_no_cycle",
    "Verif.Fetch.C62_merging_leafs_makes_no_cycle",
    "Verif.Fetch.C62_batching_makes_no_cycle",
    "Verif.Fetch.C62_the_other_passes_make_no_cycle",
    "Verif.Fetch.C62_shared_parents_can_be_merged",
    "Verif.Fetch.C62_siblings_can_be_merged",
    "Verif.Fetch.C62_shared_parents_refuted",
    "Verif.Fetch.C62_crossed_siblings_refuted",
    "Verif.Fetch.C62_tangled_refuted"
   ],
   "note": "Order is kept by every merge and by pruning. No cycle arises in the passes that merge passthroughs and leafs, batch types, prune, normalize and rename; for the passes that merge children and siblings it is proved of each pair they merge (children: unless there is a third step in between). The full property does not hold: for an operation merging siblings makes two steps wait for each other."
  },
  {
   "property": "C63",
   "status": "partial",
   "theorems": [
    "Verif.Fetch.C63_foreign_field_refuted",
    "Verif.Fetch.C63_foreign_key_refuted"
   ],
   "note": "False of the code: the key to come back to a subgraph with the fields a @requires asks for is chosen among those of other subgraphs, so a subgraph is asked for a field it does not have, and another is sent a key it does not know (witnesses). Missing: the cases in which it holds."
  },
  {
   "property": "C64",
   "status": "partial",
   "theorems": [
    "Verif.Fetch.C64_drafts_ask_for_everything_partial",
    "Verif.Fetch.C64_all_is_asked_for_partial",
    "Verif.Fetch.C64_plans_ask_for_everything_partial"
   ],
   "note": "Before optimizing: every field on the way to a leaf of the operation is asked for by a step, in a subgraph that has the field, for all supergraphs without interface objects, all operations, all choices of paths and all variables. After optimizing: for operations without fragments whose fetch graph has one meaning for each response key and no conditions on steps. Missing: interface objects, fields that provide something but are resolved elsewhere, optimizing with conditions (C61_lost_refuted shows a loss)."
  },
  {
   "property": "C65",
   "status": "partial",
   "theorems": [
    "Verif.Fetch.C65_planning_goes_on_refuted",
    "Verif.Fetch.C65_merging_passthroughs_ends",
    "Verif.Fetch.C65_merging_leafs_ends",
    "Verif.Fetch.C65_batching_ends",
    "Verif.Fetch.C65_merging_children_ends_partial",
    "Verif.Fetch.C65_merging_siblings_ends_partial",
    "Verif.Fetch.C65_a_larger_bound_changes_nothing",
    "Verif.Fetch.C65_optimizing_ends_partial"
   ],
   "note": "The passes that merge passthroughs and leafs and batch types end on every graph without a cycle; merging children and siblings ends if no step comes to wait for itself on the way, and so does all of optimizing. The full property does not hold: there is an operation for which merging siblings never ends."
  },
  {
   "property": "C66",
   "status": "proved",
   "theorems": [
    "Verif.Stream.C66_event_stream",
    "Verif.Stream.C66_small_event_stream"
   ],
   "note": "For all byte streams, splits and ways to read responses; the JSON of responses is a parameter."
  },
  {
   "property": "C67",
   "status": "partial",
   "theorems": [
    "Verif.Stream.C67_event_stream_partial",
    "Verif.Stream.C67_line_ends_refuted"
   ],
   "note": "Holds for events whose lines all end with LF or all with CR LF. Refuted for the other line ends the standard allows."
  },
  {
   "property": "C68",
   "status": "partial",
   "theorems": [
    "Verif.Stream.C68_event_stream_partial",
    "Verif.Stream.C68_complete_refuted",
    "Verif.Stream.C68_newline_refuted",
    "Verif.Stream.C68_router_to_router"
   ],
   "note": "Each answer of one line is seen once, in order and at once; a router reads what a router writes. Refuted: the end is not seen by the HTML standard; answers with line breaks are cut."
  },
  {
   "property": "C69",
   "status": "partial",
   "theorems": [
    "Verif.Stream.C69_small",
    "Verif.Stream.C69_split_partial",
    "Verif.Stream.C69_split_refuted",
    "Verif.Stream.C69_parts_partial",
    "Verif.Stream.C69_parts_refuted"
   ],
   "note": "Holds for parts in which the delimiter does not occur. Refuted: the delimiter in a string; the end if the last delimiter is split."
  },
  {
   "property": "C70",
   "status": "partial",
   "theorems": [
    "Verif.Stream.C70_apollo_partial",
    "Verif.Stream.C70_apollo_late_refuted",
    "Verif.Stream.C70_delivery_partial",
    "Verif.Stream.C70_delivery_late_refuted",
    "Verif.Stream.C70_router_to_router_partial"
   ],
   "note": "Whole streams are read as sent, with the end. Refuted: the last answer is late."
  },
  {
   "property": "C71",
   "status": "proved",
   "theorems": [
    "Verif.Callback.C71_forged",
    "Verif.Callback.C71_answers"
   ],
   "note": "Full property, for all histories; how payloads are read is a parameter."
  },
  {
   "property": "C72",
   "status": "partial",
   "theorems": [
    "Verif.Callback.C72_order",
    "Verif.Callback.C72_all_partial",
    "Verif.Callback.C72_progress",
    "Verif.Callback.C72_errors_refuted",
    "Verif.Callback.C72_slow_refuted"
   ],
   "note": "Order holds always. Nothing is lost, and the end and its errors are told, as long as at most 16 messages wait; a message beyond that is dropped although it was accepted, which is refuted with witnesses."
  },
  {
   "property": "C73",
   "status": "proved",
   "theorems": [
    "Verif.Callback.C73_accepted",
    "Verif.Callback.C73_gone"
   ],
   "note": "Full property, for all histories."
  },
  {
   "property": "C74",
   "status": "partial",
   "theorems": [
    "Verif.Callback.C74_silent_partial",
    "Verif.Callback.C74_terminated",
    "Verif.Callback.C74_late_refuted"
   ],
   "note": "Safety holds for the moment at which the router looks, and progress holds; a check between looking and acting is ignored, which is refuted with a witness."
  },
  {
   "property": "C75",
   "status": "proved",
   "theorems": [
    "Verif.Valid.C75_names_and_fragments"
   ],
   "note": "Equivalence for all schemas and documents."
  },
  {
   "property": "C76",
   "status": "partial",
   "theorems": [
    "Verif.Valid.C76_cycles_partial",
    "Verif.Valid.C76_no_false_alarm",
    "Verif.Valid.C76_shallow",
    "Verif.Valid.C76_cycles_refuted"
   ],
   "note": "Cycles of near spreads are found exactly, documents without cycles are never rejected, and where spreads are near the rule is exact; a cycle through a spread two levels deep is accepted (refuted)."
  },
  {
   "property": "C77",
   "status": "proved",
   "theorems": [
    "Verif.Valid.C77_variables"
   ],
   "note": "Equivalence for all schemas and all documents whose operations can be told apart. Types of variables that the schema does not have are accepted if they start with two underscores, as the statement says."
  },
  {
   "property": "C78",
   "status": "partial",
   "theorems": [
    "Verif.Valid.C78_fields_partial",
    "Verif.Valid.C78_fields_good",
    "Verif.Valid.C78_lookups",
    "Verif.Valid.C78_fields_refuted",
    "Verif.Valid.C78_nothing_below_refuted"
   ],
   "note": "Exact description of what the rules accept; equal to the property when names starting with two underscores are only __typename. The full property is refuted."
  },
  {
   "property": "C79",
   "status": "proved",
   "theorems": [
    "Verif.Valid.C79_directives"
   ],
   "note": ""
  },
  {
   "property": "C80",
   "status": "partial",
   "theorems": [
    "Verif.Valid.C80_arguments_partial",
    "Verif.Valid.C80_once_and_given",
    "Verif.Valid.C80_arguments_refuted"
   ],
   "note": "Exact when arguments stand only at fields and directives the schema has; given once and given where they must be holds for all documents. The full property is refuted."
  },
  {
   "property": "C81",
   "status": "proved",
   "theorems": [
    "Verif.Valid.C81_fragments_apply"
   ],
   "note": ""
  },
  {
   "property": "C82",
   "status": "partial",
   "theorems": [
    "Verif.Valid.C82_values_partial",
    "Verif.Valid.C82_no_false_alarm",
    "Verif.Valid.C82_plain",
    "Verif.Valid.C82_values_refuted",
    "Verif.Valid.C82_others_refuted"
   ],
   "note": "Exact description of what the rule accepts; no document whose values fit is rejected; equal to the property without three kinds of literals. The full property is refuted."
  },
  {
   "property": "C83",
   "status": "proved",
   "theorems": [
    "Verif.Valid.C83_object_fields_once"
   ],
   "note": ""
  },
  {
   "property": "C84",
   "status": "partial",
   "theorems": [
    "Verif.Valid.C84_positions_partial",
    "Verif.Valid.C84_positions_plain",
    "Verif.Valid.C84_no_false_alarm",
    "Verif.Valid.C84_positions_refuted"
   ],
   "note": "Exact for variables the rule sees; no false alarms; equal to the property where list literals stand only at nullable lists. The full property is refuted."
  },
  {
   "property": "C85",
   "status": "partial",
   "theorems": [
    "Verif.Valid.C85_one_root_field_partial",
    "Verif.Valid.C85_without_aliases",
    "Verif.Valid.C85_one_root_field_refuted"
   ],
   "note": "Exact with names of fields for response keys; equal to the property without aliases. The full property is refuted."
  },
  {
   "property": "C86",
   "status": "partial",
   "theorems": [
    "Verif.Valid.C86_no_false_alarm",
    "Verif.Valid.C86_conflicts_partial",
    "Verif.Valid.C86_decided",
    "Verif.Valid.C86_lists_refuted",
    "Verif.Valid.C86_fragments_refuted"
   ],
   "note": "No document without a conflict is rejected (C86_no_false_alarm). For documents without spreads and list literals, exactly those with a conflict are rejected (C86_conflicts_partial, C86_decided). Missing: conflicts through spreads and in lists are missed, as C86_fragments_refuted and C86_lists_refuted show."
  },
  {
   "property": "C87",
   "status": "partial",
   "theorems": [
    "Verif.Valid.C87_ends_partial",
    "Verif.Valid.C87_ends_refuted",
    "Verif.Valid.C87_not_all"
   ],
   "note": "Ends, with an answer that more steps do not change, for every document without cycles of fragments (C87_ends_partial). Missing: documents with cycles, for one of which, accepted by the rule on cycles, it does not end (C87_ends_refuted)."
  },
  {
   "property": "C88",
   "status": "partial",
   "theorems": [
    "Verif.Text.C88_sent_text_partial",
    "Verif.Text.C88_sent_named_partial",
    "Verif.Text.C88_infinite_refuted",
    "Verif.Text.C88_float_kind_refuted"
   ],
   "note": "Every planned document with names that are names, finite numbers and no empty selections is written as a text that reads, by the grammar, as the same document and no other; also with a name written into it. Infinite numbers are refuted, and that whole floats are sent as integers is shown."
  },
  {
   "property": "C89",
   "status": "partial",
   "theorems": [
    "Verif.Text.C89_accepted_reads_partial",
    "Verif.Text.C89_read_accepted_partial",
    "Verif.Text.C89_backspace_refuted",
    "Verif.Text.C89_exponent_refuted",
    "Verif.Text.C89_surrogates_refuted",
    "Verif.Text.C89_adjacent_refuted",
    "Verif.Text.C89_block_refuted",
    "Verif.Text.C89_variable_directive_refuted",
    "Verif.Text.C89_fragment_on_refuted"
   ],
   "note": "What is accepted reads as that document, for texts without block strings, \\b, \\u+ and carriage returns in strings; what reads as a document is accepted as it, for tokens that are tame, numbers apart, at most 50 open brackets and no directives on variables. Seven documents refute the rest."
  },
  {
   "property": "C90",
   "status": "partial",
   "theorems": [
    "Verif.Text.C90_no_crash_partial",
    "Verif.Text.C90_block_refuted"
   ],
   "note": "Reading never panics if there is no white space of more than one byte, or no block string; a block string with a wide blank refutes the rest."
  },
  {
   "property": "C91",
   "status": "partial",
   "theorems": [
    "Verif.Text.C91_limit_partial",
    "Verif.Text.C91_limit_only_rejects",
    "Verif.Text.C91_limit_grows",
    "Verif.Text.C91_strings_refuted",
    "Verif.Text.C91_boundary_refuted"
   ],
   "note": "With a limit of n exactly those documents are accepted that are accepted without one and have fewer than n tokens other than strings and floats; the limit only rejects, and is monotone. Counting strings, and the boundary, are refuted."
  },
  {
   "property": "C92",
   "status": "proved",
   "theorems": [
    "Verif.Text.C92_same_document",
    "Verif.Text.C92_minified_again",
    "Verif.Text.C92_layout"
   ],
   "note": "Holds for every accepted text and every limit. That layout does not matter is stated for texts that are Ordinary (where the tokens of the language are those of the tokenizer, see C89)."
  },
  {
   "property": "C93",
   "status": "partial",
   "theorems": [
    "Verif.Client.C93_made",
    "Verif.Client.C93_types",
    "Verif.Client.C93_kinds",
    "Verif.Client.C93_fields",
    "Verif.Client.C93_arguments",
    "Verif.Client.C93_input_fields",
    "Verif.Client.C93_enum_values",
    "Verif.Client.C93_no_federation",
    "Verif.Client.C93_union_members_refuted",
    "Verif.Client.C93_interfaces_refuted",
    "Verif.Client.C93_all_fields_marked_refuted"
   ],
   "note": "Proved for composed supergraphs (a query type with a field for clients, distinct names, no visible type whose fields are all inaccessible). Members of unions and lists of implemented interfaces are not pruned: refuted."
  },
  {
   "property": "C94",
   "status": "proved",
   "theorems": [
    "Verif.Client.C94_conditions",
    "Verif.Client.C94_fields",
    "Verif.Client.C94_nullability",
    "Verif.Client.C94_kinds",
    "Verif.Client.C94_enums"
   ],
   "note": "Holds for every well-formed schema."
  },
  {
   "property": "C95",
   "status": "partial",
   "theorems": [
    "Verif.Socket.C95_acknowledged",
    "Verif.Socket.C95_refused",
    "Verif.Socket.C95_not_offered",
    "Verif.Socket.C95_init_timeout",
    "Verif.Socket.C95_told",
    "Verif.Socket.C95_named",
    "Verif.Socket.C95_order_partial",
    "Verif.Socket.C95_stops",
    "Verif.Socket.C95_silent",
    "Verif.Socket.C95_cut_off_partial",
    "Verif.Socket.C95_name_again_refuted",
    "Verif.Socket.C95_after_errors_refuted"
   ],
   "note": "Everything but: what comes after errors (an end is sent) and clients that use the name of a finished operation again, both refuted; that a subscription is cut off only for a reason is proved for clients that use each name once."
  },
  {
   "property": "C96",
   "status": "partial",
   "theorems": [
    "Verif.Socket.Headers.C96_sources",
    "Verif.Socket.Headers.C96_not_kept",
    "Verif.Socket.Headers.C96_kept_partial",
    "Verif.Socket.Headers.C96_kept_case_refuted",
    "Verif.Socket.Headers.C96_kept_nested_refuted",
    "Verif.Socket.Headers.C96_kept_bare_refuted"
   ],
   "note": "Which headers an operation gets is proved in full; that kept headers are used later is proved for payloads in lower case without nesting, and refuted for others."
  },
  {
   "property": "C97",
   "status": "proved",
   "theorems": [
    "Verif.Pool.C97_own",
    "Verif.Pool.C97_live",
    "Verif.Pool.C97_one",
    "Verif.Pool.C97_lookup",
    "Verif.Pool.C97_published",
    "Verif.Pool.C97_once",
    "Verif.Pool.C97_not_forgotten",
    "Verif.Pool.C97_ends",
    "Verif.Pool.C97_because"
   ],
   "note": "for all histories and interleavings of callers, attempts and owners; dropping the pool as a whole is not modelled"
  },
  {
   "property": "C98",
   "status": "proved",
   "theorems": [
    "Verif.Pool.Owner.C98_once",
    "Verif.Pool.Owner.C98_idle",
    "Verif.Pool.Owner.C98_started",
    "Verif.Pool.Owner.C98_nobody_left",
    "Verif.Pool.Owner.C98_drains",
    "Verif.Pool.Owner.C98_closed",
    "Verif.Pool.Owner.C98_order"
   ],
   "note": "for all histories of one pooled connection, all capacities and timeouts"
  },
  {
   "property": "C99",
   "status": "proved",
   "theorems": [
    "Verif.Pool.Client.C99_routed",
    "Verif.Pool.Client.C99_goes_on",
    "Verif.Pool.Client.C99_names",
    "Verif.Pool.Client.C99_complete"
   ],
   "note": "for all histories of one connection after the handshake"
  },
  {
   "property": "C100",
   "status": "partial",
   "theorems": [
    "Verif.Pool.Client.C100_lost_partial",
    "Verif.Pool.Client.C100_lost_refuted"
   ],
   "note": "proved for operations that go on when the reader stops; refuted for operations started between that and the moment the owner notices"
  },
  {
   "property": "C101",
   "status": "partial",
   "theorems": [
    "Verif.Client.C101_answers_partial",
    "Verif.Client.C101_root_partial",
    "Verif.Client.C101_interfaces_refuted",
    "Verif.Client.C101_possibleTypes_refuted",
    "Verif.Client.C101_reason_refuted",
    "Verif.Client.C101_args_refuted",
    "Verif.Client.C101_fragments_refuted",
    "Verif.Client.C101_merge_refuted",
    "Verif.Client.C101_mutation_refuted"
   ],
   "note": "Proved for operations that ask for a key once per object and have no fragments directly under __schema, but for the cases in Exempt; each of these is refuted."
  },
  {
   "property": "C102",
   "status": "proved",
   "theorems": [
    "Verif.Client.C102_answered"
   ],
   "note": "For composed supergraphs whose visible parts mention visible types only; mutations and subscriptions need a root type."
  },
  {
   "property": "C103",
   "status": "proved",
   "theorems": [
    "Verif.Client.C103_only_seen",
    "Verif.Client.C103_hidden_type",
    "Verif.Client.C103_hidden_field"
   ],
   "note": ""
  },
  {
   "property": "C104",
   "status": "proved",
   "theorems": [
    "Verif.Usage.C104_clean",
    "Verif.Usage.C104_alike",
    "Verif.Usage.C104_reads"
   ],
   "note": "For every document and every way of sorting. C104_reads is about the text: whatever it reads as is clean."
  },
  {
   "property": "C105",
   "status": "partial",
   "theorems": [
    "Verif.Usage.C105_same",
    "Verif.Usage.C105_reads",
    "Verif.Usage.C105_apart",
    "Verif.Usage.C105_order_partial",
    "Verif.Usage.C105_order_refuted",
    "Verif.Usage.C105_fragment_refuted",
    "Verif.Usage.C105_fields_refuted"
   ],
   "note": "The text reads as the operation, and equal texts mean the same operation. That reordering does not matter is proved where all is told apart by name, and refuted for directives of spreads, arguments of directives of fragments, and fields of the same name."
  },
  {
   "property": "C106",
   "status": "proved",
   "theorems": [
    "Verif.Usage.C106_once",
    "Verif.Usage.C106_order",
    "Verif.Usage.C106_bounds",
    "Verif.Usage.C106_last_flush"
   ],
   "note": "Every step takes a lock once, so all interleavings are covered. What becomes of a batch whose sending fails is not modelled."
  },
  {
   "property": "C107",
   "status": "proved",
   "theorems": [
    "Verif.Usage.C107_first",
    "Verif.Usage.C107_excluded",
    "Verif.Usage.C107_excluded_name",
    "Verif.Usage.C107_all",
    "Verif.Usage.C107_nothing",
    "Verif.Usage.C107_only_first",
    "Verif.Usage.C107_no_panic"
   ],
   "note": "The hash is a parameter; C107_first asks that no earlier key has the same hash."
  },
  {
   "property": "C108",
   "status": "partial",
   "theorems": [
    "Verif.Usage.C108_entries",
    "Verif.Usage.C108_keys",
    "Verif.Usage.C108_text",
    "Verif.Usage.C108_nothing",
    "Verif.Usage.C108_name_refuted",
    "Verif.Usage.C108_name_partial"
   ],
   "note": "All but the name: two operations of one document share a key and only the first name is told (refuted, with the part that holds)."
  },
  {
   "property": "C109",
   "status": "partial",
   "theorems": [
    "Verif.Usage.Coords.C109_fields",
    "Verif.Usage.Coords.C109_args",
    "Verif.Usage.Coords.C109_variables",
    "Verif.Usage.Coords.C109_inputs_partial",
    "Verif.Usage.Coords.C109_values_partial",
    "Verif.Usage.Coords.C109_given_partial",
    "Verif.Usage.Coords.C109_reported_partial",
    "Verif.Usage.Coords.C109_only_partial",
    "Verif.Usage.Coords.C109_directive_args_refuted",
    "Verif.Usage.Coords.C109_lists_refuted",
    "Verif.Usage.Coords.C109_null_refuted",
    "Verif.Usage.Coords.C109_directive_refuted",
    "Verif.Usage.Coords.C109_introspection_refuted"
   ],
   "note": "Fields, arguments, types of variables, and literals of arguments and defaults are complete; values are said to be given only where the document gives one. Missing: input objects inside lists that cannot be null (C109_lists_refuted), operations with arguments on directives of operations or fragments (C109_directive_refuted) or with introspection besides (C109_introspection_refuted), arguments of directives, which are reported as those of fields (C109_directive_args_refuted), and null in the default of a variable, which counts as a value (C109_null_refuted)."
  },
  {
   "property": "C110",
   "status": "partial",
   "theorems": [
    "Verif.Usage.Processor.C110_answers",
    "Verif.Usage.Processor.C110_panics_partial",
    "Verif.Usage.Processor.C110_panics_refuted"
   ],
   "note": "Every answer is right. Missing: a call panics if the cache drops the entry between its two steps (C110_panics_refuted)."
  },
  {
   "property": "C111",
   "status": "proved",
   "theorems": [
    "Verif.Reload.C111_order",
    "Verif.Reload.C111_keeps"
   ],
   "note": "For every run of the loader, the channel and the builder."
  },
  {
   "property": "C112",
   "status": "partial",
   "theorems": [
    "Verif.Reload.C112_fresh_partial",
    "Verif.Reload.C112_build_refuted",
    "Verif.Reload.C112_build_fresh_refuted",
    "Verif.Reload.C112_body_refuted",
    "Verif.Reload.C112_time_refuted",
    "Verif.Reload.C112_once_refuted"
   ],
   "note": "If building succeeds, bodies are not lost and files have later and later times. Missing: C112_build_refuted, C112_body_refuted, C112_time_refuted, C112_once_refuted."
  },
  {
   "property": "C113",
   "status": "partial",
   "theorems": [
    "Verif.Reload.Cache.C113_right",
    "Verif.Reload.Cache.C113_bounded",
    "Verif.Reload.Cache.C113_shared",
    "Verif.Reload.Cache.C113_sticky",
    "Verif.Reload.Cache.C113_together",
    "Verif.Reload.Cache.C113_cleanup_partial",
    "Verif.Reload.Cache.C113_cleanup_refuted"
   ],
   "note": "All but cleaning up is proved for every schedule. Missing: what belongs to a retired supergraph can stay in the cache (C113_cleanup_refuted)."
  },
  {
   "property": "C114",
   "status": "partial",
   "theorems": [
    "Verif.Coproc.C114_headers",
    "Verif.Coproc.C114_continues",
    "Verif.Coproc.C114_break_partial",
    "Verif.Coproc.C114_obeyed",
    "Verif.Coproc.C114_request",
    "Verif.Coproc.C114_response",
    "Verif.Coproc.C114_graphql_request",
    "Verif.Coproc.C114_graphql_response",
    "Verif.Coproc.C114_analysis",
    "Verif.Coproc.C114_echo_partial",
    "Verif.Coproc.Case.C114_break_refuted",
    "Verif.Coproc.Case.C114_echo_refuted"
   ],
   "note": "Headers are replaced per name with those of the connection kept; each stage changes what the answer gives and nothing else; a request goes on or ends only on an answer that says so. Of several values of a header in an answer that ends the request only the last is sent (refuted), and values that are not text are lost when echoed (refuted)."
  },
  {
   "property": "C115",
   "status": "proved",
   "theorems": [
    "Verif.Coproc.C115_own",
    "Verif.Coproc.C115_refused",
    "Verif.Coproc.C115_accepted",
    "Verif.Coproc.C115_custom",
    "Verif.Coproc.C115_apart",
    "Verif.Coproc.C115_labels",
    "Verif.Coproc.C115_skip",
    "Verif.Coproc.C115_told",
    "Verif.Coproc.C115_says"
   ],
   "note": "For all contexts and patches: what is kept, set, refused, accepted and told."
  },
  {
   "property": "C116",
   "status": "partial",
   "theorems": [
    "Verif.Coproc.C116_executed",
    "Verif.Coproc.C116_validated_partial",
    "Verif.Coproc.C116_first",
    "Verif.Coproc.C116_plain",
    "Verif.Coproc.C116_response",
    "Verif.Coproc.C116_status",
    "Verif.Coproc.Case.C116_validated_refuted"
   ],
   "note": "What is executed is what the last stage left, nothing is executed after a break or failure, and every request not ended at the first stage goes through both stages for responses. It was validated if the coprocessor gave no body at the GraphQL request; otherwise it need not be (refuted)."
  },
  {
   "property": "C117",
   "status": "proved",
   "theorems": [
    "Verif.Extensions.C117_extensions",
    "Verif.Extensions.C117_some"
   ],
   "note": "For all configurations, responses and keys; the aggregator always has a value to take."
  },
  {
   "property": "C118",
   "status": "partial",
   "theorems": [
    "Verif.Traces.C118_account",
    "Verif.Traces.C118_bounded",
    "Verif.Traces.C118_whole",
    "Verif.Traces.C118_shutdown_partial",
    "Verif.Traces.C118_flush",
    "Verif.Traces.C118_progress",
    "Verif.Traces.C118_sweep",
    "Verif.Traces.C118_reason",
    "Verif.Traces.C118_root",
    "Verif.Traces.Case.C118_shutdown_refuted",
    "Verif.Traces.Case.C118_full_refuted",
    "Verif.Traces.Case.C118_late_refuted",
    "Verif.Traces.Case.C118_progress_refuted"
   ],
   "note": "For all runs: where each span is, that traces are whole, the limits, reasons for dropping, sweeping, flushing, and shutdown with one export at a time. Shutdown with concurrent exports or a full channel, spans after the root, and batches of size 0 are refuted."
  },
  {
   "property": "C119",
   "status": "partial",
   "theorems": [
    "Verif.Mismatch.C119_found",
    "Verif.Mismatch.C119_real",
    "Verif.Mismatch.C119_untouched",
    "Verif.Mismatch.C119_renamed",
    "Verif.Mismatch.C119_noted",
    "Verif.Mismatch.Case.two",
    "Verif.Mismatch.Case.C119_three_refuted",
    "Verif.Mismatch.Case.C119_below_refuted",
    "Verif.Mismatch.Case.C119_null_refuted"
   ],
   "note": "The search finds exactly the conflicts at each level, nothing is renamed without one, an alias is new where it is given, and every renaming, and nothing else, is noted with its place and keys. That all conflicts are repaired is refuted for three types, for objects that differ in nullability and below composite fields."
  },
  {
   "property": "C120",
   "status": "partial",
   "theorems": [
    "Verif.Fold.C120_same",
    "Verif.Fold.C120_step",
    "Verif.Fold.C120_rounds",
    "Verif.Fold.C120_ends",
    "Verif.Fold.C120_round_ends",
    "Verif.Fold.C120_fields_partial",
    "Verif.Fold.C120_stays",
    "Verif.Fold.Case.C120_args_refuted"
   ],
   "note": "What every object is asked for is the same after folding and after any number of rounds of normalizing and folding, for all schemas in which objects have fields of the types their interfaces promise; rounds that fold something are not more than there are fragments. Fields exist on the types they are asked of, where supergraph and subgraph agree on types. That arguments are accepted is refuted (C120_args_refuted). rewrite_root_output is not modelled."
  },
  {
   "property": "C121",
   "status": "partial",
   "theorems": [
    "Verif.Breaker.C121_documented",
    "Verif.Breaker.C121_number",
    "Verif.Breaker.C121_call",
    "Verif.Breaker.C121_settings",
    "Verif.Breaker.C121_fine",
    "Verif.Breaker.C121_again",
    "Verif.Breaker.Case.C121_forms_refuted"
   ],
   "note": "Documented entries match exactly what they stand for; settings fall back as documented; responses pass unchanged and are counted exactly as configured; what is written is read back. That other strings are refused is wrong (C121_forms_refuted). The states of the breaker itself are in a library and not modelled."
  },
  {
   "property": "C122",
   "status": "partial",
   "theorems": [
    "Verif.Env.C122_plain",
    "Verif.Env.C122_masking",
    "Verif.Env.C122_other",
    "Verif.Env.C122_error",
    "Verif.Env.C122_source",
    "Verif.Env.C122_endpoint",
    "Verif.Env.Case.C122_key_refuted"
   ],
   "note": "Refuted for variables that belong to a source of the supergraph and are set without it; proved for all the others."
  },
  {
   "property": "C123",
   "status": "partial",
   "theorems": [
    "Verif.Target.C123_execute",
    "Verif.Target.C123_subscribe",
    "Verif.Target.C123_succeeds",
    "Verif.Target.C123_reuse_partial",
    "Verif.Target.Case.C123_reuse_refuted"
   ],
   "note": "All but reuse where subscriptions are over HTTP, which is refuted. URLs with a bad scheme or authority, plugins, and use of open WebSocket connections are outside the model."
  },
  {
   "property": "C124",
   "status": "partial",
   "theorems": [
    "Verif.Target.Timeout.C124_own_partial",
    "Verif.Target.Timeout.C124_all_partial",
    "Verif.Target.Timeout.Case.C124_fixed_refuted",
    "Verif.Target.Timeout.Case.C124_twice_refuted"
   ],
   "note": "Proved where the timeout for all can be told and, for subgraphs without their own, does not depend on a default; refuted for the rest."
  }
 ]
}
