{"claims": [
 {"property": "C01", "status": "proved", "theorems": ["Verif.Wrapping.C01_wrapping_roundtrip", "Verif.Wrapping.C01_wrapping_injective", "Verif.Wrapping.C01_wrapping_complete"], "note": "The packed words refine lists of wrappers for all sequences of builder calls, and are rendered as the grammar of types says."},
 {"property": "C02", "status": "proved", "theorems": ["Verif.Wrapping.C02_lenient_iff_value_inclusion"], "note": "Leniency is inclusion of the sets of admitted values, for all wrapper lists."},
 {"property": "C03", "status": "partial", "theorems": ["Verif.FieldTypes.C03_output_least_upper_bound_partial", "Verif.FieldTypes.C03_input_greatest_lower_bound_partial", "Verif.FieldTypes.C03_order_independent_partial", "Verif.FieldTypes.C03_depth_mismatch_refused_partial", "Verif.FieldTypes.C03_output_depth_mismatch_accepted", "Verif.FieldTypes.C03_order_dependent_when_depth_differs"], "note": "Holds when the types have equal list depth; the last two theorems are counterexamples: types whose list depths differ can be composed and the result depends on subgraph order."},
 {"property": "C04", "status": "partial", "theorems": ["Verif.CheckTypes.C04_required", "Verif.CheckTypes.C04_compare_value_sets_partial", "Verif.CheckTypes.C04_render_partial", "Verif.CheckTypes.C04_deep_list_corrupts_inner", "Verif.CheckTypes.C04_deep_list_renders_wrong"], "note": "Whether a type is required is right at every depth (C04_required). Comparison and text hold up to 57 list levels; push_list's bound is off by one, so the 58th level overwrites the inner non-null bit (counterexamples)."},
 {"property": "C05", "status": "proved", "theorems": ["Verif.OperationLimits.C05_accept_iff", "Verif.OperationLimits.C05_refusal_justified", "Verif.OperationLimits.C05_bad_fragments_refused"], "note": "Accepted exactly when the expansion exists (no unknown fragment, no cycle) and is within every limit; every refusal names a limit which is exceeded or a fragment which is unknown or cyclic; the recursion ends."},
 {"property": "C06", "status": "partial", "theorems": ["Verif.Complexity.C06_cost_modulo", "Verif.Complexity.C06_enforced_partial", "Verif.Complexity.C06_refused_exceeds_partial", "Verif.Complexity.C06_config_enforces", "Verif.Complexity.C06_overflow"], "note": "Equality with the unbounded cost modulo 2^64 is proved for all inputs; the limit is enforced when the cost fits in 64 bits. C06_overflow is a counterexample: an operation of cost 2^90, with valid Int arguments, is accepted under every limit (release build wraps)."},
 {"property": "C07", "status": "partial", "theorems": ["Verif.Coercion.C07_accepted_iff", "Verif.Coercion.C07_coerced", "Verif.Coercion.C07_conforms_partial", "Verif.Coercion.C07_no_panic", "Verif.Coercion.C07_request_accepted_iff", "Verif.Coercion.C07_request_values", "Verif.Coercion.C07_declared_type_partial", "Verif.Coercion.C07_oneOf_null_accepted", "Verif.Coercion.C07_list_default_adds_a_level", "Verif.Coercion.C07_oneOf_default_unchecked"], "note": "coerceVariable succeeds exactly for the values the GraphQL input coercion rules accept (inductive spec Coerced, with the code's Int rule), returns the prescribed value, never panics at input types; bindVariables accepts exactly requests whose variables are all acceptable. False parts: a @oneOf field may be null; a list variable with a non-null default gets one list level too many; a null default is unchecked for @oneOf. Values of defaults are ids."},
 {"property": "C08", "status": "partial", "theorems": ["Verif.Coercion.C08_int_exact", "Verif.Coercion.C08_int_partial", "Verif.Coercion.C08_max_as_float_rejected", "Verif.Coercion.C08_below_min_accepted", "Verif.Coercion.C08_float_of_small_integer", "Verif.Coercion.C08_custom_scalar_rounds"], "note": "Exact rule of the code for all JSON numbers; the claim is false for 2147483647.0 (rejected) and whole floats below -2^31 (accepted, clamped), proved for all others."},
 {"property": "C09", "status": "proved", "theorems": ["Verif.Coercion.C09_usage_iff", "Verif.Coercion.C09_usage_sound", "Verif.Literals.C09_values_admissible", "Verif.Literals.C09_default"], "note": "are_type_compatibles accepts exactly when every value of the variable's type is admitted at the position (C09_usage_iff; an item is admitted for a list, as input coercion wraps it); in every accepted request the value of an accepted variable, given or by default, is admissible at its position, and a variable without value is only accepted at nullable positions (C09_values_admissible)."},
 {"property": "C10", "status": "partial", "theorems": ["Verif.NullProp.C10_exact_partial", "Verif.NullProp.C10_conforms_partial", "Verif.NullProp.C10_complete_conforms", "Verif.NullProp.C10_only_marked", "Verif.NullProp.C10_no_object", "Verif.NullProp.C10_merged_null", "Verif.NullProp.C10_duplicate_key", "Verif.NullProp.C10_cut_off", "Verif.NullProp.C10_typename_panic", "Verif.NullProp.C10_merge_panic"], "note": "Reading of subgraph responses against shapes, recording of nulls, ingestion and serialisation are modelled. For any number of root plans with distinct response keys and any readable subgraph responses without duplicate keys, the serialised response is exactly the completion of the GraphQL specification. False in general: merged objects, duplicate keys, cut-off responses, and panics (negations proved). Not modelled: plans below the root, derived fields, polymorphic shapes."},
 {"property": "C100", "status": "partial", "theorems": ["Verif.UniqueSub.C100_items", "Verif.UniqueSub.C100_ends", "Verif.UniqueSub.C100_dropped", "Verif.UniqueSub.C100_left", "Verif.UniqueSub.C100_trap_false", "Verif.UniqueSub.C100_trap_partial", "Verif.UniqueSub.C100_case", "Verif.UniqueSub.C100_old_partial", "Verif.UniqueSub.C100_old_false"], "note": "All proved for the current interface but for traps: an instance which has trapped is used again if the drop of the subscription works afterwards (C100_trap_false, C100_trap_partial). Older extensions: proved if they do not fail (C100_old_partial); after an error the stream goes on (C100_old_false)."},
 {"property": "C101", "status": "partial", "theorems": ["Verif.AccessToken.C101_accepts", "Verif.AccessToken.C101_empty", "Verif.AccessToken.C101_invalid", "Verif.AccessToken.C101_header", "Verif.AccessToken.C101_again", "Verif.AccessToken.C101_space", "Verif.AccessToken.C101_env_partial", "Verif.AccessToken.C101_env_false", "Verif.AccessToken.C101_case"], "note": "All proved but for values of the environment variable which are not Unicode: they count as not set (C101_env_false). HeaderValue::from_str and str::trim are trusted to be as documented."},
 {"property": "C11", "status": "partial", "theorems": ["Verif.DefaultMerge.C11_filled_partial", "Verif.DefaultMerge.C11_filled_iff", "Verif.DefaultMerge.C11_ordered_partial", "Verif.DefaultMerge.C11_false", "Verif.DefaultMerge.C11_hidden_default_duplicated", "Verif.DefaultMerge.C11_merge_fields", "Verif.DefaultMerge.C11_merge_fields_panic"], "note": "Filling in defaults is exactly right iff at most one default comes after all existing keys (C11_filled_iff); otherwise the remaining defaults are stored under a stale key (C11_false). recursive_merge_object gives every key exactly once for any value merge. Here nested values are an opaque mergeV; C65 proves the recursive merge."},
 {"property": "C12", "status": "partial", "theorems": ["Verif.Schedule.C12_at_most_once", "Verif.Schedule.C12_after_dependencies", "Verif.Schedule.C12_completed_was_started", "Verif.Schedule.C12_finished", "Verif.Schedule.C12_all_started_partial", "Verif.Schedule.C12_progress", "Verif.Schedule.C12_terminates", "Verif.Schedule.C12_no_parent_objects", "Verif.Schedule.C12_modifier_cycle"], "note": "Dependency graph from the query plan (builder.rs) and the coordinator's scheduling as a transition system over all completion orders, failures and empty inputs. At most once, only after all dependencies, exact set of started tasks at the end, progress and a bound on the number of steps are proved. The last sentence is false as stated: a plan without parent objects is not run and its dependents (e.g. response modifiers) never start; proved with that case excluded."},
 {"property": "C13", "status": "partial", "theorems": ["Verif.MutationOrder.C13_serial_iff_partial", "Verif.MutationOrder.C13_total_order", "Verif.MutationOrder.C13_counterexample"], "note": "Characterised exactly: the property holds iff no two consecutive fields go to a resolver used and left before (assuming one partition per resolver); A,B,A,A executes the last field twice (C13_counterexample)."},
 {"property": "C14", "status": "partial", "theorems": ["Verif.Collect.C14_first_selection_decides", "Verif.Collect.C14_collected_partial", "Verif.Collect.C14_false", "Verif.Collect.C14_false_shown"], "note": "False of the code: C14_false ({ a @skip(if: true) a } shows nothing) and C14_false_shown ({ a { x } a @skip(if: true) { y } } shows y). C14_first_selection_decides is exactly what the code does for every operation, variable assignment and object; C14_collected_partial gives the claim when the selections of a key that meet in an object agree. Missing: which fields are requested from subgraphs; several query partitions."},
 {"property": "C15", "status": "partial", "theorems": ["Verif.HeaderRules.C15_clean_partial", "Verif.HeaderRules.C15_pattern_counterexample", "Verif.HeaderRules.C15_duplicate_counterexample", "Verif.HeaderRules.C15_remove_effective"], "note": "False for pattern rules renaming to a denied name and for rename-duplicate on a denied name (counterexamples); proved for all other rule lists, client headers and extension headers."},
 {"property": "C16", "status": "partial", "theorems": ["Verif.Documents.C16_trusted_partial", "Verif.Documents.C16_from_store", "Verif.Documents.C16_refused", "Verif.Documents.C16_apq_hash", "Verif.Documents.C16_nul_counterexample"], "note": "For any history of requests, with nondeterministic cache hits: enforced requests execute what the store returned for their client and document id (operation names without NUL); unconditional weaker version; refusals; persisted-query hash. blake3 taken as injective; sha256/hex parameters."},
 {"property": "C17", "status": "partial", "theorems": ["Verif.Documents.C17_same_operation_partial", "Verif.Documents.C17_text_transparent", "Verif.Documents.C17_empty_name_counterexample", "Verif.Documents.C17_nul_counterexample"], "note": "Keys separate schema, document and operation name for names without NUL, except that an empty and an absent name share a key; both gaps have counterexamples. For named inline documents the cache is shown invisible."},
 {"property": "C18", "status": "partial", "theorems": ["Verif.InFlight.C18_merged_iff", "Verif.InFlight.C18_merged_partial", "Verif.InFlight.C18_counterexample", "Verif.InFlight.C18_equal_merged", "Verif.InFlight.C18_equal_hash", "Verif.InFlight.C18_mutations_alone"], "note": "Exact characterisation of merging (iff), for requests whose headers and URL are below 4 GiB. Names and values are not separated in the key, so two different header lists can be merged (counterexample); for prefix-free names the request is proved equal. Equal keys hash alike; mutations are never merged (any interleaving)."},
 {"property": "C19", "status": "proved", "theorems": ["Verif.InFlight.C19_fresh", "Verif.InFlight.C19_no_panic", "Verif.InFlight.C19_answered", "Verif.InFlight.C19_merged"], "note": "Transition system of any number of callers with cancellations; answers are fresh, for the same key; no caller is stuck and no unwrap panics. DashMap and tokio OnceCell are modelled by their contracts."},
 {"property": "C20", "status": "partial", "theorems": ["Verif.RateLimit.C20_quota_bound", "Verif.RateLimit.C20_enforced_partial", "Verif.RateLimit.C20_low_limit_counterexample", "Verif.RateLimit.C20_fraction_counterexample", "Verif.RateLimit.C20_wrap_counterexample"], "note": "GCRA bound for any state, arrival order and window; limits of 1..10^9 per second over whole seconds proved enforced. Lower limits, sub-second durations and quotas that wrap are never enforced, fractions of seconds are dropped (counterexamples). The governor crate is modelled by its algorithm."},
 {"property": "C21", "status": "partial", "theorems": ["Verif.RateLimit.C21_concurrent", "Verif.RateLimit.C21_window_partial", "Verif.RateLimit.C21_weighted_partial", "Verif.RateLimit.C21_sliding", "Verif.RateLimit.C21_race_counterexample", "Verif.RateLimit.C21_subsecond_counterexample", "Verif.RateLimit.C21_zero_duration_counterexample"], "note": "Any interleaving: excess bounded by outstanding and failed increments; without races exactly the limit, the weighted rate and twice the limit in any sliding window. Race, sub-second and zero durations have counterexamples. Rational instead of f64 arithmetic."},
 {"property": "C22", "status": "partial", "theorems": ["Verif.EntityCache.C22_ttl_exact_partial", "Verif.EntityCache.C22_no_crash_partial", "Verif.EntityCache.C22_crash", "Verif.EntityCache.C22_stored", "Verif.EntityCache.C22_served_fresh", "Verif.EntityCache.C22_subgraph_disable_ignored", "Verif.EntityCache.C22_config_partial"], "note": "Stored/served data respects the policy for all histories; 'never crashes' is false: age > max-age panics (C22_crash), proved otherwise; per-subgraph enabled=false is ignored when caching is on globally."},
 {"property": "C23", "status": "partial", "theorems": ["Verif.EntityCache.C23_key_injective", "Verif.EntityCache.C23_same_request_partial", "Verif.EntityCache.C23_entity_counterexample"], "note": "Key injective on (subgraph, headers, payload); root responses are reused only for the same request. False for entities: the key lacks the selection (C23_entity_counterexample)."},
 {"property": "C24", "status": "partial", "theorems": ["Verif.EntityCache.C24_counterexample", "Verif.EntityCache.C24_sent_partial"], "note": "False with caching enabled: an identical mutation within the TTL is answered from the cache (C24_counterexample). Proved sent when caching is off or no fresh identical request exists."},
 {"property": "C25", "status": "proved", "theorems": ["Verif.Retry.C25_mutation_once", "Verif.Retry.C25_disabled_once", "Verif.Retry.C25_stops_at_success", "Verif.Retry.C25_retries_granted", "Verif.Retry.C25_budgeted", "Verif.Retry.C25_subgraph_disable_ignored"], "note": "Budget (tower TpsBudget) is a parameter with a stated law; per-subgraph retry.enabled=false is ignored by the code (C25_subgraph_disable_ignored)."},
 {"property": "C26", "status": "partial", "theorems": ["Verif.RollingLog.C26_time", "Verif.RollingLog.C26_no_loss_partial", "Verif.RollingLog.C26_size_counterexample", "Verif.RollingLog.C26_clock_counterexample", "Verif.RollingLog.C26_size_bound"], "note": "Time-based rotation is proved exact under a clock that does not go back, and the size bound holds for any clock. False in general: two size rotations in the same millisecond overwrite a rotated file (counterexample), as does a clock going back; C26_no_loss_partial covers any strategy when no two files are created in one millisecond."},
 {"property": "C27", "status": "proved", "theorems": ["Verif.GraphRef.C27_display_parse", "Verif.GraphRef.C27_roundtrip", "Verif.GraphRef.C27_parts", "Verif.GraphRef.C27_constructed_counterexample"], "note": "Parse and display of graph references over arbitrary strings."},
 {"property": "C28", "status": "proved", "theorems": ["Verif.EnvString.C28_expand", "Verif.EnvString.C28_every_string", "Verif.EnvString.C28_plain"], "note": "Every string is a template of plain text and placeholders; expansion equals replacing placeholders by values, error iff one has no value."},
 {"property": "C29", "status": "partial", "theorems": ["Verif.SchemaPath.C29_roundtrip", "Verif.SchemaPath.C29_injective", "Verif.SchemaPath.C29_parse_valid", "Verif.SchemaPath.C29_parse_text", "Verif.SchemaPath.C29_no_crash_partial", "Verif.SchemaPath.C29_false", "Verif.SchemaPath.C29_not_unique"], "note": "Round trip, injectivity, validity of what is read, and faithfulness of the text proved for all paths and strings; false for arbitrary text: the parser panics when a multi-byte character precedes '[' (C29_false). No crash proved for ASCII text."},
 {"property": "C30", "status": "partial", "theorems": ["Verif.PatchPaths.C30_index_in_range", "Verif.PatchPaths.C30_exact", "Verif.PatchPaths.C30_top_level", "Verif.PatchPaths.C30_second_level", "Verif.PatchPaths.C30_added_interfaces", "Verif.PatchPaths.C30_removed_sound", "Verif.PatchPaths.C30_removed_complete_partial", "Verif.PatchPaths.C30_false"], "note": "Exact lookup, top-level, second-level and added-interface lookups find exactly the recorded changes, for all diffs. Removal of an interface implementation: found only if recorded (all diffs); recorded removals found when every other change inside the type is about interfaces or sorts after the interface name; otherwise false (C30_false)."},
 {"property": "C31", "status": "partial", "theorems": ["Verif.OpChecks.C31_remove_argument_partial", "Verif.OpChecks.C31_add_argument_partial", "Verif.OpChecks.C31_remove_default_partial", "Verif.OpChecks.C31_change_type_partial", "Verif.OpChecks.C31_change_type_same_arguments_partial", "Verif.OpChecks.C31_no_panic_partial", "Verif.OpChecks.C31_reports_only_changes", "Verif.OpChecks.C31_other_position_missed", "Verif.OpChecks.C31_other_position_spurious", "Verif.OpChecks.C31_other_position_panics", "Verif.OpChecks.C31_required_and_changed_missed", "Verif.OpChecks.C31_inner_null_missed", "Verif.OpChecks.C31_interface_argument_missed", "Verif.OpChecks.C31_interface_argument_panics"], "note": "Exact behaviour of every argument rule over whole documents; changed arguments only at equal table positions (both searches use the source table); false for interface fields, other positions, required-and-retyped, inner nulls with a default (witnesses)."},
 {"property": "C32", "status": "partial", "theorems": ["Verif.OpChecks.C32_terminates", "Verif.OpChecks.C32_field_counts_partial", "Verif.OpChecks.C32_argument_counts_partial", "Verif.OpChecks.C32_enum_counts_partial", "Verif.OpChecks.C32_condition_counts_partial", "Verif.OpChecks.C32_left_out_sound", "Verif.OpChecks.C32_left_out_partial", "Verif.OpChecks.C32_threshold", "Verif.OpChecks.C32_left_out_hidden", "Verif.OpChecks.C32_interface_argument_not_counted", "Verif.OpChecks.C32_enum_in_list_not_counted", "Verif.OpChecks.C32_named_fragment_condition_not_counted", "Verif.OpChecks.C32_cycle_overflows_stack"], "note": "Exact counts of fields, arguments of object types, enum values and inline type conditions over all fragment nestings; false for interface arguments, enum values in lists, weights of type conditions, named fragments, hidden left-out arguments, fragment cycles (witnesses)."},
 {"property": "C33", "status": "proved", "theorems": ["Verif.Compose.C33_values", "Verif.Compose.C33_graphs", "Verif.Compose.C33_order_independent", "Verif.Compose.C33_kind_not_compared"], "note": "merge_enum_definitions with the sorted value table: values for input-only, output-only/unused and both uses (any declaration order), join tags, independence of subgraph order. Hypothesis: no definition declares a value twice. Also: kinds of same-named definitions are not compared (outside the statement's quantifier)."},
 {"property": "C34", "status": "partial", "theorems": ["Verif.Compose.C34_fields", "Verif.Compose.C34_fatal_partial", "Verif.Compose.C34_composed_field", "Verif.Compose.C34_sound_partial", "Verif.Compose.C34_depth_mismatch_unsound", "Verif.Compose.C34_null_default_unsound", "Verif.Compose.C34_no_common_field_accepted"], "note": "merge_input_object_definitions: fields are exactly the common ones (full); failure characterised and soundness of the composed type after default coercion proved when list depths agree and no default null meets a required field; false otherwise (two witnesses). Also empty composed input objects are accepted."},
 {"property": "C35", "status": "proved", "theorems": ["Verif.Csrf.C35_enabled", "Verif.Csrf.C35_forbidden", "Verif.Csrf.C35_disabled", "Verif.Csrf.C35_options", "Verif.Csrf.C35_order_matters"], "note": "Layer order CORS, CSRF, service; header names compared without regard to case. OPTIONS requests are answered by the CORS layer (stated behaviour of tower-http)."},
 {"property": "C36", "status": "partial", "theorems": ["Verif.Accept.C36_listed", "Verif.Accept.C36_highest", "Verif.Accept.C36_refused", "Verif.Accept.C36_default", "Verif.Accept.C36_partial", "Verif.Accept.C36_excluded_last", "Verif.Accept.C36_excluded_counterexample", "Verif.Accept.C36_wildcard_counterexample", "Verif.Accept.C36_nan_counterexample"], "note": "The chosen format is listed or matched by a wildcard and its entry has maximal quality, by the numeric value of what the client wrote. False in general: entries with q=0 are not treated as exclusions, and NaN qualities win (counterexamples); C36_partial covers headers without wildcards and zero qualities."},
 {"property": "C37", "status": "partial", "theorems": ["Verif.Partition.C37_partition", "Verif.Partition.C37_exact_partial", "Verif.Partition.C37_disjoint", "Verif.Partition.C37_false"], "note": "Proved for every output type, set of possible types, selection of fields and order after the unstable sorts: each type of the output gets exactly the fields whose type conditions it satisfies, and no type is in two shapes, as soon as one field applies to one type. False when fields exist but none applies: C37_false. Field keys, typename fields and the recursion into sub-selections are not in the model."},
 {"property": "C38", "status": "partial", "theorems": ["Verif.Collect.C38_document_order", "Verif.Collect.C38_positions", "Verif.Collect.C38_fields_merged", "Verif.Collect.C38_fuel", "Verif.Collect.C38_arrival_order", "Verif.Collect.C38_written", "Verif.Collect.C38_position_mask", "Verif.Collect.C38_none_last"], "note": "Positions follow document order through any merge and nesting (C38_document_order, C38_positions, C38_fields_merged, C38_fuel), object keys do not depend on arrival order (C38_arrival_order) and exactly the keys with a position are written, in order (C38_written, C38_position_mask, C38_none_last). Missing: the link between a shape and the keys of an update (the deserializer), and fields filled in by defaults (see C11)."},
 {"property": "C39", "status": "partial", "theorems": ["Verif.PackedIds.C39_pack_roundtrip", "Verif.PackedIds.C39_pack_injective", "Verif.PackedIds.C39_parent_objects_partial", "Verif.PackedIds.C39_unfiltered", "Verif.PackedIds.C39_no_spurious_panic", "Verif.PackedIds.C39_filtered_alias", "Verif.PackedIds.C39_parts_partial", "Verif.PackedIds.C39_parts_overflow_detected", "Verif.PackedIds.C39_parts", "Verif.PackedIds.C39_parts_alias", "Verif.PackedIds.C39_ids", "Verif.PackedIds.C39_ids_injective"], "note": "Packed parent-object indices round-trip, are injective and iteration returns exactly what was added, except that filtered sets of more than 2^24 references alias undetected (C39_filtered_alias). Part numbers: proved for all histories in which every part created is inserted; otherwise a 16-bit wrap can replace a part without objects (C39_parts_alias). Id newtypes round-trip or panic."},
 {"property": "C40", "status": "partial", "theorems": ["Verif.IdSets.C40_set_partial", "Verif.IdSets.C40_reads_partial"], "note": "Proved over every length and sequence of operations, with the bit by bit behaviour of the fixedbitset crate as a documented assumption: the crate itself (words and padding bits) is not in the repository."},
 {"property": "C41", "status": "proved", "theorems": ["Verif.OpText.C41_no_literals", "Verif.OpText.C41_text"], "note": "Sanitised text of any two documents that differ only in number, string and list literals (any depth of objects, directives, defaults) is identical; exact text for every document. Parsing is cynic_parser's."},
 {"property": "C42", "status": "partial", "theorems": ["Verif.OpText.C42_canonical_partial", "Verif.OpText.C42_idempotent_partial", "Verif.OpText.C42_fragments_partial", "Verif.OpText.C42_same_field_order", "Verif.OpText.C42_fragment_order", "Verif.OpText.C42_default_kept", "Verif.OpText.C42_not_idempotent"], "note": "On syntax trees (parsing and printing are graphql_parser's). False in general: same-name fields keep their order, fragments spread only in later fragments are not normalised, literals in defaults are kept, and normalising twice can drop a fragment in use; proved for documents without these."},
 {"property": "C43", "status": "partial", "theorems": ["Verif.Warming.C43_full_partial", "Verif.Warming.C43_off", "Verif.Warming.C43_never_warms", "Verif.Warming.C43_wrong_iff", "Verif.Warming.C43_counterexample", "Verif.Warming.C43_fixed"], "note": "False: the percentage is divided by 100 in integers before multiplying, so below 100 nothing is warmed; C43_wrong_iff says exactly when the number is right. The order is that of the cache iterator and not modelled further."},
 {"property": "C44", "status": "partial", "theorems": ["Verif.Pool.C44_exclusive", "Verif.Pool.C44_no_reuse_partial", "Verif.Pool.C44_no_reuse_asserted_partial", "Verif.Pool.C44_breaks", "Verif.Pool.C44_healthy_returns", "Verif.Pool.C44_reuse_counterexample", "Verif.Pool.C44_healthy_counterexample"], "note": "Exclusive use and return of healthy instances hold for all interleavings. No reuse of broken instances needs that no later call on one succeeds (or the debug assertion in wasmsafe!): the error path of subscriptions calls drop_subscription on a poisoned instance, which clears the flag on success (counterexample)."},
 {"property": "C45", "status": "proved", "theorems": ["Verif.Subscription.C45_in_order", "Verif.Subscription.C45_no_loss", "Verif.Subscription.C45_bounded", "Verif.Subscription.C45_own_execution", "Verif.Subscription.C45_extensions", "Verif.Subscription.C45_closed", "Verif.Subscription.C45_terminates", "Verif.Subscription.C45_progress"], "note": "Transition system of SubscriptionExecution::execute over the executions of C12: sent plus in-flight responses are the upstream events in order, at most three in flight, all sent at the end unless a send fails, each response is that of its own finished execution, extensions only on the first, bounded number of steps and progress."},
 {"property": "C46", "status": "partial", "theorems": ["Verif.ModifierGroups.C46_groups", "Verif.ModifierGroups.C46_delivered_partial", "Verif.ModifierGroups.C46_denied", "Verif.ModifierGroups.C46_panics_iff", "Verif.ModifierGroups.C46_false", "Verif.ModifierGroups.C46_accumulated", "Verif.ModifierGroups.C46_rules_partial"], "note": "False of the code: an operation with both a skip/include and an authorization directive panics (exact condition proved). Without skip/include the full claim is proved from the inserts to the calls and denials."},
 {"property": "C47", "status": "partial", "theorems": ["Verif.Dedup.C47_subscribe", "Verif.Dedup.C47_live", "Verif.Dedup.C47_live_partial", "Verif.Dedup.C47_stream", "Verif.Dedup.C47_no_lag", "Verif.Dedup.C47_all_items", "Verif.Dedup.C47_all_items_partial", "Verif.Dedup.C47_ended", "Verif.Dedup.C47_stopped", "Verif.Dedup.C47_ends", "Verif.Dedup.C47_shared", "Verif.Dedup.C47_failed_creation", "Verif.Dedup.C47_batch_lost", "Verif.Dedup.C47_not_shared", "Verif.Dedup.C47_lag", "Verif.Dedup.C47_kept"], "note": "Transition system of map, channels, tasks and receivers for both implementations. Newer one (resolver/subscription/dedup.rs): map entries are live, every item given after joining is sent, streams yield them in order and end only when the extension ends, one open upstream per key. Older one: false - a failed creation leaves a dead channel forever (for all continuations), items given together may be lost to a late subscriber, entry of a newer subscription is removed; what does hold is _partial. Both: a subscriber more than 1024 items behind loses items (reported as a lag error)."},
 {"property": "C48", "status": "proved", "theorems": ["Verif.Documents.C48_get_never_mutates", "Verif.Documents.C48_mcp"], "note": "For any history, cache content and document source; also for MCP without mutations."},
 {"property": "C49", "status": "partial", "theorems": ["Verif.ResponseKeys.C49_client_keys_kept", "Verif.ResponseKeys.C49_renames_fresh", "Verif.ResponseKeys.C49_renamed_iff", "Verif.ResponseKeys.C49_distinct_partial", "Verif.ResponseKeys.C49_total", "Verif.ResponseKeys.C49_reused_key_collides_same_field", "Verif.ResponseKeys.C49_reused_key_collides_other_field", "Verif.ResponseKeys.C49_merged_selection_sets_collide", "Verif.ResponseKeys.C49_rename_consistent"], "note": "Proved for every operation and sequence of selection sets: client keys and their texts never change, every field with a definition gets a key, exactly the fields named by the code's rule are renamed, renamed keys are fresh in the operation, no panic while the operation has at most 256 keys; within a selection set extra fields share keys with nobody unless the interface-reuse shortcut applies. Missing/false: the shortcut collides (two witnesses), and merged selection sets of parents with the same key are not compared (witness). The order of the traversal and the definition lookup are parameters."},
 {"property": "C50", "status": "partial", "theorems": ["Verif.RespAuth.C50_exact_partial", "Verif.RespAuth.C50_denied_absent_partial", "Verif.RespAuth.C50_granted_same_partial", "Verif.RespAuth.C50_no_panic_in_range", "Verif.RespAuth.C50_merged_leak", "Verif.RespAuth.C50_out_of_range_panic"], "note": "Authorization of the response by extensions: parent objects, decisions, removal of data and errors are modelled on the response of C10. For any response that is a tree, any references that lead to their objects and any decisions in range, errors are exactly one per denial at its path, and the response is what it was without the denied positions. False for merged objects (C50_merged_leak) and decisions out of range panic."},
 {"property": "C51", "status": "partial", "theorems": ["Verif.Collect.C51_arguments_partial", "Verif.Collect.C51_false_definitions", "Verif.Collect.C51_false_arguments"], "note": "False of the code: C51_false_definitions and C51_false_arguments. C51_arguments_partial: within one query field, selections of a response key that select the same schema field have equal arguments in an accepted operation."},
 {"property": "C52", "status": "partial", "theorems": ["Verif.IdSets.C52_iterates", "Verif.IdSets.C52_get_partial", "Verif.IdSets.C52_get_false", "Verif.IdSets.C52_from_slice", "Verif.IdSets.C52_constructors"], "note": "Proved for every range, interleaving, position and slice, except that get wraps around for positions near the end of usize (C52_get_false)."},
 {"property": "C53", "status": "proved", "theorems": ["Verif.IdSets.C53_relation", "Verif.IdSets.C53_sorted"], "note": "partition_point is the length of the longest prefix, as documented for sorted input."},
 {"property": "C54", "status": "partial", "theorems": ["Verif.SchemaDiff.C54_no_crash_partial", "Verif.SchemaDiff.C54_definitions_partial", "Verif.SchemaDiff.C54_members_partial", "Verif.SchemaDiff.C54_arguments_partial", "Verif.SchemaDiff.C54_interfaces_partial", "Verif.SchemaDiff.C54_schema_partial", "Verif.SchemaDiff.C54_extensions_partial", "Verif.SchemaDiff.C54_false_crash", "Verif.SchemaDiff.C54_false_interfaces"], "note": "Exact characterisation of every kind of reported change, and absence of panics, for all pairs of documents where a name has one kind (also counting directives) and members are unambiguous; interfaces need to be given in one place. False otherwise: C54_false_crash, C54_false_interfaces. Defaults of input fields, descriptions and directives are not compared by the code."},
 {"property": "C55", "status": "partial", "theorems": ["Verif.OpChecks.C55_used_input_types", "Verif.OpChecks.C55_remove_output_field", "Verif.OpChecks.C55_remove_input_field", "Verif.OpChecks.C55_add_field", "Verif.OpChecks.C55_change_output_field_partial", "Verif.OpChecks.C55_change_input_field_partial", "Verif.OpChecks.C55_remove_enum_value_partial", "Verif.OpChecks.C55_remove_member_partial", "Verif.OpChecks.C55_remove_object_type", "Verif.OpChecks.C55_assume_all_used", "Verif.OpChecks.C55_enum_in_list_missed", "Verif.OpChecks.C55_named_fragment_missed"], "note": "Exact behaviour of the field, enum, member and input object rules, and exactness and termination of the search for used input types; false for enum values in lists and named fragments (witnesses)."},
 {"property": "C56", "status": "partial", "theorems": ["Verif.Literals.C56_accepted_iff", "Verif.Literals.C56_bound", "Verif.Literals.C56_no_panic", "Verif.Literals.C56_arguments_bound", "Verif.Literals.C56_arguments_accepted_iff", "Verif.Literals.C56_values", "Verif.Literals.C56_conforms_rules", "Verif.Literals.C56_conforms_partial", "Verif.Literals.C56_float_of_small_integer", "Verif.Literals.C56_bare_variable", "Verif.Literals.C56_oneOf_null", "Verif.Literals.C56_int_clamped", "Verif.Literals.C56_list_default", "Verif.Literals.C56_variable_values"], "note": "Acceptance of literals and arguments characterised exactly (iff) against an inductive reading of the GraphQL rules; serialized arguments are proved to be the values written (C56_values) and values of their types (C56_conforms_partial), for every accepted operation and request. False in four ways, each with a witness: a variable over an item is accepted for a list at any depth and sent bare, null for a @oneOf field, whole floats for Int (clamped below -2^31), and list variables with a default get an extra list level. Injected arguments and selection-set views are not modelled."},
 {"property": "C57", "status": "partial", "theorems": ["Verif.PossibleTypes.C57_possible", "Verif.PossibleTypes.C57_includes_iff", "Verif.PossibleTypes.C57_interface_fully_iff", "Verif.PossibleTypes.C57_union_fully_iff", "Verif.PossibleTypes.C57_intersects_iff", "Verif.PossibleTypes.C57_subset_partial", "Verif.PossibleTypes.C57_subset_wrong", "Verif.PossibleTypes.C57_split_partial", "Verif.PossibleTypes.C57_split_never_ends"], "note": "Proved for all documents: possible types, membership and full implementation in subgraphs, intersection and disjointness. False as stated: planning through implementors loops forever at a common object that does not implement the interface in the subgraph (exact condition proved), is_subset_of accepts ids above all of the superset (exact condition proved)."},
 {"property": "C58", "status": "partial", "theorems": ["Verif.SubgraphVars.C58_variables", "Verif.SubgraphVars.C58_values_partial", "Verif.SubgraphVars.C58_injection_panics", "Verif.SubgraphVars.C58_no_panic_partial", "Verif.SubgraphVars.C58_entities_partial", "Verif.SubgraphVars.C58_entities_collide", "Verif.SubgraphVars.C58_values_wrong", "Verif.SubgraphVars.C58_panics"], "note": "Names distinct, types and names right, no unused variables: proved for all inputs. Values are right unless JSON objects of custom scalars repeat a key (C58_values_wrong); sending panics exactly for injected arguments (C58_injection_panics); comparison may panic for unbound enum defaults (C58_panics); the variable of entity representations collides exactly with a client variable of that name (C58_entities_partial, C58_entities_collide)."},
 {"property": "C59", "status": "partial", "theorems": ["Verif.SubgraphQuery.C59_requested_partial", "Verif.SubgraphQuery.C59_accepted_partial", "Verif.SubgraphQuery.C59_filled", "Verif.SubgraphQuery.C59_typename", "Verif.SubgraphQuery.C59_fragment_invalid", "Verif.SubgraphQuery.C59_field_undefined", "Verif.SubgraphQuery.C59_object_wrong", "Verif.SubgraphQuery.C59_any_dropped"], "note": "Requested paths are exactly the wanted ones for interface and union parents (any depth); false for objects (C59_object_wrong) and entities (C59_any_dropped) unless the plan fits. Validity proved for fully implemented interfaces, false otherwise (C59_fragment_invalid, C59_field_undefined). Braces never empty and __typename: proved for all inputs."},
 {"property": "C60", "status": "partial", "theorems": ["Verif.QueryMods.C60_shown", "Verif.QueryMods.C60_native_panics", "Verif.QueryMods.C60_denials", "Verif.QueryMods.C60_decisions_panic", "Verif.QueryMods.C60_requested", "Verif.QueryMods.C60_denied_requested", "Verif.QueryMods.C60_terminates_partial", "Verif.QueryMods.C60_cyclic_loops", "Verif.QueryMods.C60_exponential", "Verif.QueryMods.C60_denied_requirements", "Verif.QueryMods.C60_shape_errors", "Verif.QueryMods.C60_errors_hide", "Verif.QueryMods.C60_denied_hidden_partial", "Verif.QueryMods.C60_others_kept", "Verif.QueryMods.C60_group_shown", "Verif.QueryMods.C60_duplicate_shown"], "note": "Shown, denied and requested fields are characterised exactly for all plans and decisions; errors of shapes and objects exactly. False in general: a denied field merged behind another selection with the same key is shown, duplicate keys leak, the loop does not end for cyclic requirements and is exponential for nested ones."},
 {"property": "C61", "status": "partial", "theorems": ["Verif.Cycles.C61_independent_partial", "Verif.Cycles.C61_fields", "Verif.Cycles.C61_requirements", "Verif.Cycles.C61_needed", "Verif.Cycles.C61_nonempty", "Verif.Cycles.C61_ends", "Verif.Cycles.C61_split_cycle", "Verif.Cycles.C61_two_resolvers_cycle", "Verif.Cycles.C61_key_cycle", "Verif.Cycles.C61_parallel_edge", "Verif.Cycles.C61_never_started"], "note": "Within every selection set fields of one partition are independent, fields/requirements/mutation order preserved, new partitions only if needed, none empty, terminates. False: cycles through several partitions remain (witnesses C61_split_cycle, C61_two_resolvers_cycle, C61_key_cycle, C61_parallel_edge), such plans never start (C61_never_started)."},
 {"property": "C62", "status": "partial", "theorems": ["Verif.Flac.C62_tree", "Verif.Flac.C62_useful", "Verif.Flac.C62_weight", "Verif.Flac.C62_grows", "Verif.Flac.C62_all", "Verif.Flac.C62_left", "Verif.Flac.C62_progress", "Verif.Flac.C62_run_ends", "Verif.Flac.C62_ends", "Verif.Flac.C62_forever", "Verif.Flac.C62_unfed", "Verif.Flac.C62_reset_panics", "Verif.Flac.C62_no_underflow", "Verif.Flac.C62_one_way", "Verif.Flac.C62_max_weight", "Verif.Flac.C62_in_tree", "Verif.Flac.C62_weight_wraps", "Verif.Flac.C62_estimate_panics"], "note": "Tree, minimality, progress and termination are proved for every order in which edges saturate (the times are a parameter). Partial: weights are sums modulo 2^16 (C62_weight_wraps); an edge of weight u16::MAX is never taken (C62_max_weight); a terminal that cannot be reached or is in the tree before it is fed keeps the loop going forever (C62_forever, C62_in_tree); reset keeps the length of the set of fed terminals, so a later run with fewer terminals panics (C62_reset_panics)."},
 {"property": "C63", "status": "partial", "theorems": ["Verif.Updater.C63_tree", "Verif.Updater.C63_required", "Verif.Updater.C63_only", "Verif.Updater.C63_unreachable", "Verif.Updater.C63_edges", "Verif.Updater.C63_free", "Verif.Updater.C63_estimate", "Verif.Updater.C63_zero", "Verif.Updater.C63_estimate_panics", "Verif.Updater.C63_estimate_forever", "Verif.Updater.C63_weights", "Verif.Updater.C63_stable", "Verif.Updater.C63_progress", "Verif.Updater.C63_ends", "Verif.Updater.C63_edges_example", "Verif.Updater.C63_estimate_example", "Verif.Updater.C63_estimate_example_order", "Verif.Updater.C63_cycle_example"], "note": "Whenever the solver returns: tree, all requirements of what was chosen, nothing else, weights, fixed point, progress and termination. False of the code: it neither panics nor loops. The loop over the free requirements by edge removes from the list by node, so that a chosen edge with free requirements panics (C63_edges); an estimate for fewer nodes than an earlier one panics because the shared growth state keeps its length (C63_estimate_panics); an estimate for a node that is an unavoidable parent never ends (C63_estimate_forever). Only requirements by edge can thus not be in a solution (C63_required)."},
 {"property": "C64", "status": "partial", "theorems": ["Verif.SteinerInput.C64_planned", "Verif.SteinerInput.C64_steps", "Verif.SteinerInput.C64_once", "Verif.SteinerInput.C64_required_partial", "Verif.SteinerInput.C64_only", "Verif.SteinerInput.C64_ends", "Verif.SteinerInput.C64_included_ends", "Verif.SteinerInput.C64_weight_partial", "Verif.SteinerInput.C64_required_lost", "Verif.SteinerInput.C64_required_panics", "Verif.SteinerInput.C64_weight_differs"], "note": "Proved for all spaces, all saturation orders: leaves and terminals are reached, each edge is a step with both ends reached, one parent per node, added terminals are required by the plan, the input is built without panic or error and all loops end. Requirements of reached nodes are reached only if no requirement is free with some but not all parents (C64_required_partial); in general false: C64_required_lost, C64_required_panics. Weights: bounds, and exact for sources that were not merged (C64_weight_partial); that the difference counts resolvers is false (C64_weight_differs)."},
 {"property": "C65", "status": "partial", "theorems": ["Verif.DeepMerge.C65_joined", "Verif.DeepMerge.C65_object", "Verif.DeepMerge.C65_deterministic", "Verif.DeepMerge.C65_ends", "Verif.DeepMerge.C65_panics", "Verif.DeepMerge.C65_merged_partial", "Verif.DeepMerge.C65_items_dropped", "Verif.DeepMerge.C65_hidden_shown", "Verif.DeepMerge.C65_null_panics", "Verif.DeepMerge.C65_scalar_panics"], "note": "For every store and depth: the result is exactly both values joined, nothing else changes, and the merge returns iff two objects, lists or nulls meet everywhere (C65_ends, C65_panics). False as stated where lists differ in length (items are dropped silently), where a new value was replaced by null (it is shown), and it panics on a null meeting an object or two scalars; C65_merged_partial gives the intended merge where lists have the same length and nothing that meets is hidden."},
 {"property": "C66", "status": "partial", "theorems": ["Verif.QueryGraph.C66_tree", "Verif.QueryGraph.C66_nodes", "Verif.QueryGraph.C66_below", "Verif.QueryGraph.C66_required", "Verif.QueryGraph.C66_ends", "Verif.QueryGraph.C66_root", "Verif.QueryGraph.C66_planned", "Verif.QueryGraph.C66_needs_partial", "Verif.QueryGraph.C66_gateway_partial", "Verif.QueryGraph.C66_gateway_lost"], "note": "Proved for every solution space connected as the builder connects it (Typed) and every choice of edges without two to one node; plans of the solver model (C64) are such choices. Partial: a requirement of a subgraph has an edge only if requirements are uniform (C64), a requirement of the gateway for a composite field only if the required field is indispensable; C66_gateway_lost is a space and plan where it is not and the requirement is dropped. Derived fields and the deduplication map are left out."},
 {"property": "C67", "status": "partial", "theorems": ["Verif.SpaceBuilder.C67_no_panic", "Verif.SpaceBuilder.C67_kept", "Verif.SpaceBuilder.C67_offered", "Verif.SpaceBuilder.C67_complete", "Verif.SpaceBuilder.C67_once", "Verif.SpaceBuilder.C67_requirements", "Verif.SpaceBuilder.C67_provided", "Verif.SpaceBuilder.C67_pruned", "Verif.SpaceBuilder.C67_planned", "Verif.SpaceBuilder.C67_gateway_lost", "Verif.SpaceBuilder.C67_diverges"], "note": "Proved for every schema given as functions and every tree of operation fields, up to the first handle_unplannable_field: no panic, all and only the ways to get a field, all requirements present and linked, resolvers once, providable flags, pruning, and the link to the solver (C64) and the query graph (C66). Partial: building need not end (C67_diverges: a key with a nested field that the same key resolves), and a field the gateway requires is not indispensable if a resolver required it first, so that the plan may leave it out (C67_gateway_lost, from the operation to the query graph). Alternatives for unplannable fields, type conditions and directives are left out."},
 {"property": "C68", "status": "partial", "theorems": ["Verif.Entities.C68_requests", "Verif.Entities.C68_answers_partial", "Verif.Entities.C68_positions_partial", "Verif.Entities.C68_errors_partial", "Verif.Entities.C68_stored", "Verif.Entities.C68_cached", "Verif.Entities.C68_all_cached", "Verif.Entities.C68_failed", "Verif.Entities.C68_unanswered_false", "Verif.Entities.C68_errors_lost_false", "Verif.Entities.C68_data_lost_false"], "note": "Proved for all inputs: the representations sent; that an object only gets the entity at the position of its representation or the one in the cache for it (any answer); that every object gets an answer if what is in the cache can be read; the exact part, errors and status for good answers; what is put in the cache; what a failed request does. False: an unreadable entry in the cache and an unreadable answer leave objects without any update, without default and without error; with a cache, errors of the subgraph are lost after _entities: null; data is nulled if errors are malformed. Reading of one object is that of C10."},
 {"property": "C69", "status": "partial", "theorems": ["Verif.FieldOwners.C69_fields", "Verif.FieldOwners.C69_owners_exact", "Verif.FieldOwners.C69_owners_partial", "Verif.FieldOwners.C69_resolved_partial", "Verif.FieldOwners.C69_types", "Verif.FieldOwners.C69_single_partial", "Verif.FieldOwners.C69_arguments", "Verif.FieldOwners.C69_enum_names_partial", "Verif.FieldOwners.C69_enum_names_false", "Verif.FieldOwners.C69_unresolved_false", "Verif.FieldOwners.C69_cycle_false", "Verif.FieldOwners.C69_label_false", "Verif.FieldOwners.C69_single_false", "Verif.FieldOwners.C69_shareable_false", "Verif.FieldOwners.C69_witness", "Verif.FieldOwners.C69_accepted"], "note": "Owners are characterised exactly (C69_owners_exact). The claim holds when some definition is not overridden and no name in @override is an enum value of a subgraph overridden in part (C69_owners_partial). At least one owner only without override cycles and all-external fields; one owner only if overrides name subgraphs that resolve the field; enum values are distinct for accepted ASCII names. The negations are proved on witnesses. Missing: batched @require fields, the text of @requires/@provides."},
 {"property": "C70", "status": "partial", "theorems": ["Verif.Hidden.C70_exact", "Verif.Hidden.C70_kept", "Verif.Hidden.C70_only", "Verif.Hidden.C70_hidden_partial", "Verif.Hidden.C70_fields", "Verif.Hidden.C70_required", "Verif.Hidden.C70_internal", "Verif.Hidden.C70_nonempty", "Verif.Hidden.C70_values_partial", "Verif.Hidden.C70_enum_false", "Verif.Hidden.C70_input_false", "Verif.Hidden.C70_again_false", "Verif.Hidden.C70_again_partial", "Verif.Hidden.C70_flags", "Verif.Hidden.C70_witness"], "note": "Least set exactly (C70_hidden_partial) unless an enum or input object is left empty: those are hidden after arguments were looked at, so arguments of that type and fields requiring them stay shown (C70_enum_false, C70_input_false) and doing it again hides more (C70_again_false). C70_exact gives what is hidden in all cases."},
 {"property": "C71", "status": "partial", "theorems": ["Verif.Contracts.C71_answers", "Verif.Contracts.C71_own", "Verif.Contracts.C71_values", "Verif.Contracts.C71_strongest", "Verif.Contracts.C71_exact", "Verif.Contracts.C71_override", "Verif.Contracts.C71_narrows", "Verif.Contracts.C71_neutral", "Verif.Contracts.C71_fields", "Verif.Contracts.C71_introspection", "Verif.Contracts.C71_parent_partial", "Verif.Contracts.C71_tie_false", "Verif.Contracts.C71_order_partial", "Verif.Contracts.C71_order_false", "Verif.Contracts.C71_unreachable", "Verif.Contracts.C71_unreachable_false", "Verif.Contracts.C71_root_false", "Verif.Contracts.C71_root_contract", "Verif.Contracts.C71_endpoint_never", "Verif.Contracts.C71_endpoint_false", "Verif.Contracts.C71_witness", "Verif.Contracts.C71_witness_introspection"], "note": "Exact characterisation of the schema of a contract (values, reachability, introspection, hidden dependents). False as stated: the order of equally strong answers matters (order_false), a tie shows a field in a hidden type (tie_false), types only reachable by a field hidden later stay (unreachable_false), an empty mutation type stays in the schema without contract (root_false), endpoint updates never have an effect (endpoint_never, endpoint_false)."},
 {"property": "C72", "status": "partial", "theorems": ["Verif.Views.C72_union", "Verif.Views.C72_required", "Verif.Views.C72_representation", "Verif.Views.C72_reads", "Verif.Views.C72_field_set_partial", "Verif.Views.C72_restrict", "Verif.Views.C72_plan_partial", "Verif.Views.C72_injection_partial", "Verif.Views.C72_keys", "Verif.Views.C72_built", "Verif.Views.C72_built_strict_partial", "Verif.Views.C72_shared_root_false", "Verif.Views.C72_foreign_false", "Verif.Views.C72_arguments_false", "Verif.Views.C72_uncovered", "Verif.Views.C72_alias_false"], "note": "C72_required and C72_representation are exact (which fields are written, under which names and in which order, and when there is an error) and C72_reads is non-interference: objects that agree on the required fields are shown alike by every view. C72_field_set_partial needs each field to occur at most once below each field, which C72_built_strict_partial gives for solutions where no two dependencies side by side are for the same schema field; without it the engine panics (C72_shared_root_false). C72_plan_partial needs the required fields to agree on the operation field that provides each (C72_alias_false otherwise). C72_injection_partial: covered requirements; C72_uncovered shows what happens otherwise. C72_built: all dependencies, once, placed as in the solution; that the depth given suffices is not proved (err means it did not)."},
 {"property": "C73", "status": "partial", "theorems": ["Verif.Injection.C73_given", "Verif.Injection.C73_exact_partial", "Verif.Injection.C73_oneof_partial", "Verif.Injection.C73_nullable_false", "Verif.Injection.C73_list_path_false", "Verif.Injection.C73_object_for_list_false", "Verif.Injection.C73_object_of_list_false", "Verif.Injection.C73_oneof_false", "Verif.Injection.C73_batch_default_false", "Verif.Injection.C73_condition_false", "Verif.Injection.C73_alternatives_panic"], "note": "False as stated: the builder accepts paths through nullable values for required targets, paths and objects through lists for targets that are no lists, objects for lists, @oneOf objects without an entry or with null, type conditions that leave required fields out, and serialises a default once per entity in a batch; alternatives that are lists panic. Each is a _false witness. C73_exact_partial and C73_oneof_partial prove the claim for selections without those (CleanIs), through the binder, the creation of requirements and injections (C72) and the serialisation; C73_given says exactly which arguments are given. Parsing of the selection map and the matching with a key are not modelled."},
 {"property": "C74", "status": "partial", "theorems": ["Verif.AutoDetect.C74_old", "Verif.AutoDetect.C74_range_partial", "Verif.AutoDetect.C74_key_partial", "Verif.AutoDetect.C74_arguments_partial", "Verif.AutoDetect.C74_once_partial", "Verif.AutoDetect.Demo.C74_reset_false", "Verif.AutoDetect.Demo.C74_oneof_ambiguous", "Verif.AutoDetect.Demo.C74_twice_false", "Verif.AutoDetect.Demo.C74_both_false", "Verif.AutoDetect.Demo.C74_null_false", "Verif.AutoDetect.Demo.C74_many_false", "Verif.AutoDetect.Demo.C74_hidden_false", "Verif.AutoDetect.Demo.C74_wide_panic"], "note": "Full for: existing injections stay. For any schema whose @oneOf fields have no defaults, the injections read exactly the leaf paths of the key. The arguments are of their types for any key and any typed response, if no input field is of a @oneOf type, no input field is hidden from the subgraph, there are at most 64 arguments, and an argument of a @oneOf type comes with a key of a single field that is not null. The range is one of the vector if such an argument comes with a key of one field. That no field is given twice and that names decide is proved for keys and arguments without objects outside of batches. The remaining cases are false of the code, each with a witness: truncated candidates, @oneOf types filled twice or with null, a 65th argument, hidden input fields, and one field for two arguments of a batch."},
 {"property": "C75", "status": "partial", "theorems": ["Verif.Bind.C75_bound_partial", "Verif.Bind.C75_tidy_partial", "Verif.Bind.C75_accepted_partial", "Verif.Bind.C75_accepted_plain_partial", "Verif.Bind.C75_limits_partial", "Verif.Bind.C75_within_limits", "Verif.Bind.Demo.C75_typename_false", "Verif.Bind.Demo.C75_directives_false", "Verif.Bind.Demo.C75_unused_fragment_false", "Verif.Bind.Demo.C75_introspection_false", "Verif.Bind.Demo.C75_hidden_variable_false", "Verif.Bind.Demo.C75_lists_panic", "Verif.Bind.Demo.C75_many_panic"], "note": "Soundness and completeness of binding against a relational reading of the validation rules, with C56 for values. Partial: arguments and selections of __typename and the rules on directives are not checked by the code, valid operations of more than 65535 selections and variables of more than ten lists panic, introspection below the root passes when disabled; that the variables a valid document uses are marked is stated for the tree the code finds."},
 {"property": "C76", "status": "partial", "theorems": ["Verif.WsServer.C76_protocol", "Verif.WsServer.C76_operations", "Verif.WsServer.C76_messages", "Verif.WsServer.C76_nothing_lost", "Verif.WsServer.C76_settles", "Verif.WsServer.C76_ids", "Verif.WsServer.C76_duplicate_partial", "Verif.WsServer.C76_own_messages_partial", "Verif.WsServer.C76_bounds", "Verif.WsServer.C76_refused", "Verif.WsServer.C76_closes", "Verif.WsServer.Demo.C76_reuse_false", "Verif.WsServer.Demo.C76_ping_false", "Verif.WsServer.Demo.C76_error_false", "Verif.WsServer.Demo.C76_stale_false", "Verif.WsServer.Demo.C76_invalid_false"], "note": "Proved for all runs: protocol order, operations executed, messages of an operation, no loss while writing succeeds, settling, ids, stops, close codes, bounds. False of the code (witnesses in Demo): an id whose operation has ended cannot be used again (C76_reuse_false); error followed by complete (C76_error_false); messages of a completed operation read for the next one with its id (C76_stale_false); ping answered with ping before the acknowledgement (C76_ping_false); invalid messages are ignored or end the connection without a close (C76_invalid_false)."},
 {"property": "C77", "status": "partial", "theorems": ["Verif.SchemaRules.C77_accepted_partial", "Verif.SchemaRules.C77_panic_partial", "Verif.SchemaRules.C77_sound_partial", "Verif.SchemaRules.C77_cycle", "Verif.SchemaRules.Demo.C77_panic_false", "Verif.SchemaRules.Demo.C77_accepts_false", "Verif.SchemaRules.Demo.C77_rejects_false"], "note": "Exact characterisation of what is accepted (C77_accepted_partial) and of the panic (C77_panic_partial); the full claim is false: the validator panics on extensions of an enum that repeat a value, accepts documents that break rules and rejects valid ones (Demo). C77_sound_partial draws rules of the specification from acceptance. Default values, descriptions and the values of directive arguments are not checked by the crate and not modelled."},
 {"property": "C78", "status": "partial", "theorems": ["Verif.SdlText.C78_string_partial", "Verif.SdlText.C78_value_partial", "Verif.SdlText.C78_value_reads", "Verif.SdlText.C78_directive_partial", "Verif.SdlText.C78_field_set", "Verif.SdlText.C78_quoted_description_partial", "Verif.SdlText.C78_description_partial", "Verif.SdlText.C78_tool_description_partial", "Verif.SdlText.Demo.C78_string_false", "Verif.SdlText.Demo.C78_injection_false", "Verif.SdlText.Demo.C78_unreadable_false", "Verif.SdlText.Demo.C78_float_false", "Verif.SdlText.Demo.C78_indentation_false", "Verif.SdlText.Demo.C78_tool_false", "Verif.SdlText.Demo.C78_tool_escape_false", "Verif.SdlText.Demo.C78_tool_quotes_false"], "note": "Exact for strings, values and directives of both writers (read as themselves exactly when control characters have codes below ten or an escape of their own, and floats have a fraction; everything else is still read as one value). Field sets hold in full. A description of the federated graph is one string with the same paragraphs, provided it holds no three quotes and no carriage return; those of the tools provided they are one line without backslash. The full claim is false (Demo)."},
 {"property": "C79", "status": "partial", "theorems": ["Verif.Leaves.C79_shown_partial", "Verif.Leaves.C79_fails", "Verif.Leaves.C79_quiet", "Verif.Leaves.C79_custom", "Verif.Leaves.Demo.C79_saturates_false", "Verif.Leaves.Demo.C79_largest_false", "Verif.Leaves.Demo.C79_hard_false"], "note": "What is shown and the errors are those of value completion for every type and every JSON value, except for whole numbers of type Int not written as integers that are below 32 bits or their largest, and unless the deserialisation failed, which is when a non-empty list or object stands in place of an item of [Int!] or [Float!] (exact). Objects around the field are C10."},
 {"property": "C80", "status": "partial", "theorems": ["Verif.LinkNames.C80_plain_partial", "Verif.LinkNames.C80_prefixed", "Verif.LinkNames.C80_stray_partial", "Verif.LinkNames.C80_total", "Verif.LinkNames.C80_known", "Verif.LinkNames.C80_foreign", "Verif.LinkNames.C80_others", "Verif.LinkNames.C80_extensions", "Verif.LinkNames.C80_namespace", "Verif.LinkNames.C80_reports", "Verif.LinkNames.Demo.C80_stray_false", "Verif.LinkNames.Demo.C80_alias_false", "Verif.LinkNames.Demo.C80_still_prefixed", "Verif.LinkNames.Demo.C80_both_false", "Verif.LinkNames.Demo.C80_types_false", "Verif.LinkNames.Demo.C80_impostor_false", "Verif.LinkNames.Demo.C80_composed_local_false", "Verif.LinkNames.Demo.C80_composed_prefix_false", "Verif.LinkNames.Demo.C80_extension_name_false"], "note": "Exact answers for names without prefix, with the prefix of a link and with a stray prefix, exact fate of every directive, exact extensions and reports, for all lists of subgraphs. Missing from the plain and stray theorems: subgraphs linking both specifications, URLs which only contain that of the federation, imports in error, and names under which a type is imported. Witnesses for: a stray prefix is dropped (@acme__key is @key); an alias with two underscores is never found; both specifications linked bring the federation directives without import; type imports hide directives; an impostor URL is the federation; a directive defined by the subgraph and asked for is lost; asking for @a__foo also composes @b__foo; the extension name differs from the prefix."},
 {"property": "C81", "status": "partial", "theorems": ["Verif.DirectiveDefs.C81_once", "Verif.DirectiveDefs.C81_defined", "Verif.DirectiveDefs.C81_made_of", "Verif.DirectiveDefs.C81_arguments_once_partial", "Verif.DirectiveDefs.C81_twice", "Verif.DirectiveDefs.C81_fails", "Verif.DirectiveDefs.C81_locations", "Verif.DirectiveDefs.C81_arguments_reported", "Verif.DirectiveDefs.Demo.sorts", "Verif.DirectiveDefs.Demo.C81_arguments_once_false", "Verif.DirectiveDefs.Demo.C81_order_false"], "note": "For every order of sorting: at most one definition for a name, exactly when one is (the definitions agree and the first one has all required arguments), what it is made of, exactly when the composition fails, and which differences are reported. False of the code: an argument which two definitions have is in the composed definition twice (C81_twice for all inputs), and whether a required argument is an error depends on which definition comes first (C81_order_false). The partial theorem covers one definition alone."},
 {"property": "C82", "status": "partial", "theorems": ["Verif.FieldSets.C82_reported", "Verif.FieldSets.C82_panics", "Verif.FieldSets.C82_arguments", "Verif.FieldSets.C82_valid_partial", "Verif.FieldSets.C82_accepted_fields", "Verif.FieldSets.C82_provides", "Verif.FieldSets.C82_field", "Verif.FieldSets.C82_keys", "Verif.FieldSets.Demo.C82_scalars", "Verif.FieldSets.Demo.C82_total_false", "Verif.FieldSets.Demo.C82_object_leaf_false", "Verif.FieldSets.Demo.C82_fragment_false", "Verif.FieldSets.Demo.C82_nested_list_false", "Verif.FieldSets.Demo.C82_required_field_false", "Verif.FieldSets.Demo.C82_argument_twice_false", "Verif.FieldSets.Demo.C82_coercion_false"], "note": "Exactly what is reported and exactly when the check panics, for all schemas and selections; nothing is reported for valid selections with literals of their own types; what holds of accepted fields. False in general: the check panics for a selection within a field of a built-in scalar (id { x }); it accepts objects without a selection, fragments on unrelated types, lists within lists, input objects without required fields and arguments given twice; it refuses null, Int for Float, and all literals for ID and custom scalars. Witnesses in Props."},
 {"property": "C83", "status": "partial", "theorems": ["Verif.TypeChoice.C83_read_partial", "Verif.TypeChoice.C83_first", "Verif.TypeChoice.C83_order_partial", "Verif.TypeChoice.C83_nested_false", "Verif.TypeChoice.C83_borrowed_false", "Verif.TypeChoice.C83_number_false", "Verif.TypeChoice.C83_impossible_false"], "note": "Reading is exactly what the (unique) independent specification asks for: for all shapes when objects tell their type first and unescaped (C83_first), and for all positions of __typename when no concrete shape inside has to look for its type (C83_read_partial, C83_order_partial). Missing and false: shapes for an interface or union without fragments (type detection) in entries before an outer __typename, in escaped texts, or in values in memory end the reading with a failure."},
 {"property": "C84", "status": "partial", "theorems": ["Verif.Derived.C84_object", "Verif.Derived.C84_objects_partial", "Verif.Derived.C84_scalars_partial", "Verif.Derived.C84_ingest", "Verif.Derived.C84_missing", "Verif.Derived.C84_numbers_false", "Verif.Derived.C84_denied_false", "Verif.Derived.C84_missing_list_false", "Verif.Derived.C84_list_null_false", "Verif.Derived.C84_twice_false", "Verif.Derived.C84_unnoticed_false", "Verif.Derived.C84_missing_told", "Verif.Derived.C84_errors", "Verif.Derived.C84_derived", "Verif.Derived.C84_list_absent"], "note": "What is made of an object (C84_object, with all errors and nulls), of a list of objects (C84_objects_partial, items being null, unexpected or objects) and of a list of keys (C84_scalars_partial, without errors of the query for the key) is exact for all states; the field is put in the parent (C84_ingest) and missing fields are null (C84_missing). Missing and false: lists of Int! or Float! and hidden lists panic, a missing required list is null without an error, nulls of items are put into the source list, errors of derived fields are told twice and let missing fields go unnoticed."},
 {"property": "C85", "status": "partial", "theorems": ["Verif.Signing.C85_key", "Verif.Signing.C85_panic", "Verif.Signing.C85_source", "Verif.Signing.C85_built", "Verif.Signing.C85_signed_partial", "Verif.Signing.C85_include_false", "Verif.Signing.C85_exclude_false", "Verif.Signing.C85_trailer_false", "Verif.Signing.C85_stream_false", "Verif.Signing.C85_lengths_false", "Verif.Signing.C85_repeated_false", "Verif.Signing.C85_expiry_false", "Verif.Signing.C85_each_false"], "note": "Keys, settings and signatures are characterised exactly for requests over HTTP. Missing: the list of headers to include has no effect, names to exclude must be in lower case, requests of subscriptions are not signed, and some keys panic."},
 {"property": "C86", "status": "partial", "theorems": ["Verif.StoreUrls.C86_inside_partial", "Verif.StoreUrls.C86_read_partial", "Verif.StoreUrls.C86_distinct_partial", "Verif.StoreUrls.C86_graph_partial", "Verif.StoreUrls.C86_branch_read", "Verif.StoreUrls.C86_graph_distinct_partial", "Verif.StoreUrls.C86_outside_false", "Verif.StoreUrls.C86_client_false", "Verif.StoreUrls.C86_same_false", "Verif.StoreUrls.C86_branch_false", "Verif.StoreUrls.C86_inside_case", "Verif.StoreUrls.C86_inside_met", "Verif.StoreUrls.C86_graph_case"], "note": "False as stated: the names of clients and documents are put in the path as they are, so dot segments, separators, percent signs and newlines in them lead to the documents of other clients and branches (C86_outside_false, C86_client_false, C86_same_false), and a branch named .. has no place (C86_branch_false). Proved for names which are segments, without percent signs where distinctness is concerned: the exact path, that the storage reads the names given, and that other names are at other places; for graphs, with names of branches of any other bytes."},
 {"property": "C87", "status": "partial", "theorems": ["Verif.Cors.C87_start", "Verif.Cors.C87_read", "Verif.Cors.C87_called", "Verif.Cors.C87_exposed", "Verif.Cors.C87_sent_partial", "Verif.Cors.C87_preflight_rest", "Verif.Cors.C87_setting", "Verif.Cors.C87_start_false", "Verif.Cors.C87_ipv6_false", "Verif.Cors.C87_ipv6_met", "Verif.Cors.C87_authorization_false", "Verif.Cors.C87_start_case", "Verif.Cors.C87_sent_case"], "note": "False as stated: an origin with an address of IPv6 is taken as a pattern and is not allowed (C87_ipv6_false), browsers do not send authorization where all headers are allowed, also without settings (C87_authorization_false), and the gateway panics with names of headers which are no tokens and with credentials beside what is allowed to all (C87_start_false; C87_start says exactly when). Else proved: who may read responses, what is sent, what is exposed, by the checks of the Fetch Standard. The matcher of patterns is a parameter, and services which set such headers themselves are left out."},
 {"property": "C88", "status": "partial", "theorems": ["Verif.Templates.C88_json", "Verif.Templates.C88_url", "Verif.Templates.C88_field", "Verif.Templates.C88_pieces", "Verif.Templates.C88_url_chars", "Verif.Templates.C88_elements", "Verif.Templates.C88_section_none", "Verif.Templates.C88_json_case", "Verif.Templates.C88_url_case", "Verif.Templates.C88_section_case", "Verif.Templates.C88_met", "Verif.Templates.C88_dots_false", "Verif.Templates.C88_absent_false", "Verif.Templates.C88_unescaped_case"], "note": "JSON templates: every escaped value reads back (by an independent reader) as itself; URL templates: only unreserved characters and percent escapes, read back as the string or JSON of the value; the whole output is texts of the template and such encodings; paths of names, lists in sections. False: '.' and '..' are not encoded and change the path; an absent argument leaves a JSON template which is not JSON. Templates as parsed; inverse sections and partials left out; numbers by their texts."},
 {"property": "C89", "status": "partial", "theorems": ["Verif.HttpStatus.C89_status_partial", "Verif.HttpStatus.C89_graphql_json", "Verif.HttpStatus.C89_json", "Verif.HttpStatus.C89_refused", "Verif.HttpStatus.C89_stream", "Verif.HttpStatus.C89_batch", "Verif.HttpStatus.C89_headers", "Verif.HttpStatus.C89_errors", "Verif.HttpStatus.C89_errors_partial", "Verif.HttpStatus.C89_errors_false", "Verif.HttpStatus.C89_status_false", "Verif.HttpStatus.C89_code", "Verif.HttpStatus.C89_stream_status", "Verif.HttpStatus.C89_request_error", "Verif.HttpStatus.C89_telemetry", "Verif.HttpStatus.C89_telemetry_all", "Verif.HttpStatus.C89_status_case", "Verif.HttpStatus.C89_batch_case", "Verif.HttpStatus.C89_errors_case", "Verif.HttpStatus.C89_headers_false", "Verif.HttpStatus.C89_written", "Verif.HttpStatus.C89_written_query", "Verif.HttpStatus.C89_count"], "note": "Statuses against the GraphQL-over-HTTP specification for all responses and formats, batches and streams; the errors written of any sequence of parts, exactly; telemetry counts. Partial: with 65536 errors of one code in a part (or of a request) counts wrap to zero: the errors of an executed response are not written at all, and a request error becomes a 500; headers of refused requests are lost in streams and batches. Statuses of refused requests are given by hooks and extensions. Failures of serialization are left out."},
 {"property": "C90", "status": "partial", "theorems": ["Verif.Reload.C90_initial", "Verif.Reload.C90_initial_none", "Verif.Reload.C90_sound", "Verif.Reload.C90_latest_partial", "Verif.Reload.C90_latest_false", "Verif.Reload.C90_no_retry", "Verif.Reload.C90_bridge_partial", "Verif.Reload.C90_bridge_false", "Verif.Reload.C90_gateway", "Verif.Reload.C90_gateway_config", "Verif.Reload.C90_file_partial", "Verif.Reload.C90_file_sound", "Verif.Reload.C90_file_start_false", "Verif.Reload.C90_file_read_false", "Verif.Reload.C90_file_stamp_false", "Verif.Reload.C90_limits", "Verif.Reload.C90_limits_partial", "Verif.Reload.C90_limits_false", "Verif.Reload.C90_limits_cold", "Verif.Reload.C90_file_quiet"], "note": "C90_sound, C90_initial and C90_limits are unconditional. Partial: C90_latest_partial needs that no reload is aborted in its last poll (C90_latest_false), C90_bridge_partial needs a change taken before (C90_bridge_false: the first change is lost), C90_file_partial needs distinct fingerprints, no failure of the file system and no write between first reading and first fingerprint (three _false theorems), C90_limits_partial needs that no second engine is built (C90_limits_false). Build, parsing and file system are parameters."},
 {"property": "C91", "status": "partial", "theorems": ["Verif.ConfigLoad.C91_expand", "Verif.ConfigLoad.C91_expand_error", "Verif.ConfigLoad.C91_expand_plain", "Verif.ConfigLoad.C91_paths", "Verif.ConfigLoad.C91_absolute", "Verif.ConfigLoad.C91_panic", "Verif.ConfigLoad.C91_no_panic", "Verif.ConfigLoad.C91_default", "Verif.ConfigLoad.C91_given", "Verif.ConfigLoad.C91_reload_partial", "Verif.ConfigLoad.C91_reload_false", "Verif.ConfigLoad.C91_panic_false", "Verif.ConfigLoad.C91_file_false", "Verif.ConfigLoad.C91_read", "Verif.ConfigLoad.C91_read_error"], "note": "Expansion and paths are exact and unconditional (C91_expand, C91_expand_error, C91_paths, C91_absolute, C91_panic). Partial: a hot reload gives the same configuration only without placeholders and relative paths (C91_reload_partial, C91_reload_false); no panic needs an absolute current directory (C91_no_panic, C91_panic_false). Reading, parsing and deserialisation are parameters."},
 {"property": "C92", "status": "partial", "theorems": ["Verif.Extensions.C92_directory", "Verif.Extensions.C92_no_directory", "Verif.Extensions.C92_order", "Verif.Extensions.C92_load", "Verif.Extensions.C92_catalog", "Verif.Extensions.C92_catalog_complete", "Verif.Extensions.C92_names", "Verif.Extensions.C92_version_partial", "Verif.Extensions.C92_version_false", "Verif.Extensions.C92_find", "Verif.Extensions.C92_find_named", "Verif.Extensions.C92_url", "Verif.Extensions.C92_resolve", "Verif.Extensions.C92_schema", "Verif.Extensions.C92_consistent_partial", "Verif.Extensions.C92_consistent_false", "Verif.Extensions.C92_id", "Verif.Extensions.C92_id_partial", "Verif.Extensions.C92_id_false"], "note": "Proved: the directory taken, loading, the catalog, lookups by URL, name and version, and which schemas are accepted. False in general and proved under conditions: the version of an extension meets the requirement of the configuration (it is not compared), the engine and the composition read the same name from a URL, and the text of an identifier is read as that identifier (not for versions before a release)."},
 {"property": "C93", "status": "partial", "theorems": ["Verif.StreamJoin.C93_order", "Verif.StreamJoin.C93_all", "Verif.StreamJoin.C93_ends", "Verif.StreamJoin.C93_end_partial", "Verif.StreamJoin.C93_subscription_partial", "Verif.StreamJoin.C93_end_false", "Verif.StreamJoin.C93_complete", "Verif.StreamJoin.C93_subscription", "Verif.StreamJoin.C93_extensions", "Verif.StreamJoin.C93_events"], "note": "Proved: order, completeness and termination for all interleavings, the extensions of the first response, the events. False in general and proved under a condition: the future has ended when the stream ends; not when the sender is dropped before, as with work in the background of a subscription which takes longer than its stream."},
 {"property": "C94", "status": "partial", "theorems": ["Verif.Batches.C94_batch", "Verif.Batches.C94_answers", "Verif.Batches.C94_batch_only", "Verif.Batches.C94_refused", "Verif.Batches.C94_one_by_one", "Verif.Batches.C94_timeout", "Verif.Batches.C94_timeout_false", "Verif.Batches.C94_single", "Verif.Batches.C94_reports_partial", "Verif.Batches.C94_reports_false", "Verif.Batches.C94_rules", "Verif.Batches.C94_access", "Verif.Batches.C94_access_partial", "Verif.Batches.C94_access_false", "Verif.Batches.C94_told", "Verif.Batches.C94_arrival", "Verif.Batches.C94_executed", "Verif.Batches.C94_limited", "Verif.Batches.C94_limit_false", "Verif.Batches.C94_time_partial", "Verif.Batches.C94_time_false", "Verif.Batches.C94_case", "Verif.Batches.C94_single_timeout", "Verif.Batches.C94_stream"], "note": "Proved for all worlds: batches are answered in order and as their requests on their own, refused ones change nothing, exactly who is told what, exact refusals on arrival, exact state left by a timeout. False and proved with witnesses: a batch counts once for the rate limit (C94_limit_false) and is not reported (C94_reports_false), the time allowed applies twice (C94_time_false; C94_time_partial: at most twice), a batch which took too long was executed in part (C94_timeout_false; C94_timeout is exact), only the first of repeated headers is looked at and deny rules deny nothing beside others (C94_access_false; C94_access is exact)."},
 {"property": "C95", "status": "partial", "theorems": ["Verif.Lint.C95_reported", "Verif.Lint.C95_times", "Verif.Lint.C95_times_false", "Verif.Lint.C95_fix_partial", "Verif.Lint.C95_fix_false", "Verif.Lint.C95_all_false", "Verif.Lint.C95_case"], "note": "What is reported is characterised exactly and how often for the names of types. False: each once (extensions repeat), fixes accepted (for heck, whose algorithm is modelled for ASCII from its documentation as its source is not in the sandbox), and all names and uses of @deprecated looked at."},
 {"property": "C96", "status": "partial", "theorems": ["Verif.SubDedup.C96_received", "Verif.SubDedup.C96_all", "Verif.SubDedup.C96_sent", "Verif.SubDedup.C96_ended", "Verif.SubDedup.C96_ends", "Verif.SubDedup.C96_registered", "Verif.SubDedup.C96_join", "Verif.SubDedup.C96_drops", "Verif.SubDedup.C96_gone_partial", "Verif.SubDedup.C96_gone_false", "Verif.SubDedup.C96_single_false", "Verif.SubDedup.C96_error_false", "Verif.SubDedup.C96_extension_false", "Verif.SubDedup.C96_extension_partial", "Verif.SubDedup.C96_case"], "note": "For all interleavings: what clients get, when their streams end, which tasks are in the map, and one drop for each task. False: dropped when all clients have gone (it waits for two more items), one subscription for a key, errors told to all, and items only of the extension which was asked."},
 {"property": "C97", "status": "partial", "theorems": ["Verif.ExtCache.C97_value", "Verif.ExtCache.C97_look", "Verif.ExtCache.C97_first", "Verif.ExtCache.C97_send", "Verif.ExtCache.C97_waits", "Verif.ExtCache.C97_notify", "Verif.ExtCache.C97_put", "Verif.ExtCache.C97_expire", "Verif.ExtCache.C97_cleanup", "Verif.ExtCache.C97_lost_false", "Verif.ExtCache.C97_wait_false", "Verif.ExtCache.C97_made_false", "Verif.ExtCache.C97_case", "Verif.ExtCache.C97_callers", "Verif.ExtCache.C97_keys"], "note": "For all interleavings: what a look gives, that values were set for the key, who waits and that all in the list get the value set, when a wait ends and which list is removed. False: nobody is told to make a value which is there, and a caller waits for five seconds."},
 {"property": "C98", "status": "partial", "theorems": ["Verif.FileLog.C98_order", "Verif.FileLog.C98_complete", "Verif.FileLog.C98_send", "Verif.FileLog.C98_writes", "Verif.FileLog.C98_shutdown_partial", "Verif.FileLog.C98_shutdown_case", "Verif.FileLog.C98_returns", "Verif.FileLog.C98_early", "Verif.FileLog.C98_early_false", "Verif.FileLog.C98_shared", "Verif.FileLog.C98_init", "Verif.FileLog.C98_log", "Verif.FileLog.C98_drop_returns", "Verif.FileLog.C98_never_flushes", "Verif.FileLog.C98_drop_false", "Verif.FileLog.C98_drop_keeps", "Verif.FileLog.C98_rotation_false", "Verif.FileLog.C98_free"], "note": "Order, completeness, sharing and the return of every call are proved. The shutdown waits only for who alone has the logger (C98_shutdown_partial); extensions never do, since the map of loggers and the table of resources both keep it: every drop returns at once (C98_drop_returns, C98_drop_false) and no flush is ever asked for (C98_never_flushes)."},
 {"property": "C99", "status": "partial", "theorems": ["Verif.ContractEngines.C99_own", "Verif.ContractEngines.C99_built", "Verif.ContractEngines.C99_single", "Verif.ContractEngines.C99_cached", "Verif.ContractEngines.C99_missing", "Verif.ContractEngines.C99_made", "Verif.ContractEngines.C99_failure", "Verif.ContractEngines.C99_others", "Verif.ContractEngines.C99_hash", "Verif.ContractEngines.C99_schema_partial", "Verif.ContractEngines.C99_schema_false", "Verif.ContractEngines.C99_served", "Verif.ContractEngines.C99_case"], "note": "All proved but the last part: the hash is made of the schema without contract and the key, not of what the extension gave (C99_schema_false); C99_schema_partial needs an extension which gives the same each time. quick_cache is trusted to be as documented; the hash function is assumed to have no collisions in C99_hash."}
]}
