{"id": "C01", "title": "Type wrappers survive the packed representation", "statement": "Building the wrapping of a GraphQL type (nullable/required named type, then any sequence of list and non-null wrappers) and reading it back through the public accessors (inner requiredness, list wrappings outermost- or innermost-first, is_required, is_list, rendering of the type) gives exactly the type that was built, and two builds give equal wrappings iff they describe the same type. More than ten list levels is refused (panic), never silently mis-encoded.", "quantifier": "all well-formed GraphQL wrapper sequences of any length, and all interleavings of list/non-null builder calls and of push/pop on the mutable builder", "why_tests_cant": "The representation is a 16-bit word with three packed fields; a test visits a handful of shapes, while an aliasing bug shows only for particular depths and wrapper patterns.", "anchors": ["crates/graphql-wrapping-types/src/lib.rs: Wrapping::{new,list,list_non_null,non_null,list_wrappings,is_required,is_list,type_display,without_list,without_non_null}", "crates/graphql-wrapping-types/src/mutable.rs: MutableWrapping"]}
{"id": "C02", "title": "Wrapper leniency check is the value-set inclusion", "statement": "The check 'this wrapping is equal to or more lenient than that one', used when validating that an implementation's type can stand for the interface's and that a value can flow to a position, answers yes exactly when every value admitted by the stricter wrapping is admitted by the more lenient one (same list depth, non-null may only be dropped).", "quantifier": "all pairs of representable wrappings", "why_tests_cant": "2^16 x 2^16 pairs, and the claim relates a bit trick to a semantic notion (set of values) that no assertion in a unit test mentions.", "anchors": ["crates/graphql-wrapping-types/src/lib.rs: Wrapping::is_equal_or_more_lenient_than"]}
{"id": "C03", "title": "Composed field type is the tightest type all subgraphs agree on", "statement": "When several subgraphs define the same field, the composed output type is the least lenient type admitting every value any subgraph may return, the composed argument/input type is the most lenient type every subgraph accepts, and composition is refused when the definitions differ in named type or in list depth. The outcome does not depend on the order in which subgraphs are listed.", "quantifier": "all finite sequences of subgraph field types", "why_tests_cant": "Tests fix an order and small depths; the result must be a lattice bound for any number of subgraphs in any order.", "anchors": ["crates/graphql-composition/src/subgraphs/field_types.rs: FieldType::compose_for_input, FieldType::compose_for_output, FieldType::compose", "crates/graphql-composition/src/compose/fields.rs: compose_output_field_types, compose_argument_types"]}
{"id": "C04", "title": "Schema check classifies a wrapper change correctly", "statement": "Comparing the type of a field or argument before and after a schema change reports 'no change', 'non-null removed', 'non-null added' or 'incompatible' exactly according to how the set of admitted values changed, for every type the checker can represent; a type with more lists than can be represented is refused instead of corrupting the other bits.", "quantifier": "all pairs of wrapper sequences", "why_tests_cant": "Packed 64-bit representation, pairwise claim over an unbounded family of types.", "anchors": ["crates/operation-checks/src/schema/wrapping_types.rs: WrappingTypes::{push_list,set_inner_non_null,compare}"]}
{"id": "C05", "title": "Operation limits are enforced on the expanded operation", "statement": "If an operation is accepted under the configured limits then, after expanding all fragments, its depth, number of root fields, number of aliases and number of fields are each within their limit; an operation within all limits and with only known acyclic fragments is accepted; fragment cycles reachable from the operation are rejected (the check always terminates).", "quantifier": "all operations (any nesting of fields, inline fragments and named fragments, including cyclic and unknown fragments) and all limit configurations", "why_tests_cant": "Adversarial documents are unbounded; the claim compares the visitor to the fully expanded operation.", "anchors": ["crates/engine/operation/src/validation/after_parsing.rs: enforce_operation_limits"]}
{"id": "C06", "title": "Complexity limit bounds the computed cost", "statement": "With complexity control enforced, an operation is executed only if its cost (sum over fields of list size times the cost of the field, its arguments and its children) does not exceed the limit, for every weight and list size the schema and variables can carry.", "quantifier": "all operations, cost/list-size directives, variable values and limits", "why_tests_cant": "Costs multiply along nesting, so wrap-around needs numbers no hand-written test picks.", "anchors": ["crates/engine/operation/src/validation/complexity.rs: compute_and_validate_complexity, ComplexityControl"]}
{"id": "C07", "title": "Coerced variables conform to their declared type", "statement": "Whenever variable coercion accepts a request, each provided variable's coerced value conforms to the declared GraphQL type: non-null positions hold no null, lists have the declared depth (a bare item is wrapped), enum values are declared values, input objects have only declared fields and every required field, and oneOf objects have exactly one non-null field; when a required variable is missing or a value does not conform, the request is rejected.", "quantifier": "all schemas, all variable types and all JSON inputs", "why_tests_cant": "Input JSON and input types are recursive and unbounded.", "anchors": ["crates/engine/operation/src/bind/coercion/variable.rs: coerce_variable, VariableCoercionContext"]}
{"id": "C08", "title": "Int coercion accepts exactly the 32-bit integers", "statement": "A number given for an Int variable is accepted iff it is a whole number in [-2^31, 2^31-1], and the coerced value equals the number given.", "quantifier": "all JSON numbers (integers and floats)", "why_tests_cant": "The interesting inputs are a handful of boundary values among 2^64; a saturating cast hides the mistake.", "anchors": ["crates/engine/operation/src/bind/coercion/variable.rs: coerce_scalar, can_coerce_to_int"]}
{"id": "C09", "title": "Accepted variable usages are type-safe", "statement": "If a variable is accepted at an argument position, then every value the variable may hold after coercion is admissible at that position (taking a non-null default of the variable or of the location into account).", "quantifier": "all variable types, default values and location types", "why_tests_cant": "It is a soundness statement over all values of all types.", "anchors": ["crates/engine/operation/src/bind/coercion/query.rs: are_type_compatibles", "crates/engine/operation/src/bind/operation.rs: bind_variable_definitions"]}
{"id": "C10", "title": "Null propagation leaves no null in a required position", "statement": "After any sequence of writes, field errors and null propagations, the serialised response never shows null (or nothing) at a position whose type is non-null: the null is moved to the nearest nullable ancestor, or to data itself, and nothing outside that ancestor is altered.", "quantifier": "all response shapes, all paths and all sequences of propagation events", "why_tests_cant": "Errors arrive in any order from concurrent plans; the claim is over all such histories.", "anchors": ["crates/engine/src/response/write/part.rs: ResponsePartBuilder::propagate_null", "crates/engine/src/response/write/mod.rs: ResponseBuilder", "crates/engine/src/response/data.rs: ResponseData"]}
{"id": "C11", "title": "Filling in default fields gives every key exactly once", "statement": "When a plan fails or returns nothing for a selection, default values are merged into the response objects; afterwards each expected response key appears exactly once in the object, keys already resolved keep their value, missing ones receive the default.", "quantifier": "all response objects and default objects, with any overlap of keys", "why_tests_cant": "The result depends on how two sorted key lists interleave; the failing interleaving is one of many.", "anchors": ["crates/engine/src/response/write/merge.rs: merge_with_default_object"]}
{"id": "C12", "title": "Plans run at most once and only after everything they depend on", "statement": "During execution of an operation each subgraph plan and each response modifier is started at most once, only after all plans/modifiers it depends on have completed; if nothing fails and the dependency graph is acyclic, all of them are eventually started.", "quantifier": "all dependency graphs and all completion orders (interleavings) of in-flight plans, including failures", "why_tests_cant": "Completion order is decided by the network; number of schedules is exponential.", "anchors": ["crates/engine/src/execution/operation/state.rs: OperationExecutionState", "crates/engine/src/execution/operation/coordinator.rs: OperationExecution::run", "crates/engine/src/prepare/operation_plan/builder.rs: finalize"]}
{"id": "C13", "title": "Root mutation fields run once each, in document order", "statement": "For every mutation operation the planner assigns each root field to exactly one plan, and the plans' order makes the root fields execute serially in the order they appear in the document.", "quantifier": "all mutations: any number of root fields over any assignment to subgraphs", "why_tests_cant": "The failing assignments are particular interleavings of subgraphs (A,B,A,A) that examples do not include.", "anchors": ["crates/engine/query-solver/src/post_process/mutation_order.rs: ensure_mutation_execution_order", "crates/engine/src/prepare/cached/builder/mutation_order.rs"]}
{"id": "C14", "title": "@skip and @include decide inclusion as specified", "statement": "A field is executed and returned iff no enclosing or own @skip condition is true and no enclosing or own @include condition is false; combining, deduplicating and caching conditions across merged selections does not change the answer, for all variable assignments.", "quantifier": "all operations with any placement and nesting of @skip/@include and all boolean variable assignments", "why_tests_cant": "2^n assignments times arbitrary merges of the same field under different conditions.", "anchors": ["crates/engine/src/prepare/operation_plan/query_modifications.rs: QueryModificationsBuilder", "crates/engine/operation/src/bind: skip/include directives"]}
{"id": "C15", "title": "Hop-by-hop and protocol headers never reach a subgraph", "statement": "Whatever header rules are configured and whatever headers the client sends, the request sent to a subgraph carries none of the headers on the gateway's deny list.", "quantifier": "all header rule lists and all client header maps", "why_tests_cant": "Rules compose (forward, rename, rename-duplicate, pattern) and act sequentially on the header map; the claim is over all programs in this little language.", "anchors": ["crates/engine/src/execution/request/header_rule.rs: create_subgraph_headers_with_rules, is_header_denied"]}
{"id": "C16", "title": "With trusted documents enforced, only trusted documents execute", "statement": "With trusted documents enforcement on, and without the bypass header with its configured value, the document executed is always one returned by the trusted documents store for the client name and document id of the request; a request without client name or document id is refused; a persisted-query body is executed only when its hash matches.", "quantifier": "all requests (any combination of query text, extensions, document id, headers) and all store contents", "why_tests_cant": "The decision logic has dozens of combinations, and the claim is a security property over all of them.", "anchors": ["crates/engine/src/prepare/trusted_documents.rs: extract_operation_document"]}
{"id": "C17", "title": "Operation cache keys do not confuse two operations", "statement": "Two requests share a cached operation plan only if they have the same schema, the same document (or document id and client name) and the same operation name.", "quantifier": "all pairs of requests", "why_tests_cant": "An injectivity claim over pairs of strings; colliding inputs are crafted.", "anchors": ["crates/engine/src/engine/cache.rs: CacheKey", "crates/engine/src/prepare/trusted_documents.rs"]}
{"id": "C18", "title": "Only identical in-flight subgraph requests are merged", "statement": "Two concurrent subgraph requests are answered with one shared response only if they have the same target, method, headers, and body and neither is a mutation; equal requests have equal hashes so that merging does happen.", "quantifier": "all pairs of subgraph requests", "why_tests_cant": "Pairs of adversarially chosen header names/values and bodies; collision of a concatenation cannot be found by sampling.", "anchors": ["crates/runtime-local/src/fetch/traffic_shaping.rs: RequestKey, NativeFetcher in-flight deduplication"]}
{"id": "C19", "title": "A merged request never receives a stale response", "statement": "With in-flight deduplication, a caller receives either its own response or the response of an identical request that was still in flight when the caller asked; every caller gets an answer; a response completed before the caller's request began is never reused.", "quantifier": "all interleavings of any number of callers joining, the leader finishing, failing or being cancelled", "why_tests_cant": "A concurrency property over all schedules.", "anchors": ["crates/runtime-local/src/fetch/traffic_shaping.rs: TrafficShapingLayer / in_flight requests"]}
{"id": "C20", "title": "The in-memory rate limiter enforces the configured limit", "statement": "With a limit of L requests per duration D configured for a key, in-memory rate limiting admits at most about L requests in any window of length D (a burst of the per-second quota plus the refill), and a configured limit is always enforced.", "quantifier": "all limits, durations and arrival sequences", "why_tests_cant": "Arrival times are arbitrary; the bound must hold for every window of every history.", "anchors": ["crates/runtime-local/src/rate_limiting/in_memory/key_based.rs: create_limiter, InMemoryRateLimiter::limit"]}
{"id": "C21", "title": "The Redis rate limiter admits at most the limit per window", "statement": "With a limit of L per window, the number of requests admitted in one window is at most L, and the sliding weighting by the previous window never admits more than the weighted rate allows.", "quantifier": "all arrival histories, and all interleavings of concurrent gateways sharing the Redis counters", "why_tests_cant": "Check and increment are separate steps; the schedule that breaks the bound has many requests between check and increment.", "anchors": ["crates/runtime-local/src/rate_limiting/redis.rs: RedisRateLimiter::limit_inner, incr_counter"]}
{"id": "C22", "title": "Cached subgraph data respects the response's cache policy", "statement": "A subgraph response is stored only if entity caching is enabled for the subgraph, the response is a success and is not marked private or no-store; it is kept for at most max-age minus age (the subgraph default when there is no max-age); computing this never crashes the request.", "quantifier": "all response statuses and all Cache-Control/Age header values", "why_tests_cant": "The header values are chosen by the subgraph; an age above max-age is rare in tests and common behind CDNs.", "anchors": ["crates/engine/src/resolver/graphql/cache.rs: calculate_cache_ttl"]}
{"id": "C23", "title": "Cached subgraph data is reused only for the same subgraph request", "statement": "A cached subgraph response or entity is used to answer a request only if the stored data was produced for the same subgraph, the same forwarded headers and the same query (selection and representation).", "quantifier": "all pairs of subgraph requests, any selection sets and header maps", "why_tests_cant": "An injectivity claim about a concatenation-based key over unbounded inputs.", "anchors": ["crates/engine/src/resolver/graphql/cache.rs: prepare_key_hasher, fetch_response, fetch_entities", "crates/engine/src/resolver/graphql/federation.rs: fetch_entities_with_cache"]}
{"id": "C24", "title": "A mutation always reaches its subgraph", "statement": "Every executed root mutation field results in a request to its subgraph (or an error), whatever the caching configuration and whatever was executed before; the response is never taken from a cache.", "quantifier": "all histories of operations against a subgraph with caching on or off", "why_tests_cant": "The failure needs two identical mutations inside the TTL with caching enabled.", "anchors": ["crates/engine/src/resolver/graphql/root_fields.rs: GraphqlResolver::execute, fetch_response_with_cache", "crates/engine/src/resolver/graphql/cache.rs: fetch_response"]}
{"id": "C25", "title": "Mutations are not retried unless allowed; retries are budgeted", "statement": "A failed subgraph mutation request is sent again only if retries of mutations were enabled for that subgraph; for any request, the number of retries over any history is bounded by what the budget permits and the loop stops at the first success.", "quantifier": "all configurations and all sequences of subgraph outcomes", "why_tests_cant": "Retry behaviour depends on the history of failures across requests.", "anchors": ["crates/engine/src/engine/retry_budget.rs: RetryBudgets", "crates/engine/src/resolver/graphql/request/execute.rs: retrying_fetch"]}
{"id": "C26", "title": "Log rotation never loses a line", "statement": "For any sequence of log writes, with rotation by size or by time, concatenating the rotated files in order and the current file yields exactly the bytes written, and no file exceeds its size limit by more than one record.", "quantifier": "all sequences of writes, sizes and clock values", "why_tests_cant": "Loss depends on two rotations sharing a timestamp; tests sleep between rotations.", "anchors": ["crates/rolling-logger/src/lib.rs", "crates/rolling-logger/src/log_file.rs", "crates/rolling-logger/src/strategy.rs"]}
{"id": "C27", "title": "Graph references round-trip", "statement": "Parsing a graph reference `graph`, `graph@branch`, `graph@branch#version` and displaying the result gives back an equivalent reference: parse(display(parse(s))) = parse(s); a string that parses never loses its graph, branch or version part.", "quantifier": "all strings", "why_tests_cant": "Strings are unbounded and may contain several separators.", "anchors": ["crates/graph-ref/src/lib.rs: GraphRef"]}
{"id": "C28", "title": "Environment substitution is exact and not recursive", "statement": "In a configuration string each `{{ env.NAME }}` is replaced by the value of that variable and everything else is kept verbatim; substituted values are not themselves expanded; a reference to an unset variable or to an unknown namespace is an error.", "quantifier": "all configuration strings and all environments", "why_tests_cant": "Strings and variable contents are unbounded (a value may itself contain a template).", "anchors": ["crates/serde-dynamic-string/src/lib.rs: DynamicString"]}
{"id": "C29", "title": "Schema paths round-trip through their text form", "statement": "Every path produced by the schema differ (type, field, argument, directive occurrence) parses back to the same path, distinct paths have distinct texts, and parsing arbitrary text returns a path or an error without crashing.", "quantifier": "all paths and all strings", "why_tests_cant": "Quantifies over all strings and over nested path shapes.", "anchors": ["crates/graphql-schema-diff/src/path.rs", "crates/graphql-schema-diff/src/path/parse.rs", "crates/graphql-schema-diff/src/path/display.rs"]}
{"id": "C30", "title": "Applying a schema patch finds every recorded change", "statement": "When a set of changes is applied to a schema, a lookup for a changed element (removed field, removed interface implementation, ...) finds the change iff it is in the set.", "quantifier": "all sets of diffs and all lookups", "why_tests_cant": "Binary search over a sorted list is right for all inputs only if comparator and order agree.", "anchors": ["crates/graphql-schema-diff/src/patch/paths.rs: Paths"]}
{"id": "C31", "title": "Operation checks flag every argument change that breaks a used operation", "statement": "If a schema change makes an argument required, removes it or changes its type incompatibly, and a recorded operation uses the field in the affected way, then the check reports a failing diagnostic; an argument that was not changed is not reported; the check never crashes.", "quantifier": "all pairs of schemas and all recorded operations", "why_tests_cant": "Depends on relative positions of arguments in the old and new schema.", "anchors": ["crates/operation-checks/src/check/rules.rs: change_field_argument_type", "crates/operation-checks/src/schema.rs"]}
{"id": "C32", "title": "Field usage statistics count every use in an operation", "statement": "Aggregating recorded operations yields, for every schema coordinate, exactly the number of executions that use it - whether the use is direct, in an inline fragment or through named fragments, and weighted by the operation's execution count.", "quantifier": "all operations with arbitrarily nested named and inline fragments and all counts", "why_tests_cant": "Fragments can be nested and reused without bound.", "anchors": ["crates/operation-checks/src/check/aggregate_field_usage.rs"]}
{"id": "C33", "title": "Composed enums are sound for inputs and outputs", "statement": "The composed enum contains a value iff it can be handled wherever the enum is used: as an input only, values known to every subgraph; as an output only, values any subgraph may return; used both ways, composition succeeds only if all subgraphs declare the same set of values (in any order).", "quantifier": "all sets of subgraph enum definitions and usages", "why_tests_cant": "Quantifies over all families of value lists and their orderings.", "anchors": ["crates/graphql-composition/src/compose/enums.rs"]}
{"id": "C34", "title": "Composed input objects are accepted by every subgraph", "statement": "A composed input object has exactly the fields that every subgraph declares, and composition fails if some subgraph requires a field that is left out, so every value valid for the composed type is valid in each subgraph.", "quantifier": "all families of input object definitions", "why_tests_cant": "Quantifies over all families of definitions.", "anchors": ["crates/graphql-composition/src/compose/input_object.rs"]}
{"id": "C35", "title": "CSRF prevention lets through only requests with the required header", "statement": "With CSRF protection on, a request other than a CORS preflight reaches the engine iff it carries the configured header; with it off, every request does.", "quantifier": "all requests and configurations", "why_tests_cant": "Security decision over every header map and method.", "anchors": ["crates/federated-server/src/router/layers/csrf.rs"]}
{"id": "C36", "title": "Content negotiation returns a format the client accepts", "statement": "For an Accept header, the response format chosen is one listed by the client (or matched by its wildcard), with maximal quality among the supported ones, and never one the client excluded with q=0.", "quantifier": "all Accept headers", "why_tests_cant": "Headers are arbitrary lists with arbitrary quality values.", "anchors": ["crates/engine/src/graphql_over_http/format.rs"]}
{"id": "C37", "title": "Object shapes cover each possible type exactly once", "statement": "Partitioning the possible concrete types of a selection by the type conditions in it assigns each concrete type to exactly one shape, and that shape contains exactly the fields of all conditions that include the type.", "quantifier": "all output types and all families of type conditions (sets of object types)", "why_tests_cant": "Families of overlapping sets are exponential; the claim is an exact set equation.", "anchors": ["crates/engine/src/prepare/cached/builder/shapes/partition.rs: partition_object_shapes, split_into_partitions, extract_intersection"]}
{"id": "C38", "title": "Response fields are serialised in query order", "statement": "In the JSON response, the fields of every object appear in the order of their first occurrence in the operation, independent of the order in which subgraph responses arrive, and fields only needed internally are never shown.", "quantifier": "all operations and all arrival orders of partial responses", "why_tests_cant": "Arrival order is a schedule.", "anchors": ["crates/engine/operation/src/model/response_key.rs: PositionedResponseKey, QueryPosition", "crates/engine/src/response/read/ser/data.rs"]}
{"id": "C39", "title": "Packed identifiers never alias", "statement": "Identifiers that pack a part number and an index in one word are read back exactly as written, and two distinct (part, index) pairs never give the same identifier; running out of space is detected.", "quantifier": "all part numbers and indices", "why_tests_cant": "Aliasing happens only at sizes far above what tests build.", "anchors": ["crates/engine/src/response/object_set.rs", "crates/engine/src/response/data.rs: DataPartId, ResponseObjectId"]}
{"id": "C40", "title": "Bit sets behave as sets", "statement": "The bit set used for query fields behaves as a mathematical set of ids: insert/remove/contains/union/intersection/iteration/count agree with set semantics for all lengths, including those not a multiple of the word size.", "quantifier": "all lengths and all operation sequences", "why_tests_cant": "Errors appear at block boundaries and in the padding bits.", "anchors": ["crates/engine/id-newtypes/src/bitset.rs: BitSet"]}
{"id": "C41", "title": "Sanitised queries reveal no literal data", "statement": "The sanitised form of an operation (exported to telemetry) does not depend on any string, number or list literal written in the operation: two operations differing only in such literals have identical sanitised text.", "quantifier": "all operations, all literal values at any depth", "why_tests_cant": "A non-interference property (two-run), not checkable by examples.", "anchors": ["crates/operation-normalizer/src/sanitize.rs and sanitize/*.rs"]}
{"id": "C42", "title": "Normalisation is canonical", "statement": "Normalising an operation is idempotent, and operations that differ only in the order of selections, arguments, variables or fragment definitions, in aliases or in literal values normalise to the same text.", "quantifier": "all operations and all permutations of their parts", "why_tests_cant": "Quantifies over permutations of recursive structures.", "anchors": ["crates/operation-normalizer/src/normalize.rs and normalize/*.rs"]}
{"id": "C43", "title": "Cache warming warms the configured share of operations", "statement": "On reload, with warming percentage p, p percent of the cached operations (rounded down) are re-planned before the new engine is served, most used first.", "quantifier": "all percentages and cache sizes", "why_tests_cant": "One arithmetic expression is wrong for 99 of 100 percentages but right for those used in tests.", "anchors": ["crates/federated-server/src/engine/reloader.rs: extract_operations_to_warm"]}
{"id": "C44", "title": "A failed extension instance is never reused", "statement": "An extension instance during whose use a call trapped, timed out or was cancelled is never handed out again; an instance is never used by two callers at once; a healthy one goes back to the pool.", "quantifier": "all interleavings of acquire, call, cancel, trap and release", "why_tests_cant": "Concurrency and cancellation points.", "anchors": ["crates/wasi-component-loader/src/extension/pool.rs"]}
{"id": "C45", "title": "Subscription events are delivered in order without loss", "statement": "The responses sent to the client of a subscription correspond one to one, in order, to the events of the upstream subscription, with at most a fixed number in flight.", "quantifier": "all event streams and all orders in which event executions complete", "why_tests_cant": "Executions run concurrently and complete in any order.", "anchors": ["crates/engine/src/execution/operation/coordinator.rs: subscription execution"]}
{"id": "C46", "title": "Grouping authorization rules preserves the rules", "statement": "Preparing the authorization modifiers of an operation groups them by extension and directive; every (rule, affected fields) pair is evaluated exactly once and by the right extension and directive.", "quantifier": "all operations and all sets of authorization directives", "why_tests_cant": "Grouping over sorted ranges must be right for all multisets of rules.", "anchors": ["crates/engine/src/prepare/cached/builder/modifiers.rs: QueryModifiers::build, ModifierAccumulator"]}
{"id": "C47", "title": "Every subscriber of a shared extension subscription gets a live stream", "statement": "Subscribers sharing a deduplicated upstream subscription receive all items published after they join until it ends; if creating the upstream subscription fails, the failure is reported and a later subscriber triggers a new attempt.", "quantifier": "all interleavings of subscribe, upstream success/failure, publish, unsubscribe and completion", "why_tests_cant": "A schedule property with failure points.", "anchors": ["crates/wasi-component-loader/src/extension/runtime/subscription/dedup.rs"]}
{"id": "C48", "title": "GET requests never mutate", "statement": "A request received over HTTP GET never executes a mutation, whether its operation comes from the request, the cache or a trusted document.", "quantifier": "all requests and cache states", "why_tests_cant": "Must hold for every path through the operation cache.", "anchors": ["crates/engine/src/prepare/with_cache.rs"]}
{"id": "C49", "title": "Generated response keys are fresh", "statement": "When two fields sent to one subgraph would collide on a response key, the planner's renaming gives all fields of one selection set distinct keys, and never changes the keys the client asked for in its response.", "quantifier": "all selection sets and key assignments", "why_tests_cant": "Collision patterns with already suffixed names are adversarial.", "anchors": ["crates/engine/query-solver/src/post_process/response_key.rs: adjust_response_keys_to_avoid_collision"]}
{"id": "C50", "title": "Authorization denials remove exactly the denied data", "statement": "When response authorization denies some objects or a field for all, the denied values do not appear in the response (null at the field, propagated if it is required), every denial produces one error at its path, and granted data is unchanged.", "quantifier": "all responses and all decision vectors", "why_tests_cant": "Decisions are per-element over arbitrary response sizes and paths.", "anchors": ["crates/engine/src/execution/operation/response_modifier.rs"]}
{"id": "C51", "title": "Selections merged under one response key agree", "statement": "An operation is rejected if two selections that end up in the same response field of the same object select different schema fields or give different arguments.", "quantifier": "all operations, with any nesting of fragments, type conditions and @skip/@include", "why_tests_cant": "Conflicts may be hidden behind any nesting of fragments and any split of the parent selection in several query fields.", "anchors": ["crates/engine/query-solver/src/solution_space/builder/operation_fields.rs: add_operation_field"]}
{"id": "C52", "title": "Id ranges hold exactly their ids", "statement": "Iterating over a range of ids from either end, in any interleaving, gives every id from start to end exactly once and never panics; get and index_of are inverse of each other and never give an id outside the range; from_slice accepts exactly the slices of consecutive ids.", "quantifier": "all ranges, all interleavings of next and next_back, all positions and all slices", "why_tests_cant": "The arithmetic wraps in release builds, and the interleavings are exponentially many.", "anchors": ["crates/engine/id-newtypes/src/range.rs: IdRange, IdRangeIterator"]}
{"id": "C53", "title": "One-to-many relations lose no value", "statement": "Looking up an id in a one-to-many relation gives exactly the values stored for it with their multiplicity, whatever order the pairs were given in and whatever the unstable sort does with equal ids; the ids of the relation are listed once each in increasing order.", "quantifier": "all relations and ids, all results of the unstable sort", "why_tests_cant": "Off-by-one errors at the boundaries between ids need particular shapes of relations.", "anchors": ["crates/engine/id-newtypes/src/many.rs: IdToMany"]}
{"id": "C54", "title": "The schema differ reports exactly the differences", "statement": "Diffing two schema documents never crashes and reports a change for exactly the definitions, members, arguments, interface implementations and root types that were added, removed or changed.", "quantifier": "all pairs of schema documents, with type extensions", "why_tests_cant": "Hash maps shared by all definitions: a wrong result needs particular combinations of names and extensions in two documents.", "anchors": ["crates/graphql-schema-diff/src/traverse_schemas.rs", "crates/graphql-schema-diff/src/state.rs"]}
{"id": "C55", "title": "Operation checks judge changes of fields, members, enum values and input objects by their use", "statement": "Removing a selected field, changing the type of a selected field so that it may give new values, removing an enum value, a union member or an interface implementation that an operation names, and removing or retyping a field of an input object that is reachable from a provided argument are all reported with the right severity, and nothing is reported for coordinates that no operation uses; the search for used input types always ends and finds exactly the reachable types.", "quantifier": "all pairs of schemas, including recursive input objects, and all recorded operations", "why_tests_cant": "Input objects can refer to each other in arbitrary cyclic graphs and operations can be arbitrarily nested.", "anchors": ["crates/operation-checks/src/check.rs: find_used_input_types", "crates/operation-checks/src/check/rules.rs"]}
{"id": "C56", "title": "Arguments written in an operation get the values written", "statement": "The arguments of a field are accepted exactly if the given values coerce to the declared argument types by the GraphQL rules, with every variable usable at its position; and for every accepted operation and request the resolver is given, for each argument, the value written in the operation with variables replaced by their values, an absent value or a variable without value being replaced by the default of the argument or input field or left out, so that it is a value of the argument's type.", "quantifier": "all schemas, argument definitions, literals, variable declarations and variable values", "why_tests_cant": "Literals, types and variable values are recursive and unbounded; the interesting cases combine several levels (variables in lists in input objects with defaults).", "anchors": ["crates/engine/operation/src/bind/coercion/query.rs: coerce_query_value, coerce_variable_default_value", "crates/engine/operation/src/bind/operation.rs: bind_field_arguments_sorted", "crates/engine/operation/src/model/input_value/query/walker/ser.rs", "crates/engine/src/prepare/cached/query_plan/field/arguments.rs"]}
{"id": "C57", "title": "Possible types and planning through implementors", "statement": "The possible types of an interface or union are the objects the document says, in increasing order; membership in a subgraph and full implementation in a subgraph are what the join directives say; the tests for common possible types and for subsets agree with the sets; and planning an interface field through its implementors ends, adding a field for exactly the common objects that implement the interface in the subgraph.", "quantifier": "for all documents, visiting orders, pairs of composite types, subgraphs and outcomes of providing a field", "why_tests_cant": "The operations merge sorted lists with two indices. Whether an index fails to advance or a tail is ignored depends on the relative order of ids and on which objects implement an interface in which subgraph.", "anchors": ["crates/engine/schema/src/composite_type.rs:79-139", "crates/engine/schema/src/builder/graph/directives/federation.rs:121-220", "crates/engine/schema/src/builder/graph/directives/federation.rs:403-458", "crates/engine/schema/src/builder/coerce/field_set.rs:280-304", "crates/engine/query-solver/src/solution_space/builder/alternative.rs:194-254"]}
{"id": "C58", "title": "Variables of subgraph operations", "statement": "The operation sent to a GraphQL subgraph declares each variable once, with a type fit for every argument using it; every argument reads a variable whose sent value is the argument's value for the client's variables; variables of the client keep their name and type, generated ones never collide with them or with the variable of entity representations; preparing and sending never panics.", "quantifier": "all client variable definitions, all sequences of arguments of all value shapes, all variable values", "why_tests_cant": "Values and names are unbounded: deduplication compares arbitrary nested values, and collisions need client variables named like generated ones.", "anchors": ["crates/engine/src/resolver/graphql/request/prepare.rs:360-425", "crates/engine/src/resolver/graphql/request/types.rs:37-60", "crates/engine/operation/src/model/input_value/query/eq.rs:8-176", "crates/engine/schema/src/input_value/walker/ord.rs:11-57"]}
{"id": "C59", "title": "Selection sets of subgraph operations", "statement": "The selection set sent to a GraphQL subgraph requests, for every object the subgraph may return, exactly the planned fields that apply to it, at every depth; it is accepted by the subgraph: fragments may apply, fields exist on their parent, braces are never empty, and __typename is requested when required.", "quantifier": "all composed schemas with consistent join directives, all plans (trees of fields), all paths of objects returned", "why_tests_cant": "Depends on which objects implement which interfaces in which subgraphs, and on the type of the parent; the combinations are unbounded.", "anchors": ["crates/engine/src/resolver/graphql/request/prepare.rs:158-335", "crates/engine/src/prepare/operation_plan/model/selection_set.rs:14-43"]}
{"id": "C60", "title": "Query modifications", "statement": "For every operation, a field is in the response exactly if all its @skip/@include directives let it through; a field is denied exactly if some authorization decision denies an element it belongs to; subgraphs are asked exactly for the fields that are shown and not denied and those others require or are derived from; the value of a denied field is never in an object of the response, the error is, and values of other fields are unchanged; computing this ends.", "quantifier": "all plans (fields, requirements, derived fields, partitions), all directives and variables, all decisions of all extensions, all shapes and objects", "why_tests_cant": "The set of requested fields is a closure over unbounded requirement graphs; errors travel through five index tables whose contents depend on every shape of the operation.", "anchors": ["crates/engine/src/prepare/operation_plan/query_modifications.rs:99-374", "crates/engine/src/prepare/cached/builder/shapes/mod.rs:86-112", "crates/engine/src/response/write/deserialize/object/fields.rs:436-469"]}
{"id": "C61", "title": "Partitions that depend on themselves are split", "statement": "After post processing of a query plan graph no field of a partition requires, directly or not, a field of the same partition, and partitions do not depend on each other in a cycle if fields do not; every field stays in exactly one partition with the same resolver for the same parent; requirements and the order of mutations are kept, also for new partitions; a partition is added only if needed and none is left empty; it ends.", "quantifier": "all solution graphs (trees of partitions and fields with any requirements), all sorts, all starting nodes", "why_tests_cant": "Depends on transitive requirements among any number of fields; whether the greedy assignment makes a cycle depends on the order of fields in the query.", "anchors": ["crates/engine/query-solver/src/post_process/partition_cycles.rs:1-146", "crates/engine/query-solver/src/tests/cycle.rs"]}
{"id": "C62", "title": "Growing the Steiner tree of a query plan", "statement": "Whatever edges saturate first and however often the tree is grown and terminals are added: the result is a tree with the root, in which every node leads to a terminal, its weight is the sum of the weights of its edges, and what was there before stays; a run that says it is done has connected all terminals; a run connects a further terminal whenever one is left that can be reached, never panics and ends after popping each edge once, so growing ends and connects all terminals; the difference of weights of successive edges is never negative.", "quantifier": "all graphs, weights, terminals, orders in which edges saturate, numbers of runs and added terminals", "why_tests_cant": "The order depends on times computed with floats; cycles and shared paths of arbitrary graphs; the tests run it on a handful of graphs.", "anchors": ["crates/engine/query-solver/src/solve/steiner_tree/greedy_flac.rs:213-590", "crates/engine/query-solver/src/solve/steiner_tree/mod.rs:31-106"]}
{"id": "C63", "title": "A query plan contains the requirements of everything it chose, and nothing else", "statement": "For every Steiner input (graph, free requirements by node, free requirements by edge, requirements with a cost), root, terminals without the root, and every order in which edges saturate: if the solver (initial weights, then growing the tree and updating requirements in turns) returns a solution, then it is a tree of the input graph from the root with all the terminals; for every chosen node and every chosen edge with requirements the required nodes are in the tree and the required space nodes are terminals of the query; every other terminal is one of the operation, and every node leads to a terminal. Weights: an estimate is the weight, modulo 2^16, of edges that connect the required nodes to the tree or to the unavoidable parents, each of them needed; edges that depend on requirements have their inherent weight plus such an estimate, edges released go back to the inherent weight, no other weight and no endpoint changes; unless requirements are taken to be independent the weights are a fixed point. Every turn but the last makes a requirement mandatory or connects a terminal, unless a terminal cannot be reached by usable edges, so that it ends. It should neither panic nor loop.", "quantifier": "all graphs, requirements, terminals, saturation orders and numbers of iterations", "why_tests_cant": "The loop swaps entries out of three lists while indexing them, shares one temporary growth state between all estimates, and rewrites the weights of the graph it runs on; which of the cases meet depends on the schema and on the order in which edges saturate.", "anchors": ["crates/engine/query-solver/src/solve/updater.rs:22-319", "crates/engine/query-solver/src/solve/solver.rs:73-141", "crates/engine/query-solver/src/solve/input/mod.rs:19-84", "crates/engine/query-solver/src/solve/steiner_tree/mod.rs:55-106"]}
{"id": "C64", "title": "The edges of a solved query are a plan of it", "statement": "For every solution space (resolvers, providable fields, fields, requirements), every order in which edges saturate: if a Steiner input is built from the space, solved, and the solution translated back to edges of the space, then each of these edges is a resolver, providable or provided field edge whose both ends are reached from the root through the edges; every indispensable leaf field and every terminal of the solution is reached; every node is reached in one way only and the root by no edge; whatever a reached node requires is reached; and a terminal that is not a leaf field of the operation is required by a reached node. If every leaf and every parent can be reached from the root, the input is built: no panic, no cycle error, and all loops end; so does the translation back. An edge of the Steiner graph stands for an edge of the space and has its weight plus the number of resolvers merged into its source.", "quantifier": "all solution spaces, saturation orders, and numbers of steps", "why_tests_cant": "The builder merges chains of nodes while walking a graph from leaves to the root with a shared path stack, uses node and edge ids of two graphs that are both small integers, and groups requirements by source; errors show only for particular shapes and insertion orders.", "anchors": ["crates/engine/query-solver/src/solve/input/builder/mod.rs:100-432", "crates/engine/query-solver/src/solve/input/builder/requirements.rs:83-348", "crates/engine/query-solver/src/solve/solution.rs:72-97"]}
{"id": "C65", "title": "Answers of two plans for the same object are merged completely", "statement": "For every stored response and every new value of a plan: if the merge of the new value into the existing one returns, the existing value then stands for both joined - every key of either object once and in key order, values under a common key merged recursively, list items pairwise, nulls with nulls - and every value that shares no object with the two is unchanged. The result depends on the values only, not on where they are stored. The merge ends without a panic exactly if two objects, two lists or two nulls meet everywhere.", "quantifier": "all stored responses, existing and new values of any depth", "why_tests_cant": "The merge works on objects in several arenas by id, takes the fields out of objects while it runs, scans two sorted lists at once and recurses through values replaced by null; a lost or doubled field shows only for particular orders of keys at some depth.", "anchors": ["crates/engine/src/response/write/merge.rs:74-161"]}
{"id": "C66", "title": "The query graph built from a plan is the tree of the plan with its requirements", "statement": "From any choice of edges of the solution space in which every node is reached at most once, the query graph is built without a panic. It is a tree: the root, one node for every reached resolver and providable field and one for every __typename of the root or of a provided field, each showing the resolver or field it stands for, below the node its chosen edge comes from (a __typename below a node of its parent field). A required edge is there exactly if the resolver, the providable field or the provided field requires a field that some node stands for. The __typename fields of the root are moved into the root partition with the first field of the query, or into a new introspection partition; nothing else changes. For a plan of the solver, every indispensable leaf field has a node and every required one has an edge to it.", "quantifier": "All solution spaces connected as the builder connects them, all choices of edges forming a tree (in particular all plans of the solver), all orders of edges, all query positions.", "why_tests_cant": "The order in which the stack, the removal of __typename edges from the space and the pending requirements interact depends on the shape of the plan; tests see a handful of plans and snapshot the outcome.", "anchors": ["crates/engine/query-solver/src/solve/solution.rs:137-289", "crates/engine/query-solver/src/post_process/root_typename.rs:10-54"]}
{"id": "C67", "title": "The solution space offers exactly the ways in which the fields of a query can be had", "statement": "Building the solution space from the fields of an operation does not panic, and ends. In the space built, the fields of the operation are where they were. A providable field is for one field of the query, and what can provide it is a resolver of that field for the selection set it is in, or a providable field for the parent whose subgraph has the field. Every such way is there: for each source of a selection set and each field in it, from the source if its subgraph has the field and from each resolver of the field that is no lookup of a foreign key, unless the field is known to be unreachable or the source is of the same subgraph and has it; each resolver is there once. Whatever a field of the operation, a resolver or a field of a subgraph requires is in the query, next to what requires it, and linked. A field is marked as providable only if something provides it; otherwise it, or a field it is below, is put aside as unplannable. Pruning removes the resolvers and providable fields that lead to no leaf and nothing else. The pruned space is one the solver and the query graph can work with, and all fields that are indispensable, among them all that the gateway requires, are in the query graph of any plan.", "quantifier": "All operations (trees of fields), all schemas (as functions giving resolvers, requirements and what subgraphs provide), all requirements of fields, all orders of edges.", "why_tests_cant": "Tasks for fields and requirements create each other, through sources, resolvers and new fields; whether a combination is missed depends on the order in which they are taken from two stacks. Snapshot tests fix a few schemas and do not notice a way that is missing as long as another one is chosen.", "anchors": ["crates/engine/query-solver/src/solution_space/builder/providable_fields.rs:46-292", "crates/engine/query-solver/src/solution_space/builder/providable_fields.rs:504-719", "crates/engine/query-solver/src/solution_space/builder/mod.rs:62-126", "crates/engine/query-solver/src/solution_space/builder/prune.rs:1-85"]}
{"id": "C68", "title": "Each object gets the entity that was fetched for it", "statement": "A plan that fetches entities sends the representations of those objects that have one which is not in the cache, in their order, and sends nothing if there are none. Whatever the subgraph answers, an object is given only the entity in the cache for its representation or the element of data._entities at the position of its representation in the request, and every object is given something: an entity, or nothing, which makes its fields null or moves the null up. An object whose entity is missing in the answer, is null or is no object gets nothing. All errors of the subgraph are reported, each at the path of the object that its entity was fetched for. Only what was received for a representation is put in the cache for it, and only if the response may be cached, has data and no errors.", "quantifier": "All lists of parent objects, all representations (also none and equal ones), all shapes, all contents of the cache, all answers (also broken JSON, too few or too many entities, doubled keys), failed requests.", "why_tests_cant": "The entity list is matched with objects by position only, in two implementations, while objects without a representation and cached ones have been taken out; any failure in between leaves a flag, an iterator and a part of the response in a state that depends on where it happened.", "anchors": ["crates/engine/src/resolver/graphql/federation.rs:61-331", "crates/engine/src/resolver/graphql/federation/with_cache.rs:23-238", "crates/engine/src/resolver/graphql/federation/without_cache.rs:22-66", "crates/engine/src/resolver/graphql/deserialize/entities.rs:25-251", "crates/engine/src/response/write/deserialize/root/batch_objects.rs:35-126"]}
{"id": "C69", "title": "A field is asked of the subgraphs that resolve it", "statement": "For every accepted set of definitions of an object type in the subgraphs, the composed type has the fields of all definitions, each once, and the schema printed for it is read by the engine without error. The engine may ask a field of exactly those subgraphs which define the field, do not only refer to it (@external outside a key) and are not overridden for all requests. There is at least one. For each the engine knows the type the field has there. A field that nobody marks as @shareable and that is in no key is asked of one subgraph only. The arguments are those all definitions have, among them each required one, with the composed type and the common default.", "quantifier": "All lists of subgraphs with accepted names, all definitions of an object or root type with their keys, arguments, @external, @shareable, @internal, @inaccessible, @override with any source and label, Federation 1 and 2.", "why_tests_cant": "Owners of a field come out of three programs: composition writes @join__field, the printer leaves some of them out, and the engine infers owners from what is missing. They match names by different keys (name, index, enum value), and what is left out depends on all definitions of the field together.", "anchors": ["crates/graphql-composition/src/compose/object.rs:5-345", "crates/graphql-composition/src/compose/validate.rs:4-89", "crates/graphql-composition/src/validate/composite_schemas/post_merge.rs:9-65", "crates/graphql-composition/src/validate/subgraph_names.rs:4-43", "crates/graphql-composition/src/federated_graph/render_sdl/render_federated_sdl.rs:320-385", "crates/engine/schema/src/builder/graph/directives/federation.rs:238-399"]}
{"id": "C70", "title": "What is hidden with an inaccessible element", "statement": "For every schema and every set of elements marked as inaccessible, the elements hidden from clients are the least set with the marked ones such that nothing shown needs something hidden: an argument or input field with a hidden type is hidden, a field or input object with a hidden required argument or input field is hidden, a field with a hidden type is hidden, and a type of which all fields, values or members are hidden is hidden. Nothing else is hidden, and doing it again changes nothing.", "quantifier": "All schemas with valid ids, all sets of marked elements.", "why_tests_cant": "The code is a sequence of loops and two worklists in a fixed order, and each rule can enable each other one. Whether the order reaches the fixpoint depends on the shape of the schema; a test sees one shape.", "anchors": ["crates/engine/schema/src/builder/graph/directives/common/mod.rs:183-443"]}
{"id": "C71", "title": "What the clients of a contract see", "statement": "For every answer an extension gives about the directives of a schema, an element is hidden from the clients of the contract exactly if it was hidden before, or the strongest value on it and on what it is in is negative and no stronger value shows something in it, or no operation can get to it (when this is asked for), or it needs something hidden. Elements with the strongest negative answer are never shown, and nothing hidden from everyone is shown by a contract. Root types, built-in scalars and all of introspection stay. The result depends on the answers only, not on the order of a hash map. What contains something shown is shown. A subgraph is sent to the URL the contract gives.", "quantifier": "All schemas with valid ids that are trees, all marks, all directives on any elements, all answers (too few and too many ones too), all orders of equally strong answers, all updates of endpoints.", "why_tests_cant": "Eight loops propagate values down and up, with ties decided by the order of the loops and of a hash map; two graph traversals and the hiding of dependent elements follow. A test sees one schema and one order.", "anchors": ["crates/wasi-component-loader/src/extension/runtime/contracts.rs:20-385", "crates/engine/schema/src/builder/mutable.rs:29-358"]}
{"id": "C72", "title": "What is read from the response for a subgraph or an extension", "statement": "For every tree of required fields and every object of the response, the view that is sent to a subgraph or an extension has, in order and under the names of the definitions, exactly the required fields the object has, with nested objects cut down alike; a missing field is an error unless its type does not apply to the object, and nothing else of the response can change what is sent. The view of the fields of a directive is that of the required fields cut down to them and never panics when they are covered. The union of required fields has the paths of both sides, and the requirements of others do not change what a directive sees. An injected value is the one its selection describes. The required fields built from the solution are all the dependencies, each once and below what it is below in the solution.", "quantifier": "All trees of fields, all response objects (null, lists, maps, inaccessible and erroneous values), all bound selections, all solution graphs and dependency lists, all depths.", "why_tests_cant": "The views merge two sorted trees with `unreachable!` on every mismatch, which only shows when the set built from the solution has an unusual shape (a root split over partitions, two aliases); leaking a field that was not required is invisible to a test that compares the expected keys only.", "anchors": ["crates/engine/src/response/read/view/ser.rs:26-460", "crates/engine/src/prepare/cached/builder/requires.rs:39-145", "crates/engine/src/prepare/cached/query_plan/required_field_set.rs:20-190", "crates/engine/schema/src/field_set/union.rs:7-59", "crates/engine/schema/src/builder/graph/directives/composite/injection/explicit.rs:76-230"]}
{"id": "C73", "title": "Which values are injected into the arguments of a lookup", "statement": "When a `@lookup` field with `@is(field: \"...\")` arguments is accepted by the schema builder, every call of the field gets arguments it can be called with: for each object of the entity (or, in a batch, for all of them) every injected argument is of the type of the argument (lists where lists are expected, no null where a value is required, input objects with all required fields, defaults for those left out, exactly one non-null entry for @oneOf), no argument is given twice and no required argument is missing; the arguments given are those with @is and those with a default. The same for each alternative of a @oneOf argument.", "quantifier": "for all schemas, entities, field selection maps, sets of required fields that cover those of the injection, and all responses typed by the schema", "why_tests_cant": "field selection maps nest objects, lists and paths with type conditions without bound, and the typing of what is injected depends on the schema and on every object of the response", "anchors": ["crates/engine/schema/src/builder/coerce/field_selection_map/mod.rs", "crates/engine/schema/src/builder/graph/directives/composite/injection/explicit.rs", "crates/engine/schema/src/builder/graph/directives/composite/lookup.rs", "crates/engine/src/prepare/cached/query_plan/field/arguments.rs"]}
{"id": "C74", "title": "Which arguments a key is detected for", "statement": "When a `@lookup` field has no `@is` and the schema builder detects how a key of its entity is given for its arguments, the arguments identify the entity and the field can be called with them: they take every field of the key and nothing else, each is of the type of its argument (in a batch, a list), no argument is given twice and none that is required is missing; no field of the key is given for two arguments, and an argument with the name of a field that suits it is given that field. The injections that were there before stay, and the range of the injections returned is one of those stored.", "quantifier": "for all schemas, keys with nested selections, arguments, injections stored before, sets of required fields that cover the key, and all responses typed by the schema", "why_tests_cant": "keys and input objects nest without bound, the match of an input depends on all other inputs and fields, and candidates are ranges of a vector that is truncated when a later one fails", "anchors": ["crates/engine/schema/src/builder/graph/directives/composite/injection/auto_detect.rs", "crates/engine/schema/src/builder/graph/selections.rs", "crates/engine/schema/src/builder/graph/directives/composite/lookup.rs"]}
{"id": "C75", "title": "What an operation is bound to", "statement": "An operation that is bound to the schema holds exactly what its document says: the root is the object of its type; every field is a visible field of the type it is selected on, has a selection set if and only if its type is composite, and has the response key, arguments and conditions written; every fragment has a visible composite type that overlaps with the one it is spread in, and a fragment spread twice is read the same both times; the variables are those declared, with distinct names and input types, and each is used. A valid document without unused variables is bound, and one that breaks a rule is not. A bound operation is executed if and only if the number of different fields is within the height limit and, with introspection disabled, it has no field of introspection.", "quantifier": "for all schemas, documents with any nesting of selections and fragments, variables, arguments and directives", "why_tests_cant": "selections and fragments nest without bound, fragments are bound once and shared through a map, and everything is stored in growing vectors that refer to each other by 16-bit ids", "anchors": ["crates/engine/operation/src/bind/operation.rs", "crates/engine/operation/src/bind/mod.rs", "crates/engine/operation/src/model/selection_set.rs", "crates/engine/operation/src/validation/after_binding.rs"]}
{"id": "C76", "title": "Websocket connections speak graphql-transport-ws", "statement": "Whatever a client sends and however the tasks are scheduled: the server writes one acknowledgement at most, after a session has been created, and before it only pings or a close; nothing is executed without it; nothing follows a close. The operations executed are those asked for after the acknowledgement, in order, each once. For an operation the client reads its responses in order, then `complete`, then nothing; while writing succeeds none is lost and every ping is answered with one pong. At most one operation is live for an id; asking for another one with it closes the connection with 4409, and after the operation has ended the id may be used again. An operation is stopped only when its client completes it or the connection ends, and then all are. The codes of closes are those of the protocol.", "quantifier": "for all sequences of frames, all results of sessions and operations, all schedules of the tasks, all failures of writes", "why_tests_cant": "the interleavings of the reading loop, the writing task and any number of operations are unbounded, as are the sequences of messages", "anchors": ["crates/federated-server/src/router/graphql/ws/accepter.rs", "crates/engine/src/engine.rs", "crates/engine/src/websocket.rs"]}
{"id": "C77", "title": "A schema document is accepted exactly when it follows the rules of the specification", "statement": "Validating a schema document of a subgraph reports nothing exactly when the document follows the rules of section 3 of the GraphQL specification: names are defined once and without the prefix of introspection, every type used exists and stands where it may, directives are used at their locations and repeated only if they may be, objects and interfaces have the fields, arguments and interfaces their interfaces ask for with covariant types, unions hold objects, input objects do not hold themselves through required fields, root types are distinct objects, extensions extend something of their kind. A cycle reported is one and every input object on a cycle is reported. The validation does not panic.", "quantifier": "for all schema documents with definitions and extensions in any order, for both settings of each option", "why_tests_cant": "documents are unbounded and the rules interact through extensions, interfaces and references between any number of types", "anchors": ["crates/graphql-schema-validation/src/validate.rs", "crates/graphql-schema-validation/src/validate/type_definition.rs", "crates/graphql-schema-validation/src/validate/interface_implementers.rs", "crates/graphql-schema-validation/src/validate/input_object_cycles.rs", "crates/graphql-schema-validation/src/validate/enums.rs"]}
{"id": "C78", "title": "What is written into SDL is read as what it was", "statement": "Values, arguments of directives, field sets and descriptions written into the SDL of the federated graph, of the schema of the engine and of the tools are read by the lexer and the parser of GraphQL as what they were: every string, number, list, object and enum value as itself, every directive with its name and arguments, every field set as a string in which its selections are read again, and every description as one string, so nothing in a description or a value can become a definition.", "quantifier": "for all values, directives, selections and descriptions, for both styles of separators and any indentation", "why_tests_cant": "strings and nested values are unbounded, and what goes wrong is in rare characters and in quotes within descriptions", "anchors": ["crates/graphql-composition/src/federated_graph/render_sdl/display_utils.rs", "crates/engine/schema/src/input_value/walker/display.rs", "crates/engine/schema/src/sdl.rs", "crates/mcp/src/tools/sdl/buffer.rs"]}
{"id": "C79", "title": "Leaf values of subgraph responses are shown as values of the schema", "statement": "A field of a scalar or an enum, in lists of any depth, is shown to the client with the value the subgraph gave completed for the type of the field: a value of the built-in scalar or of the enum, custom scalars as they are, null where the value is not one of the type or is an inaccessible enum value, the null going to the nearest position that may be null. The errors are exactly those of the completion, one for each value that is not of the type with its path, and a value that is not of its type affects nothing but the positions it makes null. Nothing is reported for fields that are not shown.", "quantifier": "for all scalar types and enums, all types with lists of any depth, and all JSON values", "why_tests_cant": "JSON values and nested lists are unbounded, and the ranges of numbers and specialised lists of numbers have corner cases", "anchors": ["crates/engine/src/response/write/deserialize/scalar/mod.rs", "crates/engine/src/response/write/deserialize/scalar/int.rs", "crates/engine/src/response/write/deserialize/scalar/float.rs", "crates/engine/src/response/write/deserialize/enum.rs", "crates/engine/src/response/write/deserialize/list", "crates/engine/src/response/write/deserialize/field.rs"]}
{"id": "C80", "title": "The directives of a subgraph are those its links say", "statement": "A directive name in a subgraph stands for what the subgraph's links say: with the prefix of a linked schema for the directive of that schema, without prefix for the directive imported under the name, for a directive of the language, for a directive of the federation when no federation is linked, or for a directive the subgraph defines. A name with a prefix nothing is linked under stands for nothing known. Directives of linked schemas are in the composed schema exactly when the schema is that of an extension or the subgraph asks for the directive with @composeDirective; directives the subgraph asks for are not lost. The extensions are exactly those loaded and those linked by URL, and each mistake in a link is reported.", "quantifier": "for all lists of subgraphs, links, imports, aliases, URLs, directive definitions and directive names", "why_tests_cant": "names, prefixes, aliases and URLs are unbounded texts and the links of a subgraph interact: the collisions of namespaces, of imports and of specifications are not sampled by tests", "anchors": ["crates/graphql-composition/src/ingest_subgraph/directives/match_name.rs", "crates/graphql-composition/src/ingest_subgraph/schema_definitions.rs", "crates/graphql-composition/src/ingest_subgraph/schema_definitions/link.rs", "crates/graphql-composition/src/subgraphs/directives/link.rs", "crates/graphql-composition/src/subgraphs/linked_schemas.rs", "crates/graphql-composition/src/subgraphs/extensions.rs", "crates/graphql-composition/src/compose/context.rs", "crates/graphql-composition/src/compose/directives.rs"]}
{"id": "C81", "title": "Composed directives are defined once, from agreeing definitions", "statement": "A directive the subgraphs ask for with @composeDirective is defined at most once in the composed schema, exactly when it is asked for in a subgraph which defines it and all such definitions agree: the same types and defaults for arguments of the same name, repeatable in all or in none, and no argument required in one and absent in another. Its definition has the locations of all of them and each of their arguments once. Otherwise the composition fails with a diagnostic for the directive. Differences in locations and arguments are reported. The result does not depend on the order of the subgraphs.", "quantifier": "for all lists of directive definitions, all sets of directives asked for, and all orders an unstable sort may make", "why_tests_cant": "the number of subgraphs, definitions and arguments is unbounded, and the order of an unstable sort is not controlled by tests", "anchors": ["crates/graphql-composition/src/compose/directive_definitions.rs", "crates/graphql-composition/src/ingest_subgraph/directive_definitions.rs", "crates/graphql-composition/src/emit_federated_graph/directive_definitions.rs"]}
{"id": "C82", "title": "The selections of @key, @requires and @provides are checked against the subgraph", "statement": "Before it composes, the composition reports every field, argument, literal and type condition in the selections of @key, @requires and @provides which is not valid on the type it is selected on, with each missing required argument, and directives anywhere in @provides; it reports nothing for valid selections, goes on only when all selections are valid, and does not panic.", "quantifier": "for all schemas of a subgraph, all definitions and all selections of any depth with any literals", "why_tests_cant": "selections and literals nest without bound, and each level may be wrong in its own way", "anchors": ["crates/graphql-composition/src/validate/selection.rs", "crates/graphql-composition/src/subgraphs/keys.rs", "crates/graphql-composition/src/subgraphs/fields.rs"]}
{"id": "C83", "title": "An object of a subgraph response is read with the shape of the type it tells", "statement": "An object of a subgraph response at a place of an interface or union type is read with the concrete shape for the type its __typename names, or the fallback shape if there is none for that type, wherever __typename stands among its entries: each requested field has the value found under the key it was asked for with, an optional field that is missing is null, requested __typename fields have the name of the type, and the fields are in the order of their response keys. The value read does not depend on the order of the entries of objects.", "quantifier": "for all JSON values with distinct keys per object and a text as __typename, all nestings of leaf, list, concrete and polymorphic shapes, all schemas (names of types), and whether the value is read from the text or from memory", "why_tests_cant": "The order of entries, where __typename stands, the nesting of shapes and the offset into the expected fields combine without bound; test subgraphs answer in the order of the selection, so entries before __typename (which are kept in memory and replayed) are hardly ever exercised.", "anchors": ["crates/engine/src/response/write/deserialize/object/polymorphic.rs:87-205", "crates/engine/src/response/write/deserialize/object/polymorphic.rs:327-371", "crates/engine/src/response/write/deserialize/object/fields.rs:106-174", "crates/engine/src/response/write/deserialize/object/fields.rs:297-419", "crates/engine/src/response/write/deserialize/object/concrete.rs:73-164", "crates/engine/src/response/write/deserialize/key.rs:1-60"]}
{"id": "C84", "title": "Derived entities have the values of the fields they are derived from", "statement": "While an object of a subgraph response is read, an entity derived from its fields is null if it may be and none of those fields has a value, and otherwise a new object with exactly the values of the fields it is derived from and the name of its type, in the order of keys; a list of entities derived from a list has an entity for each item, null for null; each new object is made known to the plans that need it under its path; errors of the query and missing or unexpected sources are reported once each, and nulls are put where the schema lets them be. The reading does not panic.", "quantifier": "for all shapes of derived entities with distinct keys, all sorted tables of errors of the query, all fields of the source object, all lists of items and all states of the response part", "why_tests_cant": "The combinations of null, unexpected, missing, hidden and given source fields with nullable and required derived fields, asked for or not, singly and in lists, are far more than the few composite-schema test cases, which use neither lists of integers nor denied key fields.", "anchors": ["crates/engine/src/response/write/deserialize/object/derive.rs:23-391", "crates/engine/src/response/write/deserialize/object/fields.rs:423-577", "crates/engine/src/response/write/deserialize/field.rs:32-63", "crates/engine/src/response/write/part.rs:49-71", "crates/engine/src/response/data.rs:243-303"]}
{"id": "C85", "title": "Requests to subgraphs are signed as configured", "statement": "A request to a subgraph is signed just when signing is enabled by the settings of the subgraph, or by those of the gateway where the subgraph has none; with the key those settings name, of the algorithm they ask for; the signature covers the headers which are not left out and the configured derived components, tells the identifier of the key, and expires as configured. The gateway starts just when every key that is needed can be loaded.", "quantifier": "for all settings of the gateway and the subgraphs, all files and keys, all headers of requests and all behaviours of the libraries which read keys and make signatures", "why_tests_cant": "The settings merge field by field over eight fields, keys have eight kinds of sources and encodings, and the headers of requests are unbounded; the tests sign one request with each kind of key and never use the lists of headers with more than a few names.", "anchors": ["crates/runtime-local/src/fetch/signing.rs:27-243", "crates/runtime-local/src/fetch/signing.rs:251-308", "crates/runtime-local/src/fetch/signing.rs:355-435", "crates/runtime-local/src/fetch.rs:87-235", "crates/gateway-config/src/message_signatures.rs:60-84"]}
{"id": "C86", "title": "Documents and graphs are read from their own places in the object storage", "statement": "A trusted document is read from the place in the object storage of the gateway's branch, the client that asks and the identifier of the document, and a graph from that of its name, branch and version: other branches, clients, identifiers or versions are read from other places, and what the storage reads of each segment of the path is the name that was given.", "quantifier": "for all branches, names of clients, identifiers of documents and references to graphs, as strings of any characters", "why_tests_cant": "The names of clients and the identifiers of documents come from the headers and bodies of requests, so they are unbounded strings of any characters; the tests build the URLs of three documents.", "anchors": ["crates/federated-server/src/engine/trusted_documents_client.rs:113-118", "crates/federated-server/src/graph/loader/object_storage.rs:122-145"]}
{"id": "C87", "title": "Sites reach the gateway and read its responses as the settings of cross-origin requests allow", "statement": "A browser lets a site read a response, or send a request which is not simple, just when the settings allow its origin, its method and its headers, and credentials where these are sent; an origin is allowed when it is listed or meets a pattern of the list, or when all are; without settings everything but credentials is allowed. The gateway starts with all settings which can be read, and the service is never called for preflight requests.", "quantifier": "for all settings, all origins, methods and names of headers of requests, with and without credentials, and all matchers of patterns", "why_tests_cant": "What is allowed depends on five settings, each absent, a list of any length or everything, on what browsers make of the headers, and on origins which are unbounded strings; the tests use lists of one or two names and compare headers, not what browsers do with them.", "anchors": ["crates/federated-server/src/router/layers/cors.rs:23-126", "crates/gateway-config/src/cors.rs:6-144", "crates/federated-server/src/router/mod.rs:59-80"]}
{"id": "C88", "title": "Arguments stay where templates of directives put them", "statement": "A template of an argument of an extension directive is rendered from the arguments of a field: each escaped tag writes the value its name leads to, in a JSON template as JSON text which reads back as just that value, in a URL template as text without any character that has a meaning in URLs and which reads back as the string, or as JSON of the value. Everything else that is written is text of the template, sections write their contents once for each element of a list, and an argument of a client changes neither the structure of a JSON body nor the path or query of a URL.", "quantifier": "for all templates of texts, fields and sections, of any nesting, and all arguments: strings of any characters, numbers, lists and objects of any depth", "why_tests_cant": "What could break out of its place is one character among all of Unicode at any depth of a value, or a combination of contents of nested sections; tests try a few strings with quotes and slashes, while that written text reads back as the value, and that nothing else is written, has to hold for every string and every template.", "anchors": ["crates/engine/src/prepare/cached/extension/template.rs:1-104", "crates/engine/src/prepare/cached/extension/query.rs:55-70", "crates/engine/schema/src/template.rs:1-40"]}
{"id": "C89", "title": "HTTP responses say what became of GraphQL requests", "statement": "The status of an HTTP response follows the GraphQL-over-HTTP specification: with application/graphql-response+json it is 200 just when the body has data, even null, and 4xx or 5xx, the most helpful of the statuses of the errors, otherwise; with application/json and streams well-formed requests get 200, and refused requests the status and headers they are refused with. A batch has the status of the first mistake of the client, else of the last failure. All errors of an executed response are written, each error of the query once for each part of the response, and errors are written whenever there are any; every error has a code; telemetry counts them.", "quantifier": "for all responses, errors and codes in any number and order, all sequences of parts and errors pushed to them, all formats, headers, batches and streams of any length", "why_tests_cant": "The status depends on the set of codes of errors (2^17 of them) and the order of counting, errors are counted in 16 bits by code, and are deduplicated within parts while the response is executed; tests have few errors of one or two codes, and never the 65536 at which counts wrap.", "anchors": ["crates/engine/error/src/code.rs:1-125", "crates/engine/src/graphql_over_http/response.rs:24-273", "crates/engine/src/response/error.rs:1-114", "crates/engine/src/response/mod.rs:25-235", "crates/engine/src/response/read/ser/mod.rs:1-107", "crates/engine/src/response/read/ser/errors.rs:1-201", "crates/telemetry/src/graphql.rs:95-150"]}
{"id": "C90", "title": "A running gateway serves the newest graph and configuration", "statement": "The first engine is built from the first graph and the newest configuration before it. Whatever the order in which updates arrive and reloads end, fail or are aborted, the engine in service was built from the graph and the configuration in force after some of the updates; after an update it is the one of all updates as soon as its reload ends well, and the previous one until then or if it fails. Changes of the configuration become updates, changes of the file with the graph are sent, and changed limits of rates stay in force.", "quantifier": "for all sequences of updates, ends, failures and aborts of reloads; all sequences of changes and polls of the channel of configurations; all lives of the file with the graph, failures of the file system and polls; all sequences of engines built and events of the file with the configuration", "why_tests_cant": "Reloads race with updates, aborts with the last poll of a task, and the poller of the file with its writers; tests run one update at a time and wait for it, so they never see a lost first change, a stale engine or limits that go back when the next graph arrives.", "anchors": ["crates/federated-server/src/engine/reloader.rs:50-151", "crates/federated-server/src/serve/mod.rs:66-154", "crates/federated-server/src/hot_reload.rs:33-119", "crates/federated-server/src/graph/loader/mod.rs:45-106", "crates/federated-server/src/graph/loader/schema_file.rs:24-127", "crates/federated-server/src/engine/runtime.rs:44-79", "crates/runtime-local/src/rate_limiting/in_memory/key_based.rs:53-86", "gateway/src/main.rs:86-95"]}
{"id": "C91", "title": "What a configuration file says is what is loaded", "statement": "Loading a configuration replaces every string, at its place, by its expansion with the environment and leaves keys, other values and the structure alone; it fails exactly when some string cannot be expanded, and tells the place and error of the first one. The path of the file and the paths of schemas, extensions and of the cache of compiled modules in a loaded configuration are absolute, and lead where they lead from the directory of the file; loading does not panic; a hot reload of the same file gives the same configuration.", "quantifier": "for all TOML values of any depth, environments, texts with any number of placeholders, paths, directories, file systems and configurations", "why_tests_cant": "Places and errors depend on the order and nesting of all strings of a file, paths on where the file is, where the process runs and which fields are relative; tests load a handful of small files from absolute temporary directories.", "anchors": ["crates/gateway-config/src/lib.rs:62-168", "crates/gateway-config/src/lib.rs:221-270", "crates/federated-server/src/hot_reload.rs:79-100", "crates/serde-dynamic-string/src/lib.rs:36-98"]}
{"id": "C92", "title": "The extensions loaded are those the configuration and the schema ask for", "statement": "The catalog of extensions has one extension for each key of the configuration, in the order of the keys, whose manifest has that name. It is loaded from the path in the configuration or, without one, from the directory with the highest version which meets the requirement of the configuration, whatever the order in which the directory is read; its version meets that requirement. Each extension of the schema is matched with the one which has the same manifest, is associated with its URL, or has the name and a version compatible with that of its URL, and the schema is refused exactly when there is none. The name in a URL is the one the composition reads, and the text of an identifier is read as that identifier.", "quantifier": "for every file system, configuration, catalog, list of extensions of a schema and URL, and every interpretation of versions which is totally ordered with one text for each", "why_tests_cant": "Which directory is taken depends on all the entries and the order of versions, and a lookup on all the extensions before; tests use one or two directories (one of them loads an extension whose version does not meet the requirement).", "anchors": ["crates/federated-server/src/extensions.rs:28-177", "crates/extension-catalog/src/catalog.rs:21-72", "crates/extension/src/id.rs:3-36", "crates/engine/schema/src/builder/sdl/link_directive.rs:40-85", "crates/engine/schema/src/builder/extension/mod.rs:55-145"]}
{"id": "C93", "title": "A stream of responses gives what was sent and ends after the future behind it", "statement": "The stream made of the receiving side of a channel and the future which sends gives the responses sent, all of them and in order, whichever of the two is polled first; it ends if the future does; and the future, which records metrics and telemetry at its end, has ended when the stream does. The first response of a subscription has the extensions and only that one. A stream of events has one event for each payload and one for the end.", "quantifier": "for every future (any number of polls and responses in each), every choice of what is polled first in each poll, every list of responses and of payloads", "why_tests_cant": "What is polled first is random and how many polls the work in the background takes depends on caches and the network; tests see some interleavings and do not look at what is recorded.", "anchors": ["crates/engine/src/utils/stream.rs:26-72", "crates/engine/src/execution/request/stream.rs:32-215", "crates/engine/src/execution/operation/coordinator.rs:54-79", "crates/engine/src/graphql_over_http/response/stream.rs:70-105"]}
{"id": "C94", "title": "Batches are answered in order and the gateway tells about itself only to whom it may", "statement": "The requests of a batch are executed one after another if the settings allow the batch and answered in their order, as when they are sent on their own; a batch which is not allowed is refused and nothing of it is executed, also when it takes too long. Every operation executed counts for the limit of requests and is reported. A response is sent within the time allowed. The trace id and the query plan are only told to requests which have a header of a rule, and not where a rule denies it.", "quantifier": "for all settings, rules, headers, lists of requests, worlds (what preparing, executing and limiting do and how long they take) and arrivals of requests", "why_tests_cant": "How long requests take and at which of them the time is up depends on subgraphs; tests use small batches without timeouts and single headers.", "anchors": ["crates/engine/src/execution/request/well_formed_graphql_request.rs:20-136", "crates/engine/src/execution/request/response_extension.rs:11-57", "crates/engine/src/execution/request/mod.rs:31-182", "crates/engine/src/engine.rs:258-290", "crates/engine/src/execution/request/single.rs:67-97"]}
{"id": "C95", "title": "The linter reports each name and use of a directive which breaks a convention, once, and a fix which is accepted", "statement": "The linter of schemas reports exactly the names of types, fields, arguments, values and directives which are not in their case, the prefixes and suffixes which repeat what a type or operation is, and the uses of @deprecated without a reason; each of them once; a name replaced by the one proposed is not reported again; and a schema without such names has no warnings.", "quantifier": "for every document (definitions and extensions in any order and number) and every conversion of case", "why_tests_cant": "Names and the places they occur in are without number; the test of the crate is one document with one case for each message.", "anchors": ["crates/graphql-lint/src/lib.rs:30-124", "crates/graphql-lint/src/lib.rs:125-278", "crates/graphql-lint/src/lib.rs:280-452"]}
{"id": "C96", "title": "Clients which share a subscription of an extension get what it gives since they came, and the subscription is dropped once", "statement": "Clients whose subscription has the same key share one subscription of the extension they asked: each of them gets, in order, what the extension gives after the client came, or is told that something was lost, which happens only if the channel is full; then its stream ends. There is one task for a key; a task removes only its own key; it drops the subscription in the extension exactly once, when it ends, and that is when the extension ends it, fails, or no client is left. An error of the extension is told to all clients.", "quantifier": "for every interleaving of clients which come, go and poll, of what the extensions give and of the steps of the tasks, and every capacity of the channel", "why_tests_cant": "What matters happens between two steps of a task, when a client comes or goes just then; tests do not control the scheduler and use one extension.", "anchors": ["crates/wasi-component-loader/src/extension/runtime/resolver/subscription/dedup.rs:28-124", "crates/wasi-component-loader/src/extension/runtime/resolver/mod.rs:120-175", "crates/wasi-component-loader/src/extension/collection/engine.rs:125-139"]}
{"id": "C97", "title": "The cache of extensions has each value made once and gives it to all who wait", "statement": "`get` gives the latest value set for the key which is not too old; a caller is told that there is none only if there is none, and then nobody else is until the value is set or five seconds are over; the others wait and get the value when it is set; a wait ends after five seconds; keys do not interfere and a list is removed only by those who waited in it.", "quantifier": "for every interleaving of any number of callers of get and set, all keys, values, times to live and passing of time", "why_tests_cant": "Steps of callers between the cache and the wait lists interleave freely; the cases that lose a value last microseconds.", "anchors": ["crates/wasi-component-loader/src/cache.rs:28-84", "crates/wasi-component-loader/src/cache.rs:84-101", "crates/wasi-component-loader/src/cache.rs:103-139"]}
{"id": "C98", "title": "Lines logged by extensions reach their file in order, and dropping a logger waits for them", "statement": "Lines sent to a file logger are written in the order they were sent, each once, unless a write fails; extensions which open the same path share one logger and others do not interfere; when `graceful_shutdown` returns all lines sent before it are written and flushed, and it does return; dropping the last resource for a file shuts its logger down in this way.", "quantifier": "for every interleaving of any number of extensions, resources, paths, lines, failing writes and turns of the writing task", "why_tests_cant": "What is still in the channel when a call returns depends on the scheduling of the task; tests read the file after a pause.", "anchors": ["crates/wasi-component-loader/src/resources/file_logger.rs:42-90", "crates/wasi-component-loader/src/resources/file_logger.rs:109-122", "crates/wasi-component-loader/src/extension/api/since_0_19_0/wit/logger.rs:14-60"]}
{"id": "C99", "title": "Each request is served by the engine of its own contract, made once, and failures are not kept", "statement": "A request with a contract key gets only an engine made by the extension for this key; at most one request at a time makes it while the others wait; while it is in the cache nobody makes it; a failure or a dropped request leaves nothing behind and lets the next one try; engines of different contracts, and different schemas, have different hashes, so that cached operations are not mixed up.", "quantifier": "for every interleaving of any number of requests and contracts, all results of the extension, dropped requests and evictions", "why_tests_cant": "Needs requests dropped or failing between the steps of making an engine, and evictions between them.", "anchors": ["crates/engine/src/engine.rs:139-169", "crates/engine/src/engine.rs:70-90", "crates/engine/schema/src/lib.rs:103-108"]}
{"id": "C100", "title": "A subscription of an extension which is not shared gives its items in order and ends with it", "statement": "A client gets the items of the extension in order, each once, up to the end or up to an error and with it; the stream ends then and the extension is not asked again; the subscription is dropped once and the instance used again only if it is in order; if the client leaves before it is not used again.", "quantifier": "for all answers of the extension (items one by one or together, end, errors, traps), any number of polls and both versions of the interface", "why_tests_cant": "Tests end their subscriptions in order; what follows errors and traps is not looked at.", "anchors": ["crates/wasi-component-loader/src/extension/runtime/resolver/subscription/unique.rs:19-66", "crates/wasi-component-loader/src/extension/runtime/subscription/unique.rs:22-77", "crates/wasi-component-loader/src/extension/pool.rs:118-139"]}
{"id": "C101", "title": "An access token is accepted exactly if it can be sent, without the space around it", "statement": "The token is the given text without the white space around it; it is refused as empty exactly if there is nothing else, and as invalid exactly if it has control characters other than the tab; with an accepted token the header `Bearer <token>` can always be made; the variable of the environment gives a token or an error whenever it is set.", "quantifier": "for all strings and all values of the variable", "why_tests_cant": "All code points, with all of Unicode's white space and the bytes of their encoding.", "anchors": ["crates/federated-server/src/access_token.rs:20-39", "crates/federated-server/src/access_token.rs:42-59"]}
