# Formal model of the Grafbase gateway: design

The source under study is `/repo` (Rust, pinned commit). Nothing there is built or run; every
definition in `lean/Verif/**/Model.lean` is a hand transcription of a function in `/repo` and cites
file and lines. Paths below are relative to `/repo/crates` unless they start with `lean/`.

## 1. Method

* One directory per subject under `lean/Verif/`. `Model.lean` transcribes code; `Spec.lean` (or the
  first section of `Props.lean`) contains the independent specification; `Lemmas.lean` has helper
  lemmas; `Props.lean` contains the property theorems named in `MANIFEST.json` and, beside each,
  `example`s showing that its hypotheses are met by a concrete non-trivial case.
* Machine integers are `BitVec n`/`UIntN` or `Nat` with explicit wrap-around where the code can
  overflow (the release profile, `Cargo.toml` 311-315, has no `overflow-checks`, so arithmetic wraps).
  Panics (`assert!`, indexing, `Duration` underflow, ...) are explicit `none`/error results.
* Iterators are lists; `HashMap`/`IndexMap` are association lists or functions; sorted vectors are
  lists with a sortedness hypothesis established by the constructing function where we model it.
* Concurrency is a transition system: a state, a step relation with one constructor per atomic
  section of the code, and invariants proved by induction over all traces.
* Where a property turns out false of the code as written we prove the negation on a concrete
  witness (theorem suffix `_counterexample` / `_false`), and prove the strongest statement that does
  hold, with suffix `_partial` when it falls short of the listed property. All such
  disagreements are listed in section 4.

## 2. Trusted base

* Lean 4.33.0 kernel; the axioms `propext`, `Quot.sound`, `Classical.choice` (a theorem depends on
  a subset of those).
* The transcription from Rust to Lean (by hand), and the stated behaviour of external crates
  (`http::HeaderMap`, `serde_json`, `petgraph`, `governor`, `blake3`, `tokio`, `regex`, ...).
* No axioms of our own, no `sorry`, no `native_decide`/`bv_decide`.

## 3. Per-property plan

| id | what is modelled | how it is proved |
|----|------------------|------------------|
| C01 | `Wrapping(u16)` with masks and shifts as `BitVec 16`, `set_list_length` assertion as `Option`; `MutableWrapping` | Representation relation to `(Bool × List ListWrapping)`; each operation refines the abstract one; induction over builder calls. Rendering compared to an independent grammar of GraphQL types |
| C02 | `is_equal_or_more_lenient_than` over the same words | Independent semantics: set of values admitted by a wrapper list; equivalence by induction on the list |
| C03 | `FieldType::compose*` including `Zip`/`Peekable` consumption of `&mut` iterators | Iterators modelled as lists with explicit consumption; join/meet proved for equal depth, negation for depth mismatch, order independence of the fold |
| C04 | `WrappingTypes(u64)` as `BitVec 64` | Refinement to lists up to 57 levels, semantics as in C02; negation at level 58 |
| C05 | limits visitor over selection trees + fragment table | Spec is the expansion of the operation as a tree; mutual induction with fuel eliminated by an acyclicity argument |
| C06 | complexity computation on bound fields, wrapping `usize` | Spec over `Nat`; equality when no overflow, negation with a witness |
| C07 | variable coercion of JSON to typed values | Conformance predicate by recursion on types; induction on the value |
| C08 | `can_coerce_to_int` and casts, floats as exact dyadic rationals | decision logic; negations on boundary values |
| C09 | `are_type_compatibles`, variable default handling | semantics as in C02 |
| C10 | response tree, `propagate_null`, `make_inaccessible` | invariant by induction over events; projection of the response to JSON |
| C11 | `merge_with_default_object` on key-sorted lists | negation with witness; partial under the condition that makes the loop right |
| C12 | execution state with parent counters | invariant over traces of start/complete/fail events; progress by well-founded argument |
| C13 | `ensure_mutation_execution_order` loop | negation with witness `A,B,A,A`; partial theorem when no resolver recurs after an interruption |
| C14 | skip/include evaluation in `query_modifications` | evaluation equals the spec by induction on the selection |
| C15 | header rules as a small interpreter over a multimap | invariant over rule lists, negations for the two leaking rules |
| C16 | `extract_operation_document` | decision logic, case analysis over all inputs |
| C17 | cache key bytes | injectivity by uniqueness of parsing; negations for empty / NUL names |
| C18 | `RequestKey` equality/hash | negation with witness; partial with lengths fixed |
| C19 | in-flight map protocol | transition system, invariant |
| C20 | quota computation and GCRA | window bound by induction on arrivals; negation for fail-open |
| C21 | Redis two-window limiter | sequential invariant; negation for a concurrent schedule |
| C22 | `calculate_cache_ttl` | decision logic; negation for `age > max-age` |
| C23 | key bytes for responses and entities | injectivity proof; negation for entity keys (selection not in key) |
| C24 | root-field fetch through the cache | history semantics; negation with witness; partial for caching disabled |
| C25 | retry loop and budgets | induction over outcome streams |
| C26 | rotation over an abstract file system | invariant over write sequences; negation for equal timestamps |
| C27 | parser / display over `List Char` | round trip by list induction |
| C28 | substitution over `List Char` | independent segment spec |
| C29 | path parser/display | round trip; negation for non-ASCII panic |
| C30 | sorted diff list + binary search | correctness of the search; negation of the comparator mismatch |
| C31 | argument rule over two schemas | negation with witness; partial when positions coincide |
| C32 | usage aggregation | negation for fragment spread/weights; equality on the remainder |
| C33 | enum merge | set semantics, negation for order if applicable |
| C34 | input object merge | set semantics |
| C35 | CSRF layer | decision logic |
| C36 | Accept negotiation | maximality over lists; negations for q=0 |
| C37 | type-condition partition | invariants of the splitting loop; partition equation |
| C38 | positions packed in u32/u16 words + sort at serialisation | order theorem |
| C39 | id packing | bit-vector round trip |
| C40 | bit set over words | refinement to a set |
| C41 | sanitiser over query AST | two-run induction |
| C42 | normaliser over query AST | idempotence; permutation invariance negations |
| C43 | warming arithmetic | negation; partial for 100% |
| C44 | pool state machine | invariant over traces |
| C45 | ordered futures queue | refinement to a FIFO |
| C46 | modifier grouping | list lemma on chunking a sorted list |
| C47 | dedup map state machine | negation with a trace; partial without failures |
| C48 | GET check on cached and uncached path | decision logic |
| C49 | key generation loop | freshness by induction |
| C50 | response modifier application | invariant over decision vectors |
| C51 | selections merged into query fields of the solution space | spec: selections of one response key; induction over selection sets |
| C52 | `IdRange` and its iterators | spec: the interval as a set; arithmetic |
| C53 | `IdToMany` builders and lookups | spec: the relation as a list of pairs; lemmas on sorted lists |
| C54 | the differ of two schemas | spec: membership in the two schemas; exact characterisation of every kind of change |
| C55 | rules of operation checks for fields, members, enum values and input objects | exact behaviour of each rule; search for used input types terminates and is exact |
| C56 | coercion of literals and arguments of operations | inductive reading of the GraphQL rules; equivalence, then values and types |
| C57 | possible types, intersections and planning through implementors | spec: which objects implement; sorted tables; exact condition for the loop |
| C58 | variables of subgraph operations | names, types and values against the arguments; list lemmas |
| C59 | selection sets sent to subgraphs | spec: wanted and requested paths; mutual induction over plans |
| C60 | modifications of a plan by skip, include and authorization | spec: which fields are shown, denied and requested; invariant over all decisions |
| C61 | splitting of partitions that depend on themselves | invariants of the traversal; termination; cycles left over as witnesses |
| C62 | growth of the Steiner tree | invariants over every order of saturation: tree, minimality, progress, termination |
| C63 | updates of requirements and weights by the solver | fixed point of the updates; soundness, completeness and termination |
| C64 | the input of the solver and the edges of its solution | spec: what a plan is; invariants of the solver of C62 and C63 |
| C65 | deep merge of response objects | spec: the union of answers; induction on values |
| C66 | the query graph built from a solution | spec: the tree of the plan with its requirements; induction over the traversal |
| C67 | the solution space | spec: all the ways to get a field; soundness and completeness |
| C68 | representations and entities of a federated fetch | positions in lists and contents of the cache; exact for good answers |
| C69 | which subgraphs are joined to a field | spec: who defines, overrides and provides; exact characterisation |
| C70 | hiding of inaccessible elements | spec: the least set closed under the rules; exact characterisation |
| C71 | schemas of contracts | spec: the strongest answer for an element; exact characterisation with C70 |
| C72 | views of the response | spec: the fields written and read; mutual induction, non-interference |
| C73 | values injected into arguments | spec: values of a field selection map and of a type; mutual induction |
| C74 | keys detected for arguments | spec: leaf paths of the key and typed arguments; induction over selections |
| C75 | binding of operations | relation between documents and bound operations; mutual induction |
| C76 | connections of graphql-transport-ws | state machine with tasks; invariants over all runs |
| C77 | validation of schema documents | spec: the rules of the specification; equivalence rule by rule |
| C78 | texts in SDL | spec: a reader of literals; round trip by induction on texts |
| C79 | leaf values of responses | decision logic for each scalar |
| C80 | links and names of directives | spec: what the links say; lookup lemmas |
| C81 | definitions of composed directives | spec: agreement of the definitions; induction on subgraphs |
| C82 | selections in directives of subgraphs | spec: fields and literals of the types; exact list of reports, mutual induction |
| C83 | reading of objects by the type they tell | independent reading of JSON by shape; equality by mutual induction |
| C84 | derived entities | values and errors of the fields they are derived from; exact for all states |
| C85 | signing of requests | settings, keys and signatures exactly; negations with witnesses |
| C86 | URLs in the object storage | spec: what the url crate makes of a path; injectivity for plain names |
| C87 | CORS settings | spec: the decision for an origin; equivalence |
| C88 | templates of directives | spec: the pieces of a template; induction |
| C89 | status codes and counters of errors | spec: the errors of a response; invariants of the counters |
| C90 | reloads of graphs and configurations | state machines with an environment; invariants over traces, negations with traces |
| C91 | loading of configurations | spec: places and expansions of strings, absolute paths; mutual induction |
| C92 | loading of extensions | spec: entries of directories and order of versions; lookups in the catalog |
| C93 | streams joined with futures | state machine with a scheduler; invariants and a measure over traces |
| C94 | requests over HTTP: batches, timeouts, response extension | spec: answers one after another with time and worlds; equality, prefixes for timeouts |
| C95 | linter of schemas | spec: inductive relation of what is to be reported; equality of sets, counts, witnesses for what is not looked at |
| C96 | shared subscriptions of extensions: map, tasks, broadcast channel | interleavings as lists of actions; invariant over reachable states; spec: relation of what is sent and what is told |
| C97 | cache of extensions with wait lists | interleavings as lists of actions; invariant over reachable states; spec: latest value set, freshness |
| C98 | log files of extensions: channel, task, references, resources | interleavings as lists of actions; invariants for each call of `graceful_shutdown` and for the counts of references; spec: lines pending |
| C99 | engines of contracts: cache with guards, hash | interleavings as lists of actions; invariant over reachable states; spec: who builds, who waits; hash as parameter |
| C100 | subscriptions of extensions which are not shared, both versions | spec: items expected of the answers; any number of polls; relation for one poll, then induction |
| C101 | access token: trim, header value, environment | spec: white space as list, inner part, control characters; equivalence through UTF-8 |

None of them is deemed inexpressible. Byte-level parsing by external crates (GraphQL parser,
JSON parser, Wasm runtime) and real network/clock behaviour are outside of the model.

## 4. Disagreements between code and property
* **C03** Types of different list depth are composed when one iterator is exhausted exactly one step later (`zip` of `&mut` iterators drops an item, field_types.rs:38-50); the result depends on the order of the subgraphs. `C03_output_depth_mismatch_accepted`, `C03_order_dependent_when_depth_differs`.
* **C04** `push_list` guards with `> 57` instead of `>= 57` (wrapping_types.rs:145): the 58th list level overwrites the inner non-null bit. `C04_deep_list_corrupts_inner`, `C04_deep_list_renders_wrong`.
* **C06** `usize` arithmetic wraps in release: `{ a(first: 2^30) { b(first: 2^30-1) { c(first: 2^30) { x } } } }` costs 2^90 and is accepted with computed cost 0 whatever the limit. `C06_overflow`. Also the default list size is truncated to 32 bits (line 222), and slicing arguments that are declared but absent use the default size even when `assumedSize` is given (line 245).
* **C22** `calculate_cache_ttl` (cache.rs:42) subtracts durations unchecked: `Cache-Control: max-age=10` with `Age: 11` panics the request (`C22_crash`).
* **C23** `fetch_entities` (cache.rs:107-115) keys an entity by subgraph, headers and representation, not by the selection; a query selecting other fields of the same entity is answered with the data stored for the first one (`C23_entity_counterexample`).
* **C24** `GraphqlResolver::execute` (root_fields.rs:125) uses the response cache whenever the subgraph has a cache TTL, also for mutations; the second of two identical mutations within the TTL is not sent (`C24_counterexample`).
* **C22** `entity_caching.enabled = false` on a subgraph is undone by `.or(default_cache_ttl)` (builder/subgraphs.rs:85-93) when caching is enabled globally; and `enabled = true` without a `ttl` does nothing when it is disabled globally, although the ttl is documented to default to the global one (`C22_subgraph_disable_ignored`).
* **C25** `retry.enabled` of a subgraph is never read (builder/subgraphs.rs:84): `retry = { enabled = false }` on a subgraph gives it a retry budget (`C25_subgraph_disable_ignored`).
* **C13** `ensure_mutation_execution_order` (query-solver post_process/mutation_order.rs:53-86) lacks a `continue` after moving a field to the last partition; for root fields on subgraphs A, B, A, A the last field is added to two partitions and executed twice (`C13_counterexample`).
* **C15** `handle_forward` (header_rule.rs:103-112) checks the matched name but not the new name of a pattern rule, and `handle_rename_duplicate` (lines 43-55) checks only the new name: both can send `host` and the other denied headers (`C15_pattern_counterexample`, `C15_duplicate_counterexample`).
* **C17** False for operation names. `engine/cache.rs:68-131` hashes an absent operation name as the empty string, so a request with `operationName: ""` (which is refused on its own) executes the plan cached for a request without a name (`Verif.Documents.C17_empty_name_counterexample`). Names are separated from the rest by a NUL byte and are not length-prefixed, so a name that contains NUL makes two different documents share a key (`C17_nul_counterexample`). Proved for names without NUL, up to absent = empty.
* **C16** With a NUL byte in the operation name, and a document id that contains NUL bytes in the store, a request can be given the cached document of another client (`Verif.Documents.C16_nul_counterexample`). It is still a document of the store (`C16_from_store`). Proved for operation names without NUL.
* **C18** False for headers. `traffic_shaping.rs:136-142` concatenates header name and value without a separator, so a request with header `x: -ab` and one with `x-a: b` (everything else equal) have equal keys and share one response (`Verif.InFlight.C18_counterexample`). Proved when no header name is a proper prefix of another.
* **C20** False for limits below one request per second: `key_based.rs:90-103` computes `limit / duration.as_secs()` with integer division and creates no limiter when that is 0 (or when the duration is below one second), so such a limit is not enforced at all (`Verif.RateLimit.C20_low_limit_counterexample`). A duration with a fraction is truncated, so 10 per 1.9 s admits 28 in 1.9 s (`C20_fraction_counterexample`). `as u32` makes a quota of 2^32 per second no limit (`C20_wrap_counterexample`).
* **C21** False under races: the check reads the counters and the increment is a separate later step, so concurrent requests are all admitted (`Verif.RateLimit.C21_race_counterexample`); the excess is bounded by the outstanding increments (`C21_concurrent`). With a duration below one second the expiry is `0` and nothing is ever refused (`C21_subsecond_counterexample`). A zero duration panics (`C21_zero_duration_counterexample`).
* **C26** rolling-logger/src/lib.rs:69-80: the rotated file is named after the millisecond its predecessor was created in and `rename` replaces an existing file, so two rotations of files created in the same millisecond (rotation by size, small limit, or a clock that goes back) lose the first of them. `C26_size_counterexample`, `C26_clock_counterexample`.
* **C36** engine/src/graphql_over_http/format.rs:126-168: `application/json;q=0` is answered with JSON, also together with `*/*`; a quality that parses as NaN is larger than 1 (`total_cmp`). `C36_excluded_counterexample`, `C36_wildcard_counterexample`, `C36_nan_counterexample`.
* **C43** federated-server/src/engine/reloader.rs:190-195: `warming_percent as usize / 100` is 0 for every percentage below 100, so nothing is warmed. `C43_never_warms`, `C43_wrong_iff`.
* **C44** wasi-component-loader/src/extension/runtime/resolver/subscription/{unique,dedup}.rs: after a failed call, `drop_subscription` is called on the poisoned instance; if that succeeds the flag is cleared and the instance is recycled. Whether it can succeed is up to wasmtime. The older subscription path never sets `recyclable` again, so healthy instances are discarded. `C44_reuse_counterexample`, `C44_healthy_counterexample`.
* **C11** `merge_with_default_object` (`merge.rs:63-68`) pushes the defaults left over when the existing fields are exhausted under the variable `key`, which still is the key of the previous default. With two or more defaults after the last existing key, that key is stored several times and the others are missing (`C11_false`; the condition is exact by `C11_filled_iff`). Also, defaults are sorted before `@skip`/`@include` hide some of them, so a hidden default may be added although present (`C11_hidden_default_duplicated`).
* **C39** `with_filtered_response_objects` (`object_set.rs:60-104`) checks the number of indices it kept, not the largest index: with more than 2^24 references of which few match, the object index runs into the set bits and denotes another object (`C39_filtered_alias`). `new_part` (`data.rs:34`) truncates to `u16`; the wrap is detected only because the root part is never empty, a part without objects or lists can be replaced silently in the meantime (`C39_parts_alias`).
* **C14** `@skip`/`@include` on repeated selections: query fields with the same response key but different directives stay separate (`operation_fields.rs:282-289`), but the object shape keeps one field per response key and takes the condition of the first one only (`shapes/mod.rs:349-389`, `shape/field.rs:66-76`). `{ a @skip(if: true) a }` therefore shows no `a` (`Verif.Collect.C14_false`), and `{ a { x } a @skip(if: true) { y } }` shows `y` (as null, or an error if required) in `a` (`Verif.Collect.C14_false_shown`).
* **C51** No validation rejects selections that cannot be merged. `{ a: x a: y }` silently answers `x` (`Verif.Collect.C51_false_definitions`: the search of `operation_fields.rs:252-290` compares arguments only if the definitions are the same, and merges otherwise). Different arguments are only noticed under the same parent node, so a different directive on the parent hides the conflict (`Verif.Collect.C51_false_arguments`).
* **C46** `query_modifications.rs:147-157` hands *all* the records to the authorization extensions and hits `unreachable!` on the native (`@skip`/`@include`) ones, which `QueryModifiers::build` keeps at the start of the same vector (`modifiers.rs:339-422`). So any operation with a `@skip`/`@include` that also touches a field with a query authorization directive panics: `C46_false`, `C46_panics_iff`. Everything else holds (`C46_groups`, `C46_delivered_partial`, `C46_rules_partial`).
* **C37** When each type condition of a field meets the output type but their conjunction is empty (`... on X { ... on Y { f } }` with X∩Y∩output = ∅) and no other field applies, `partition_object_shapes` gives no partition and `shapes/mod.rs:673-690` then uses a concrete shape with all the fields for every type, instead of no field. `C37_false` is the witness; `C37_exact_partial` excludes exactly this case.
* **C52** `IdRange::get` computes `start + i` without overflow check (`range.rs:43`), so in a release build `get(usize::MAX - start + 1)` is `Some(0)` for every non-empty range with `0 < start`. `C52_get_false`; no caller passes such a position.
* **C29** The position of `[` in a segment counts characters but is used as a byte offset (path/parse.rs parse_name_and_optional_index), so `é[0]` panics. Witness: C29_false. Also two texts can be read as one path (`a[+3]`, `a[03]`).
* **C30** `is_interface_impl_removed` binary-searches by the interface name without `&` in a list sorted with `&`; a changed member whose name sorts before the interface hides the removal (changes X.&b and X.a: removal of b from X not found), so the patched schema keeps the interface. Witness: C30_false.
* **C54** Directive and type definitions share one map keyed by bare name: a valid schema with a directive and an object type of the same name makes the differ hit `unreachable!()` (C54_false_crash). A type extension overwrites the interfaces recorded for its base type, so losing an interface is not reported (C54_false_interfaces). All schema extensions are reported under index 0 (C54_extensions_partial).
* **C31** `change_field_argument_type` (check/rules.rs:158-159) looks the argument up in the source schema twice and indexes the *target* table with the source id. When arguments were added or removed before it, an unrelated argument is compared: breaking changes are missed (`C31_other_position_missed`), harmless ones reported (`C31_other_position_spurious`), and the index can be out of range (`C31_other_position_panics`).
* **C31** The tables hold no arguments of interface fields (schema/async_graphql.rs:71-90): removing a provided one is not reported (`C31_interface_argument_missed`), and adding one to a selected field hits the `expect` of check/rules.rs:90 (`C31_interface_argument_panics`).
* **C31** An argument that becomes required while its base type changes is only reported if it is provided (`C31_required_and_changed_missed`); inner nulls newly rejected by a type with a default are not reported (`C31_inner_null_missed`).
* **C32** `iter_field_arguments` (schema.rs:73-77) partitions by `type < t && field < f`, which is not the order of the table: arguments left out are not recorded when an argument of an earlier field of the type exists (`C32_left_out_hidden`).
* **C32** Not counted: arguments of interface fields (`C32_interface_argument_not_counted`), enum values inside lists (`C32_enum_in_list_not_counted`), conditions of named fragments (`C32_named_fragment_condition_not_counted`); type conditions are counted without the execution count; a fragment cycle in a recorded operation overflows the stack (`C32_cycle_overflows_stack`).
* **C55** Removing an enum value used inside a list (`C55_enum_in_list_missed`) or an implementation named only by a named fragment (`C55_named_fragment_missed`) is not reported. `add_field` does not look at the default of a new required input field.
* **C34** `a: [X]` in one subgraph and `a: X` in the next compose to `[X]` (compose_input_field_types, same cause as C03); the second subgraph rejects lists (`C34_depth_mismatch_unsound`). `a: X = null` and `a: X!` compose to `a: X! = null` because the first default is taken whatever its subgraph's type (compose/input_object.rs:80-83): an omitted field is sent as null to the subgraph that refuses it (`C34_null_default_unsound`). Input objects without a common field, and an input object with an object type of the same name, compose without an error (`C34_no_common_field_accepted`). The same missing kind comparison exists for enums (`C33_kind_not_compared`).
* **C49** Response keys of extra fields (crates/engine/query-solver/src/post_process/response_key.rs): on an interface, an extra field whose name is a field of the interface takes the key of the first field of that name in the selection set. If that field has other arguments, or if another field of the set already uses that key (`... on Dog { name: nickname }`), the subgraph query has two different fields under one key (`C49_reused_key_collides_same_field`, `C49_reused_key_collides_other_field`). Keys are also only compared within one query field's selection set, not with the selection sets the subgraph merges with it (`C49_merged_selection_sets_collide`).
* **C07** C07: `coerce_input_objet` (variable.rs:131-218) counts the members of a `@oneOf` object but does not look at their values: `{"by": null}` is accepted (`C07_oneOf_null_accepted`). `bind_variable_definitions` (bind/operation.rs:417-426) calls `list_non_null()` for a list variable with a non-null default, which adds a list level: `$x: [Int] = []` has the type `[[Int]]!` (`C07_list_default_adds_a_level`). `bind_variables` (bind/mod.rs:124-164) does not look at a default used for a `@oneOf` field, so `$x: Int = null` passes (`C07_oneOf_default_unchecked`).
* **C08** C08: `can_coerce_to_int` (variable.rs:327-329) compares with `<` and has no lower bound: `2147483647.0` is rejected (`C08_max_as_float_rejected`), `-3000000000.0` is accepted as `-2147483648` (`C08_below_min_accepted`). Integers for custom scalars go through `f64` and lose precision (`C08_custom_scalar_rounds`).
* **C42** C42: `normalize` (normalize.rs:40-56) visits fragments in the order they are written and skips those not yet marked as used. A fragment spread only in a later one is kept but not normalised, and the fragments it spreads are not marked (`C42_fragment_order`). The result is sorted by name, so that normalising it again can drop a fragment in use: `{ ...Z }` with `Z -> A -> H` (`C42_not_idempotent`). `sort_selection` compares names only and aliases are removed, so two fields of one name keep their order (`C42_same_field_order`). Defaults of variables keep their literals (`C42_default_kept`).
* **C12** A plan that finds no parent objects gets no future (`coordinator.rs:402-404`) and then nothing decrements the counters of its children, so whatever depends on it never runs although nothing failed: a response modifier (authorization) on the data of plan B that reads `owner { team }` with `team` from plan C is not executed when every `owner` is null, and B's data is returned without it (`C12_no_parent_objects`). The same happens if C fails. Separately, `finalize` makes a plan wait for the modifiers of every partition it depends on (`builder.rs:93-96`); if a modifier on partition P reads a field of partition Q and Q needs a key of P, modifier and Q wait for each other, the run ends and P's data is returned unmodified (`C12_modifier_cycle`). `split_query_partition_dependency_cycles` only looks at `RequiredBySubgraph` edges, so it does not prevent such plans.
* **C47** `runtime/subscription/dedup.rs` 56-66: the sender is put into the map before `resolve_subscription` and is left there when that fails. Every later subscriber with the key gets a stream that never yields and never ends, and no new attempt is made, whatever happens next (`C47_failed_creation`). Also 101-114: the remaining items of a batch are discarded although a subscriber may have joined before the key was removed (`C47_batch_lost`); and 88, 94, 104: a task whose registrations are closed removes the entry of a newer subscription (`C47_not_shared`). `resolver/subscription/dedup.rs` has none of these. In both, a subscriber that is more than 1024 items behind loses items and gets a lag error (`C47_lag`).
* **C10** False of the code in four ways. (1) Two plans that share a root field: the objects are merged by `recursive_merge_value` (`write/merge.rs`), which moves the fields of the new object, but `propagated_null_at` still points at the emptied object, so a null stays in a required position (`C10_merged_null`); if one side is null the merge panics with `unreachable!` (`C10_merge_panic`). (2) A duplicate key in the subgraph response defeats the check `response_fields.len() < ...` (`object/fields.rs:443-489`), so a required field is missing (`C10_duplicate_key`). (3) A deserialisation error in a nullable field is recorded there and `insert_propagated_empty_update` (`write/part.rs:123-134`) then does nothing for `PropagateNull`, so the required fields after it are missing (`C10_cut_off`). (4) A deserialisation error in a nullable list item marks an item of a list that is never written; `make_inaccessible` panics on the index (`C10_typename_panic`).
* **C50** False if two plans share an object. `recursive_merge_value` (`response/write/merge.rs`) moves the fields of the object of the second plan into the one of the first, but the references collected in the second part (`response_object_sets`) still have the id of the emptied object. A response modifier on these references hides the field in the emptied object: the error is reported, and the denied value is sent (`C50_merged_leak`). Also, `parent_objects[element_ix]` and `errors[error_ix]` (`response_modifier.rs:86-87`) panic for indices out of range given by an extension (`C50_out_of_range_panic`).
* **C56** Literals: `grid: [$v]` with `$v: Int!` is accepted for `[[Int]]` and `[3]` is sent (`C56_bare_variable`: are_type_compatibles lets a variable over an item stand for a list at any depth, nothing wraps the value when it is serialized); `{ by: null }` is accepted for a @oneOf input object (`C56_oneOf_null`); `-3e9` is accepted for Int and sent as -2147483648 (`C56_int_clamped`); `$x: [Int] = [1]` is rejected because the variable gets the type `[[Int]]!` (`C56_list_default`).
* **C57** query-solver/src/solution_space/builder/alternative.rs:206-210: in the merge of the possible types of the parent and of the interface, a common object that does not implement the interface in the subgraph leads to `continue` without advancing either index, so the loop never ends and planning the operation hangs (`C57_split_never_ends`; exact condition in `C57_split_partial`). schema/src/composite_type.rs:130-138: `is_subset_of` returns true when the superset is exhausted first, e.g. for {5} and {1} (`C57_subset_wrong`); nothing calls it at this commit. An interface that a subgraph does not have counts as fully implemented there, federation.rs:413 (`C57_interface_fully_iff`).
* **C58** The variable for entity representations is named `var{n}` with n the number of variables (prepare.rs:83), without checking the client's variables: a client variable `$var1` used alone in an entity request gives `query($var1: [_Any!]!, $var1: Int)`, rejected by the subgraph. Comparison of JSON objects checks lengths and looks up each key of the left (eq.rs:70-84, 155-166): `{a: 1, a: 1}` equals `{a: 1, b: 2}`, the second argument is then sent the first value. Comparing two default values written as enum values of a custom scalar reaches `unreachable!()` (ord.rs). An argument injected from an entity (`@require`) panics when variables are serialized (types.rs `unwrap`).
* **C59** `write_selection_set_fields` (prepare.rs:257-275) writes `... on O` for every object O of a not fully implemented interface that exists in the subgraph: with `parent_is_fully_implemented` without checking that O is a possible type of the parent (the subgraph rejects the spread), and in any case without checking that O has the field in the subgraph. For an object parent all fields are written without conditions (lines 198-204): if the field has an abstract type in the composed schema and an object type in the subgraph, fields of other objects are requested on that object, since the solver uses the type of the composed schema (providable_fields.rs:446-473). For `_entities` a field of an interface is written as `... on Interface`, objects implementing it only in other subgraphs lose the field.
* **C60** Two data fields with the same response key in one object become one field shape that keeps only the id of the first (`cached/builder/shapes/mod.rs:98-106`, `349-389`); `finalize` looks for errors by shape ids, so denying only the second has no effect on the object: `C60_group_shown`. It matters when the two selections have different authorization, e.g. through two interfaces or arguments-dependent rules on type conditions that overlap.
* **C60** The pop loop over required field sets has no visited set: a self-requiring field never ends (`C60_cyclic_loops`, needs a cyclic plan, which the solver should prevent) and nested @requires are treated once per path, 2^n rounds for n levels (`C60_exponential`).
* **C60** What a denied field requires is still requested from subgraphs (`C60_denied_requirements`); with duplicate JSON keys in a subgraph object only the first value of a denied field is hidden (`C60_duplicate_shown`); an extension that names an element outside of its range panics the request (`C60_decisions_panic`).
* **C61** `partition_cycles.rs` only separates a field from partitions with a field connected to it, and only follows requirements of fields: (1) for one subgraph with `b @requires(a)`, `c @requires(d)` and the query `{ a b c d }` the greedy assignment gives `{a c}` and `{b d}`, which require each other (`C61_split_cycle`); (2) two subgraphs serving `{a b}` and `{c d}` with `c` requiring `a` and `b` requiring `d` are not split at all (`C61_two_resolvers_cycle`); (3) a partition whose key is served by a partition with a field requiring one of its fields is not split (`C61_key_cycle`). Plans in such a cycle are never started and the response has no error for them (`C61_never_started`, cf. C12; tests/cycle.rs has a FIXME). (4) `find_edge` may find a `RequiredBySubgraph` edge instead of the field edge (`C61_parallel_edge`).
* **C62** `GreedyFlac::run` loops until all terminals are fed (greedy_flac.rs:263-273; the doc of `run` says it breaks if no more progress can be made, it does not): a terminal that cannot be reached, or that is a node of the tree before it is fed, makes it loop forever (C62_forever, C62_in_tree). An edge of weight u16::MAX counts as none (C62_max_weight). `reset` clears `root_feeding_terminals` without shrinking it, so a later run with fewer terminals indexes `terminals` out of bounds (C62_reset_panics, C62_estimate_panics). The total weight is a u16 and wraps (C62_weight_wraps).
* **C63** The solver can panic. (a) updater.rs:185-199 walks `free_requirements_by_edge` but calls `free_requirements_by_node.swap_remove(i)`: as soon as the key of an entry is in the tree, it removes from the wrong list until that list is exhausted, then panics (`C63_edges`, for all states; `C63_edges_example` for a whole run). (b) `tmp_flac.reset()` clears `root_feeding_terminals` without shrinking it, so an estimate with fewer nodes outside of the tree than an earlier estimate indexes past the end of the terminals (`C63_estimate_panics`; with two groups of requirements of different size either order panics, `C63_estimate_example` and `C63_estimate_example_order`). (c) Unavoidable parents are added to the temporary tree after the terminals were filtered: a required node that is one of them is waited for forever (`C63_estimate_forever`).
* **C64** (a) requirements.rs:119-194 registers free requirements of some of the parents of a node by the id of the edge in the solution space, but the solver (updater.rs:185-199) looks the id up among the edges of the Steiner graph: the requirement of a chosen node is silently not in the plan (`C64_required_lost`), or an unrelated edge triggers it and the solver panics (C63 (a), `C64_required_panics`). (b) `handle_children` (mod.rs:386-412) starts the depth of a path that is merged into an existing node at 0 even if it joins the node at a merged node of positive depth: the cost of a resolver is counted for one field of a providable field and not for the next one (`C64_weight_differs`).
* **C65** Merging two plans' values (`recursive_merge_value`, merge.rs:123-161): items of the longer list are dropped without an error (`C65_items_dropped`; the code has a FIXME), a new object that was replaced by null is merged into a visible one and shown (`C65_hidden_shown`), and a null meeting an object, or two scalars, is `unreachable!` (`C65_null_panics`, `C65_scalar_panics`). `C65_ends` and `C65_panics` say exactly when it panics.
* **C66** A field that the gateway requires (for an extension directive such as an authorization rule) can be missing from the plan. `Requires` edges of composite fields are not looked at by the solver; the builder marks fields created for them indispensable instead (operation_fields.rs:329-400, providable_fields.rs:577-583). But requirements are handled last in, first out, so those of resolvers, which are not indispensable, come first, and a field created for one of them is reused for the gateway's requirement without being marked (providable_fields.rs:535-549). If the plan then takes nothing from that resolver, the field is not planned and solution.rs:271-286 adds no edge, silently. `C66_gateway_lost` shows the solver and the query graph on such a space.
* **C67** Building the solution space need not end. `resolvers` of a field leave out those with the field itself at the top of their key only (crates/engine/schema/src/builder/directives/resolvers.rs:235-250; nested selections of a key are not pushed on the stack, 221-231). With `type User @key(fields: "friend { id }") { id email }` in a subgraph and `friend` and `id` in another one, `{ user { email } }` adds `friend { id }` to the user for the key; the id of the friend can be had with the same key, which adds `friend { id }` to the friend, and so on (C67_diverges: for every amount of fuel). 
* **C67** `create_requirement` sets INDISPENSABLE only on fields it creates (providable_fields.rs:535-595). Requirements of resolvers are taken from the stack before those of the gateway, and their fields are not indispensable; if the gateway requires the same field (`@authorized(fields: "id")` on a field whose entity another subgraph knows by the key `id`), the field found is reused as it is. If the plan does not use that resolver, the field is not in the query graph, and there is no required edge for the directive (C67_gateway_lost; the same loss was found for the query graph alone in C66_gateway_lost).
* **C68** An entry of the entity cache that cannot be read leaves `bubbling_up_deser_error` set (`root/object.rs:65-75`; nothing resets it before `with_cache.rs:92`). If the answer for the other objects cannot be read either, `deserialize_data_with` (`deserialize/mod.rs:58,70`) takes the error to be handled already and `insert_error_updates` is not called: these objects get neither an update nor a default nor an error (`C68_unanswered_false`).
* **C68** With an entity cache `PartiallyCachedEntitiesSeed` calls `deserialize_seq` (`with_cache.rs:143`), which fails at `_entities: null`; the rest of the body is not read and the errors of the subgraph after it are lost. Without a cache null is an empty list and they are reported (`C68_errors_lost_false`).
* **C68** If `errors` cannot be read after `data`, `without_cache.rs:50-60` nulls all parent objects although their entities were read; with a cache they stay and nothing is reported at all, as the iterator of misses is used up (`with_cache.rs:98-104`) (`C68_data_lost_false`).
* **C68** If the request fails, the objects whose entity was in the cache get nothing too (`with_cache.rs:66-69`), and the objects without a representation are updated a second time (`C68_failed`).
* **C69** Two subgraphs that `@override` the same field from each other are accepted (`compose/validate.rs:4-89` only refuses two overrides of one source). `render_federated_sdl.rs:336-341` drops both `@join__field`, and the engine, seeing none, asks every subgraph with the type, or all subgraphs for a root type, also those that do not define the field (`C69_cycle_false`).
* **C69** A field that all subgraphs mark `@external` is accepted and has no owner (`C69_unresolved_false`).
* **C69** The engine looks the name in `override:` up among the values of `join__Graph` and ignores the label (`directives/federation.rs:349-353`). An override of a subgraph named like its enum value (`B`) with `percent(50)` removes it for all requests; one of `b` is kept for all requests (`C69_label_false`).
* **C69** `invalid_field_sharing` does not count a definition with `@override`, even if the overridden subgraph does not exist, and is satisfied if one definition is `@shareable` (`post_merge.rs:9-65`): a field gets two owners without all of them agreeing (`C69_single_false`, `C69_shareable_false`).
* **C69** Names of subgraphs are compared by `to_ascii_lowercase` (`subgraph_names.rs:4-20`) but the enum value is made by `to_uppercase` (`emit_federated_graph.rs:389-402`): `é` and `É` are accepted and get the same value (`C69_enum_names_false`).
* **C70** `finalize_inaccessible` (builder/graph/directives/common/mod.rs:183-437) hides enums without accessible value and input objects without accessible field (:294-321) after it looked at the input values (:188-243). The comment at :323 says that any field or input value with an inaccessible type is marked, but only fields are. `enum E { V @inaccessible }` with `f(e: E!): Int` leaves `f` and its required argument shown although the type is hidden (C70_enum_false, C70_input_false), and a contract, which runs the function again, hides more than it says (C70_again_false).
* **C71** (a) `update_graphql_endpoint` (mutable.rs:51-66) keeps only endpoints whose URL already equals the new one (`.filter(|gql| gql.url() == &url)`), so a subgraph update of a contract never changes where requests are sent (`C71_endpoint_never`, `C71_endpoint_false`). (b) Two directives on one element with equally strong, opposite answers (for `accessible` of the SDK these are 1 and -2): the one applied last wins, and directives come out of a hash map and an unstable sort, so the schema may differ between runs (`C71_order_false`). (c) A tie between a field and its type shows the field and hides the type (`C71_tie_false`). (d) Unreachable types are hidden before fields that need a hidden type are; a type only reachable by such a field stays shown (`C71_unreachable_false`). (e) Without a contract root types are marked as accessible after dependents are hidden, so a mutation type without any shown field is shown (`C71_root_false`); with a contract it is the other way round.
* **C72** **Views of the response** (`response/read/view/ser.rs`). (1) When a dependency field is split over two partitions (a shared root), the required fields contain the same schema field twice; `ForFieldSet` finds the first only and its `unreachable!` is reached although the response has every field, and `RequiredFieldSet` writes the JSON key twice (C72_shared_root_false). (2) The same field with different arguments also writes one key twice (C72_arguments_false). (3) A field whose type does not apply to the object is skipped by nested views and under keys of an injected object but is an error on the first level of a representation or of a selection (C72_foreign_false). (4) `ForInjection` drops a key silently when the requirements are exhausted and panics when a later one follows (C72_uncovered). (5) The union keeps the operation field of the left side: with two aliases of a field, what the right side needs below it is looked up in the wrong object (C72_alias_false).
* **C73** Field selection maps (`coerce/field_selection_map/mod.rs`) accept selections whose values are not of the type of their target: (a) `SelectedValueEntry::Path` compares the target with the type of the last field only (191-198), so `owner.uid` with a nullable `owner` is accepted for `ID!` and null is sent; (b) `bind_path` looks for lists at the source only (235-243), so `tags.uid` through a list gives a list for `ID!`, and `tags.{ ids: [uid] }` a list of objects for an object; (c) `bind_input_object` does not look at the wrapping of its target, so `{ id }` is accepted for `[Key!]!`; (d) a `@oneOf` object may have no field, or one whose value is null; (e) a type condition that does not hold for an object leaves out its key even when it is required; (f) in a batch, a default of a field of an input object is serialised once per entity, as a list (`arguments.rs` 295-331: only the top level looks at `DefaultValue`); (g) alternatives that are lists, such as `[{ a: id }] | [{ b: id }]`, reach `unreachable!()` (`lookup.rs` 318). Witnesses: `C73_nullable_false`, `C73_list_path_false`, `C73_object_of_list_false`, `C73_object_for_list_false`, `C73_oneof_false`, `C73_condition_false`, `C73_batch_default_false`, `C73_alternatives_panic`.
* **C74** `auto_detect.rs` (1) 110-140: the state that is restored when a field of a `@oneOf` argument does not match is taken before the first field, so that an earlier candidate is truncated: the range returned is past the end or, later, the injections of another lookup (`C74_reset_false`). (2) 266-276: the number of values is looked at after `pop`, so two matches of a `@oneOf` type are accepted and the last wins (`C74_oneof_ambiguous`). (3) 303-307: types are compared after `non_null` of the outermost wrapper only and whole lists in a batch, so one field of the key is given for two arguments (`C74_twice_false`). (4) 203-245 does not look at `@oneOf` for nested input objects: both fields are given (`C74_both_false`). (5) a key that may be null is given for a field of a `@oneOf` type (`C74_null_false`). (6) 52-77: the required arguments are bits of a 64-bit word, shifts wrap: a 65th required argument is taken for the first (`C74_many_false`). (7) input fields of other subgraphs are filled (`C74_hidden_false`). (8) 170, 209: a key with 64 fields panics (`C74_wide_panic`).
* **C75** Binding accepts invalid documents: `__typename` with arguments or a selection set (`Demo.C75_typename_false`); unknown and repeated directives, and `@skip`/`@include` whose first argument has any name, with more arguments after it (`Demo.C75_directives_false`); fragments that are not spread are not looked at (`Demo.C75_unused_fragment_false`); variables of an inaccessible input type (`Demo.C75_hidden_variable_false`). With introspection disabled only the root fields of queries are compared: `{ q { __schema } }` passes where `q: Query` (`Demo.C75_introspection_false`), and so does any in a mutation. Valid documents can panic: a variable with eleven list levels (`Demo.C75_lists_panic`), and an operation of 65536 selections, as ids have 16 bits (`Demo.C75_many_panic`).
* **C76** The loop of a websocket never learns that an operation has ended by itself: its entry in `subscriptions` (and its task in the `JoinSet`) stays until the client completes it, so that a client which uses the id again after having read `complete` is closed with 4409 (`Demo.C76_reuse_false`), and the map grows with each operation of a connection. The message `error` of a refused request is followed by `complete` (`Demo.C76_error_false`). After the client completes an operation what it had already sent to the channel is still written, so that with the id used again the client reads a `complete` before the responses (`Demo.C76_stale_false`). A ping before the acknowledgement is answered with a ping (`Demo.C76_ping_false`). What is not a message is ignored, or ends the connection without a close before the acknowledgement, where the protocol has 4400 (`Demo.C76_invalid_false`). When a message cannot be encoded the writing task returns and the connection stays open without any answer until the loop next sends something.
* **C77** The schema validation (crates/graphql-schema-validation, used by `grafbase dev`, cli/src/dev/subgraphs.rs:169) panics, accepts invalid documents and rejects valid ones. (a) enums.rs:14 indexes the values of the definition with an index into values of definition and extensions together: two extensions of an enum that share a value panic (`Demo.C77_panic_false`). (b) Accepted although invalid (`Demo.C77_accepts_false`): repeated and `__` names of fields of input objects; repeated fields of interfaces; unknown types of fields in extensions of interfaces and input objects; objects without the fields an extension adds to their interface; an interface that implements itself; a directive defined twice; the same root in a schema definition and its extension. (c) Rejected although valid (`Demo.C77_rejects_false`): a field narrowed to a type that implements the interface in an extension; an additional required argument with a default value; `schema { query: Mutation }`; an interface with all its fields in an extension. Exact characterisation: `C77_accepted_partial`, `C77_panic_partial`.
* **C78** Strings are written with `\u{:04}` for control characters, which formats the code in decimal (`display_utils.rs` 40, `display.rs` 47, `sdl.rs` 86, `buffer.rs` 47): U+001F is written `\u0031` and read as `1` (`Demo.C78_string_false`). Descriptions of the federated graph are written between three quotes without escaping quotes in them (`display_utils.rs` 63-87): a description holding three quotes ends the string, and what follows is read as definitions (`Demo.C78_injection_false`) or makes the SDL unreadable (`Demo.C78_unreadable_false`). Lines are trimmed, so the indentation of lists in descriptions is lost (`Demo.C78_indentation_false`). A whole `f64` is written without a fraction and read as an `Int` (`Demo.C78_float_false`). The descriptions of the tools escape quotes but not backslashes on one line (`Demo.C78_tool_false`, `Demo.C78_tool_escape_false`), and escape quotes within block strings where the backslash is literal (`Demo.C78_tool_quotes_false`).
* **C79** `can_coerce_f64_to_int` (`scalar/mod.rs` 415-417, `int.rs` 262-264) compares with the largest `i32` only, and strictly: `-1e10` for an `Int` is shown as `-2147483648` without an error (`Demo.C79_saturates_false`), `2147483647.0` is refused (`Demo.C79_largest_false`). The visitors for `[Int!]` and `[Float!]` do not read the items of a list or a map found in place of a number (`int.rs` 228-241, `float.rs` 200-213; `ScalarTypeSeed` does), so the parser fails at what is left and the data of the whole subgraph response is lost, where the same value for `[Int]` makes one item null (`Demo.C79_hard_false`). `ID` is read as `String` (`schema/src/lib.rs` 315): an integer for an `ID`, which the specification lets a server coerce, is an error.
* **C80** The rules at the head of match_name.rs do not hold throughout. A prefix nothing is linked under is dropped and the rest looked up as if it had none, so `@acme__key` is taken for the federation's `@key` (`C80_stray_false`). A directive imported under a name with two underscores is never found (`C80_alias_false`). A subgraph linking both Federation v2 and composite schemas is no longer an Apollo v2 subgraph (`is_apollo_v2` compares for equality after `max`), so all federation directives are available without import (`C80_both_false`). An import of a type hides the directive of the same name (`C80_types_false`). Any URL containing `dev/federation/v2` is the federation (`C80_impostor_false`). A directive the subgraph defines and names in `@composeDirective` is silently dropped, since the local definition is matched first (`C80_composed_local_false`). Only the name without prefix is kept from `@composeDirective`, so `@a__foo` also composes `@b__foo` (`C80_composed_prefix_false`). The extension name taken from a URL skips whatever begins like a version while the prefix skips only versions, so the two may differ (`C80_extension_name_false`).
* **C81** `compose_directive_definitions` pushes the arguments of every definition without leaving out those already there, so a directive with an argument, defined alike in two subgraphs and asked for in both, is written with the argument twice, which is not valid SDL (`C81_twice`, `C81_arguments_once_false`); no test of the repository composes a directive with arguments from two subgraphs successfully. An argument required in one subgraph and absent in another is only an error when the definition without it comes first (`ix != 0`), so the outcome depends on the order of subgraphs, which for equal names an unstable sort may choose (`C81_order_false`).
* **C82** validate/selection.rs:223-232: a selection within a field whose type the subgraph does not define panics (`.expect("type is defined in subgraph")`): built-in scalars are not definitions, so `@key(fields: "id { x }")` panics the composition. A field of an object type without a selection, an inline fragment on an unrelated type, an argument given twice, `[[1]]` for `[Int]` and an input object without its required fields are accepted. `null`, an integer for `Float`, and every literal for `ID` or a custom scalar are refused although they are valid (lines 241-289).
* **C83** `visit_fields_with_typename_detection` (fields.rs:332) reads `__typename` with `next_value::<&str>`, which only a text borrowed from the input can give, while `polymorphic.rs:98` uses `Key` which takes both. So an interface or union object inside an entry that stands before the `__typename` of its parent (kept as `serde_value::Value` and replayed), or with an escaped `__typename`, or in a message already parsed into memory, fails the whole subgraph response (`C83_nested_false`, `C83_borrowed_false`), although the value wanted does not depend on the order. A `__typename` that is no text is such a failure too, not an error at its place (`C83_number_false`). An object of an object type which is not possible at that place is an empty object without an error if the shape has no fallback (`C83_impossible_false`).
* **C84** Deriving a list of entities from a field of type `[Int!]` or `[Float!]` panics: such lists are kept as `IntList`/`FloatList` (field.rs:36-50) and `handle_list_derive` has `_ => unreachable!()` for them (derive.rs:103, `C84_numbers_false`). So does a list whose field has an error of the query (denied, but still needed): `handle_shape_errors` has made it `Inaccessible` before (`C84_denied_false`). A missing required list which the user did not ask for makes the derived list null without an error even if it must not be null (derive.rs:40, 71; `C84_missing_list_false`), where a missing key of a single entity is an error. The paths of items of a derived list are those of the source list (derive.rs:143, 219): a null for an item, also one from a later plan, is put into the source list, and the derived item stays visible (`C84_list_null_false`). An error of the query for a derived field is told by `handle_shape_errors` and again by `handle_derive_fields` (`C84_twice_false`); the null put in for it counts as a field that was read, so a missing required field goes unnoticed, and the key of the derived field is there twice (`C84_unnoticed_false`).
* **C85** `should_include_header` (signing.rs:213-226) returns true whether or not the header is in the list to include, so `headers.include` has no effect; names to exclude are compared with the lower-case names of the request as they are written, so `Authorization` excludes nothing; the hop-by-hop header is `trailer`, not `trailers`, so it is signed; requests over SSE and WebSockets are never signed (fetch.rs:164-235); an Ed25519 JWK whose keys have 64 bytes but not 32 each panics in `copy_from_slice` (signing.rs:422-429); a request with a header of two values fails if the library refuses repeated components (RFC 9421 asks for it); an expiry below a second is none; and signing cannot be enabled for the gateway with keys for the subgraphs only.
* **C86** `trusted_document_url` (trusted_documents_client.rs:113-118) puts the name of the client and the identifier of the document, both from the request, in the path without encoding: `../../OTHER/admin/query` as an identifier reads a document of another branch, and `../../../../graphs/shop` an object which is no document (C86_outside_false); `a/b` + `c` and `a` + `b/c` are one place (C86_client_false); percent signs are not encoded and newlines are dropped (C86_same_false). The path of the storage host, if it has one, is lost. A branch named `..` leads to the graph (C86_branch_false).
* **C87** Origins with one of `?*[]{}!\\` are patterns (layers/cors.rs:47), which all with addresses of IPv6 are: `http://[::1]:3000` is never allowed when it is listed (C87_ipv6_false). `expect("must be ascii")` on names of headers (cors.rs:105, 119) panics for ASCII strings which are no tokens, and the layer panics for credentials beside `*` (C87_start, C87_start_false). `*` for headers does not cover `authorization` in browsers, so the default does not let sites send it (C87_authorization_false).
* **C88** An argument can change the path of a URL template: `.` and `..` consist of kept bytes only and are written as they are, so that `/users/{{args.id}}/posts` with the id `..` is requested as `/posts` (prepare/cached/extension/template.rs:32-42; `C88_dots_false`). A JSON template whose argument is absent (or not given by the client) writes nothing in its place, `{"a":}`, instead of null or an error (`C88_absent_false`).
* **C89** Errors are counted by code in `u16` (engine/error/src/code.rs:77-125), which wraps in the release profile (and panics in debug builds): with 65536 errors of one code in a part of a response (a list of as many items with invalid values) `ErrorParts::is_empty` is true, `errors` is left out of the response, and telemetry counts a success (`C89_errors_false`); 65536 request errors of one code make the status 500 instead of 400 (`C89_status_false`). The headers of a refused request (e.g. `WWW-Authenticate`, from hooks or extensions) are only sent in complete single responses: `Http::error` with a streaming format and `Http::batch` drop them (graphql_over_http/response.rs:25-41, 54-112; `C89_headers_false`).
* **C90** (1) serve/mod.rs:144 drops "the initial value" by awaiting `changed()`, but a receiver from `watch::channel` has already seen the initial value, so the first real change of the configuration is dropped (C90_bridge_false). (2) The gateway leaks the only sender of that channel and never sends (gateway/src/main.rs:86-95), so no change of the configuration reaches the reloader at all (C90_gateway). (3) `ConfigWatcher` keeps one static watcher for the first engine only: after the next graph update the limits of rates are those of the start again, and changes of the file have no effect any more (C90_limits_false). (4) The fingerprint of the schema file is taken after the first reading, and is stored before later readings, so a change in between, or one whose reading fails once, is never served (C90_file_start_false, C90_file_read_false); likewise one that keeps the modification time (C90_file_stamp_false). (5) An aborted reload that is in its last poll can still publish its engine after the newer one (C90_latest_false), though only if the newer one is built within that poll.
* **C91** (1) `reload_config` (hot_reload.rs:80-96) deserialises the text of the file directly: placeholders of the environment are not expanded and relative paths are not made absolute, so a hot reload of an unchanged file gives another configuration than a start, or fails where a placeholder stands for a number or a URL (C91_reload_false). (2) A loader with `with_current_dir` reads a relative path from the directory of the process but records it in its own (C91_file_false), and panics when its directory is relative (C91_panic_false); nothing in the repository calls it so. (3) Paths of `tls`, `mtls`, access logs and certificates of exporters and of Redis are not made absolute, and so are read from the directory of the process, unlike the others (`rest` in C91_paths).
* **C92** `load_extension_from_path` compares the name in the manifest with the key of the configuration, but never its version with the requirement: with a `path` the requirement is ignored, and an installed directory `0.20.0` may hold the manifest of 0.1.0 (the test `with_versions_existing` does so). `C92_version_false` gives both. A comment in link_directive.rs says that the name must be consistent with the composition, which reads names only if they are GraphQL names and versions only with a `v` (`C92_consistent_false`: `my-extension/v1.0.0` and `one/1.0.0`). `Id::from_str` splits at the last `-`, so that `one-1.0.0-1.2.3` is read as `one-1.0.0` in the version 1.2.3 (`C92_id_false`), and panics without one (`C92_id`).
* **C93** `execute_subscription` (coordinator.rs:69-71) joins the future of the subscription, which owns the sender of the responses, with the work in the background (for example the insertion of the operation in a cache). When the subscription ends first, its sender is dropped, the joined stream ends, and the rest of the future is dropped: the work in the background is cancelled, and the duration, the errors and the telemetry of the subscription are never recorded (request/stream.rs:81-113). `C93_end_false` shows it for all responses and all such work; `C93_subscription` shows that otherwise all is recorded.
* **C94** A batch takes one token of the global rate limit however many operations it has (`create_graphql_context` is called once): C94_limit_false. The gateway timeout is applied to reading the request and again to executing it, so a response may take twice the time: C94_time_false. A batch which times out is answered with one error although its first requests were executed to their end (C94_timeout_false; for mutations these are done). Usage is reported to Hive for single responses only, not for batches and streams (C94_reports_false). `AccessControl::Deny` has no effect beside a header rule, and only the first value of a repeated header is compared (C94_access_false). Names and values in rules which are not valid in HTTP make the gateway panic (C94_rules).
* **C95** The linter repeats the warning about the name of a type for each extension of it (`C95_times_false`; a TODO in the code says so). It does not look at the case of names of interfaces, unions, scalars and input objects, at `@deprecated` on arguments of fields and of directives, nor at the definition of the schema: the fields of `Root` in `schema { query: Root }` may be called `getUser`, and those of a type `Query` which is not the root may not (`C95_all_false`). A fix may be reported again: `a_b_c` should be `ABC` and this `Abc` (`C95_fix_false`, with `heck` as modelled for ASCII).
* **C96** The map of shared subscriptions has only the key an extension gave, not the extension: a client of an extension gets the items of another one which gave the same key (`C96_extension_false`). A task learns that all clients have gone only when it sends, and drops the subscription at the second item for which there is no receiver: without items it waits forever (`C96_gone_false`). Between a failing send and the removal of the key a client may come who stays with the old task, while the next one gets a new one: two subscriptions for one key (`C96_single_false`). Who comes between the sending of an error and the removal of the key gets a stream which ends without the error (`C96_error_false`).
* **C97** A caller who has found the wait list of the cache of extensions but is not yet in it when the value is set is told that there is no value, though it is in the cache (`C97_lost_false`); so is one who looked in the cache before and for the list after it was set (`C97_made_false`). The comment that this happens only after a timeout is wrong. When a caller gives up after five seconds the list is dropped, and all others in it are told that there is no value, also one who has just come: all of them then make the value at once (`C97_wait_false`).
* **C98** Dropping a file logger of an extension never waits for its lines. `HostFileLogger::drop` reads the resource from the table without removing it and `file_loggers` keeps a clone, so that there are always two references and `graceful_shutdown` returns at once (`C98_drop_returns`, `C98_drop_false`); no flush is ever asked for (`C98_never_flushes`), and the resource stays in the table until the instance is gone (`C98_drop_keeps`). The rotation asked for by the second who opens a path is ignored (`C98_rotation_false`).
* **C99** The hash of the schema of a contract is made of the hash of the schema without contract and of the key; what the extension made of them is no part of it. If it gives another schema for the same key after an eviction (or after a restart, with the operation cache in Redis) operations planned for the former schema are taken from the cache (`C99_schema_false`).
* **C100** The stream of a subscription of an older extension goes on after an error: the instance, poisoned or not, is asked again at each poll, which gives errors without end if it has trapped (`C100_old_false`; builds with debug assertions panic). In the current interface `drop_subscription` is called on an instance which has trapped; should the call work, `wasmsafe!` clears the mark and the instance goes back to the pool (`C100_trap_false`).
* **C101** If `GRAFBASE_ACCESS_TOKEN` is set to a value which is not Unicode, `from_env` gives `Ok(None)` (documented for a variable which is not set) and `is_defined_in_env` gives false (documented as true regardless of the value): `C101_env_false`.
