# Formal model of datafusion-distributed in Lean 4: design

## Layout

* `properties.jsonl` – the English properties (C01, C02, …).
* `lean/Verif/Model/*.lean` – the model. Every definition cites the file and lines of `/repo` it models; every
  simplification is stated in that comment.
* `lean/Verif/Spec/*.lean` – small specifications, written without reference to the model's helpers. Theorems whose
  property needs no more than lists and arithmetic state it directly.
* `lean/Verif/Lemmas/*.lean` – helper lemmas (not part of the claim).
* `lean/Verif/Props/*.lean` – the property theorems, named after their property, each with a non-vacuity `example` beside
  it. Theorems ending in `_partial` prove a part of their property and say what is missing; theorems ending in `_false`
  (or named after a finding) prove that a statement does not hold of the code, by a witness.
* `MANIFEST.json` – property → theorem names and status.
* `seeded/LOG.jsonl` – realistic bugs seeded in scratch copies of the model and which theorems caught them.

Build: `cd lean && lake build`.

## Trusted base

What has to be believed for the theorems to say something about datafusion-distributed:

1. **Lean's kernel** (4.33.0) and the statements of the theorems. Nothing else checks the proofs: no `sorry`, no
   `native_decide`, no `bv_decide`, no added axioms, no code executed by tactics is trusted. `decide` and `decide +kernel`
   are evaluated by the kernel; they are used on the literals of examples and of witnesses for negative results only.
2. **Axioms**: at most `propext`, `Quot.sound` and `Classical.choice`, Lean's standard ones. The list per theorem is at the
   end of this file.
3. **The model is the code.** The model was written by reading the Rust source; no tool extracts it. Each definition cites
   the lines it models so that this can be checked by reading both.
4. **External contracts.** Code of other projects is a parameter of the model or a stated assumption, listed below.

### Conventions

* `usize` is `Nat` unless the property is about overflow or underflow. Rust `Result` is `Except Err`. A panic is an
  explicit error value (`Err.panic`) or, for a background task, a schedule step after which the task is gone. `Vec` is
  `List`.
* A partition stream is a list of rows, or of results where errors matter. A table is a list of rows compared up to
  `List.Perm` (multisets). Where order matters (limits, merges), plans are given by the set of results they may return.
* Concurrency: the interleavings of tokio tasks are arbitrary lists of atomic steps; "for every schedule" is "for every list
  of steps"; liveness is stated for infinite schedules with an explicit fairness hypothesis. Effects below the granularity
  of locks and channels (memory ordering) are not modelled.
* Floating point: weights and factors (`f64`) are rationals; where rounding could matter the theorem quantifies over
  every rounding (`C14_any_rounding`).
* Loops and traversals that terminate for a reason the type checker does not see take fuel; running out of fuel is a separate
  result, and a theorem shows that it does not happen.

### External contracts

| contract | used by |
|----------|---------|
| DataFusion operators other than those below compute output partition `q` from the partitions `q` of their inputs (`Kind.op`); an operator may choose among results (`Op.may`), differently in every task and partition | C08–C11, C24, C27 |
| `RepartitionExec` (hash) sends a row to bucket `hash % n`; other partitionings deal the rows of all inputs somehow (`deal`, an arbitrary distribution) | C03, C08 |
| `CoalescePartitionsExec`, `SortPreservingMergeExec`, `UnionExec`, the join operators: SQL semantics, per partition or collected build side | C08–C13 |
| aggregate functions: merging partial states is associative and commutative | C11 |
| `TreeNode::{transform_down, transform_up, transform_down_up, apply}` as documented | C26, C27, C44, C56 |
| `FileGroupPartitioner` regroups the same data | C17 |
| tokio: unbounded and bounded `mpsc`, `watch`, `Notify` (a permit is not lost), `oneshot`, `CancellationToken`; `SpawnedTask` aborts on drop | C28–C38, C49 |
| DataFusion operators declare the orders they need, keep and promise truthfully; `SortPreservingMergeExec` and an order-preserving `RepartitionExec` merge sorted streams; the file group partitioner with `preserve_order_within_groups` takes rows of one group, in order | C70 |
| DataFusion operators: what an operator has returned is right for every way in which its inputs might go on, in the order the operator relies on; in particular it ends without an error only if it has seen the end of every input it has not stopped needing, and passes on the errors of its inputs | C71, C78 |
| `SortPreservingMergeExec` reads ahead a bounded number of batches of a partition none of whose rows it can return yet | C72 |
| gRPC/tonic: a broken connection is seen by whoever still reads from it; a server may end its answers before the client ends its requests, which then go on | C73 |
| `rand::seq::index::sample` picks different indices in range; `HashSet` of `ScalarValue`; `f32` is modelled as an exact fraction | C75 |
| system clocks: any readings | C74 |
| user codecs give back a node with a feed as the same node with a remote feed; feed ids (UUIDs) are distinct unless a feed is cloned | C76 |
| DataFusion operators (for the positive part of C77): a task that can send goes on reading the first of its inputs that has not ended, ends its output when no input is left, and drops all its inputs when it stops; `LocalLimitExec` drops its input when it has enough rows, `SortMergeJoinExec` reads its inputs in turn (for the witnesses) | C77 |
| rewrite handlers meet the documented criteria, read as criteria for the part of a stage the worker keeps (`Spec/Rewrite`) | C79 |
| the iterator of the moka cache yields no key twice and every key that stays in the cache while it runs | C80 |
| DataFusion: `SessionConfig::options_mut` is `Arc::make_mut`, `set_extension` replaces the entry of its type in this session's map, `clone` copies pointers | C81 |
| `Uuid::new_v4` never returns an id twice; moka's `get_with` is atomic per key | C82 |
| `RecordBatchReceiverStreamBuilder`: the error of a spawned task is delivered after the batches sent before it | C83 |
| arrow-flight `FlightDataEncoder`/`FlightRecordBatchStream` with `DictionaryHandling::Resend`: schema first, a dictionary before the first batch that needs it, numbered by column; batches without rows are not sent; arrow `garbage_collect_any_dictionary` and view `gc` as modelled | C84 |
| gRPC/tonic: a stream delivers what was sent, in order, then ends or fails | C29–C33, C38, C49 |
| moka cache: `get_with` inserts once per key while the entry lives; entries may expire | C36, C62 |
| datafusion-proto `ComposedPhysicalExtensionCodec`: codecs are tried in order on the same buffer, the first that accepts is recorded by its position, and decoding asks the codec at that position; function definitions are sent if the buffer is not empty, and the registry is asked for functions sent without definition | C65, C66 |
| DataFusion `MetricValue`: aggregation of values of one kind succeeds and keeps the kind; of different kinds it panics | C69 |
| `f64` is read back as it was printed; `Display` and `FromStr` of `usize` and `bool` as modelled | C64 |
| Arrow, prost and datafusion-proto encode and decode what they are given (schemas, partitionings, expressions); prost skips undeclared tags and refuses more than 100 nested messages | C42, C54, C55, C57 |

## What is modelled

| source file | modelled in | not modelled |
|-------------|-------------|--------------|
| `common/recursion.rs` | `Model/Recursion` | error-free visitors' flags (`transformed`) |
| `common/vec.rs` | `Model/Stats` | |
| `config_extension_ext.rs`, `passthrough_headers.rs` | `Model/Headers` | HTTP header value byte restrictions beyond ASCII visibility |
| `codec/distributed_codec.rs` | `Model/Codec` | protobuf bytes of schemas, partitionings, orderings (external) |
| `codec/user_codec.rs`, `codec/physical_plan.rs` | `Model/UserCodec` | aggregate and window functions (encoded like scalar functions) |
| `protocol/grpc/{worker_client,worker_service}.rs` | `Model/Demux`, `Model/SelectAll`, `Model/Codec` | metrics of the connection, compression, Arrow flight decoding |
| `protocol/grpc/{spawn_select_all,on_drop_stream}.rs` | `Model/SelectAll`, `Model/Demux` | memory reservations of the server |
| `protocol/grpc/errors/*.rs` | `Model/ErrorWire` | texts of errors other than the fields carried |
| `protocol/grpc/metrics_proto.rs` | `Model/Codec` | |
| `coordinator/distributed.rs` | `Model/Create`, `Model/MetricsRewrite`, `Model/Close`, `Model/PlanTree` (`distributed`) | display |
| `coordinator/query_coordinator.rs` | `Model/Recursion`, `Model/Create`, `Model/Close`, `Model/Handlers` | latency metrics |
| `coordinator/prepare_static_plan.rs` | `Model/Create` | |
| `coordinator/prepare_dynamic_plan.rs` | `Model/Stats`, `Model/Dynamic`, `Model/RuntimeStats` | task counts, planning with measured statistics, and the estimate itself; the concurrency of sampling and injection is not |
| `coordinator/metrics_store.rs`, `metrics/task_metrics_*.rs`, `execution_plans/metrics.rs` | `Model/MetricsRewrite` | rendering |
| `metrics/{latency,bytes,max_gauge}_metric.rs` | `Model/Stats` | histogram percentiles (DDSketch, external) |
| `distributed_planner/*.rs` | `Model/Planner`, `Model/Limit`, `Model/Create`, `Model/TaskCount`; executions with any interleaving of streams in `Model/Stream`, `Model/Merge`, with failures in `Model/Faulty` | plan properties other than partition counts, hash keys and orders (equivalences, constants) |
| `distributed_planner/statistics/*.rs` | `Model/Stats` (`complexity.rs`), `Model/Cost` | exactness flags, f32/f64 rounding, DataFusion's own `statistics_from_inputs` |
| `events/**` | `Model/Handlers`, `Model/Leaf`, `Model/TaskCount` | |
| `execution_plans/{network_*,broadcast,children_isolator_union,distributed_leaf,sampler}.rs` | `Model/Boundary`, `Model/BroadcastQueue`, `Model/Union`, `Model/Leaf`, `Model/Sampler`, `Model/PlanTree` | node display, statistics |
| `worker/**` | `Model/Worker`, `Model/Pool`, `Model/WorkUnit`, `Model/WorkerSession` | session builders of users |
| `work_unit_feed/**` | `Model/WorkUnit`, `Model/FeedPlan`, `Model/Fed` | user-defined providers |
| `explain_analyze.rs` | `Model/Create` | rendering |
| `stage.rs` | boundary nodes of `Model/PlanTree`/`Model/Create`; `Model/Display`, `Model/MetricsDisplay` | wording of the text other than metrics, edges inside a task, colours |
| `protocol/channel_resolver.rs`, `protocol/grpc/channel_resolver.rs`, `protocol/in_process/**`, `common/maybe_encoded.rs` | `Model/Channels`, `Model/InProcess` | building of tonic channels |
| `distributed_planner/distributed_config.rs`, `distributed_ext.rs` (options), `worker/session_builder.rs` | `Model/WorkerSession` | DataFusion's own options except the batch size |
| `worker_resolver.rs`, `test_utils/**`, `protocol/grpc/observability/**` | – | setters, resolvers, tests, monitoring |

## Properties

For each property: what is modelled, how it is proved, and what is missing. The theorems are in `MANIFEST.json`.

| id | property | modelled | proof | status |
|----|----------|----------|-------|--------|
| C01 | Coalescing tasks reads every producer partition exactly once | `task_group`, `NetworkCoalesceExec::{try_new,execute}` on natural numbers | existence and uniqueness of the (task, partition) that reads a producer partition; division arithmetic | proved: For all P, N, T>=1. |
| C02 | Coalesce groups are contiguous, ordered and balanced | `task_group` | groups are contiguous, ordered, sizes differ by at most one; arithmetic | proved |
| C03 | Hash shuffle delivers every row once and co-locates equal keys | shuffle offsets and `producer_head` | all rows over consumer tasks × partitions are a permutation of the input; equal keys meet in one partition | proved: RepartitionExec is an external contract (row goes to bucket hash % n). |
| C04 | Broadcast gives every consumer task exactly one full copy | broadcast offsets, `BroadcastExec::{new,execute}` | every consumer reads every real partition once; div/mod arithmetic | proved |
| C05 | Network requests name partitions that exist on the worker | `requests` and `workerPlan` (Spec/Shape) of planned plans | invariant of the planning passes (`NodeOk`, `PostNet`) by structural induction; witness for round robin | partial: Proved for shuffles and broadcasts always, and for coalesces unless they stand above a non-hash RepartitionExec, where it is false (witness). |
| C06 | Installing a producer head is idempotent and independent of which consumer arrives first | `Head.insert`, `TaskData::plan` | case analysis; witness for two nested repartitionings | partial: Idempotence holds except for ProducerHead::None over two nested repartitionings (witness). |
| C07 | A remote partition stream is consumed at most once and fetched with one request per producer task | `WorkerConnectionPool` as a state machine | invariant over all histories of calls and polls | proved: For every history of calls and polls. The same-range hypothesis is proved for the calls of every boundary kind. |
| C08 | Distributed execution returns the same rows as single-node execution | execution semantics of plan trees (`run`) and all static planning passes (`plan`) | two judgements: `Src` (what plans mean before planning) and `Legal` (how a distributed plan may look); `Answer` is the set of results a plan may have, without partitions and tasks; no pass adds an answer; `Legal` plans return an answer, whatever choices operators make in each task; structural induction; user-placed boundaries: judgement `Placed`, which scaling the leaves turns into `Legal`; ungathered roots: the head stage planned with n tasks is, for the coordinator, the same as planned with one (`HeadEq`) | partial: Whole-plan refinement for all statically planned queries the judgement Src accepts, including operators that choose (limits, ties), for gathered and ungathered roots, and for plans with user-placed boundaries (judgement Placed). The full claim is false: the conditions of Src, Placed and AnyRoot are shown to be needed by witnesses. |
| C09 | Broadcasting a join's build side is correct exactly for the join types it is applied to | join semantics, `canBroadcast` | multiset reasoning per join type; for each other type a witness | proved |
| C10 | Rewriting collect-left joins keeps their result | `normalize` | multiset reasoning; hash partitioning splits matches | proved |
| C11 | Partial aggregation before or after a shuffle gives the single-node aggregate | aggregates as folds of a commutative associative merge | partial states of any split merge to the whole; grouping by hash partition | proved: Aggregates are any commutative associative merge of lifted rows. |
| C12 | Pushing a limit below a task coalesce never changes how many rows a query returns | `push` over plans given by their possible results | simulation: the same set of possible answers; measure for termination | proved: For plans in which no coalesce stands directly below another operator with a limit; planned queries are such (C12_planned_coalesces); for a user-placed coalesce below a filter with a limit the claim is false (witness). |
| C13 | Merging sorted task outputs preserves global order | `SortPreservingMergeExec` over coalesced sorted streams | inductive merge relation keeps sortedness | proved |
| C14 | Isolated unions run every child task exactly once | `split_children`, `Node.make` | induction over the allocation loops, for every rounding of the shares | proved |
| C15 | Isolated unions respect caps, budget and proportionality | same | bounds by induction | proved |
| C16 | An isolated union outputs every child partition exactly once | `ChildrenIsolatorUnionExec::execute` | every child partition is output once over tasks × partitions; permutation | proved: For unions run by as many tasks as they were laid out for; the other case is shown to lose rows. |
| C17 | Scaling a file scan keeps every file in exactly one task | `file_scan_config.rs` | round robin keeps all elements; group counts | proved: FileGroupPartitioner is an external contract (regrouping reads the same data). |
| C18 | A scaled leaf returns all its rows for every task count | `DistributedLeafExec` | permutations; witnesses for the single task case | partial: Refuted for a single task whose variant has another partition count than the original leaf. |
| C19 | Task count annotations merge independently of order and never exceed a maximum | `TaskCount::{merge,limit}` | algebra | proved |
| C20 | Every planned stage has between one task and the configured maximum | planned plans | invariant `NodeOk` of the passes, by structural induction | proved: for every undistributed plan and session with usable answers (EnvOk) whose scale-up handlers return boundary-free plans. That the condition on the handlers is needed is shown: a wish for zero tasks is granted. |
| C21 | Stage identifiers are unique and ordered | `prepare` | stage numbers are consecutive in post order | proved: the query id shared by all stages is a local variable of prepare_network_boundaries and is not modelled |
| C22 | Joins that are unsafe to replicate run in a single task | planned plans | invariant `pinned` of the passes | proved |
| C23 | Distributed planning is idempotent and falls back to the original plan | `create` with the wrapper nodes | case analysis over the passes: no boundary left, or every boundary justified; witnesses | partial: Proved for plans without user-placed boundaries and outside EXPLAIN ANALYZE; for those two cases the property is false of the code (witnesses C23_analyze_again_false, C23_user_again_false). Dynamic planning of a replanned EXPLAIN ANALYZE is not modelled. |
| C24 | Removing a single-task boundary keeps the result | `prepareNode` | a boundary from one task to one task returns its input's rows | proved |
| C25 | A boundary's consumer task count matches the stage that runs it | planned plans | head partitions = partitions × consumer tasks, by induction over `prepare` | proved |
| C26 | Plan traversals visit every node with its own stage's task count or task context | the explicit-stack traversals with fuel | equivalence with structural recursion (Spec/Recursion) | proved: The bottom-up traversal misplaces counts for visitors that return Jump (witness); the property is about visitors that continue. |
| C27 | The plan sent to a task contains only what that task runs | `task_specialized_plan` | the result is the task's share (Spec/Recursion), and returns the same rows | proved: Acceptance by the codec is the absence of leaves divided between tasks, the only node the codec does not know. Work unit feeds of the specialised plan are C39. |
| C28 | Broadcast consumers all see the full input in order under every schedule | broadcast queue as transition system | invariant over schedules, measure for completion | proved: The order and prefix part holds for every schedule, also when the producing task panics (C28_prefix_always). Completeness is proved for schedules where it does not panic; the panic case is shown to truncate silently. |
| C29 | Demultiplexing a worker connection preserves each partition's stream | worker connection, client and server | prefix invariant over schedules | proved |
| C30 | Bytes buffered per worker connection are bounded | worker connection | invariant on reserved bytes | proved |
| C31 | A consumer that keeps polling is never starved by its siblings | infinite fair schedules | decreasing measure; witness schedules | partial: Proved when no stream is dropped with messages buffered and the budget is not zero; the claim as stated is refuted in both other cases. |
| C32 | A stream that ends without error is complete | worker connection, client and server | invariant: end of stream ⇒ everything delivered; witnesses with panics | partial: Proved for every schedule and error point without task panics; with a panic it is refuted by three witnesses. |
| C33 | A worker connection is cancelled only when all its streams are dropped | worker connection | invariant on counters; negative result for all schedules without a poll | partial: The last clause (an uncontacted worker is notified) is refuted for every schedule without a poll. |
| C34 | Sampling does not alter the sampled stream | sampler | list splice; state machine of the node | partial: Transparent unless the source fails; batches ready before an error in the same sample are dropped (refuted). |
| C35 | A task's plan is written once and every reader sees the same value | `SingleWriteMultiRead` | invariant over histories | proved |
| C36 | Worker task state is set once and released | worker task registry | invariant over histories; leak witnesses | partial: Release after close is proved when no request arrives later; the other two cases leak and are refuted by witnesses. |
| C37 | Task metrics are reported at most once per task and waiting for them is exact | worker metrics guard, `wait_for_metrics` | invariant; equivalence of readiness with reports of all tasks | partial: Each task reports at most once and an executed task reports; waiting returns exactly when every task of every stage has reported. A task that is never executed never reports (witness), so the wait may not return. |
| C38 | Work units reach exactly the partition they are meant for, in order | work unit routing and feeds | invariant over schedules; witnesses | partial: End of feed means complete only when no feed fails and the stream is not lost; both other cases are refuted. |
| C39 | A work unit feed partition is consumed at most once | work unit feed partitions | invariant over histories | proved |
| C40 | Session options survive the trip to the workers | header encoding on character lists | round trip; witnesses | partial: Proved for lower-case prefixes without dots and keys that do not repeat the prefix; refuted for the others. |
| C41 | Passthrough headers never interfere with configuration headers | passthrough headers | case analysis; witness | partial: The last clause is refuted: a header named PREFIX.option is accepted and changes the option on the worker. |
| C42 | Encoding then decoding a distributed plan node gives it back | plan codec on abstract nodes | round trip by structural induction | proved: Schema, partitioning and URL conversions are external contracts; equivalence properties and run-time statistics are not sent and not modelled. |
| C43 | Default routing assigns every task a known worker, evenly | default routing | arithmetic of the rotation | proved: The random start index is a free variable. |
| C44 | Reported metrics are attached to the node that produced them | metrics collector and rewriter on node positions, also for plans rewritten on the worker | both traversals visit the same positions, which depend on the topology only; witnesses | partial: Every plan made while the query runs, and every statically planned plan without partial reduction: what each task recorded for a node, and nothing else, is shown on that node, labelled with the task. With partial reduction enabled the property is false (witness). False of plans in which one node object occurs twice: everything is shown on the first occurrence (C44_shared_object_false). Tasks in the coordinator's own process, which record into the sets of its copy of the plan: proved with at most one such task per stage; with all of them in the process, as they are on a single node, everything a file scan records is shown as often as there are tasks (C44_in_process_false). Rewrites on the workers: proved for handlers that keep the topology of the plan and leave a repartitioning or broadcast at its root alone; the documented criterion, the same topology, is not enough (C44_instrumented_shifts). |
| C45 | Aggregating latency and size metrics does not depend on arrival order | latency, size and gauge metrics | commutativity and associativity, folds over permutations | proved: The First metric is shown to depend on order. Percentiles rest on the contract of the DDSketch crate, written as a model: a sketch is determined by the multiset of recorded values. |
| C46 | Dynamically computed task counts stay within bounds | dynamic task counts | bounds and monotonicity | proved |
| C47 | Simplifying a cost expression never changes the estimated cost | `Complexity` | induction over expressions | proved: Constants must be whole, as in every formula of the planner; the negation for fractional ones is proved. |
| C48 | Event handlers are consulted in a fixed order and the first answer wins | handler chains | list induction | proved |
| C49 | Closing the query releases every worker channel | channels, guard and background tasks as transition system | invariant over schedules | proved: The channels end for every schedule; draining after the end needs the feeds to end (shown). |
| C50 | Averaging per-column statistics | `common/vec.rs` | list induction; witness | partial: The average is not the mean of the non-empty vectors (negation proved). |
| C51 | A final load report is exact | sampler reports | list reasoning over poll sequences | proved |
| C52 | Isolated unions share tasks by the largest remainder rule | `split_tasks` | sorted remainders | proved: Weights are rationals instead of f64. |
| C53 | Rewriting an isolated union keeps its task assignment | `with_new_children`, `child_task_counts`, `to_task_specialized` | list reasoning | proved |
| C54 | Metrics survive the wire | `metrics_proto.rs` | round trip per metric kind; witnesses | partial: A timer that recorded nothing arrives as 1 ns (refuted); everything else arrives unchanged. |
| C55 | Messages between coordinator, consumers and workers survive the wire | messages of the worker protocol | round trip; refusals | proved |
| C56 | Every task is sent once, with its own plan, to the worker its consumers will ask | `prepare_static_plan`, `send_plan_task`, `routed_urls` | the sent plans are exactly one per stage and task; structural induction with stage numbers as keys | proved: Static planning. |
| C57 | An error raised on a worker arrives as the error it was | all of `errors/*.rs`: both conversions, the oneof tag lists, the gRPC status; prost as a contract (`wire`, recursion limit 100) | case analysis on leaves, structural induction over nested errors; witnesses for what is lost | partial: Proved for every error made of what the wire carries, up to a nesting limit, and for what surrounds any innermost error. Refuted for Avro errors (all text lost), more than fifty contexts, join and FFI errors and some object store and I/O errors. |
| C58 | Task counts chosen while the query runs do not change the answer | `dynamicPlan`: injection with task counts from arbitrary cost functions, samplers below every boundary | the static proofs hold for any task counts; the sampler is a plain node with the rows of its input | partial: Plans as in C08. False of every plan with user-placed boundaries (C58_user_boundaries_false): such a query is planned and then always fails, because the boundaries the user placed keep local stages of several tasks, although the same plan runs with fixed task counts. |
| C59 | The size of a running stage is estimated soundly from samples | `gather_runtime_statistics` and `estimated_driver_path_leaf_rows` with f32 rounding as a contract (monotone, exact up to 2^24) | the loop reads a prefix of the reports; arithmetic of averages; witnesses for the scaling of bytes and for zero progress | partial: Up to 2^24 rows, where f32 begins to round. The bytes of a stage in progress are scaled by a truncated factor and a stage without recorded progress is taken for infinite (witnesses). A stage whose reporting partitions have nothing ready yet is declared to have exactly zero rows although it has not ended (C59_exactly_empty_false). The proportions are in exact arithmetic. Leaves that do not know their rows make the progress look greater than it is, and one whose statistics fail hides those after it (C59_unknown_leaves_false). |
| C60 | LIMIT and ORDER BY LIMIT return rows SQL allows | limits and sorted limits as operators with a choice (`Op.choice`), in every partition, at the gathering node and above it | C08 gives an answer of the plan; limits of local limits are limits (counting; for sorted limits by transitivity) | partial: For the plans DataFusion makes of a limit above a gathered input, with inputs as in C08. A limit on the build side of a broadcast join is false (C08_limited_build_side_false). The order of the rows returned is C13; limits pushed below a boundary are C12. False for a limit directly above a hash repartitioning in a query that goes on (C60_limit_above_repartition_false): every task takes the limit. |
| C61 | The cost of a stage counts every operator once and grows with the data | `calculate_cost` with the cpu, memory and network formulas, expressions as trees, `plan_statistics` and `default_bytes_for_datatype`; DataFusion's `statistics_from_inputs` is a parameter | formulas evaluate to closed expressions by C47 and induction over expressions; induction over the stage; witness for wrapping sums | partial: More data costing no less holds as long as no sum exceeds the largest machine word; beyond, a checked build panics and a release build wraps (witness: a nested loop join of two tables of 8 GiB). Exactness flags of statistics and f32/f64 rounding are not modelled. |
| C62 | Workers are reached over shared connections, at the right worker, and failures are not kept | the connection cache as transition system (calls, polls, reports of failures, cancellations, evictions); the local or remote choice | invariant over schedules; witness for a late failure | partial: False in two points (witnesses): a late report of an old failure removes a newer working connection, and a wrong local URL makes the coordinator ask itself for another worker's data. Everything else is proved for all schedules. |
| C63 | Tasks of one stage that run in the same process do not disturb each other | boundary objects shared by the tasks in the coordinator's process, on top of the pool of C07 | an object sees the operations of the tasks that use it; C07 invariant; arithmetic of the rotation; witnesses | partial: Proved for tasks that are alone in their process and for coalesces; refuted, for every history, for two tasks of one stage in the coordinator's process that read a shuffle or broadcast: at most one of them gets its stream. Default routing avoids it when there are no more tasks than workers, and cannot when there are twice as many. State of other shared nodes is not modelled. |
| C64 | A task runs with the settings of the session that started the query | `DistributedConfig` with its printed values, the configuration calls, the session a worker builds | round trip of printed values (decimal digits by induction) on top of C40 and C41; invariant over sequences of calls; witnesses | partial: Proved for options put in by this library's own calls. False (witnesses) for options put in with DataFusion's with_option_extension, which never reach the workers, and for the batch size, which is not inherited as documented. |
| C65 | Custom nodes arrive at the workers | `set_distributed_user_codec`, `new_combined_with_user`, the order in which codecs are tried, the position tag, encoding and decoding of nested plans (`Model/UserCodec`) | mutual induction over plan and children; the codec found by decoding is the one that encoded, because the list of the coordinator is a prefix of the list of the worker | proved: The two false variants show that the conditions of the statement (same order, nothing written when refusing) are needed. |
| C66 | User-defined functions arrive at the workers | encoding of function calls in expressions: definitions are sent only if a codec wrote something; decoding asks the registry first (`Model/UserCodec`) | the own codec accepts every function and writes nothing; induction over expressions in both directions; witness for codecs | partial: Exactly the functions registered in the session of the worker arrive. The part about codecs is false: codecs registered by users are never asked about functions, because the codec of this library is asked first and accepts all of them. |
| C67 | EXPLAIN shows every stage | `display_plan_ascii` and `find_input_stages` (`Model/Display`), `format_tasks_for_stage` (`Model/StageHeader`) | the blocks are, in order, the boundaries of the plan (mutual induction); indentation is the number of boundaries above, defined inductively; witness by planning a query | partial: Holds for plans in which no stage begins with a boundary; otherwise a stage is missing from the text (witness, reached by planning). The number of partitions in the header is that of the partitions read for shuffled stages, and for gathered ones unless they declare a hash partitioning: then those of one task are named for all (false). |
| C68 | The drawing of a plan shows its data flow | the queues of `display_plan` and `display_inter_task_edges`, edges of shuffles and coalesces (`Model/Display`); edges inside a task and ports (`Model/DrawInside`) | breadth-first traversal meets exactly the nodes of the stage (induction on fuel, which suffices); edge arithmetic against the pulls of the boundaries (`Model/Boundary`); inside a task an invariant of the queue (what was taken, with the place of its parent, and the positions still to come); witnesses for broadcasts and several consumers | partial: The nodes: in full. The edges: for stages without broadcasts that gather in a single task; false otherwise (witnesses). The edges inside a task: in full. Their ports exist if the inputs of every node have equally many partitions; false otherwise (witness). |
| C69 | EXPLAIN ANALYZE writes what each task recorded | aggregation by name and task in a hash map (any iteration order), sorting (stable sort of any order), grouping and text of `format_metrics_by_task`; header and leaf metrics (`Model/MetricsDisplay`) | invariant of the map; strictly sorted after aggregation; groups are determined by the sorted list; the lines of the specification are unique, so that the order cannot matter; composed with the metrics C44 attaches to a node | partial: Proved for metrics of one kind per name that are all from tasks or all not, and headers of stages whose tasks have all reported; false otherwise (witnesses). For the metrics of the library itself (latencies, percentiles, bytes, gauges) the values are those of C45, over all partitions of a task or of all tasks; metrics of the library of two types under one name are not refused, one of them is left out (witness). |
| C70 | A distributed query returns its rows in the order it promises | executions of a plan as a relation: every place where several streams are read at once may interleave them in any way (`Model/Stream`, `Model/Merge`); the orders operators need and promise (`Spec/Order`); `ORDER BY` and its limit stated on lists of rows (`Spec/OrderBy`) | every pass of the planner keeps `Ordered` (induction over plans); an ordered plan delivers its rows sorted and each of its executions is one of the executions of C08 up to order (induction over plans); executions exist | partial: Proved for every plan that does not rely on the order of an order-preserving hash repartitioning and every session whose leaves keep their order when scaled up, in particular for every ORDER BY and ORDER BY LIMIT; false otherwise (witnesses). |
| C71 | A query that ends without an error has returned every row, whatever fails on the way | what is seen of every stream of a plan when things fail: the items it returned and whether it ended (`Model/Faulty`); boundaries carry what the transport models let through (`SelectAll`, `Demux`, `BroadcastQueue`, `select_all`), failures may come anywhere | what is seen is the beginning of an execution of `Model/Stream` in which nothing fails (induction over plans, with C28, C29 and C32 for the transport), which C70 and C08 relate to the answers of the query; conversely every execution can be seen | partial: Proved for every plan of C70 and every failure that is not a panic of a task that moves batches; with such a panic it is false (witness). |
| C72 | A query that merges the sorted partitions of a worker makes progress | the connection of C29-C32 (`Model/Demux`, `Model/SelectAll`) with a consumer that reads a partition only if a merge asks for it; merges are described by what they cannot ask for (`Spec/Merging`) | invariant over all schedules of such a consumer: what is not read of a partition keeps the gate closed; progress under fair schedules by the measure of C31 when the gate stays open | partial: False in general: for every budget there are sorted partitions on which every merge hangs. Proved when a response fits in the budget or a connection carries one partition. |
| C73 | A query fed with work units that ends without an error has read all of them | the feeding of C38 for every task, the connection with its background task, the worker loop that treats an error like an end, and the driver that waits for all background tasks (`Model/Fed`) | invariant per task over all schedules: units can only be missing if the connection was lost, and a connection lost while the answers are open fails the query | partial: Proved when metrics are collected (the default) or no connection breaks, and every message decodes. Without metrics a broken connection is not noticed, and a message that does not decode never is (witnesses). |
| C74 | Times shown in the metrics are the times that passed | clocks as arbitrary functions of time, subtraction on 64-bit words with and without overflow checks, the task times with their clamping (`Model/Times`) | arithmetic for all readings; induction over requests; witness for every clock that is behind | partial: False for work units: a worker whose clock is behind by more than the transit time panics or records centuries. Proved for agreeing clocks, for clocks ahead, for messages between workers and for the times of a task. |
| C75 | What a sampled partition reports is true of its rows | the peeked batches with their rows, cells and sizes, and the loops that compute the report (`Model/SamplerReport`) | induction over the batches: the loop visits exactly the rows with the picked numbers; counting | partial: Everything proved with exact fractions (the code uses f32); beyond a thousand rows the proportion of different values is that of the sample, which can be off by any factor (shown). |
| C76 | Every work unit feed of a plan reaches the tasks that run its node | the registry of feeds, the traversal that declares feeds while it specialises a plan, and the one that opens them (`Model/FeedPlan`); units from `Model/WorkUnit` | both traversals visit what the task runs (C26); induction over the plan: over all tasks every node of the stage is visited once in each of its tasks; composed with C38 and C39 | partial: Proved for every stage of every planned plan, for nodes with feeds that the registry finds in the plan. Feeds of the variants inside a scaled-up leaf are not found, and nodes that share a feed are not noticed (witnesses). |
| C77 | A query always ends | whole queries as networks of tasks with requests on first poll, bounded queues of forwarding tasks, one response per connection, the byte budget of the consumer streams that are dropped before their end and connections that fail (`Model/Network`); what tasks compute and are willing to read is arbitrary; the network that the boundaries of a plan open (`Model/PlanNetwork`) | a well-founded measure decreases with every step that changes something; in a state in which nothing can happen, a stream that is needed and has not ended leads to a deeper one, or to one its reader reads later, so there is none | partial: Every query comes to rest, whichever connections fail and whenever; it comes to rest only at its end if the tasks of a stage read their inputs in one order and a task that stops drops all its inputs. False for tasks that wait for one input while another one is full, as merge joins do, and for tasks that drop one partition and go on reading another (witnesses). |
| C78 | A running query ends with its answer | what is seen of the nodes of a plan in a state of the running network of C77: boundaries return what their task got from its streams, errors of failed connections included, writers send what their input stage computed, DataFusion operators follow the contract of C71 (`Model/NetworkRows`) | by induction over the plan, what is seen continues to an execution of the plan (`Lemmas/NetworkRows`), with the invariants of streams of C77; conversely, the rows of every execution are distributed over the streams (`Lemmas/NetworkRuns`) and sent by tasks that first read all their inputs (`Lemmas/NetworkHonest`) | partial: Proved for every planned query of C70 whose tasks read their inputs one after the other (ending) and for every behaviour of the tasks (what has been received). Any connections may fail at any time in the run. As stated it is false: queries whose plans are wrong (witnesses of C08 and C70) do not end with their answer, and those that hang (witnesses of C77) do not end. |
| C79 | Worker plan rewrites that meet the documented criteria keep the answer | handlers as arbitrary functions on the decoded plans of stages, whose boundaries have lost their inputs, and the plan that then runs (`Model/Rewrite`); the documented criteria as a relation between executions (`Spec/Rewrite`) | by induction over the plan, every execution of the rewritten plan is one of the planned plan with an operator below the head of every stage that returns the rows of each partition in another order (`Lemmas/RewriteRuns`); such plans are legal and have the same answers (`Lemmas/Rewrite`), so C70, C71 and C78 apply; the network of streams is a function of the topology | partial: Proved for handlers that keep the rows of every partition of what the worker keeps of a stage, which is the stage without a repartition or broadcast at its root; a rewrite that only keeps the partitions above such a root is not covered, as the worker replaces that root. Missing also what C70 misses. |
| C80 | Progress reports of a worker list exactly the tasks it serves, with the rows they produced so far | the report as a walk over the task registry of C36 interleaved with any events, plans as trees of node objects that record rows (`Model/Progress`) | listing from the invariant of C36 and an invariant that closed channels left no cached entry; rows by an invariant that a root which is taken off records nothing; the planner theorems (C58, legality) say which stages have such roots | partial: Which tasks are listed is proved for every history. The rows are right only for plans without a repartition or broadcast at their root: the rows are read from the root of the plan as it was sent, and such a root is replaced before the plan runs, so reports show zero rows for these tasks forever, in particular for every broadcast stage and, with dynamic planning, for every shuffle stage (proved). Tasks in the process of the coordinator that were given the same plan object each show the rows of all of them (proved, with a witness). Not modelled: CPU and memory figures. |
| C81 | Configuring a session means what the calls say, in whatever order they come | sessions as addresses into heaps of options (copied on writing) and of extension values, all `DistributedExt` functions and `with_distributed_planner` on them, copies (`Model/Configure`); the planner layers on top of `Model/Create` | a simulation shows that what a session reads is a function of the calls on it and on the sessions it is a copy of; the rest by induction over these calls; planning twice by C23 | partial: False in two places, both proved: a failing `set_distributed_option_extension_from_headers` keeps the options it had set before the error (C81_failed_headers_change_options_false), and with the planner registered twice EXPLAIN ANALYZE of a distributed query is wrapped twice and fails (C81_planner_twice_analyze_false). The forms on SessionStateBuilder, SessionState and SessionContext forward to the ones on SessionConfig and are not modelled separately. |
| C82 | Queries that use the same worker at the same time do not disturb each other | the worker of `Model/Worker` serving any number of queries; where the query id of a run comes from (`Model/Runs`) | a simulation between the worker and one that only gets the events of one query: an injective renaming of entries that is extended with every step; then what the query sees is equal. Counterexamples for runs that share identifiers | partial: False of two runs of one statically made plan, because its tasks keep the identifiers drawn at planning: at the same time (C82_same_plan_at_once_false), right after one another (C82_run_again_at_once_false, C82_plan_of_an_earlier_run_false) and for their metrics (C82_metrics_of_an_earlier_run_false). Memory, threads and the shared runtime environment of a worker are not modelled. |
| C83 | EXPLAIN ANALYZE runs the query and reports what happened | `DistributedAnalyzeExec::execute` and `explain_analyze` over the models of `DistributedExec`, of waiting for metrics and of the metrics rewriter (`Model/Analyze`) | case analysis on the stream of the query; the planned cases combine C08/C58, C37 and C44 | partial: False of plans with user-placed boundaries whose root has several partitions (C83_several_partitions_false). False with partial reduction, where metrics are shown on the wrong node (C44_partial_reduce_false). The exact text of the displayed plan is not modelled. |
| C84 | Record batches survive the wire | `build_flight_data_stream`, `garbage_collect_arrays` and the decoding of each partition, with what arrow-flight does about dictionaries, over the models of merging and taking apart the streams of a connection (`Model/Batches`) | garbage collection: rank of a used key, prefix of the new buffer; encoder and decoder: the dictionaries of the reader are the ones the writer recorded, by induction on the stream; connection: composed with C29 and C32 | partial: The encoder and decoder are arrow-flight contracts written as a model. What a consumer got is a prefix of what was produced although tasks of the connection panic; that everything arrives when the stream ends is false then (C84_panic_false). Missing: dictionaries whose values have dictionaries. The setting for the size of messages has no effect (C84_max_message_size_false). |
| C85 | What an exchange reports about its traffic is what happened | the metrics beside the demultiplexer of a connection: what each step of the background task and each poll adds, and the wrappers that time polls (`Model/Traffic`, over `Model/Demux`) | the metered run projects onto the plain run; counters as sums over what arrived, by induction on the schedule; memory: invariant relating the gauge with the greatest over the prefixes; time: shown plus time in progress equals the time of all polls | proved: Counters are machine words (sums modulo 2^64). A latency or an item that took less than a nanosecond is shown as one nanosecond. The percentile latencies (a sketch) are outside the model. |
| C86 | What a query reports about sending its plans is what happened | the tasks that send plans, the coordinator that owns them, and the counters and latencies they share (`Model/SendMetrics`) | invariant along every history that relates counters, owners and shown values with what the history contains; every channel once: the channels that were answered are a permutation of those that were spawned | proved: Counters are machine words (sums modulo 2^64; the latencies are exact while their sum fits in a word). Before the query is over no latency is shown; a latency below a nanosecond is shown as one nanosecond, also when no plan was sent. |
| C87 | Whatever a worker is asked, it answers with data of the task named or with an error | a worker as a map from tasks to plans, requests as decoded from their protobuf fields, memory and integer width of the machine (`Model/Requests`) | case analysis over every field; induction over the partitions of a request; witnesses for the requests that are not answered | partial: As stated it is false, and each reason is a theorem: a range that ends before it begins panics, a range longer than memory ends the process of the worker, a refused request leaves partitions executed and the producer head chosen, and a malformed message of a channel ends it silently. Proved for all other requests. How a panic is contained by the gRPC server is not modelled. |
| C88 | An exchange that is rebuilt by a rule still delivers everything once | exchanges with their declared partitions and the operations that rebuild them (`Model/Rebuild`), on the routing of C01 to C04 | invariant along every sequence of rebuilds that relates declared partitions with those below; witnesses for other numbers | partial: As stated it is false: exchanges keep the number of partitions they were built with, so that a child with another number of partitions is taken without an error and partitions are lost (gathering, broadcast) or repeated (broadcast). Proved for every sequence of rebuilds that keeps the number of partitions, and for shuffles without conditions. |
| C89 | Custom expressions arrive at the workers | expressions as trees of built-in and custom nodes, the places of a plan where they stand, and the codec that is asked at each place (`Model/KeyCodec`, over `Model/UserCodec`) | mutual induction over plans and expressions; sent iff accepted; every plan with a custom part in a hash key of an exchange is refused | partial: As stated it is false: exchanges write the hash keys they declare with the codec of this project alone, which knows no custom expression, so that a plan with a custom expression among the keys of an exchange cannot be sent whatever codecs are registered. Proved: exactly which plans can be sent, that every plan that can be sent arrives unchanged, and that keys of producer heads are written with all codecs. |
| C90 | Reading a feed does not depend on the clocks of the machines | the stream a leaf reads from its receiver, with clock readings of two machines as inputs and overflow checks as a parameter (`Model/FeedRead`) | induction over the queue; the latency metrics as folds over the units that were given; witnesses for every clock that is behind | partial: As stated it is false: latencies are unsigned differences between clocks of two machines, so that a worker whose clock is behind by more than the time a unit takes panics in builds with overflow checks and shows about 584 years in the others. Proved: what every leaf reads in builds without checks whatever the clocks, the same in all builds if no clock is behind or there is only one, the counters, and the latencies if no clock is behind. |
| C91 | The memory a worker holds for a response is accounted for, bounded and given back | forwarding tasks, their queues and the memory reservation of a response, with the reader leaving at any point (`Model/Buffers`) | invariant along every schedule: the reservation is the sum of what is held; conservation of the messages of each partition | proved: Aborted tasks are gone once the runtime has run their abort steps, which is assumed to happen. The limit of the pool is not part of the claim, and is not enforced (C91_limit_not_enforced). |
| C92 | Planning a query ends | the planner of C20 to C25 and C58, with fuel for the recursion that follows the replaced nodes (`Model/Create`, `Model/Recursion`) | ending means that some amount of fuel, and every greater one, gives the same answer; induction over the plan and over the rank of the leaves; the false case by induction over the fuel | partial: As stated it is false: in a plan with exchanges placed by the user, what a handler answers for a leaf is visited again, so that a handler that puts an operator above the leaf makes planning go on for ever (witness, for every plan and amount of fuel). Proved for every plan when the handlers make progress (a rank of leaves decreases, in particular when they answer a leaf that they leave alone), and for every session when exchanges are placed automatically. Planning the node of EXPLAIN ANALYZE without exchanges below is not modelled. |
| C93 | What joins and sorts learn while they run removes no row from the answer | the objects of one filter (that of the coordinator and the decoded copies), the placement of the tasks of join and scan, and histories of sending, publishing and reading (`Model/Learned`, over the joins of `Model/PlanTree`); for sorts with a limit `Model/LearnedTop` | invariant along every history: visible filters are sound for the whole build side, and every scan has let pass what it has read up to rows without a match; then the bucket theorem of C10; the false case constructs the history for every query of that kind | partial: As stated it is false: plans are given to tasks at the URL of the coordinator without encoding them, so that a partitioned join there and a scan of another stage there share one filter object, and the scan skips rows that only match in other tasks of the join: rows are missing from the answer, without an error (for all such queries with a row that matches in another task only). Proved for every history when the build side is broadcast, when no task of the join is at the URL of the coordinator, and when the join runs in one task. What DataFusion puts into filters and for which join types is a contract; Partitioned joins with their scans in the same stage (tables partitioned alike on disk) are right when no task is at the URL of the coordinator, and can lose rows whenever one of several tasks is: tasks elsewhere get a copy of the filter as it is when their plan is encoded, which is after connecting. Filters that sorts with a limit learn are harmless on every placement, shared or not (in full). |
| C94 | A statement that writes writes every row once, from the coordinator | an operator above the planned query that takes its first input partition as it is (`Model/Sink`), over the planner of C08 and C58 | freedom of a plan from operators that write is preserved by every pass of the planner (induction over the plan), so no task of a stage has one; the rows by C08 and C58 applied to the plan with the operator on top | partial: That only the coordinator writes holds for every query. That the right rows are written holds for the queries of C08_ungathered_root_partial and C58_ungathered_root_partial; it is false for the others (witnesses of C08, C70). Statements that fail have written the beginning of an answer, for gathered queries and failures other than panics. Exchanges placed by the user: for the queries of C08_user_boundaries_partial. EXPLAIN ANALYZE of a statement runs the same plan (task counts chosen before it runs). |
| C95 | Recursive queries return what a single node returns, or fail | the steps of a recursive query, each of which asks the tasks below its exchange again, with the state the worker keeps of each plan (`Model/Again`, over `Model/Requests` and `BroadcastExec` of `Model/Boundary`) | induction over the steps with the number of times each partition was executed as invariant; for the right-or-fails part an invariant on single executions | partial: As stated it is false if DataFusion repartitionings panic when a partition is executed again (a parameter of the model; DataFusion is not in the sandbox): the query then goes on over the network as if the table were empty from the second step on (C95_shuffle_false). If they fail instead, the property holds for the modelled queries. Several exchanges in one term and UNION without ALL are covered by the right-or-fails theorem. Missing: terms in stages of several tasks, terms that stop reading early, and terms whose own input lies below an exchange (their plans would have to be sent to workers). |
| C96 | A text file read by several tasks gives the rows it gives when read whole | the cutting of text files into byte ranges in the default handler for file scans, with the contracts of the partitioner and of the range reader (`Model/Ranges`, over `Model/Leaf`) | induction over the ranges with the text that is left to read; the wrong direction by the parity of quotation marks per row | partial: False as stated: C96_false gives a file of two rows that two tasks return as three. The rows are right exactly when no cut falls in a quoted value that goes on in the next line, for all files whose quoted values are closed; hence always for files with one line per row for files that are not cut, and for scans with a declared partitioning, which deal out whole files. How the partitioner cuts files (consecutive ranges) and how a range is read (from line start to line start) are contracts of DataFusion. Files made of blocks (Parquet) are always read right, by the contract that a range reads the blocks that begin in it. Missing: other formats, escape characters other than doubled quotation marks, and compressed files. |
| C97 | A scan spread over tasks keeps the order it declares | the default handler for file scans with what the scan declares of its order and partitioning (`Model/OrderedScan`, over `Model/Leaf`) | what a partition of a task holds is a part of one group, or a sublist of all files, by induction over the dealing | partial: False as stated: C97_false gives a scan with a declared partitioning whose first task returns a partition out of order. Proved for all scans without a declared partitioning (with the contract of the partitioner that a group it makes is a part of one it was given), and for those with one if there are no more files than partitions of all tasks, or if the files are in order across partitions. What operators above make of it is the matter of C70, whose C70_scaled_scan_order_false shows the same from the side of the plan. |
| C98 | What workers report about their tasks reaches the coordinator complete | the response stream of a worker for a task (reports, their end, metrics) and the loop of the coordinator that hands them on, for all tasks at once (`Model/Answers`) | projection of a history to one task, then to reports and to metrics; induction over each | proved: The order in which samplers finish and which of the two streams is polled are free. The encoding of the messages is the matter of C54. |

## Disagreements

Places where the code does not do what its documentation says or what a user would expect. Each line marked with a theorem is
proved of the model; the others were found while reading.

Execution:

* A sibling stream dropped with messages buffered never gives its bytes back, so the remaining consumers of the connection
  starve once the budget is used up (`C31_dropped_sibling_starves`). A budget of zero blocks every connection
  (`C31_zero_budget_starves`).
* A worker connection that is dropped without having been polled never contacts its worker, although the comment promises it
  (`C33_unpolled_worker_never_contacted`).
* A panic in one of three background tasks ends streams without an error: the connection's demultiplexer
  (`C32_client_panic_truncates_silently`), the server's forwarding tasks (`C32_server_panic_truncates_silently`), the broadcast
  producer (`C28_crash_truncates_silently`).
* The connection pool indexes streams with the caller's range although they were requested with the first caller's
  (`C07_mixed_ranges_misdeliver`); the boundaries of this project never mix ranges (`C07_coalesce_calls`, `C07_fan_calls`).
* The sampler drops batches that were ready before an error (`C34_error_in_sample`).
* A work unit feed that fails, or whose stream is lost, looks complete to the task (`C38_feed_error_looks_complete`,
  `C38_lost_stream_looks_complete`). An endless feed keeps the query from ending (`C49_endless_feed_blocks_end`).
* A request that arrives after the task's entry expired, and a plan that could not be decoded, leave entries behind
  (`C36_late_request_leaks`, `C36_failed_plan_leaks`).
* An Avro error raised on a worker arrives as "Malformed protobuf message": tag 21 is missing from the tag list of its message
  (`C57_avro_lost`). An error with more than fifty contexts arrives as a decoding error (`C57_deep_lost`). Object store errors
  lose store names, operations and kinds (`C57_store_lost`), and change once more at the second boundary
  (`C57_second_hop_differs`).
* Two tasks of one stage that run in the coordinator's own process execute the same boundary objects. They cannot both read a
  shuffle or a broadcast: for every history at most one gets its stream, possibly with the rows of the other
  (`C63_shared_shuffle_false`, `C63_rows_of_another_task_false`). It happens with every full stage when
  `max_tasks_per_stage` is at least twice the number of workers (`C63_crowded_stage_shares`), never with the default routing and
  no more tasks than workers (`C63_default_routing_apart`).
* A failed connection attempt that is reported late removes a newer, working connection from the cache
  (`C62_one_retry_per_failure_false`). A coordinator configured with the URL of another worker as its own asks itself
  (`C62_wrong_local_url`).
* Starting a query a second time is refused, with an error about its stage (`C56_no_second_start`).

Planning:

* A one-partition operator above an ungathered, divided one-partition scan computes one result per task
  (`C08_ungathered_single_partition_operator_false`).
* A round-robin `RepartitionExec` directly below a coalesce is stripped on the worker: requests name partitions that do
  not exist (`C05_round_robin_below_coalesce_false`, `C08_round_robin_below_coalesce_false`).
* The build side of a broadcast join that is collected with a limit is broadcast without it, and every task of the join
  takes a limit of its own, possibly of other rows (`C08_limited_build_side_false`).
* A limit directly above a hash repartitioning (`df.repartition(Hash(..)).limit(1)`) in a query that goes on is taken by every task of its
  stage, since the planner puts a shuffle, and nothing that gathers, between the two (`C60_limit_above_repartition_false`).
* A user-placed coalesce directly above a shuffle between single tasks loses rows: the shuffle is taken out, then the
  repartitioning below it is taken off as the head of the coalesce's input (`C08_coalesce_above_shuffle_false`).
* A union below a round-robin repartitioning into one partition at the root of the plan is isolated for several tasks although the
  coordinator runs it as one: the rows of the other tasks are lost (`C08_repartitioned_root_false`).
* A leaf without a scale-up handler is executed completely by every task (`C08_unscaled_leaf_false`).
* `ProducerHead::None` over two nested repartitionings removes one of them per installation (`C06_two_repartitionings_false`).
* A file scan whose group count is not a multiple of the task count fails planning (`C17_indivisible_fails`), one of empty files
  panics (`C17_zero_tasks_panics`), a declared partitioning is not kept (`C17_declared_partitioning_lost`).
* `DistributedLeafExec` run as a single task runs the original leaf with the partition count of the variant
  (`C18_single_task_loses_rows`, `C18_single_task_out_of_range`).
* An isolated union with several slots run as a single task loses rows (`C16_single_task_run_loses_rows`).
* `transform_up_with_task_count` gives wrong counts after a visitor returns `Jump` (`C26_up_jump_false`).
* A limit is pushed below a user-placed coalesce that stands under a filter with a limit (`C12_below_filter_false`).
* The order of an order-preserving hash `RepartitionExec` is lost over a shuffle, although the shuffle promises it
  (`C70_order_preserving_repartition_false`); a sorted file scan with a declared partitioning is no longer sorted when it is scaled
  up, although `DistributedLeafExec` promises the order of its first variant (`C70_scaled_scan_order_false`).
* A panic of the task that forwards a partition makes a whole query end without an error and without some of its rows
  (`C71_panic_truncates_false`).
* The byte budget of a worker connection couples its partitions: a merge of sorted partitions directly above a boundary (the plan of
  every distributed `ORDER BY`) waits forever once the bytes buffered for a partition it does not want yet reach the budget
  (`C72_merge_hangs_false`, `C72_every_budget_hangs_false`). The comments at `worker_client.rs:124-129` and `:189-192` say that sibling
  partitions are not coupled.
* With `collect_metrics = false` a worker ends its answers as soon as it has the plan (the metrics sender that keeps them open is
  dropped, `impl_coordinator_channel.rs:92-95`), so the coordinator no longer watches the connection. If it breaks while work units are
  being fed, the leaf reads a truncated feed and the query ends without an error (`C73_lost_connection_false`).
* The worker's message loop (`while let Some(Ok(msg))`, `impl_coordinator_channel.rs:125`) treats an error like the end of the stream:
  a message that does not decode cuts the feed silently (`C73_undecodable_message_false`).
* Work unit latencies subtract the coordinator's clock from the worker's without saturation (`remote_work_unit_feed.rs:199-206`): a
  worker whose clock is behind panics (overflow checks) or reports centuries (`C74_slow_clock_false`).
* The proportion of different values found in 1000 rows is taken for that of all rows (`C75_ndv_overestimate_false`).
* Work unit feeds of the variants inside a `DistributedLeafExec` are neither declared nor opened: the traversals ask the registry about
  the leaf, not about the variant it is replaced by (`query_coordinator.rs:360-389`), and the task fails with a missing feed
  (`C76_feeds_of_variants_false`).
* `RemoteWorkUnitFeedRegistry::add` relies on a duplicate detection in `task_specialized_plan` (`remote_work_unit_feed.rs:44-47`) that
  does not exist: two nodes sharing a feed (`WorkUnitFeed` is `Clone` and keeps its id) are both fed from the same provider partition,
  and the second one fails at execution with "already consumed" (`C76_shared_feed_false`).
* The comment at `worker_client.rs:124-129` says that partitions of a connection do not wait for each other. They do, through the byte
  budget and through the end of the response, both of which they share: an operator that reads two inputs in turn, such as a merge
  join, can wait forever (`C77_merge_join_hangs_false`). DataFusion usually puts a sort, which reads to the end, in between.
* What was received for a partition that is then dropped counts against the budget of its connection for ever (worker_client.rs:285-301 only
  shrinks the reservation when a message is read). If one partition of a task drops its input (a limit) and another one reads on, the
  second one can wait forever (`C77_dropped_partition_hangs_false`).
* Progress reports show zero rows for every task whose plan has a repartition or broadcast at its root, which is every broadcast stage and every shuffle stage of a dynamic plan: the rows are read from the root of the plan as it was sent, which `ProducerHead::insert` takes off before anything runs (`C80_headed_tasks_show_no_rows`, `C80_dynamic_stages_show_no_rows`).
* `set_distributed_option_extension_from_headers` is not atomic: when it fails at a header, the options of the headers before it stay set (`C81_failed_headers_change_options_false`).
* Calling `with_distributed_planner` twice is harmless for queries (`C81_planner_queries_once`, `C81_planner_handlers_once`) but breaks `EXPLAIN ANALYZE` (`C81_planner_twice_analyze_false`).
* A statically made physical plan cannot be run twice at the same time, nor reliably again right after a run: its tasks keep the query id drawn at planning, so the runs meet in the registry of the workers (`C82_same_plan_at_once_false`, `C82_run_again_at_once_false`, `C82_plan_of_an_earlier_run_false`), and waiting for the metrics of the second run returns those of the first (`C82_metrics_of_an_earlier_run_false`). Plans made while they run draw a new id per run and are isolated (`C82_dynamic_runs`).
* `EXPLAIN ANALYZE` of a plan with user-placed boundaries and several root partitions succeeds and counts the rows of the first partition only, while running the query fails (`C83_several_partitions_false`).
* `Worker::with_max_message_size` has no effect: the field is never read and the encoder always uses `usize::MAX`, so the documented bound of a connection's memory (budget plus maximum message size) is no bound (`C84_max_message_size_false`).
* Planning an `EXPLAIN ANALYZE` again wraps it twice, and its execution always fails (`C23_analyze_again_false`); when the
  boundaries of a user-placed plan are all removed the fallback is the changed plan, not the given one
  (`C23_user_again_false`).
* Handler order: the documentation says the last registered handler is asked first, the code asks the first
  (`C48_documented_reverse_order_false`).

Metrics, statistics, wire:

* A worker rewrite handler that keeps the topology, as documented, but replaces a repartitioning at the root of the stage (by a node that wraps it for tracing, say) makes the worker put a second repartitioning on top, and all metrics of the stage are shown one node too low (`C44_instrumented_shifts`).
* In a plan in which one node object occurs twice the metrics of both occurrences are shown on the first (`C44_shared_object_false`).
* Partial reduction moves the metrics of the stage by one node (`C44_partial_reduce_false`); metrics equal in value and
  partition are hidden (`C44_equal_metrics_dropped_false`); a task that is never executed never reports, so waiting for
  metrics may not end (`C37_unexecuted_task_never_reports`).
* The average of statistics divides by the number of all vectors, including empty ones (`C50_average_skips_empty_false`).
* The bytes of a stage in progress are scaled by the inverse of its progress truncated to an integer, its rows exactly
  (`C59_bytes_not_scaled_false`); a stage with rows ready whose leaves have not counted any is taken to have `usize::MAX` rows
  (`C59_no_progress_blows_up`); with seven partitions or fewer, the first report with data decides
  (`C59_first_report_decides`).
* The costs of operators are saturated but added up without saturation: with a nested loop join of two 8 GiB tables a checked
  build panics and a release build estimates less than for 2 GiB tables and plans fewer tasks (`C61_huge_join_false`).
* `First` latencies depend on the arrival order (`C45_first_order_dependent`); cost expressions with fractional constants are
  not simplified exactly (`C47_fractional_constants_differ`).
* Option keys with upper case letters are lost and keys that repeat the prefix set another option (`C40_upper_case_key_lost`,
  `C40_repeated_prefix_sets_other_option`); a passthrough header can change an option (`C41_passthrough_changes_option`).
* Distributed options put into the session with DataFusion's `with_option_extension` never reach the workers, which use the
  defaults (`C64_inserted_options_lost_false`). `shuffle_batch_size = 0` is documented to inherit the session's batch size; workers
  use DataFusion's default instead (`C64_batch_size_not_inherited_false`), as for all of DataFusion's own options.
* Codecs registered with `with_distributed_user_codec` are told apart by their position: other orders on coordinator and worker
  decode a different plan without an error (`C65_order_of_codecs_false`); a codec that writes before it refuses spoils the data of
  later codecs (`C65_writing_before_refusing_false`). Their hooks for functions are never called (`C66_codec_for_functions_false`).
* EXPLAIN omits the input stages of a stage that begins with a boundary (`C67_stage_below_the_root_of_a_stage_false`). The Graphviz
  drawing has no edges for broadcasts (`C68_broadcast_reads_false`), edges to nodes that do not exist beside a broadcast
  (`C68_edge_to_a_missing_node_false`), and wrong edges for gathering in several tasks (`C68_gathering_in_several_tasks_false`), and edges to ports that do not
  exist below nodes whose inputs have different partition counts (`C68_edge_to_a_missing_port_false`). The header of a stage that is
  hash partitioned and gathered names the partitions of one task for those of all (`C67_header_of_a_gathered_stage_false`).
* The header of a stage shows nothing of the tasks after one that has not reported (`C69_header_gap_false`); metrics with and without
  a task under one name are written without braces (`C69_mixed_labels_false`), and two kinds of metrics under one name panic
  (`C69_two_kinds_false`).
* Tasks of one stage that run in the coordinator's own process record into one set of metrics at file scans, and each reports all of
  it: two such tasks that scan 3 and 4 rows are displayed as 14 rows (`C44_in_process_false`).
* A timer of zero arrives as one nanosecond (`C54_zero_time_changes`); one timestamp out of range loses the whole report
  (`C54_timestamp_out_of_range`).
* Every query with user-placed boundaries fails when task counts are chosen while it runs: boundaries are injected again, and those of
  the user keep local stages of several tasks, which cannot be executed (`C58_user_boundaries_false`).
* Two tasks of one stage in the coordinator's process are each reported with the rows of both (`C80_in_process_false`).

* One request can end the process of a worker: `execute_task` reserves room for `end - start` streams before it looks at how many
  partitions there are, so that a request for more partitions than memory has room for aborts (`C87_huge_range_false`), and one whose
  range ends before it begins panics (`C87_reversed_range_false`). A request that is refused has still executed the partitions before
  the missing one, and has still chosen the producer head for good (`C87_refused_takes_partitions_false`,
  `C87_refused_decides_head_false`).
* A stage whose reporting partitions have nothing ready yet is declared to have exactly zero rows although it has not ended
  (`C59_exactly_empty_false`).

* A gathering or a broadcast that gets a child with another number of partitions keeps what it declared before, without an error:
  partitions are lost or repeated (`C88_more_partitions_false`, `C88_broadcast_repeats_false`, `C88_broadcast_loses_false`), and so it
  is for a gathering in several tasks that gets a stage with another number of tasks (`C88_other_tasks_false`).

* Exchanges serialise the hash keys they declare with the codec of this library only: a plan with a custom expression among the keys
  of an exchange cannot be sent, whatever codecs are registered (`C89_hash_keys_false`), although producer heads with the same keys
  can be (`C89_producer_heads`).
* Work unit latencies are unsigned differences between the clocks of coordinator and worker: if the worker's is behind by more than the
  transit time, leaves panic in builds with overflow checks (`C90_clock_behind_false`) and show about 584 years in others
  (`C90_latency_wraps_false`).
* Buffers of responses are accounted for with `grow`, which cannot fail: the limit of the memory pool is not enforced for them
  (`C91_limit_not_enforced`).
* The replication factor of a broadcast is never counted in the cost of a stage: costs are only computed for stages whose
  boundaries already run remotely and have no children to read the factor from (`C61_broadcast_factor_false`). The logarithm in the
  cost of a sort is multiplied without saturating (`C61_huge_sort_false`).
* In plans with exchanges placed by the user, the answer of a scale-up handler is visited again, and its leaves are scaled up again. A
  handler that puts an operator above the leaf it was given makes planning go on for ever (`C92_filter_above_leaf_false`).
* Work units with an identifier the task did not declare are dropped without an error (`C38_unknown_units_are_skipped`).
* A coordinator that is a worker too gives its own tasks the plan without encoding it. Filters that a partitioned hash join learns
  are then shared between its task there and the scan of its probe side there, which belongs to another stage and serves all tasks of
  the join: the scan skips rows that match in other tasks, and the answer lacks rows without any error
  (`C93_local_join_and_scan_false`). Broadcast joins are not affected (`C93_broadcast_joins`).
  Joins of tables partitioned alike on disk, which need no exchange, are affected as soon as one of several tasks is at the
  coordinator: plans are encoded after connecting, with what the filter holds by then (`C93_partitioned_alike_false`).
* Workers keep the plan of a task as it was executed, while the recursive term of a query is executed once per step. From the second
  step on a broadcast is refused (`C95_broadcast_fails_partial`), and a shuffle reads nothing without an error if a repartitioning
  panics when it is executed again (`C95_shuffle_false`, conditional on that contract of DataFusion).
* The default handler for file scans cuts files into byte ranges with DataFusion's partitioner itself, with a minimum size of zero,
  and does not ask the file format whether its files may be cut. A CSV file with line breaks in quoted values, which DataFusion reads
  whole, is read in pieces: two rows come back as three, without an error (`C96_false`, conditional on the contract of range reading).
* With a declared partitioning the files of a scan are dealt out one by one, so files of different partitions meet in one. An order
  that the scan declares within its partitions is then broken, while the operators above were planned with it (`C97_false`).
* A stage of which no report arrives is replanned as one that is known to have no rows (`C98_no_reports_means_exactly_no_rows`); a
  connection that broke may fail the query later, but the plan does not depend on that.
Found by reading, not proved:

* planning a partially reduced plan again adds a second hash repartitioning.

## Axioms per theorem

From `#print axioms`, for every theorem of `MANIFEST.json`.

`Classical.choice`, `Quot.sound`, `propext`:

`DD.Again.C95_broadcast_fails_partial`, `DD.Again.C95_exchange_kept_fails_again`, `DD.Again.C95_gathered_once_fails_partial`, `DD.Again.C95_gathered_partial`, `DD.Again.C95_many_gathered_partial`, `DD.Again.C95_one_step_partial`, `DD.Again.C95_shuffle_fails_partial`, `DD.Again.C95_shuffle_false`, `DD.Again.C95_shuffle_reads_nothing_again_partial`, `DD.Analyze.C83_dynamic`, `DD.Analyze.C83_output_rows_partial`, `DD.Analyze.C83_planned_partial`, `DD.Analyze.C83_runs_the_query`, `DD.Analyze.C83_several_partitions_false`, `DD.Analyze.C83_waits_for_all`, `DD.Answers.C98_no_reports_means_exactly_no_rows`, `DD.Answers.C98_replanned_with_at_least_what_is_ready`, `DD.Batches.C84_at_any_time`, `DD.Batches.C84_complete`, `DD.Buffers.C91_accounted`, `DD.Buffers.C91_bounded`, `DD.Buffers.C91_ended`, `DD.Buffers.C91_in_order`, `DD.C01_coalesce_exactly_once`, `DD.C01_coalesce_unique_reader`, `DD.C03_shuffle_exactly_once_colocated`, `DD.C04_broadcast_full_copy`, `DD.C43_even`, `DD.C43_even_urls`, `DD.C43_routed_urls`, `DD.C45_first_order_dependent`, `DD.C47_fractional_constants_differ`, `DD.C47_simplification_preserves_cost`, `DD.C50_average_general`, `DD.C50_average_mismatch`, `DD.C50_average_partial`, `DD.C50_average_skips_empty_false`, `DD.Close.C49_end_is_reached`, `DD.Configure.C81_codecs_and_feeds_add_up`, `DD.Configure.C81_copies_are_independent`, `DD.Configure.C81_defaults`, `DD.Configure.C81_every_session_has_calls`, `DD.Configure.C81_failed_headers_change_options_false`, `DD.Configure.C81_failures_change_nothing`, `DD.Configure.C81_handlers_add_up`, `DD.Configure.C81_last_given`, `DD.Configure.C81_other_options_kept`, `DD.Configure.C81_planner_handlers_once`, `DD.Configure.C81_setters_are_SET`, `DD.Configure.C81_setters_fail`, `DD.Configure.C81_setters_succeed`, `DD.Configure.C81_setting_kept`, `DD.Configure.C81_with_is_set`, `DD.Demux.C29_delivers_own_partition_in_order`, `DD.Demux.C29_faulty_message_fails_every_consumer`, `DD.Demux.C30_buffered_bytes_bounded`, `DD.Demux.C31_no_starvation_partial`, `DD.Demux.C32_client_clean_end`, `DD.Demux.C32_client_end_is_complete`, `DD.Demux.C33_stopped_iff_all_dropped_partial`, `DD.Demux.C33_unpolled_worker_never_contacted`, `DD.Demux.C72_every_budget_hangs_false`, `DD.Demux.C72_fits_in_budget_partial`, `DD.Demux.C72_merge_hangs_false`, `DD.Demux.C72_one_partition`, `DD.Display.C67_header_of_a_gathered_stage_false`, `DD.Display.C67_header_of_a_gathered_stage_partial`, `DD.Display.C67_header_of_a_shuffled_stage`, `DD.Display.C67_stage_below_the_root_of_a_stage_false`, `DD.Display.C68_edge_to_a_missing_port_false`, `DD.Display.C68_edges_are_reads_partial`, `DD.Display.C68_edges_between_stages_end_at_ports_partial`, `DD.Display.C68_edges_end_at_ports_partial`, `DD.Display.C68_edges_inside_a_task`, `DD.ErrorWire.C57_hops_stable`, `DD.Faulty.C71_answers_are_seen`, `DD.Faulty.C71_clean_end_is_an_answer_partial`, `DD.Faulty.C71_dynamic_clean_end_partial`, `DD.Faulty.C71_failures_only_cut_partial`, `DD.Faulty.C71_limit_partial`, `DD.Faulty.C71_order_by_partial`, `DD.Faulty.C71_panic_truncates_false`, `DD.Faulty.C71_sorted_until_it_fails_partial`, `DD.Fed.C73_clean_end_read_everything_partial`, `DD.Fed.C73_failed_feed_is_reported`, `DD.FeedRead.C90_latency_wraps_false`, `DD.Gather.C59_at_least_what_is_ready`, `DD.Gather.C59_at_least_what_the_leaves_give`, `DD.Gather.C59_at_most_what_the_leaves_allow`, `DD.Gather.C59_average_of_ended_partitions`, `DD.Gather.C59_bytes_not_scaled_false`, `DD.Gather.C59_columns_within_rows`, `DD.Gather.C59_declared_in_total`, `DD.Gather.C59_declared_per_partition`, `DD.Gather.C59_exact_only_empty`, `DD.Gather.C59_exactly_empty_false`, `DD.Gather.C59_first_report_decides`, `DD.Gather.C59_in_proportion`, `DD.Gather.C59_never_waits_for_more`, `DD.Gather.C59_no_progress_blows_up`, `DD.Gather.C59_no_reports`, `DD.Gather.C59_other_columns_refused`, `DD.Gather.C59_partitions_add_up`, `DD.Gather.C59_reported_progress`, `DD.Headers.C40_invalid_value_is_an_error`, `DD.Headers.C40_options_arrive_partial`, `DD.Headers.C40_repeated_prefix_sets_other_option`, `DD.Headers.C40_upper_case_key_lost`, `DD.Headers.C41_delivered_unchanged`, `DD.Headers.C41_options_untouched_partial`, `DD.Headers.C41_passthrough_changes_option`, `DD.Headers.C41_reserved_refused`, `DD.InProcess.C63_default_routing_apart`, `DD.InProcess.C63_lone_task_reads_its_partitions_partial`, `DD.InProcess.C63_shared_coalesce_partial`, `DD.InProcess.C63_shared_shuffle_false`, `DD.Leaf.C17_declared_always_ok`, `DD.Leaf.C17_every_file_once`, `DD.Leaf.C17_fewest_sufficient_tasks`, `DD.Leaf.C17_uniform_or_error`, `DD.Leaf.C18_scaled_scan`, `DD.Learned.C93_broadcast_joins`, `DD.Learned.C93_join_in_one_task`, `DD.Learned.C93_join_on_other_workers`, `DD.Learned.C93_learned_filters_partial`, `DD.Learned.C93_local_join_and_scan_false`, `DD.Learned.C93_partitioned_alike_false`, `DD.Learned.C93_partitioned_alike_on_other_workers`, `DD.Learned.C93_partitioned_alike_partial`, `DD.Learned.C93_sorts_with_limits`, `DD.Limit.C12_below_filter_false`, `DD.Limit.C12_limit_offset`, `DD.Limit.C12_merge_same_list`, `DD.Limit.C12_planned_coalesces`, `DD.Limit.C12_producers_limited`, `DD.Limit.C12_same_possible_answers`, `DD.Limit.C12_terminates`, `DD.Limit.C13_merge_of_coalesce`, `DD.Limit.C13_merge_sorted`, `DD.Metrics.C44_displayed`, `DD.Metrics.C44_dynamic_reports_exist`, `DD.Metrics.C44_dynamic_rewritten`, `DD.Metrics.C44_dynamic_shown_where_recorded`, `DD.Metrics.C44_in_process`, `DD.Metrics.C44_in_process_false`, `DD.Metrics.C44_instrumented_shifts`, `DD.Metrics.C44_partial_reduce_false`, `DD.Metrics.C44_partial_reduce_shifts`, `DD.Metrics.C44_reports_exist`, `DD.Metrics.C44_rewritten_partial`, `DD.Metrics.C44_rewritten_stage`, `DD.Metrics.C44_shared_object_false`, `DD.Metrics.C44_short_report_is_an_error`, `DD.Metrics.C44_shown_where_recorded_partial`, `DD.Metrics.C44_stage`, `DD.MetricsDisplay.C69_aggregated_partial`, `DD.MetricsDisplay.C69_header_partial`, `DD.MetricsDisplay.C69_leaf_variants_partial`, `DD.MetricsDisplay.C69_lines_determined`, `DD.MetricsDisplay.C69_mixed_labels_false`, `DD.MetricsDisplay.C69_own_metrics`, `DD.MetricsDisplay.C69_own_metrics_aggregated`, `DD.MetricsDisplay.C69_per_task_partial`, `DD.MetricsDisplay.C69_text_determined_partial`, `DD.MetricsDisplay.C69_text_says_what_was_recorded_partial`, `DD.MetricsDisplay.C69_two_kinds_false`, `DD.MetricsDisplay.C69_two_own_kinds_false`, `DD.Net.C77_dynamic_queries_end_partial`, `DD.Net.C77_dynamic_tasks_are_asked`, `DD.Net.C77_planned_queries_come_to_rest`, `DD.Net.C77_planned_queries_end_orderly_partial`, `DD.Net.C77_planned_queries_end_partial`, `DD.Net.C77_planned_tasks_are_asked`, `DD.Net.C78_dynamic_every_answer_arrives`, `DD.Net.C78_dynamic_order_partial`, `DD.Net.C78_dynamic_queries_end_with_an_answer_partial`, `DD.Net.C78_dynamic_received_so_far_partial`, `DD.Net.C78_every_answer_arrives`, `DD.Net.C78_limit_partial`, `DD.Net.C78_order_by_partial`, `DD.Net.C78_queries_end_with_an_answer_partial`, `DD.Net.C78_received_is_right`, `DD.Net.C78_received_so_far_partial`, `DD.Net.Net.C77_comes_to_rest`, `DD.Net.Net.C77_delivers`, `DD.Net.Net.C77_ends_partial`, `DD.Net.Net.C77_never_stuck_partial`, `DD.Net.Net.C77_ordered_reading_ends_partial`, `DD.Net.Net.C77_ordered_reading_reads_everything_partial`, `DD.OrderedScan.C97_declared_few_files_partial`, `DD.Percentile.C45_percentile`, `DD.Percentile.C45_percentile_order_independent`, `DD.Pool.C07_caller_gets_its_partition`, `DD.Pool.C07_coalesce_calls`, `DD.Pool.C07_fan_calls`, `DD.Pool.C07_missing_task_is_an_error`, `DD.Pool.C07_one_request_per_task`, `DD.Pool.C07_stream_handed_once`, `DD.Progress.C80_finished_tasks_are_not_listed`, `DD.Progress.C80_headed_tasks_show_no_rows`, `DD.Progress.C80_listed_tasks_are_served`, `DD.Progress.C80_plain_tasks_show_their_rows_partial`, `DD.Progress.C80_served_tasks_are_listed`, `DD.Ranges.C96_blocks_partial`, `DD.Ranges.C96_declared_partial`, `DD.Ranges.C96_exactly_when_no_value_is_cut_partial`, `DD.Ranges.C96_false`, `DD.Ranges.C96_one_line_per_row_partial`, `DD.Ranges.C96_uncut_partial`, `DD.Rebuild.C88_more_partitions_false`, `DD.Rebuild.C88_rebuilt_partial`, `DD.Rebuild.C88_shuffle_any_plan`, `DD.Requests.C87_answered_partial`, `DD.Requests.C87_huge_range_false`, `DD.Sampler.C34_each_partition_once`, `DD.Sampler.C34_error_preserved`, `DD.Sampler.C51_never_overstated`, `DD.Sampler.C75_failed_partition`, `DD.Sampler.C75_final_report`, `DD.Sampler.C75_memory`, `DD.Sampler.C75_ndv_exact`, `DD.Sampler.C75_ndv_of_picked`, `DD.Sampler.C75_ndv_overestimate_false`, `DD.Sampler.C75_nulls`, `DD.Sampler.C75_rows_and_bytes`, `DD.SelectAll.C29_end_to_end_prefix`, `DD.SelectAll.C29_server_merge`, `DD.SelectAll.C32_clean_end_is_complete_partial`, `DD.SelectAll.C32_error_is_the_producers`, `DD.SendMetrics.C86_every_channel`, `DD.Session.C64_batch_size`, `DD.Session.C64_batch_size_not_inherited_false`, `DD.Session.C64_compression`, `DD.Session.C64_inserted_options_lost_false`, `DD.Session.C64_last_setting_wins`, `DD.Session.C64_options_reach_workers_partial`, `DD.Session.C64_unsendable_refused`, `DD.StageCost.C61_broadcast_factor_false`, `DD.StageCost.C61_cost_known`, `DD.StageCost.C61_huge_join_false`, `DD.StageCost.C61_huge_sort_false`, `DD.StageCost.C61_more_data_costs_no_less_partial`, `DD.StageCost.C61_more_data_no_fewer_tasks_partial`, `DD.StageCost.C61_operator_cost`, `DD.StageCost.C61_release_agrees`, `DD.StageCost.C61_sort_cost`, `DD.StageCost.C61_stage_cost_is_sum`, `DD.Times.C74_clock_ahead`, `DD.Times.C74_clock_behind_partial`, `DD.Times.C74_message_latency`, `DD.Times.C74_task_times`, `DD.Times.C74_task_times_ordered`, `DD.Traffic.C85_all_messages`, `DD.Traffic.C85_latencies`, `DD.Traffic.C85_memory_bound`, `DD.Traffic.C85_memory_reached`, `DD.Traffic.C85_messages`, `DD.Traffic.C85_time`, `DD.Traffic.C85_time_at_the_end`, `DD.Tree.C05_requests_exist_partial`, `DD.Tree.C05_round_robin_below_coalesce_false`, `DD.Tree.C08_distributed_eq_single_node_partial`, `DD.Tree.C08_distributed_is_an_answer_partial`, `DD.Tree.C08_limited_build_side_false`, `DD.Tree.C08_repartitioned_root_false`, `DD.Tree.C08_round_robin_below_coalesce_false`, `DD.Tree.C08_single_node_is_an_answer`, `DD.Tree.C08_ungathered_root_eq_single_node_partial`, `DD.Tree.C08_ungathered_root_partial`, `DD.Tree.C08_ungathered_single_partition_operator_false`, `DD.Tree.C08_unscaled_leaf_false`, `DD.Tree.C09_null_aware_does_not_split`, `DD.Tree.C09_other_types_do_not_split`, `DD.Tree.C10_collect_to_partitioned`, `DD.Tree.C10_normalize_keeps_answers`, `DD.Tree.C10_normalize_keeps_rows`, `DD.Tree.C10_rewritten_hash_join`, `DD.Tree.C10_rewritten_hash_join_runs`, `DD.Tree.C10_rewritten_nested_loop_join_runs`, `DD.Tree.C11_two_step_aggregation`, `DD.Tree.C11_two_step_aggregation_of_an_answer`, `DD.Tree.C11_two_step_global_aggregation`, `DD.Tree.C11_two_step_global_aggregation_of_an_answer`, `DD.Tree.C20_node_task_counts`, `DD.Tree.C20_stage_task_counts`, `DD.Tree.C20_wish_for_zero_tasks_false`, `DD.Tree.C21_prepare_numbers`, `DD.Tree.C21_stage_numbers`, `DD.Tree.C22_unsafe_joins_run_in_one_task`, `DD.Tree.C24_elision_keeps_rows`, `DD.Tree.C25_built_for_its_consumers`, `DD.Tree.C25_prepare_builds_for_consumers`, `DD.Tree.C58_built_for_its_consumers`, `DD.Tree.C58_every_asked_stage_has_a_sampler`, `DD.Tree.C58_is_an_answer_partial`, `DD.Tree.C58_requests_exist_partial`, `DD.Tree.C58_same_rows_partial`, `DD.Tree.C58_statistics_do_not_matter_partial`, `DD.Tree.C58_task_counts`, `DD.Tree.C58_ungathered_root_partial`, `DD.Tree.C58_unsafe_joins_run_in_one_task`, `DD.Tree.C60_limit`, `DD.Tree.C60_limit_above_repartition_false`, `DD.Tree.C60_limit_offset`, `DD.Tree.C60_order_by_limit`, `DD.Tree.C60_order_by_limit_offset`, `DD.Tree.C70_dynamic_operators_get_sorted_inputs_partial`, `DD.Tree.C70_dynamic_order_is_kept_partial`, `DD.Tree.C70_operators_get_sorted_inputs_partial`, `DD.Tree.C70_order_by`, `DD.Tree.C70_order_by_limit`, `DD.Tree.C70_order_preserving_repartition_false`, `DD.Tree.C70_promised_order_is_kept_partial`, `DD.Tree.C70_single_node_order`, `DD.Tree.C71_dynamic_sorted_until_it_fails_partial`, `DD.Tree.C79_dynamic_rewritten_partial`, `DD.Tree.C79_every_stage_is_given`, `DD.Tree.C79_no_handlers`, `DD.Tree.C79_rewritten_failures_only_cut_partial`, `DD.Tree.C79_rewritten_order_is_kept_partial`, `DD.Tree.C79_rewritten_queries_answer_partial`, `DD.Tree.C79_rewritten_queries_end_partial`, `DD.Tree.C79_rewritten_received_so_far_partial`, `DD.Tree.C79_same_network`, `DD.Tree.C80_broadcast_stages_show_no_rows`, `DD.Tree.C80_dynamic_stages_show_no_rows`, `DD.Tree.C80_static_stages_show_no_rows`, `DD.Tree.C94_explain_analyze_partial`, `DD.Tree.C94_failures_dynamic_partial`, `DD.Tree.C94_failures_partial`, `DD.Tree.C94_only_the_coordinator_writes`, `DD.Tree.C94_only_the_coordinator_writes_dynamic`, `DD.Tree.C94_order_by_dynamic_partial`, `DD.Tree.C94_order_by_partial`, `DD.Tree.C94_same_as_single_node_partial`, `DD.Tree.C94_written_rows_dynamic_partial`, `DD.Tree.C94_written_rows_partial`, `DD.Tree.Create.C08_coalesce_above_shuffle_false`, `DD.Tree.Create.C08_user_boundaries_partial`, `DD.Tree.Create.C23_analyze`, `DD.Tree.Create.C23_analyze_again_false`, `DD.Tree.Create.C23_distributed_or_original`, `DD.Tree.Create.C23_distributed_unchanged`, `DD.Tree.Create.C23_one_worker`, `DD.Tree.Create.C23_planning_again`, `DD.Tree.Create.C23_user_again_false`, `DD.Tree.Create.C23_user_boundaries`, `DD.Tree.Create.C24_no_trivial_boundary`, `DD.Tree.Create.C56_inputs_first`, `DD.Tree.Create.C56_no_task_twice`, `DD.Tree.Create.C56_planned_plans_start`, `DD.Tree.Create.C58_user_boundaries_false`, `DD.Tree.Create.C58_user_boundaries_witness`, `DD.Tree.Create.C81_planner_queries_once`, `DD.Tree.Create.C81_planner_twice_analyze_false`, `DD.Tree.Create.C92_automatic_planning_ends`, `DD.Tree.Create.C92_filter_above_leaf_false`, `DD.Tree.Create.C92_planning_ends_partial`, `DD.Tree.Create.C94_user_boundaries_partial`, `DD.Tree.Rec.C26_apply`, `DD.Tree.Rec.C26_ctx`, `DD.Tree.Rec.C26_ctx_order`, `DD.Tree.Rec.C26_down`, `DD.Tree.Rec.C26_down_order`, `DD.Tree.Rec.C26_driver_path`, `DD.Tree.Rec.C26_prepare`, `DD.Tree.Rec.C26_up`, `DD.Tree.Rec.C26_up_order`, `DD.Tree.Rec.C27_planned_stages_specialise`, `DD.Tree.Rec.C27_same_rows`, `DD.Tree.Rec.C27_task_gets_its_share`, `DD.Tree.Rec.C27_unassigned_branches_are_empty`, `DD.Tree.Rec.C76_every_feed_is_called_once`, `DD.Tree.Rec.C76_every_feed_is_declared`, `DD.Tree.Rec.C76_every_feed_is_opened`, `DD.Tree.Rec.C76_nodes_read_their_feed`, `DD.Tree.Rec.C76_planned_stages_are_fed`, `DD.Union.C14_any_rounding`, `DD.Union.C14_every_child_task_once`, `DD.Union.C14_no_child_twice`, `DD.Union.C14_rejected`, `DD.Union.C15_caps_budget_proportion`, `DD.Union.C16_every_child_partition_once`, `DD.Union.C16_single_task_run_loses_rows`, `DD.Union.C52_floor_or_ceiling`, `DD.Union.C52_largest_remainder`, `DD.Union.C53_child_task_counts`, `DD.Union.C53_rewrite_keeps_assignment`, `DD.Union.childTasks_nodup`, `DD.UserCodec.C65_sent_iff_accepted`, `DD.UserCodec.C89_hash_keys_false`, `DD.UserCodec.C89_producer_heads`, `DD.UserCodec.C89_sent_iff`, `DD.WU.C38_each_global_partition_once`, `DD.WU.C38_end_of_feed_is_complete_partial`, `DD.WU.C38_units_in_order`, `DD.Worker.C36_plan_set_once_per_lifetime`, `DD.Worker.C36_released_after_close_partial`, `DD.Worker.C36_requests_agree`, `DD.Worker.C36_requests_run_a_plan_set_for_their_key`, `DD.Worker.C37_executed_task_reports`, `DD.Worker.C37_metrics_at_most_once`, `DD.Worker.C37_unexecuted_task_never_reports`, `DD.Worker.C82_after_an_earlier_run`, `DD.Worker.C82_dynamic_runs`, `DD.Worker.C82_queries_do_not_disturb`.

No axioms:

`DD.C01_zero_consumers_rejected`, `DD.C48_documented_reverse_order_false`, `DD.Channels.C62_same_worker`, `DD.Codec.C54_zero_time_changes`, `DD.Codec.C55_load`, `DD.Codec.C55_protocol_violations_refused`, `DD.FeedEnds.C76_feed_on_the_wire`, `DD.FeedEnds.C76_provider_stays_behind`, `DD.Progress.C80_cluster_workers`, `DD.Requests.C87_second_plan_false`, `DD.Requests.C87_unknown_task`, `DD.Sampler.C34_error_in_sample`, `DD.SelectAll.C32_server_panic_truncates_silently`, `DD.Worker.C06_first_request_fixes_plan`.

`Quot.sound`, `propext`:

`DD.Again.C95_heads_right_or_fail_partial`, `DD.Again.C95_many_right_or_fails_partial`, `DD.Again.C95_right_or_fails_partial`, `DD.Analyze.C83_errors_are_reported`, `DD.Analyze.C83_nothing_hidden`, `DD.Analyze.C83_table`, `DD.Analyze.C83_without_collection`, `DD.Answers.C98_answers_arrive_complete`, `DD.Answers.C98_broken_answers_end`, `DD.Answers.C98_replanning_reads_all_reports`, `DD.Answers.C98_reports_do_not_wait_for_metrics`, `DD.Answers.C98_waits_for_reports`, `DD.BQ.C28_keeps_polling_gets_everything`, `DD.BQ.C28_prefix_always`, `DD.BQ.C28_prefix_and_complete`, `DD.BQ.C28_producer_finishes`, `DD.Batches.C84_batches_arrive`, `DD.Batches.C84_garbage_collection`, `DD.Batches.C84_rows_arrive`, `DD.Buffers.C91_abandoned`, `DD.Buffers.C91_limit_not_enforced`, `DD.C02_coalesce_groups`, `DD.C04_broadcast_serves_each_consumer_once`, `DD.C19_fold_is_combined`, `DD.C19_fold_largest_wish`, `DD.C19_fold_le_maximum`, `DD.C19_limit_le`, `DD.C19_limit_merge`, `DD.C19_merge_idem`, `DD.C43_one_known_url_per_task`, `DD.C45_avg`, `DD.C45_avg_mean`, `DD.C45_max`, `DD.C45_max_gauge`, `DD.C45_min`, `DD.C45_order_independent`, `DD.C46_dynamic_bounds`, `DD.C46_dynamic_mono`, `DD.C46_max_tasks_pos`, `DD.C48_first_answer_wins`, `DD.C48_rewrite_error`, `DD.C48_unanswered`, `DD.C50_sum`, `DD.Channels.C62_calls_return`, `DD.Channels.C62_calls_share`, `DD.Channels.C62_connection_kept`, `DD.Channels.C62_connections_bounded`, `DD.Channels.C62_failure_not_reused`, `DD.Channels.C62_no_failure_left_behind`, `DD.Channels.C62_one_connection`, `DD.Channels.C62_outcome_of_own_url`, `DD.Channels.C62_sharers_agree`, `DD.Channels.C62_wrong_local_url`, `DD.Close.C49_channel_ends_with_its_feed`, `DD.Close.C49_close_ends_every_channel`, `DD.Close.C49_endless_feed_blocks_end`, `DD.Close.C49_no_premature_end`, `DD.Codec.C42_every_plan_arrives`, `DD.Codec.C42_missing_input_refused`, `DD.Codec.C42_no_confusion`, `DD.Codec.C42_round_trip`, `DD.Codec.C54_metrics_arrive_partial`, `DD.Codec.C54_timestamp_out_of_range`, `DD.Codec.C55_set_plan`, `DD.Codec.C55_work_units`, `DD.Demux.C29_total_of_valid`, `DD.Demux.C31_dropped_sibling_starves`, `DD.Demux.C31_zero_budget_starves`, `DD.Demux.C32_client_panic_truncates_silently`, `DD.Demux.C33_nothing_pulled_after_abort`, `DD.Display.C67_indentation_partial`, `DD.Display.C68_gathering_in_several_tasks_false`, `DD.Display.C68_nodes_of_the_stage`, `DD.ErrorWire.C57_avro_lost`, `DD.ErrorWire.C57_deep_lost`, `DD.ErrorWire.C57_exact_nesting`, `DD.ErrorWire.C57_foreign_text`, `DD.ErrorWire.C57_missing_features`, `DD.ErrorWire.C57_same_error_partial`, `DD.ErrorWire.C57_same_kind`, `DD.ErrorWire.C57_second_hop_differs`, `DD.ErrorWire.C57_store_lost`, `DD.ErrorWire.C57_transport_errors`, `DD.ErrorWire.C57_variants_told_apart`, `DD.ErrorWire.C57_wrapping_kept`, `DD.FeedEnds.C76_same_units_on_one_node`, `DD.FeedRead.C90_clock_behind_false`, `DD.FeedRead.C90_counts`, `DD.FeedRead.C90_every_unit_partial`, `DD.FeedRead.C90_latencies_partial`, `DD.FeedRead.C90_one_clock`, `DD.Gather.C59_expected_rows`, `DD.InProcess.C63_crowded_stage_shares`, `DD.InProcess.C63_shared_iff_both_local`, `DD.Leaf.C18_all_rows_many_tasks_partial`, `DD.Leaf.C18_all_rows_on_workers`, `DD.Leaf.C18_all_rows_single_task_partial`, `DD.Leaf.C70_scaled_scan_keeps_order`, `DD.Leaf.C70_scaled_scan_order_false`, `DD.Metrics.C37_wait_exact`, `DD.Metrics.C44_missing_task_is_an_error`, `DD.Metrics.C82_dynamic_metrics`, `DD.Metrics.C82_metrics_of_an_earlier_run_false`, `DD.Net.Net.C77_dropped_partition_hangs_false`, `DD.Net.Net.C77_merge_join_hangs_false`, `DD.OrderedScan.C97_declared_files_in_order_partial`, `DD.OrderedScan.C97_in_order_partial`, `DD.Pool.C07_only_existing_tasks`, `DD.Progress.C80_in_process_false`, `DD.Progress.C80_rows_never_decrease`, `DD.Progress.C80_shared_rows`, `DD.Progress.C80_shared_rows_never_decrease`, `DD.Rebuild.C88_broadcast_repeats_false`, `DD.Requests.C87_data_of_the_task`, `DD.Requests.C87_others_untouched`, `DD.Requests.C87_refused_decides_head_false`, `DD.Requests.C87_refused_takes_partitions_false`, `DD.Requests.C87_reversed_range_false`, `DD.Sampler.C34_transparent_partial`, `DD.Sampler.C34_transparent_without_errors`, `DD.Sampler.C51_complete_report`, `DD.Sampler.C51_final_means_ended`, `DD.Sampler.C51_final_report_exact`, `DD.SendMetrics.C86_channels_and_bytes`, `DD.SendMetrics.C86_final_at_the_end`, `DD.SendMetrics.C86_latencies`, `DD.StageCost.C61_statistics_filled`, `DD.Times.C74_equal_clocks`, `DD.Times.C74_slow_clock_false`, `DD.Traffic.C85_arrivals`, `DD.Traffic.C85_rows`, `DD.Tree.C06_insert_idempotent_partial`, `DD.Tree.C09_safe_types_split`, `DD.Tree.C10_swapped`, `DD.Tree.Create.C56_consumers_ask_where_plans_went`, `DD.Tree.Create.C56_cut`, `DD.Tree.Create.C56_each_task_sent_once`, `DD.Tree.Create.C56_no_second_start`, `DD.Tree.Create.C56_sent_plans`, `DD.Tree.Rec.C26_counts`, `DD.Tree.Rec.C26_up_jump_false`, `DD.Tree.Rec.C76_fed_leaves_may_be_distributed`, `DD.Tree.Rec.C76_feeds_of_variants_false`, `DD.Tree.Rec.C76_shared_feed_false`, `DD.Union.C53_specialised_drops_rest`, `DD.Union.C53_specialised_keeps_executed`, `DD.UserCodec.C65_custom_nodes_arrive`, `DD.UserCodec.C66_codec_for_functions_false`, `DD.UserCodec.C66_functions_come_from_the_worker_partial`, `DD.UserCodec.C89_custom_expressions_arrive_partial`, `DD.WU.C38_no_early_end`, `DD.WU.C39_take_once`, `DD.fan_pulls`.

`propext`:

`DD.BQ.C28_crash_truncates_silently`, `DD.Batches.C84_max_message_size_false`, `DD.Batches.C84_panic_false`, `DD.C19_fold_perm`, `DD.C19_merge_assoc`, `DD.C19_merge_comm`, `DD.C43_no_workers`, `DD.C45_bytes`, `DD.C48_rewrite_order`, `DD.Channels.C62_one_retry_per_failure_false`, `DD.Channels.C62_own_data_in_process`, `DD.Codec.C55_damaged_key_refused`, `DD.Codec.C55_execute`, `DD.Display.C67_every_stage_is_shown_partial`, `DD.Display.C68_broadcast_reads_false`, `DD.Display.C68_edge_to_a_missing_node_false`, `DD.Fed.C73_lost_connection_false`, `DD.Fed.C73_undecodable_message_false`, `DD.FeedEnds.C76_feeds_on_the_wire_differ`, `DD.Gather.C59_little_progress_false`, `DD.Gather.C59_nothing_expected`, `DD.Gather.C59_streamed_leaves`, `DD.Gather.C59_unknown_leaves_false`, `DD.InProcess.C63_rows_of_another_task_false`, `DD.Leaf.C17_declared_partitioning_lost`, `DD.Leaf.C17_indivisible_fails`, `DD.Leaf.C17_zero_tasks_panics`, `DD.Leaf.C18_single_task_loses_rows`, `DD.Leaf.C18_single_task_out_of_range`, `DD.Metrics.C37_nothing_to_wait_for`, `DD.Metrics.C37_store_keeps_reports`, `DD.Metrics.C44_equal_metrics_dropped_false`, `DD.MetricsDisplay.C69_header_gap_false`, `DD.OrderedScan.C97_false`, `DD.Pool.C07_mixed_ranges_misdeliver`, `DD.Progress.C80_listed_once`, `DD.Progress.C80_not_shared`, `DD.Rebuild.C88_broadcast_loses_false`, `DD.Rebuild.C88_children`, `DD.Rebuild.C88_other_tasks_false`, `DD.Requests.C87_channel_opens`, `DD.Requests.C87_messages_until_malformed`, `DD.Requests.C87_not_understood`, `DD.Requests.C87_understood`, `DD.Sampler.C34_execute_after_start`, `DD.Swmr.C35_reads_agree`, `DD.Swmr.C35_single_write_multi_read`, `DD.Times.C74_maximum_shows_it`, `DD.Tree.C06_insert_replaces`, `DD.Tree.C06_two_repartitionings_false`, `DD.Tree.C09_planner_broadcasts_only_safe`, `DD.Tree.C79_registration_order`, `DD.Tree.Rec.C27_no_divided_leaf`, `DD.Tree.Rec.C76_first_getter`, `DD.UserCodec.C65_order_of_codecs_false`, `DD.UserCodec.C65_own_nodes_first`, `DD.UserCodec.C65_writing_before_refusing_false`, `DD.WU.C38_feed_error_looks_complete`, `DD.WU.C38_lost_stream_looks_complete`, `DD.WU.C38_unknown_units_are_skipped`, `DD.Worker.C36_failed_plan_leaks`, `DD.Worker.C36_late_request_leaks`, `DD.Worker.C82_plan_of_an_earlier_run_false`, `DD.Worker.C82_run_again_at_once_false`, `DD.Worker.C82_same_plan_at_once_false`.

`Quot.sound`:

`DD.FeedEnds.C76_malformed_feed`.
