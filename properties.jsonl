{"id": "C01", "title": "Coalescing tasks reads every producer partition exactly once", "statement": "When a stage of N tasks with P partitions each feeds a NetworkCoalesceExec run by T>=1 consumer tasks, executing every output partition of every consumer task reads each (producer task, producer partition) pair exactly once; the remaining output partitions are empty streams, no execute call fails and no request names a producer task or partition that does not exist.", "quantifier": "all N>=1 producer tasks, P>=1 partitions, T>=1 consumer tasks, all consumer tasks and output partitions", "why_tests_cant": "Uneven groupings (N not a multiple of T, T>N) form an unbounded family; tests cover a few triples.", "anchors": ["src/execution_plans/network_coalesce.rs: NetworkCoalesceExec::try_from_stage, execute, task_group"]}
{"id": "C02", "title": "Coalesce groups are contiguous, ordered and balanced", "statement": "The producer tasks assigned to consumer tasks 0,1,..,T-1 are consecutive runs that concatenate to 0..N-1, and two runs differ in length by at most one; no run is longer than the size the output partition count was computed from.", "quantifier": "all N, T>=1", "why_tests_cant": "Arithmetic over all pairs.", "anchors": ["src/execution_plans/network_coalesce.rs: task_group"]}
{"id": "C03", "title": "Hash shuffle delivers every row once and co-locates equal keys", "statement": "Across a NetworkShuffleExec with M producer tasks, T consumer tasks and P output partitions per consumer task, each row produced by any producer task reaches exactly one (consumer task, partition) stream exactly once, and two rows with equal shuffle keys always reach the same (consumer task, partition), whichever producer tasks they come from.", "quantifier": "all row multisets, hash functions, M, T, P>=1", "why_tests_cant": "Must hold for all data, all hash values and all task counts.", "anchors": ["src/execution_plans/network_shuffle.rs: NetworkShuffleExec::execute, producer_head", "src/distributed_planner/network_boundary.rs: ProducerHead::insert"]}
{"id": "C04", "title": "Broadcast gives every consumer task exactly one full copy", "statement": "Across a NetworkBroadcastExec with M producer tasks, each consumer task receives every row of every producer task exactly once, independent of the number of consumer tasks; and each real partition of the broadcast producer is asked for by exactly as many consumers as it was built for, so no consumer is ever turned away with 'Too many consumers'.", "quantifier": "all M, T, P>=1, all orders in which consumers arrive", "why_tests_cant": "All task counts and arrival orders.", "anchors": ["src/execution_plans/network_broadcast.rs: execute, producer_head", "src/execution_plans/broadcast.rs: BroadcastExec::new, execute"]}
{"id": "C05", "title": "Network requests name partitions that exist on the worker", "statement": "For every network boundary, the partition range a consumer task asks a producer task for lies within the partition count of the plan that the producer's worker executes after installing the requested head node.", "quantifier": "all boundary kinds, stage plans, task counts, partition counts", "why_tests_cant": "The head rewriting depends on the shape of the plan; the family of plans is unbounded.", "anchors": ["src/distributed_planner/network_boundary.rs: ProducerHead::insert", "src/worker/impl_execute_task.rs: Worker::execute_task", "src/execution_plans/network_shuffle.rs", "src/execution_plans/network_broadcast.rs", "src/execution_plans/network_coalesce.rs"]}
{"id": "C06", "title": "Installing a producer head is idempotent and independent of which consumer arrives first", "statement": "Installing the head requested by a boundary on a stage plan that already has that head yields the same plan again; the first request for a task fixes the executed plan and every later request for the same task, in any order, executes that same plan.", "quantifier": "all plans, heads, and sequences of concurrent execute requests", "why_tests_cant": "Schedules of concurrent requests.", "anchors": ["src/distributed_planner/network_boundary.rs: ProducerHead::insert", "src/worker/task_data.rs: TaskData::plan"]}
{"id": "C07", "title": "A remote partition stream is consumed at most once and fetched with one request per producer task", "statement": "Over any sequence of execute calls on one network boundary, at most one request is sent to each producer task, each partition stream is handed to at most one caller, a second caller gets an error (never duplicate rows), and each first caller gets the stream of the partition it asked for.", "quantifier": "all sequences of execute calls", "why_tests_cant": "Call orders are unbounded.", "anchors": ["src/worker/worker_connection_pool.rs: WorkerConnectionPool::execute"]}
{"id": "C08", "title": "Distributed execution returns the same rows as single-node execution", "statement": "For every physical plan built from leaf scans, row-wise operators, hash repartitioning, per-key operators, unions, coalescing and joins, running the plan split into stages and tasks through the network boundaries yields the same multiset of rows as running the same plan in one process.", "quantifier": "all plans of the modelled algebra, all task counts, all partition counts, all data", "why_tests_cant": "All plans and all data.", "anchors": ["src/execution_plans/network_shuffle.rs", "src/execution_plans/network_coalesce.rs", "src/execution_plans/network_broadcast.rs", "src/execution_plans/children_isolator_union.rs", "src/coordinator/query_coordinator.rs: task_specialized_plan"]}
{"id": "C09", "title": "Broadcasting a join's build side is correct exactly for the join types it is applied to", "statement": "For Inner, Right, RightSemi, RightAnti and RightMark joins, joining the whole build side separately with each probe partition and concatenating gives the single-node join; for every other join type there is data for which it does not. The planner broadcasts the build side only for the former.", "quantifier": "all build rows, probe rows, probe partitionings and join predicates", "why_tests_cant": "All data sets and partitionings.", "anchors": ["src/distributed_planner/insert_broadcast.rs: is_left_broadcast_safe, can_broadcast_left_input"]}
{"id": "C10", "title": "Rewriting collect-left joins keeps their result", "statement": "Rewriting a collect-left hash join into a partitioned hash join, and swapping the inputs of a nested loop join, keeps the multiset of result rows and the column order.", "quantifier": "all build/probe rows, join types the rewrite applies to, hash functions", "why_tests_cant": "All data sets and hash functions.", "anchors": ["src/distributed_planner/normalize_collect_joins.rs"]}
{"id": "C11", "title": "Partial aggregation before or after a shuffle gives the single-node aggregate", "statement": "Aggregating partially in every producer task, optionally merging partial states again after the repartition and before the network, and finishing per key after the shuffle equals aggregating all rows at once, for every aggregate with an associative commutative merge.", "quantifier": "all rows, groupings, task counts, hash functions, merge monoids", "why_tests_cant": "All data and schedules of arrival.", "anchors": ["src/distributed_planner/partial_reduce_below_network_shuffles.rs", "src/execution_plans/network_shuffle.rs"]}
{"id": "C12", "title": "Pushing a limit below a task coalesce never changes how many rows a query returns", "statement": "Pushing the row limit of a LIMIT/OFFSET above a NetworkCoalesceExec into each producer task leaves at least the rows needed: the final result is a valid answer to the limit (right row count, sub-multiset of the unlimited result), and for order-preserving merges it is the same list of rows.", "quantifier": "all inputs, interleavings, skip, fetch, task counts, and all plans whose coalesces stand where the planner places them (directly below CoalescePartitionsExec, SortPreservingMergeExec or a limit)", "why_tests_cant": "All data, interleavings and numbers.", "anchors": ["src/distributed_planner/push_fetch_into_network_coalesce.rs", "src/execution_plans/network_coalesce.rs: apply_fetch_through_projection, with_fetch_on_input_stage"]}
{"id": "C13", "title": "Merging sorted task outputs preserves global order", "statement": "Coalescing producer tasks whose partitions are each sorted and merging the coalesced partitions yields one sorted stream with exactly the producers' rows.", "quantifier": "all sorted partitions, task counts", "why_tests_cant": "All data.", "anchors": ["src/execution_plans/network_coalesce.rs"]}
{"id": "C14", "title": "Isolated unions run every child task exactly once", "statement": "For any children weights, caps and task budget accepted, the task assignment of an isolated union has exactly one entry per task; every child c receives a number k_c>=1 of tasks and each child task index 0..k_c-1 is assigned to exactly one union task, with task count k_c.", "quantifier": "all budgets >=1, all non-empty lists of weights and caps", "why_tests_cant": "Rounding, caps and zero allocations interact; the input space is unbounded.", "anchors": ["src/execution_plans/children_isolator_union.rs: split_children, from_children_and_weights"]}
{"id": "C15", "title": "Isolated unions respect caps, budget and proportionality", "statement": "No child of an isolated union is given more tasks than its cap, the tasks given out beyond the first never exceed the budget, no budget is left unused while some child is below its cap, and no child gets less than the whole part of its proportional share unless capped.", "quantifier": "all budgets, weights, caps", "why_tests_cant": "As C14.", "anchors": ["src/execution_plans/children_isolator_union.rs: split_children"]}
{"id": "C16", "title": "An isolated union outputs every child partition exactly once", "statement": "Executing all partitions of all tasks of an isolated union executes each partition of each task of each child exactly once, other output partitions are empty, and no execute call within the advertised partition count fails.", "quantifier": "all assignments produced by the planner, all child partition counts", "why_tests_cant": "All shapes.", "anchors": ["src/execution_plans/children_isolator_union.rs: execute, to_task_specialized"]}
{"id": "C17", "title": "Scaling a file scan keeps every file in exactly one task", "statement": "Spreading the file groups of a scan over T tasks assigns every file (or file range) to exactly one task and one partition, all tasks expose the same number of partitions or planning fails, and nothing is read twice or lost.", "quantifier": "all file group lists, T>=1, partition counts", "why_tests_cant": "All file layouts.", "anchors": ["src/events/defaults/file_scan_config.rs: scale_up, rebalance_round_robin", "src/execution_plans/distributed_leaf.rs: DistributedLeafExec::try_new"]}
{"id": "C18", "title": "A scaled leaf returns all its rows for every task count", "statement": "Executing every advertised partition of a scaled leaf in each of its T tasks returns every row of the leaf exactly once, for every T including a single task.", "quantifier": "all leaves, variants accepted by the constructor, T>=1", "why_tests_cant": "All variant shapes.", "anchors": ["src/execution_plans/distributed_leaf.rs"]}
{"id": "C19", "title": "Task count annotations merge independently of order and never exceed a maximum", "statement": "Combining the task count wishes of a node's children gives the same result in any order and grouping; the result never exceeds any child's maximum, equals the largest wish when there is no maximum, and limiting it to the cluster size commutes with merging.", "quantifier": "all multisets of annotations, all limits", "why_tests_cant": "All lists.", "anchors": ["src/events/desired_task_count.rs: TaskCountAnnotation::merge, limit"]}
{"id": "C20", "title": "Every planned stage has between one task and the configured maximum", "statement": "For every plan, provided that no handler wishes for zero tasks, every stage of the distributed plan is given at least one and at most max_tasks_per_stage tasks (or, when unset, the number of workers, but at least one).", "quantifier": "all plans, worker counts and configurations, all handlers that wish for at least one task and scale leaves up to plans without network boundaries", "why_tests_cant": "All plan shapes.", "anchors": ["src/distributed_planner/inject_network_boundaries.rs: _inject_network_boundaries"]}
{"id": "C21", "title": "Stage identifiers are unique and ordered", "statement": "The stages of a distributed plan get distinct consecutive identifiers starting at one, every stage's identifier is larger than those of the stages feeding it, and all carry the same query id; so (query, stage, task) identifies a task.", "quantifier": "all plans", "why_tests_cant": "All plan shapes.", "anchors": ["src/distributed_planner/prepare_network_boundaries.rs"]}
{"id": "C22", "title": "Joins that are unsafe to replicate run in a single task", "statement": "A collect-left join whose build side may not be broadcast runs in exactly one task, whatever its children or the user ask for, except below a network boundary or as a child of an isolated union that assigns it one task.", "quantifier": "all plans, all handlers", "why_tests_cant": "All plan shapes.", "anchors": ["src/distributed_planner/inject_network_boundaries.rs", "src/distributed_planner/insert_broadcast.rs: is_left_broadcast_safe"]}
{"id": "C23", "title": "Distributed planning is idempotent and falls back to the original plan", "statement": "Planning an already distributed plan returns it unchanged, and a plan in which no network boundary survives is returned exactly as given.", "quantifier": "all plans and configurations", "why_tests_cant": "All plan shapes.", "anchors": ["src/distributed_planner/distributed_query_planner.rs: create_distributed_plan"]}
{"id": "C24", "title": "Removing a single-task boundary keeps the result", "statement": "Eliding a network boundary between a one-task stage and a one-task consumer leaves the rows of every partition of the boundary unchanged.", "quantifier": "all boundary kinds, plans", "why_tests_cant": "All plan shapes.", "anchors": ["src/distributed_planner/prepare_network_boundaries.rs"]}
{"id": "C25", "title": "A boundary's consumer task count matches the stage that runs it", "statement": "In every prepared plan, the consumer task count that a boundary's producer was built for equals the task count of the stage in which the boundary executes, including inside isolated unions.", "quantifier": "all plans", "why_tests_cant": "All plan shapes.", "anchors": ["src/distributed_planner/prepare_network_boundaries.rs", "src/common/recursion.rs: transform_up_with_task_count"]}
{"id": "C26", "title": "Plan traversals visit every node with its own stage's task count or task context", "statement": "The task-count aware traversals visit nodes in the documented order, and give each node the task count (or context) of the stage and union branch it belongs to, for every plan shape.", "quantifier": "all plan trees, all visitor functions that continue", "why_tests_cant": "All trees.", "anchors": ["src/common/recursion.rs: TreeNodeExt"]}
{"id": "C27", "title": "The plan sent to a task contains only what that task runs", "statement": "Specialising a stage plan for task i keeps exactly the branches and leaf variants assigned to task i, contains no multi-task leaf or unassigned union branch, and is accepted by the codec.", "quantifier": "all stage plans, all tasks", "why_tests_cant": "All plan shapes.", "anchors": ["src/coordinator/query_coordinator.rs: task_specialized_plan", "src/codec/distributed_codec.rs: try_encode"]}
{"id": "C28", "title": "Broadcast consumers all see the full input in order under every schedule", "statement": "For any interleaving of the producing task and any number of consumers polling at any time, each consumer yields a prefix of the produced sequence in order, ends only after the producer finished, and has then yielded all of it; a consumer that keeps polling after the producer finished gets everything.", "quantifier": "all schedules in which the producing task does not panic, all sequences, any number of consumers", "why_tests_cant": "Schedules cannot be enumerated.", "anchors": ["src/execution_plans/broadcast.rs: BroadcastQueue, BroadcastConsumer"]}
{"id": "C29", "title": "Demultiplexing a worker connection preserves each partition's stream", "statement": "For any order in which messages of several partitions arrive over one worker connection and any polling schedule, each partition's consumer receives exactly the messages of its partition, in the order sent; a message for a partition outside the requested range makes every consumer fail instead of being misdelivered.", "quantifier": "all message sequences, and all schedules in which the connection's background tasks do not panic", "why_tests_cant": "Schedules cannot be enumerated.", "anchors": ["src/protocol/grpc/worker_client.rs: execute_task", "src/protocol/grpc/worker_service.rs: execute_task", "src/protocol/grpc/spawn_select_all.rs"]}
{"id": "C30", "title": "Bytes buffered per worker connection are bounded", "statement": "At any time the bytes buffered by a worker connection are less than the configured budget plus the size of one message.", "quantifier": "all message sizes, budgets and schedules", "why_tests_cant": "Schedules cannot be enumerated.", "anchors": ["src/protocol/grpc/worker_client.rs: execute_task"]}
{"id": "C31", "title": "A consumer that keeps polling is never starved by its siblings", "statement": "If a partition's consumer keeps polling, and every sibling either keeps polling or has been dropped, then the consumer eventually gets every message of its partition that the worker sent.", "quantifier": "all schedules, message sizes, drops", "why_tests_cant": "Liveness under all schedules.", "anchors": ["src/protocol/grpc/worker_client.rs: execute_task"]}
{"id": "C32", "title": "A stream that ends without error is complete", "statement": "If a consumer of a remote partition sees its stream end without an error, the producer's partition stream produced all its rows and ended without error.", "quantifier": "all schedules, error points, crash and panic points", "why_tests_cant": "Crash points cannot be enumerated.", "anchors": ["src/protocol/grpc/worker_client.rs", "src/protocol/grpc/spawn_select_all.rs", "src/execution_plans/broadcast.rs"]}
{"id": "C33", "title": "A worker connection is cancelled only when all its streams are dropped", "statement": "The background pull of a worker connection is cancelled exactly when the last of its partition streams has been dropped, whatever the order of drops, and then the remote worker is still notified if it was never contacted.", "quantifier": "all drop orders", "why_tests_cant": "Schedules cannot be enumerated.", "anchors": ["src/protocol/grpc/worker_client.rs: execute_task", "src/protocol/grpc/on_drop_stream.rs"]}
{"id": "C34", "title": "Sampling does not alter the sampled stream", "statement": "Putting a sampler on top of a stage leaves every partition's sequence of batches, including errors, unchanged, wherever sampling stops.", "quantifier": "all streams, all sampling cut-off points", "why_tests_cant": "All data and timings.", "anchors": ["src/execution_plans/sampler.rs"]}
{"id": "C35", "title": "A task's plan is written once and every reader sees the same value", "statement": "For any interleaving of writers and readers, the first write succeeds, every later write fails, and all reads that return a value return the first written value.", "quantifier": "all interleavings", "why_tests_cant": "Schedules cannot be enumerated.", "anchors": ["src/worker/single_write_multi_read.rs"]}
{"id": "C36", "title": "Worker task state is set once and released", "statement": "For any interleaving of set-plan, execute and channel-close events, a task key's plan is set at most once per lifetime, execute requests for a key see that plan, and after the coordinator closes the channel the entry is removed.", "quantifier": "all event histories", "why_tests_cant": "Histories cannot be enumerated.", "anchors": ["src/worker/impl_coordinator_channel.rs", "src/worker/impl_execute_task.rs", "src/worker/worker_service.rs"]}
{"id": "C37", "title": "Task metrics are reported at most once per task and waiting for them is exact", "statement": "A worker sends the metrics of a task at most once, only after the coordinator closed its channel; waiting for metrics returns exactly when every task of every stage has reported.", "quantifier": "all event histories, all plans", "why_tests_cant": "Histories cannot be enumerated.", "anchors": ["src/worker/impl_coordinator_channel.rs: send_metrics_via_channel", "src/coordinator/distributed.rs: wait_for_metrics", "src/coordinator/metrics_store.rs"]}
{"id": "C38", "title": "Work units reach exactly the partition they are meant for, in order", "statement": "Every work unit produced by the coordinator-side feed for global partition g of a stage with T tasks of P partitions reaches local partition g mod P of task g div P, exactly once, in the order produced for that partition, and the receiving partition sees end-of-feed only after all of them.", "quantifier": "all feeds, task and partition counts, all interleavings and batchings", "why_tests_cant": "Schedules cannot be enumerated.", "anchors": ["src/coordinator/query_coordinator.rs: coordinator_to_worker_task", "src/worker/impl_coordinator_channel.rs", "src/work_unit_feed/remote_work_unit_feed.rs"]}
{"id": "C39", "title": "A work unit feed partition is consumed at most once", "statement": "Over any sequence of feed requests on a worker, each declared (feed, partition) is handed out at most once; a second request or a request for an undeclared feed is an error.", "quantifier": "all request sequences", "why_tests_cant": "All sequences.", "anchors": ["src/work_unit_feed/remote_work_unit_feed.rs: RemoteFeedProvider::feed, RemoteWorkUnitFeedRegistry::add"]}
{"id": "C40", "title": "Session options survive the trip to the workers", "statement": "Every option of a registered configuration extension that has a value on the coordinator has the same value on the worker after being sent as headers; options without a value keep the worker's default.", "quantifier": "all extensions, option names and values", "why_tests_cant": "All names and values.", "anchors": ["src/config_extension_ext.rs: set_distributed_option_extension_from_headers, get_config_extension_propagation_headers"]}
{"id": "C41", "title": "Passthrough headers never interfere with configuration headers", "statement": "Setting passthrough headers with a reserved name is refused, accepted headers are delivered unchanged, and they never change a configuration option on the worker.", "quantifier": "all header maps", "why_tests_cant": "All names.", "anchors": ["src/passthrough_headers.rs", "src/config_extension_ext.rs"]}
{"id": "C42", "title": "Encoding then decoding a distributed plan node gives it back", "statement": "For every network boundary, broadcast, isolated union and sampler node and every choice of inputs, decoding the encoded node yields a node that behaves identically (same kind, stage, task count, worker URLs, partitioning, task assignment).", "quantifier": "all nodes", "why_tests_cant": "All node contents.", "anchors": ["src/codec/distributed_codec.rs"]}
{"id": "C43", "title": "Default routing assigns every task a known worker, evenly", "statement": "Default routing returns exactly one URL per task, each taken from the resolver's list, and no worker gets more than one task more than another; with no workers it is an error.", "quantifier": "all worker lists, task counts, random starting points", "why_tests_cant": "All counts.", "anchors": ["src/events/defaults/routing.rs", "src/coordinator/query_coordinator.rs: routed_urls"]}
{"id": "C44", "title": "Reported metrics are attached to the node that produced them", "statement": "After a distributed query, the metrics shown for a plan node are exactly those reported for it by the tasks that ran it, each labelled with its task, for every plan shape including isolated unions.", "quantifier": "all stage plans, tasks, metric contents", "why_tests_cant": "All plan shapes.", "anchors": ["src/metrics/task_metrics_rewriter.rs: stage_metrics_rewriter", "src/metrics/task_metrics_collector.rs", "src/common/recursion.rs: apply_with_dt_ctx"]}
{"id": "C45", "title": "Aggregating latency and size metrics does not depend on arrival order", "statement": "Min, max, average, percentile, byte-count and max-gauge metrics aggregated over tasks in any order and grouping give the minimum, maximum, mean, percentile, sum and maximum over all recorded values, as if one task had recorded everything, where latencies below a nanosecond count as one nanosecond and sums are kept modulo the machine word.", "quantifier": "all recorded values and aggregation orders", "why_tests_cant": "All orders.", "anchors": ["src/metrics/latency_metric.rs", "src/metrics/bytes_metric.rs", "src/metrics/max_gauge_metric.rs"]}
{"id": "C46", "title": "Dynamically computed task counts stay within bounds", "statement": "The task count computed at run time for a stage is at most the configured maximum, at least one unless a handler asked for a maximum of zero, never exceeds a maximum requested for the stage, and grows with the measured cost.", "quantifier": "all runtime statistics and configurations", "why_tests_cant": "All numbers.", "anchors": ["src/coordinator/prepare_dynamic_plan.rs: prepare_dynamic_plan"]}
{"id": "C47", "title": "Simplifying a cost expression never changes the estimated cost", "statement": "Combining cost expressions by addition, multiplication and logarithm, including the built-in simplifications, evaluates to the same cost as combining the costs directly (up to saturation), if constants are whole numbers and logarithms are not taken of constants.", "quantifier": "all cost expressions over whole constants without logarithms of constants, all row counts and byte counts", "why_tests_cant": "All expressions.", "anchors": ["src/distributed_planner/statistics/complexity.rs"]}
{"id": "C48", "title": "Event handlers are consulted in a fixed order and the first answer wins", "statement": "For any set of registered handlers, a decision event is answered by the first custom handler in registration order that answers, else by the first built-in one; rewriting events apply all handlers in that order.", "quantifier": "all handler lists", "why_tests_cant": "All lists.", "anchors": ["src/events/common.rs: EventHandlerChain"]}
{"id": "C49", "title": "Closing the query releases every worker channel", "statement": "When the result stream of a distributed query ends, fails or is dropped, every coordinator-to-worker channel opened for it terminates, whatever order tasks started in.", "quantifier": "all schedules", "why_tests_cant": "Schedules cannot be enumerated.", "anchors": ["src/coordinator/query_coordinator.rs: keep_stream_alive, NotifyGuard", "src/coordinator/distributed.rs: execute"]}
{"id": "C50", "title": "Averaging per-column statistics", "statement": "Element-wise sums and averages of per-column statistics of several partitions give the column-wise sum and mean, and mismatched lengths are reported as an error instead of being truncated.", "quantifier": "all lists of vectors", "why_tests_cant": "All lengths.", "anchors": ["src/common/vec.rs"]}
{"id": "C51", "title": "A final load report is exact", "statement": "The load a sampled partition reports never claims more rows or bytes than the partition really produces, and a report marked as final gives exactly the rows, bytes and end of the partition.", "quantifier": "all partition contents, ready/pending schedules and chunk limits", "why_tests_cant": "All schedules of a source stream.", "anchors": ["src/execution_plans/sampler.rs"]}
{"id": "C52", "title": "Isolated unions share tasks by the largest remainder rule", "statement": "When no child of an isolated union is capped, each child gets the floor or the ceiling of its proportional share of the tasks, but at least one task, and a child is rounded up only if no child with a larger fractional remainder is rounded down.", "quantifier": "all numbers of children, weights and task budgets", "why_tests_cant": "All weights and budgets.", "anchors": ["src/execution_plans/children_isolator_union.rs: split_tasks"]}
{"id": "C53", "title": "Rewriting an isolated union keeps its task assignment", "statement": "Replacing the children of an isolated union keeps which task runs which child, the reported number of tasks of a child is the number of tasks that really run it, and specialising the node for one task keeps exactly the children this task executes.", "quantifier": "all assignments, children and tasks", "why_tests_cant": "All assignments.", "anchors": ["src/execution_plans/children_isolator_union.rs: with_new_children, child_task_counts, to_task_specialized"]}
{"id": "C54", "title": "Metrics survive the wire", "statement": "Every metric a worker reports arrives at the coordinator with the same kind, name, value, partition and labels, in the same order; custom metrics that cannot be sent are left out without affecting the others.", "quantifier": "all metric sets and values", "why_tests_cant": "All metric kinds, values and combinations.", "anchors": ["src/protocol/grpc/metrics_proto.rs", "src/protocol/grpc/worker_service.rs: encode_task_metrics", "src/protocol/grpc/worker_client.rs: decode_task_metrics"]}
{"id": "C55", "title": "Messages between coordinator, consumers and workers survive the wire", "statement": "Task identities, plan requests, execution requests with their producer head and partition range, work units and load reports arrive as they were sent; a message with a damaged identity or out of protocol order is refused.", "quantifier": "all messages", "why_tests_cant": "All message contents.", "anchors": ["src/protocol/grpc/worker_client.rs", "src/protocol/grpc/worker_service.rs"]}
{"id": "C56", "title": "Every task is sent once, with its own plan, to the worker its consumers will ask", "statement": "Starting a distributed query sends, for every stage and every task of the stage, exactly one plan; it is the plan of that stage specialised for that task, it goes to the worker the stage's consumers will later ask for that task's rows, and the plans of a stage's inputs are sent before its own. Starting the same query a second time is refused.", "quantifier": "all distributed plans, all assignments of workers", "why_tests_cant": "All plan shapes, numbers of stages and tasks.", "anchors": ["src/coordinator/prepare_static_plan.rs", "src/coordinator/query_coordinator.rs: send_plan_task, task_specialized_plan, routed_urls", "src/coordinator/distributed.rs: execute"]}
{"id": "C57", "title": "An error raised on a worker arrives as the error it was", "statement": "When a task fails on a worker, the consumer of its rows and finally the client see an error of the same kind, with the same message, contexts and collected errors, after any number of network boundaries; a failure of the connection itself is never taken for an error of the query.", "quantifier": "all errors, all nestings of errors, any number of network boundaries", "why_tests_cant": "Errors nest without bound and have many variants; the tests try one error per listed variant.", "anchors": ["src/protocol/grpc/errors/mod.rs", "src/protocol/grpc/errors/datafusion_error.rs", "src/protocol/grpc/errors/arrow_error.rs", "src/protocol/grpc/errors/objectstore_error.rs", "src/protocol/grpc/errors/io_error.rs", "src/protocol/grpc/errors/schema_error.rs"]}
{"id": "C58", "title": "Task counts chosen while the query runs do not change the answer", "statement": "If the number of tasks of every stage is chosen from statistics measured while its inputs run, the query still returns the rows of the single-node plan, whatever the measurements were; every stage runs the number of tasks its consumers ask, joins and limits that must not be split run in one task, and every stage whose rows are asked for is sampled.", "quantifier": "all plans, all statistics measured, all cost functions", "why_tests_cant": "The measurements depend on data and timing.", "anchors": ["src/coordinator/prepare_dynamic_plan.rs: prepare_dynamic_plan, reconstruct", "src/distributed_planner/inject_network_boundaries.rs"]}
{"id": "C59", "title": "The size of a running stage is estimated soundly from samples", "statement": "The size of a stage estimated while it runs is never below the number of partitions times the least number of rows any sampled partition has ready; if the sampled partitions have ended it is their average times the number of partitions, in rows and in bytes per column; if they are in progress, it is in proportion to the rows that the leaves streaming through the stage (not those below the left sides of joins) have given and are expected to give; the decision is taken as soon as a fifth of the partitions have data or all have reported, and reports with another number of columns are refused.", "quantifier": "all report sequences in any order, all partition counts and all roundings", "why_tests_cant": "Reports arrive in any order and number.", "anchors": ["src/coordinator/prepare_dynamic_plan.rs: gather_runtime_statistics", "src/common/vec.rs"]}
{"id": "C60", "title": "LIMIT and ORDER BY LIMIT return rows SQL allows", "statement": "A distributed query with LIMIT n OFFSET k returns exactly min(n, max(rows - k, 0)) rows, all of them rows of the limited table and none more often than there; with ORDER BY it returns the rows ranked k+1 to k+n, where ties may be broken in any way. This holds whichever rows each task and each partition prefers.", "quantifier": "all inputs, all sessions, all preorders, all choices made in each task and partition", "why_tests_cant": "Which rows a limit returns depends on timing and on the number of tasks; a test sees one choice.", "anchors": ["src/distributed_planner/push_fetch_into_network_coalesce.rs", "src/distributed_planner/inject_network_boundaries.rs", "src/distributed_planner/insert_broadcast.rs"]}
{"id": "C61", "title": "The cost of a stage counts every operator once and grows with the data", "statement": "The cpu, memory and network cost estimated for a stage is the sum over its operators, each counted once, of the bytes the operator reads and hashes, keeps in memory and receives; expressions are charged every column once per operation above it. Sizes that statistics do not give are filled in from row counts and types, so the cost of a stage is always known. More data never gives a lower cost and never fewer tasks.", "quantifier": "all stages, operators, expressions and statistics", "why_tests_cant": "All plan shapes, expressions and sizes, including those near the largest machine word.", "anchors": ["src/distributed_planner/statistics/cost.rs: calculate_cost", "src/distributed_planner/statistics/complexity_cpu.rs", "src/distributed_planner/statistics/complexity_memory.rs", "src/distributed_planner/statistics/complexity_network.rs", "src/distributed_planner/statistics/plan_statistics.rs", "src/distributed_planner/statistics/default_bytes_for_datatype.rs"]}
{"id": "C62", "title": "Workers are reached over shared connections, at the right worker, and failures are not kept", "statement": "A request for a worker URL returns a connection to that URL or the error of an attempt to connect to it. Requests that overlap share one attempt and get the same answer; an established connection is used by all later requests until it is evicted; a failed attempt is never handed to a request made after its failure was reported, so one retry per failure suffices. A task's requests for its own worker's data stay in the process and reach the same worker a network request would.", "quantifier": "all URLs, all interleavings of requests, polls, cancellations and evictions", "why_tests_cant": "Schedules cannot be enumerated.", "anchors": ["src/protocol/grpc/channel_resolver.rs: DefaultChannelResolver", "src/protocol/channel_resolver.rs", "src/protocol/in_process", "src/worker/impl_execute_task.rs"]}
{"id": "C63", "title": "Tasks of one stage that run in the same process do not disturb each other", "statement": "A task reads exactly the partitions it asks its network boundaries for, whether or not other tasks of its stage run in the same process and in whatever order they ask and read.", "quantifier": "all stages, task placements and interleavings of the tasks", "why_tests_cant": "Interleavings of tasks cannot be enumerated.", "anchors": ["src/coordinator/query_coordinator.rs: send_plan_task, task_specialized_plan", "src/common/maybe_encoded.rs", "src/worker/worker_connection_pool.rs", "src/protocol/in_process"]}
{"id": "C64", "title": "A task runs with the settings of the session that started the query", "statement": "Whatever calls configured the session, and in whatever order, every task runs with the value each distributed option had when the query started, with its own task index and the task count of its stage, and with the batch size configured for shuffles or, if none is, the session's batch size. An option that cannot be sent makes the query fail instead of arriving changed.", "quantifier": "all sequences of configuration calls, all option values, all tasks", "why_tests_cant": "Sequences of calls and option values are unbounded.", "anchors": ["src/distributed_planner/distributed_config.rs", "src/distributed_ext.rs", "src/config_extension_ext.rs", "src/worker/impl_coordinator_channel.rs", "src/worker/session_builder.rs"]}
{"id": "C65", "title": "Custom nodes arrive at the workers", "statement": "If coordinator and workers register the same extension codecs in the same order (workers may register more after them), every plan the coordinator manages to send is decoded to the same plan; a plan can be sent exactly if each custom node of it is accepted by one of the registered codecs; nodes of this library are never handed to user codecs first.", "quantifier": "all plans with built-in and custom nodes at any depth, all lists of registered codecs that read back what they write and write nothing when they refuse, all orders of registration", "why_tests_cant": "codecs are tried in order and nested at any depth; a test fixes one codec and one node", "anchors": ["src/codec/user_codec.rs: set_distributed_user_codec, get_distributed_user_codecs", "src/codec/distributed_codec.rs: DistributedCodec::new_combined_with_user, try_encode, try_decode", "src/codec/physical_plan.rs"]}
{"id": "C66", "title": "User-defined functions arrive at the workers", "statement": "An expression that calls user-defined functions is the same on the worker as on the coordinator if the function is registered in the session of the worker, or if a registered codec can encode and decode it.", "quantifier": "all expressions, codecs, function registries of workers", "why_tests_cant": "depends on which of all registered codecs is asked first and on nesting of calls", "anchors": ["src/codec/distributed_codec.rs: DistributedCodec, new_combined_with_user", "src/codec/user_codec.rs"]}
{"id": "C67", "title": "EXPLAIN shows every stage", "statement": "The text shown for a distributed plan has one block for the head stage and one for each stage of the plan, with its number of tasks, the number of its partitions and exactly the nodes its tasks run, and a stage is indented below the stage that reads it.", "quantifier": "all distributed plans: any shape and any nesting of stages", "why_tests_cant": "snapshot tests show some plans; stages can be nested to any depth and below any node", "anchors": ["src/stage.rs: display_plan_ascii, display_ascii, display_inner_ascii, find_input_stages, format_tasks_for_stage"]}
{"id": "C68", "title": "The drawing of a plan shows its data flow", "statement": "In the Graphviz drawing of a distributed plan, the nodes drawn for a task are the nodes it runs, and the edges between tasks of different stages are exactly the reads: an edge leads from a partition of a task to a partition of a task of another stage if and only if executing the latter reads the former. Inside a task there is an edge from every partition of a node to the node above it, and no other. Edges lead from and to ports that are drawn.", "quantifier": "all stages: plans of any shape, any number of tasks and partitions of both stages", "why_tests_cant": "edges are computed from arithmetic on partition and task numbers, for every pair of tasks", "anchors": ["src/stage.rs: display_plan_graphviz, display_plan, display_single_plan, display_inter_task_edges"]}
{"id": "C69", "title": "EXPLAIN ANALYZE writes what each task recorded", "statement": "Next to every node of a stage, each metric name is written once, with one value for each task that runs the node: the aggregation of what this task recorded under this name for this node (or, if metrics are not shown per task, one value over all tasks). Names and tasks are in order, timestamps are left out, and the text does not depend on hash map order. The same holds for the variants of a leaf and for the header of a stage.", "quantifier": "all sets of metrics, all numbers of tasks and partitions, all orders in which reports and hash map entries come", "why_tests_cant": "the text depends on the iteration order of a hash map and an unstable sort; tests fix a few metrics", "anchors": ["src/stage.rs: format_metrics_by_task, aggregate_by_task_id, sorted_for_display_by_task_id, metrics_by_task_id, gather_stage_header_metrics, display_inner_distributed_leaf"]}
{"id": "C70", "title": "A distributed query returns its rows in the order it promises", "statement": "A query with ORDER BY (with or without LIMIT) returns its rows in that order, and the rows are the first ones in that order; more generally, if the root of the plan promises an order the client receives the rows in that order, and every operator that relies on a sorted input (merge joins, aggregations and windows over sorted input, merges) gets it sorted, no matter which of several streams delivers first.", "quantifier": "all plans, sessions, task counts (planned ahead or while running), sort orders, data, and all interleavings of batches where several streams are read at once", "why_tests_cant": "an interleaving that shows a lost order is rare, and tests with little data in one batch never see it", "anchors": ["src/execution_plans/network_shuffle.rs: NetworkShuffleExec::try_new, execute", "src/execution_plans/network_coalesce.rs: execute", "src/execution_plans/network_broadcast.rs: execute", "src/execution_plans/distributed_leaf.rs: DistributedLeafExec", "src/events/defaults/file_scan_config.rs: redistribute_file_groups", "src/distributed_planner/inject_network_boundaries.rs", "src/distributed_planner/distributed_query_planner.rs"]}
{"id": "C71", "title": "A query that ends without an error has returned every row, whatever fails on the way", "statement": "If a distributed query runs to its end and no error was returned, the client has all the rows a single node could have returned for it: a worker that dies, a connection that breaks, an operator or a scan that fails, or a consumer that stops reading never shows up as missing rows. If the query fails, the rows returned before the error are still the beginning of a right answer, in the promised order.", "quantifier": "all plans, sessions, task counts (planned ahead or while running), data, interleavings, queue sizes and budgets, and all sets of failures at all points: dying workers, broken connections, failing operators and leaves, refused requests, consumers that stop early", "why_tests_cant": "the failures that matter hit between two particular messages of one of many concurrent streams; a test injects a few of them at a few points", "anchors": ["src/protocol/grpc/spawn_select_all.rs: spawn_select_all", "src/protocol/grpc/worker_service.rs: execute_task", "src/protocol/grpc/worker_client.rs: demultiplexing of the response", "src/protocol/in_process/worker_client.rs", "src/worker/worker_connection_pool.rs: WorkerConnectionPool::execute", "src/execution_plans/broadcast.rs: BroadcastExec::execute, BroadcastConsumer", "src/execution_plans/network_shuffle.rs: execute", "src/execution_plans/network_broadcast.rs: execute", "src/execution_plans/network_coalesce.rs: execute", "src/execution_plans/children_isolator_union.rs: execute"]}
{"id": "C72", "title": "A query that merges the sorted partitions of a worker makes progress", "statement": "A query whose coordinator or worker merges sorted partitions that come from one worker over one connection goes on until it ends: the buffer limit of the connection slows the worker down but never stops a merge that waits for the next rows of one partition while rows of another one are buffered.", "quantifier": "all buffer limits, numbers of partitions per connection, sizes and orders of messages, ways in which a merge chooses what to read next, and schedules of the merge and of the task that reads the connection", "why_tests_cant": "the wait needs more buffered bytes than the limit (64 MiB by default) for a partition the merge does not want yet, a size and a skew that tests do not have", "anchors": ["src/protocol/grpc/worker_client.rs: demultiplexing of the response (backpressure gate, mem_available_notify)", "src/protocol/grpc/spawn_select_all.rs: spawn_select_all", "src/execution_plans/network_coalesce.rs: execute"]}
{"id": "C73", "title": "A query fed with work units that ends without an error has read all of them", "statement": "If the result stream of a query whose leaves read work units ends without an error, every leaf partition that saw the end of its feed had been given every unit its feed produced, in order, and no such feed had failed.", "quantifier": "all numbers of tasks, feeds and partitions, all batchings of units into messages, all interleavings of the coordinator, the workers and the leaves, and all moments at which a connection breaks or a feed fails", "why_tests_cant": "a leaf cannot tell a cut feed from a complete one, so everything depends on which background task of the coordinator notices the break, and in which order; tests break connections at a few moments only, and run with metrics on", "anchors": ["src/coordinator/query_coordinator.rs: send_plan_task, coordinator_to_worker_task, drain_pending_tasks", "src/worker/impl_coordinator_channel.rs: coordinator_channel", "src/coordinator/distributed.rs: DistributedExec::execute"]}
{"id": "C74", "title": "Times shown in the metrics are the times that passed", "statement": "Latencies of work units and of messages, and the times at which a task got its plan, started and ended, are the times that passed between the two events, and recording them never disturbs the query, whatever the clocks of the machines say.", "quantifier": "all clock readings of coordinator and workers, all orders of events, both builds with and without overflow checks", "why_tests_cant": "tests run coordinator and workers on one machine with one clock", "anchors": ["src/work_unit_feed/remote_work_unit_feed.rs: build_work_unit_batch_msg, set_work_unit_send_time, set_work_unit_received_time, RemoteFeedProvider::feed", "src/protocol/grpc/worker_client.rs: execute_task", "src/worker/task_data.rs: TaskDataMetrics"]}
{"id": "C75", "title": "What a sampled partition reports is true of its rows", "statement": "The report of a sampled partition gives, for each column, the bytes and the proportion of NULLs of the rows peeked at, and the proportion of different values, exact up to a thousand rows and otherwise of a thousand rows chosen among them; a final report speaks of the whole partition; a failed partition reports zeros; the memory reserved for peeked batches is given back with them.", "quantifier": "all sequences of batches and pauses, all batch sizes including empty batches, all columns and cell values, all random choices of rows", "why_tests_cant": "the rows picked at random fall into batches of any sizes, so the arithmetic from row number to batch must be right for all of them, and a wrong proportion only shows as a bad plan", "anchors": ["src/execution_plans/sampler.rs: RecordBatchPeek, LoadInfoDropHandler, zero_load_info"]}
{"id": "C76", "title": "Every work unit feed of a plan reaches the tasks that run its node", "statement": "In a distributed plan, each task is told of exactly the nodes with work unit feeds that it runs; over all tasks of the stage the provider of a node with P partitions run by T tasks is called for each of its P*T feeds once, with T as fan-out; and partition q of the node in task i reads the units of feed P*i+q. What a worker decodes is the other end of the same feed, without its provider, and a provider that returns the same units for every fan-out gives the tasks together what it gives a single node.", "quantifier": "all plans, all placements of nodes with feeds below joins, unions and isolated unions, all numbers of tasks, all assignments of union branches to tasks, all registries of feeds, all schedules", "why_tests_cant": "the plan sent to a task and the feeds opened for it are computed by two different traversals, which have to agree for every shape of plan and every assignment of branches to tasks; tests have one leaf with a feed", "anchors": ["src/coordinator/query_coordinator.rs: task_specialized_plan, coordinator_to_worker_task", "src/work_unit_feed/work_unit_feed_registry.rs: WorkUnitFeedRegistry", "src/work_unit_feed/work_unit_feed_provider.rs: WorkUnitFeedProvider::feed", "src/work_unit_feed/remote_work_unit_feed.rs: RemoteWorkUnitFeedRegistry::add"]}
{"id": "C77", "title": "A query always ends", "statement": "A distributed query never hangs, whether its tasks read their inputs to the end or stop early: as long as the client has neither seen the end of its results nor dropped them, some part of the query can go on, and it goes on only finitely often, whatever the sizes of messages, queues and byte budgets, in whatever order things happen and whichever connections fail. What a reader gets of a stream is what its writer computed, and a connection that failed is reported to its readers.", "quantifier": "all trees of stages, all numbers of tasks and partitions, all local and remote connections, all budgets and queue lengths, all contents and sizes of messages, all failures of connections, all schedules in which everything that can happen is tried again and again", "why_tests_cant": "a deadlock needs a particular interleaving of full buffers along several stages; tests have small inputs that fit in every buffer", "anchors": ["src/protocol/grpc/worker_client.rs: RemoteWorkerConnection", "src/protocol/grpc/spawn_select_all.rs: spawn_select_all", "src/protocol/grpc/worker_service.rs: execute_task", "src/worker/worker_connection_pool.rs: WorkerConnectionPool::execute", "src/protocol/in_process/worker_client.rs"]}
{"id": "C78", "title": "A running query ends with its answer", "statement": "While a query runs, its tasks working at the same time on different workers and sending each other batches over connections with bounded buffers, what the client has received is at any time the beginning of an answer of the query (the first rows of the ordered answer for ORDER BY); the query comes to an end, also if connections fail, and if the client has seen the end of its stream and no error without having dropped anything, what it received is a whole answer. Every answer the distributed plan has can also arrive this way.", "quantifier": "every query and session of C70, every interleaving of the steps of all tasks and connections, every size of messages and buffers, every choice of which connections are remote, every failure of connections, every point in time", "why_tests_cant": "The number of interleavings of the tasks of one query is astronomical; tests see a handful of them.", "anchors": ["src/protocol/grpc/worker_client.rs:WorkerConnection", "src/protocol/grpc/spawn_select_all.rs:spawn_select_all", "src/worker/worker_connection_pool.rs:WorkerConnectionPool", "src/execution_plans/network_shuffle.rs:NetworkShuffleExec", "src/execution_plans/network_broadcast.rs:NetworkBroadcastExec", "src/execution_plans/network_coalesce.rs:NetworkCoalesceExec", "src/coordinator/distributed.rs:DistributedExec"]}
{"id": "C79", "title": "Worker plan rewrites that meet the documented criteria keep the answer", "statement": "If every rewrite handler registered on the workers meets the documented criteria (each output partition of a stage keeps its rows and their multiplicity, the partitioning and ordering stay), then a distributed query whose stages were all rewritten delivers one of the answers of the query, in the order the query promises, also while failures happen; if the handlers also keep the topology, tasks ask each other for the same partitions and the query ends. The handlers run in registration order, each on the plan of the one before, once for every stage as it was sent, and an error of one of them fails the query.", "quantifier": "every query, session and plan of C70, every chain of handlers that meet the criteria (any functions from plans to plans), every execution of the rewritten plan, every failure and schedule", "why_tests_cant": "Handlers are user code; which rewrites are harmless in which stage depends on what the consumer of the stage does with its partitions and its head, so no finite set of handlers settles it.", "anchors": ["src/events/worker_plan_rewrite.rs:WorkerPlanRewriteHandlers::handle", "src/events/common.rs:EventHandlerChain::try_fold", "src/worker/impl_coordinator_channel.rs:Worker", "src/distributed_ext.rs:DistributedExt::with_distributed_worker_plan_rewrite_handler", "src/distributed_planner/network_boundary.rs:ProducerHead::insert"]}
{"id": "C80", "title": "Progress reports of a worker list exactly the tasks it serves, with the rows they produced so far", "statement": "At any time a progress report of a worker lists a task if and only if a coordinator set a plan for it that the worker accepted and the task has not been released; each task at most once; the rows shown for a task never decrease and are the rows the task put out so far. Listing the workers of the cluster gives the URLs of the resolver, or an error.", "quantifier": "every history of a worker (channels, plans, failures, requests, releases, evictions, restarts), every interleaving of that history with the visits of a report, every order of visits", "why_tests_cant": "A report walks over the task registry while channels, requests and releases go on; tests look at one quiet worker.", "anchors": ["src/protocol/grpc/observability/service.rs:ObservabilityServiceImpl", "src/worker/impl_coordinator_channel.rs:Worker", "src/worker/task_data.rs:TaskData::plan", "src/distributed_planner/network_boundary.rs:ProducerHead::insert"]}
{"id": "C81", "title": "Configuring a session means what the calls say, in whatever order they come", "statement": "Every option of a session has the value of the last successful call about it, or its default; a call about one setting changes no other one. Codecs, work unit feeds and event handlers add up in the order they were given, user handlers before built-in ones; resolvers, local worker and headers are replaced. Setters fail exactly until the distributed options are there, and a call that fails changes nothing. A `with_*` chain is the same as the `set_*` calls. A setter does what the SQL `SET` of its option does. Configuring a copy of a session does not change the original, nor the other way round. Calling `with_distributed_planner` more than once is the same as calling it once.", "quantifier": "every sequence of configuration calls and copies of sessions, every value, every session of the process", "why_tests_cant": "Sessions share their options and extensions behind reference counted pointers, and there are fifty configuration functions that can be called in every order on every copy; tests call a few of them once.", "anchors": ["src/distributed_ext.rs:DistributedExt", "src/config_extension_ext.rs:set_distributed_option_extension", "src/config_extension_ext.rs:set_distributed_option_extension_from_headers", "src/distributed_planner/distributed_config.rs:DistributedConfig", "src/distributed_planner/session_state_builder_ext.rs:SessionStateBuilderExt", "src/events/common.rs:EventHandlerChain", "src/codec/user_codec.rs:set_distributed_user_codec_arc", "src/work_unit_feed/work_unit_feed_registry.rs:set_distributed_work_unit_feed"]}
{"id": "C82", "title": "Queries that use the same worker at the same time do not disturb each other", "statement": "Whatever queries a worker serves, in whatever interleaving - with their errors, abandoned streams, evictions and retries - each query sees what it would have seen had the worker served it alone: the same fate of its channels, the same metrics on them, the same answers to requests for the outputs of its tasks. The same holds for a query that runs after another one with the same identifiers is over on the worker, and for every run of a plan whose task counts are decided while it runs.", "quantifier": "every history of a worker with any number of queries, channels, requests, evictions and crashes, in every interleaving; every query among them", "why_tests_cant": "Isolation is about all interleavings of all pairs of queries on the shared registry of a worker; tests run one query or a few concurrently and see some interleavings.", "anchors": ["src/worker/worker_service.rs:Worker", "src/worker/impl_coordinator_channel.rs:Worker", "src/worker/impl_execute_task.rs:Worker", "src/worker/single_write_multi_read.rs:SingleWriteMultiRead", "src/distributed_planner/prepare_network_boundaries.rs:prepare_network_boundaries", "src/coordinator/distributed.rs:DistributedExec"]}
{"id": "C83", "title": "EXPLAIN ANALYZE runs the query and reports what happened", "statement": "EXPLAIN ANALYZE of a query runs exactly the plan the query itself would get. If the query fails, it fails with the same error. If the query succeeds, it returns the documented table once every task of every stage has reported, not earlier and not later: the number of output rows is that of an answer of the query, and the plan is shown with the metrics of each node on that node, added up over the tasks and, with VERBOSE, once per task. Without metrics collection the plan is shown at once, without the metrics of the workers.", "quantifier": "every query the planner accepts, every session, every way its rows come in batches, every error, every set of reports and recorded metrics", "why_tests_cant": "Tests compare the text of a few queries after normalising their metrics; that counts, errors and metrics agree with the query for all plans and all arrival orders needs a proof.", "anchors": ["src/explain_analyze.rs:DistributedAnalyzeExec", "src/stage.rs:explain_analyze", "src/coordinator/distributed.rs:DistributedExec", "src/metrics/task_metrics_rewriter.rs:rewrite_distributed_plan_with_metrics", "src/distributed_planner/distributed_query_planner.rs:create_distributed_plan", "src/coordinator/prepare_dynamic_plan.rs:PlanReconstructor"]}
{"id": "C84", "title": "Record batches survive the wire", "statement": "Every record batch with rows that a partition of a worker produces reaches the consumer of that partition, in order and with the same values in every column, also when columns are dictionary encoded, when dictionaries change from batch to batch or have values no row uses, when strings are views into shared buffers, and when several partitions with different dictionaries share a connection. An error of the partition arrives after its batches. At any time a consumer has a prefix of the batches, and one that saw the end of its stream without an error has all rows.", "quantifier": "every stream of record batches with plain, dictionary, view and struct columns, every number of partitions, every order of sending and reading, every point at which the connection breaks", "why_tests_cant": "Tests send a few batches on a quiet connection; which dictionaries have been sent when a batch is decoded depends on the history of the stream and the interleaving of partitions.", "anchors": ["src/protocol/grpc/worker_service.rs:build_flight_data_stream", "src/protocol/grpc/worker_service.rs:garbage_collect_arrays", "src/protocol/grpc/worker_client.rs:RemoteWorkerConnection", "src/worker/worker_service.rs:with_max_message_size"]}
{"id": "C85", "title": "What an exchange reports about its traffic is what happened", "statement": "The metrics an exchange shows in EXPLAIN ANALYZE describe what happened on the network: the number of messages and bytes are those of the messages that arrived for the partitions that were asked for, each counted once; the greatest memory is the greatest number of bytes that were buffered at one moment; the least, greatest, first and summed latency are those of the messages that arrived with a creation time; the rows of a partition are the rows its stream returned; and the elapsed time is the time spent in polls, each counted once, also when streams are dropped early.", "quantifier": "every content and size of messages, every order of arrival, polls and drops of partitions, every reading of the clock at every step", "why_tests_cant": "Tests compare a few counters after a complete run on a quiet machine; what the counters say after partial reads, dropped partitions, errors and interleaved polls depends on the schedule.", "anchors": ["src/protocol/grpc/worker_client.rs:RemoteWorkerConnection", "src/protocol/grpc/worker_client.rs:ElapsedComputeFuture", "src/protocol/grpc/worker_client.rs:ElapsedComputeStream", "src/metrics/latency_metric.rs:FirstLatency", "src/worker/worker_connection_pool.rs"]}
{"id": "C86", "title": "What a query reports about sending its plans is what happened", "statement": "The root of a distributed plan shows how many channels the coordinator opened to workers, within its process and to other processes, how many bytes of encoded plans it sent, and the greatest and the mean time the workers took to acknowledge their plans. However the tasks that open the channels interleave, and whether they succeed, fail or are aborted, the numbers shown are those of the channels that were opened, none counted twice, and of the plans that were acknowledged; the latencies are shown as soon as nothing runs on behalf of the query any more, and are those of all acknowledgements; once the result has ended they are final, and if no channel failed every channel is in them.", "quantifier": "every number of channels, every interleaving of the tasks, every failure or abort of any of them, every time at which the query ends or is dropped, every size and latency", "why_tests_cant": "The tasks run concurrently and the latencies are written when the last of several owners lets go of them, which may be any of the tasks or the coordinator; a test sees one order.", "anchors": ["src/coordinator/latency_metric.rs: LatencyMetric", "src/coordinator/query_coordinator.rs: send_plan_task, drain_pending_tasks, CoordinatorToWorkerMetrics", "src/protocol/grpc/worker_client.rs: coordinator_channel"]}
{"id": "C87", "title": "Whatever a worker is asked, it answers with data of the task named or with an error", "statement": "A worker answers every request it receives, whatever its fields contain: a request without a task or a producer head, with an identifier of the wrong length, for a task nobody has set or for partitions that do not exist is answered with an error; data is only ever that of the partitions asked for, in order, of the task that was named; no request touches other tasks; a request that is refused leaves the worker as it was, so that a proper request for the same task is answered as if the refused one had never come; a channel is opened only by a well-formed plan, and a malformed message on it is refused.", "quantifier": "every content of every field of a request, every state of the worker, every plan and its partitions, every amount of memory, checked and unchecked builds, every sequence of messages on a channel", "why_tests_cant": "Requests come from the network and may be anything; tests send requests that a coordinator of the same version would send.", "anchors": ["src/worker/impl_execute_task.rs: execute_task", "src/protocol/grpc/worker_service.rs: coordinator_channel, execute_task", "src/worker/task_data.rs: plan"]}
{"id": "C88", "title": "An exchange that is rebuilt by a rule still delivers everything once", "statement": "Optimizer rules may rebuild the exchanges of a plan as often as they like, through the methods every plan node has: with another child, with another input stage, with a limit. Either the rebuild is refused, or the exchange that results still delivers the plan below it once: a gathering delivers every partition of every task to one consumer, a shuffle every bucket, and a broadcast everything to every consumer task.", "quantifier": "every exchange, every number of partitions and of producer and consumer tasks, every sequence of rebuilds", "why_tests_cant": "A test rebuilds one exchange with one child; whether the numbers still agree depends on all of the partitions and task counts and on the history of rebuilds.", "anchors": ["src/execution_plans/network_coalesce.rs: with_new_children, with_input_stage", "src/execution_plans/network_shuffle.rs: with_new_children, with_input_stage", "src/execution_plans/network_broadcast.rs: with_new_children, with_input_stage"]}
{"id": "C89", "title": "Custom expressions arrive at the workers", "statement": "A user who has written expressions of their own and registers codecs for them, in the same order on the coordinator and on the workers, can use them anywhere in a query: if a registered codec accepts every custom expression of a plan, the plan can be sent, and every worker receives each expression as it was, wherever in the plan it stands: in a filter, a projection, an aggregate, or among the keys by which rows are redistributed.", "quantifier": "every plan of a stage, every tree of built-in and custom expressions at every place in it, every list of registered codecs", "why_tests_cant": "A test sends one expression at one place with one codec; which codec is asked depends on the place of the expression and on all codecs registered before.", "anchors": ["src/codec/physical_plan.rs: encode_execution_plan, decode_execution_plan, encode_partitioning, decode_partitioning", "src/codec/distributed_codec.rs: DistributedCodec::try_encode, DistributedCodec::try_decode", "src/codec/user_codec.rs: set_distributed_user_codec"]}
{"id": "C90", "title": "Reading a feed does not depend on the clocks of the machines", "statement": "A leaf that reads work units from its remote feed gets every unit and every error that was sent to it, in order, and a unit that cannot be decoded does not end the feed. The counters say how many units it got and how many bytes came over the network, and the latencies say how long the units took. Clocks of different machines never agree exactly, and what the leaf gets does not depend on them.", "quantifier": "every sequence of work units and errors, every codec of the units, every clock of the coordinator and of the worker, builds with and without overflow checks", "why_tests_cant": "Tests run on one machine with one clock; the difference between the clocks of two machines is not something a test controls.", "anchors": ["src/work_unit_feed/remote_work_unit_feed.rs: RemoteFeedProvider::feed, set_work_unit_send_time, set_work_unit_received_time", "src/common/time.rs: now_ns", "src/metrics/latency_metric.rs: MaxLatencyMetric"]}
{"id": "C91", "title": "The memory a worker holds for a response is accounted for, bounded and given back", "statement": "What the partitions of a task have produced and the network has not yet taken waits in buffers on the worker. As long as the response is read, the memory pool of the worker shows exactly the bytes of these messages; that is at most one message more than the queue holds for each partition, however slow the consumer is; nothing remains when the response has ended, and nothing remains after a consumer has gone away at any moment, once the aborted tasks are gone. What the consumer got of a partition until then is a beginning of what the partition produced, in its order.", "quantifier": "every number of partitions and length of queues, every sequence of messages and errors with any sizes, every schedule of the forwarding tasks and the reader, panics of streams, and the reader leaving at any point", "why_tests_cant": "A leak or a double release shows under particular interleavings of producers, the reader and the moment the reader leaves.", "anchors": ["src/protocol/grpc/spawn_select_all.rs: spawn_select_all, MemoryFootPrint", "src/protocol/grpc/worker_service.rs: execute_task"]}
{"id": "C92", "title": "Planning a query ends", "statement": "Planning a query ends, with a plan or with an error: for every plan, with or without exchanges placed by the user, below EXPLAIN ANALYZE or not, and whatever handlers that scale leaves up are registered.", "quantifier": "every plan of any depth and shape, every session, and every answer of the registered handlers", "why_tests_cant": "Planning visits a plan while it replaces the nodes of it; that the visits come to an end depends on what is put in their place at every depth.", "anchors": ["src/distributed_planner/distributed_query_planner.rs: create_distributed_plan", "src/distributed_planner/prepare_network_boundaries.rs: prepare_network_boundaries", "src/common/recursion.rs: transform_down_with_task_count"]}
{"id": "C93", "title": "What joins and sorts learn while they run removes no row from the answer", "statement": "Hash joins publish what they know about the keys of their build side while the query runs, and scans of the probe side skip rows that cannot match; sorts with a limit publish the worst of their best rows, and scans skip rows that are no better. Whichever task publishes when, and whichever rows a scan applies it to, a distributed query returns the rows of the single-node join, or the first rows of the single-node order.", "quantifier": "all data, join predicates and types filters are published for, numbers of tasks and partitions, placements of tasks on workers with the coordinator among them or not, sound filters, and interleavings of publishing, sending of plans and reading", "why_tests_cant": "Which rows are skipped depends on who publishes before which row is read, on which tasks share a process, and on the data.", "anchors": ["src/coordinator/query_coordinator.rs: send_plan_task, task_specialized_plan", "src/common/maybe_encoded.rs: MaybeEncoded", "src/distributed_planner/normalize_collect_joins.rs", "src/codec/physical_plan.rs: new_proto_converter"]}
{"id": "C94", "title": "A statement that writes writes every row once, from the coordinator", "statement": "INSERT and COPY run through the distributed planner write exactly the rows of their query, each as often as it is in the answer of a single node, and return the number of rows a single node would return. No task on a worker ever runs the operator that writes, and the coordinator runs it once, whatever the task counts are and whether they are chosen before or while the statement runs.", "quantifier": "all queries whose rows are written, data, sessions, task estimators, costs of stages, numbers of partitions and choices among the answers of a query", "why_tests_cant": "Whether the operator that writes ends up above all network boundaries depends on the shape of the query below it and on every rewriting pass.", "anchors": ["src/distributed_planner/distributed_query_planner.rs: create_physical_plan", "src/distributed_planner/inject_network_boundaries.rs: inject_network_boundaries", "src/distributed_planner/prepare_network_boundaries.rs", "src/coordinator/prepare_dynamic_plan.rs: prepare_dynamic_plan", "src/coordinator/distributed.rs: DistributedExec::execute"]}
{"id": "C95", "title": "Recursive queries return what a single node returns, or fail", "statement": "A query WITH RECURSIVE whose recursive term reads a distributed table returns, after any number of steps, the rows of all steps that a single node returns, or it fails with an error. No step silently reads less of the table than the first one did.", "quantifier": "all recursive terms, tables, numbers of tasks, partitions and steps, and all kinds of exchanges between the term and the table", "why_tests_cant": "A step executes the same tasks again on the workers; whether what they deliver the second time is complete depends on the exchange and on everything executed before, and tests rarely take a second step.", "anchors": ["src/execution_plans/network_shuffle.rs: with_new_children, execute", "src/worker/worker_connection_pool.rs: Clone", "src/worker/impl_execute_task.rs: Worker::execute_task", "src/execution_plans/broadcast.rs: BroadcastExec::execute", "src/protocol/grpc/spawn_select_all.rs: spawn_select_all"]}
{"id": "C96", "title": "A text file read by several tasks gives the rows it gives when read whole", "statement": "Reading a table of text files on several tasks returns exactly the rows that reading every file from its beginning to its end returns, wherever the files are cut and however the pieces are dealt out, also when a quoted value of a row contains line breaks.", "quantifier": "all contents and numbers of files, all ways of cutting them into byte ranges, all numbers of tasks and partitions", "why_tests_cant": "Where a file is cut depends on its size, the number of partitions and the number of tasks; a value with a line break is only damaged if a cut falls in it, so a test with one file and one size shows nothing about the others.", "anchors": ["src/events/defaults/file_scan_config.rs: file_scan_config_scale_up_leaf_node", "src/execution_plans/distributed_leaf.rs: DistributedLeafExec::try_new"]}
{"id": "C97", "title": "A scan spread over tasks keeps the order it declares", "statement": "If a table of files declares that every partition of its scan is in some order, then every partition that any task returns for that scan is in that order, for every number of tasks, so that operators planned above the scan may rely on it.", "quantifier": "all file groups, file contents, orders, numbers of partitions and of tasks, with and without a declared partitioning", "why_tests_cant": "Files are dealt out anew for every number of tasks and partitions; an order is broken only if two files of different partitions meet in one, which depends on all their numbers.", "anchors": ["src/events/defaults/file_scan_config.rs: file_scan_config_scale_up_leaf_node, rebalance_round_robin", "src/execution_plans/distributed_leaf.rs: DistributedLeafExec::execute"]}
{"id": "C98", "title": "What workers report about their tasks reaches the coordinator complete", "statement": "Once the answer of a worker about a task has arrived, the coordinator has the load reports of all samplers of that task that reported, in the order in which they did, knows that there are no more, and has the metrics of this task under this task if metrics are collected. It knows that the reports are complete as soon as their end has arrived, without waiting for metrics, not before, and also when the connection breaks.", "quantifier": "all numbers of samplers, orders in which they finish or are dropped, ways reports and metrics are mixed, points at which connections break, and histories of all other tasks and stages", "why_tests_cant": "Reports and metrics come from independent tasks on many workers and are mixed by the scheduler; replanning waits for them, so one lost end of a stream hangs the query only in some schedules.", "anchors": ["src/worker/impl_coordinator_channel.rs: Worker::coordinator_channel", "src/coordinator/query_coordinator.rs: worker_to_coordinator_task", "src/coordinator/metrics_store.rs: MetricsStore"]}
