{
 "claims": [
  {
   "property": "C01",
   "status": "proved",
   "theorems": [
    "DD.C01_coalesce_exactly_once",
    "DD.C01_coalesce_unique_reader",
    "DD.C01_zero_consumers_rejected"
   ],
   "note": "For all P, N, T>=1."
  },
  {
   "property": "C02",
   "status": "proved",
   "theorems": [
    "DD.C02_coalesce_groups"
   ],
   "note": ""
  },
  {
   "property": "C03",
   "status": "proved",
   "theorems": [
    "DD.C03_shuffle_exactly_once_colocated",
    "DD.fan_pulls"
   ],
   "note": "RepartitionExec is an external contract (row goes to bucket hash % n)."
  },
  {
   "property": "C04",
   "status": "proved",
   "theorems": [
    "DD.C04_broadcast_full_copy",
    "DD.C04_broadcast_serves_each_consumer_once"
   ],
   "note": ""
  },
  {
   "property": "C05",
   "status": "partial",
   "theorems": [
    "DD.Tree.C05_requests_exist_partial",
    "DD.Tree.C05_round_robin_below_coalesce_false"
   ],
   "note": "Proved for shuffles and broadcasts always, and for coalesces unless they stand above a non-hash RepartitionExec, where it is false (witness)."
  },
  {
   "property": "C06",
   "status": "partial",
   "theorems": [
    "DD.Worker.C06_first_request_fixes_plan",
    "DD.Tree.C06_insert_idempotent_partial",
    "DD.Tree.C06_insert_replaces",
    "DD.Tree.C06_two_repartitionings_false"
   ],
   "note": "Idempotence holds except for ProducerHead::None over two nested repartitionings (witness)."
  },
  {
   "property": "C07",
   "status": "proved",
   "theorems": [
    "DD.Pool.C07_one_request_per_task",
    "DD.Pool.C07_stream_handed_once",
    "DD.Pool.C07_caller_gets_its_partition",
    "DD.Pool.C07_coalesce_calls",
    "DD.Pool.C07_fan_calls",
    "DD.Pool.C07_mixed_ranges_misdeliver",
    "DD.Pool.C07_only_existing_tasks",
    "DD.Pool.C07_missing_task_is_an_error"
   ],
   "note": "For every history of calls and polls. The same-range hypothesis is proved for the calls of every boundary kind."
  },
  {
   "property": "C08",
   "status": "partial",
   "theorems": [
    "DD.Tree.C08_single_node_is_an_answer",
    "DD.Tree.C08_distributed_is_an_answer_partial",
    "DD.Tree.C08_distributed_eq_single_node_partial",
    "DD.Tree.C08_ungathered_single_partition_operator_false",
    "DD.Tree.C08_round_robin_below_coalesce_false",
    "DD.Tree.C08_unscaled_leaf_false",
    "DD.Tree.C08_limited_build_side_false",
    "DD.Tree.Create.C08_user_boundaries_partial",
    "DD.Tree.Create.C08_coalesce_above_shuffle_false",
    "DD.Tree.C08_ungathered_root_partial",
    "DD.Tree.C08_ungathered_root_eq_single_node_partial",
    "DD.Tree.C08_repartitioned_root_false"
   ],
   "note": "Whole-plan refinement for all statically planned queries the judgement Src accepts, including operators that choose (limits, ties), for gathered and ungathered roots, and for plans with user-placed boundaries (judgement Placed). The full claim is false: the conditions of Src, Placed and AnyRoot are shown to be needed by witnesses."
  },
  {
   "property": "C09",
   "status": "proved",
   "theorems": [
    "DD.Tree.C09_safe_types_split",
    "DD.Tree.C09_other_types_do_not_split",
    "DD.Tree.C09_null_aware_does_not_split",
    "DD.Tree.C09_planner_broadcasts_only_safe"
   ],
   "note": ""
  },
  {
   "property": "C10",
   "status": "proved",
   "theorems": [
    "DD.Tree.C10_collect_to_partitioned",
    "DD.Tree.C10_swapped",
    "DD.Tree.C10_normalize_keeps_answers",
    "DD.Tree.C10_normalize_keeps_rows",
    "DD.Tree.C10_rewritten_hash_join",
    "DD.Tree.C10_rewritten_hash_join_runs",
    "DD.Tree.C10_rewritten_nested_loop_join_runs"
   ],
   "note": ""
  },
  {
   "property": "C11",
   "status": "proved",
   "theorems": [
    "DD.Tree.C11_two_step_aggregation_of_an_answer",
    "DD.Tree.C11_two_step_aggregation",
    "DD.Tree.C11_two_step_global_aggregation_of_an_answer",
    "DD.Tree.C11_two_step_global_aggregation"
   ],
   "note": "Aggregates are any commutative associative merge of lifted rows."
  },
  {
   "property": "C12",
   "status": "proved",
   "theorems": [
    "DD.Limit.C12_same_possible_answers",
    "DD.Limit.C12_limit_offset",
    "DD.Limit.C12_merge_same_list",
    "DD.Limit.C12_producers_limited",
    "DD.Limit.C12_terminates",
    "DD.Limit.C12_planned_coalesces",
    "DD.Limit.C12_below_filter_false"
   ],
   "note": "For plans in which no coalesce stands directly below another operator with a limit; planned queries are such (C12_planned_coalesces); for a user-placed coalesce below a filter with a limit the claim is false (witness)."
  },
  {
   "property": "C13",
   "status": "proved",
   "theorems": [
    "DD.Limit.C13_merge_sorted",
    "DD.Limit.C13_merge_of_coalesce"
   ],
   "note": ""
  },
  {
   "property": "C14",
   "status": "proved",
   "theorems": [
    "DD.Union.C14_every_child_task_once",
    "DD.Union.C14_any_rounding",
    "DD.Union.C14_rejected",
    "DD.Union.childTasks_nodup",
    "DD.Union.C14_no_child_twice"
   ],
   "note": ""
  },
  {
   "property": "C15",
   "status": "proved",
   "theorems": [
    "DD.Union.C15_caps_budget_proportion"
   ],
   "note": ""
  },
  {
   "property": "C16",
   "status": "proved",
   "theorems": [
    "DD.Union.C16_every_child_partition_once",
    "DD.Union.C16_single_task_run_loses_rows"
   ],
   "note": "For unions run by as many tasks as they were laid out for; the other case is shown to lose rows."
  },
  {
   "property": "C17",
   "status": "proved",
   "theorems": [
    "DD.Leaf.C17_every_file_once",
    "DD.Leaf.C17_uniform_or_error",
    "DD.Leaf.C17_declared_always_ok",
    "DD.Leaf.C17_indivisible_fails",
    "DD.Leaf.C17_zero_tasks_panics",
    "DD.Leaf.C17_declared_partitioning_lost",
    "DD.Leaf.C17_fewest_sufficient_tasks"
   ],
   "note": "FileGroupPartitioner is an external contract (regrouping reads the same data)."
  },
  {
   "property": "C18",
   "status": "partial",
   "theorems": [
    "DD.Leaf.C18_all_rows_many_tasks_partial",
    "DD.Leaf.C18_all_rows_single_task_partial",
    "DD.Leaf.C18_all_rows_on_workers",
    "DD.Leaf.C18_scaled_scan",
    "DD.Leaf.C18_single_task_loses_rows",
    "DD.Leaf.C18_single_task_out_of_range"
   ],
   "note": "Refuted for a single task whose variant has another partition count than the original leaf."
  },
  {
   "property": "C19",
   "status": "proved",
   "theorems": [
    "DD.C19_merge_comm",
    "DD.C19_merge_assoc",
    "DD.C19_merge_idem",
    "DD.C19_limit_merge",
    "DD.C19_limit_le",
    "DD.C19_fold_is_combined",
    "DD.C19_fold_perm",
    "DD.C19_fold_le_maximum",
    "DD.C19_fold_largest_wish"
   ],
   "note": ""
  },
  {
   "property": "C20",
   "status": "proved",
   "theorems": [
    "DD.Tree.C20_stage_task_counts",
    "DD.Tree.C20_node_task_counts",
    "DD.Tree.C20_wish_for_zero_tasks_false"
   ],
   "note": "for every undistributed plan and session with usable answers (EnvOk) whose scale-up handlers return boundary-free plans. That the condition on the handlers is needed is shown: a wish for zero tasks is granted."
  },
  {
   "property": "C21",
   "status": "proved",
   "theorems": [
    "DD.Tree.C21_stage_numbers",
    "DD.Tree.C21_prepare_numbers"
   ],
   "note": "the query id shared by all stages is a local variable of prepare_network_boundaries and is not modelled"
  },
  {
   "property": "C22",
   "status": "proved",
   "theorems": [
    "DD.Tree.C22_unsafe_joins_run_in_one_task"
   ],
   "note": ""
  },
  {
   "property": "C23",
   "status": "partial",
   "theorems": [
    "DD.Tree.Create.C23_distributed_or_original",
    "DD.Tree.Create.C23_planning_again",
    "DD.Tree.Create.C23_distributed_unchanged",
    "DD.Tree.Create.C23_one_worker",
    "DD.Tree.Create.C23_analyze",
    "DD.Tree.Create.C23_analyze_again_false",
    "DD.Tree.Create.C23_user_boundaries",
    "DD.Tree.Create.C23_user_again_false"
   ],
   "note": "Proved for plans without user-placed boundaries and outside EXPLAIN ANALYZE; for those two cases the property is false of the code (witnesses C23_analyze_again_false, C23_user_again_false). Dynamic planning of a replanned EXPLAIN ANALYZE is not modelled."
  },
  {
   "property": "C24",
   "status": "proved",
   "theorems": [
    "DD.Tree.C24_elision_keeps_rows",
    "DD.Tree.Create.C24_no_trivial_boundary"
   ],
   "note": ""
  },
  {
   "property": "C25",
   "status": "proved",
   "theorems": [
    "DD.Tree.C25_built_for_its_consumers",
    "DD.Tree.C25_prepare_builds_for_consumers"
   ],
   "note": ""
  },
  {
   "property": "C26",
   "status": "proved",
   "theorems": [
    "DD.Tree.Rec.C26_up",
    "DD.Tree.Rec.C26_down",
    "DD.Tree.Rec.C26_ctx",
    "DD.Tree.Rec.C26_up_order",
    "DD.Tree.Rec.C26_down_order",
    "DD.Tree.Rec.C26_counts",
    "DD.Tree.Rec.C26_ctx_order",
    "DD.Tree.Rec.C26_apply",
    "DD.Tree.Rec.C26_driver_path",
    "DD.Tree.Rec.C26_prepare",
    "DD.Tree.Rec.C26_up_jump_false"
   ],
   "note": "The bottom-up traversal misplaces counts for visitors that return Jump (witness); the property is about visitors that continue."
  },
  {
   "property": "C27",
   "status": "proved",
   "theorems": [
    "DD.Tree.Rec.C27_task_gets_its_share",
    "DD.Tree.Rec.C27_no_divided_leaf",
    "DD.Tree.Rec.C27_unassigned_branches_are_empty",
    "DD.Tree.Rec.C27_same_rows",
    "DD.Tree.Rec.C27_planned_stages_specialise"
   ],
   "note": "Acceptance by the codec is the absence of leaves divided between tasks, the only node the codec does not know. Work unit feeds of the specialised plan are C39."
  },
  {
   "property": "C28",
   "status": "proved",
   "theorems": [
    "DD.BQ.C28_prefix_and_complete",
    "DD.BQ.C28_keeps_polling_gets_everything",
    "DD.BQ.C28_producer_finishes",
    "DD.BQ.C28_crash_truncates_silently",
    "DD.BQ.C28_prefix_always"
   ],
   "note": "The order and prefix part holds for every schedule, also when the producing task panics (C28_prefix_always). Completeness is proved for schedules where it does not panic; the panic case is shown to truncate silently."
  },
  {
   "property": "C29",
   "status": "proved",
   "theorems": [
    "DD.Demux.C29_delivers_own_partition_in_order",
    "DD.Demux.C29_total_of_valid",
    "DD.Demux.C29_faulty_message_fails_every_consumer",
    "DD.SelectAll.C29_server_merge",
    "DD.SelectAll.C29_end_to_end_prefix"
   ],
   "note": ""
  },
  {
   "property": "C30",
   "status": "proved",
   "theorems": [
    "DD.Demux.C30_buffered_bytes_bounded"
   ],
   "note": ""
  },
  {
   "property": "C31",
   "status": "partial",
   "theorems": [
    "DD.Demux.C31_no_starvation_partial",
    "DD.Demux.C31_dropped_sibling_starves",
    "DD.Demux.C31_zero_budget_starves"
   ],
   "note": "Proved when no stream is dropped with messages buffered and the budget is not zero; the claim as stated is refuted in both other cases."
  },
  {
   "property": "C32",
   "status": "partial",
   "theorems": [
    "DD.Demux.C32_client_end_is_complete",
    "DD.Demux.C32_client_clean_end",
    "DD.SelectAll.C32_clean_end_is_complete_partial",
    "DD.Demux.C32_client_panic_truncates_silently",
    "DD.SelectAll.C32_server_panic_truncates_silently",
    "DD.BQ.C28_crash_truncates_silently",
    "DD.SelectAll.C32_error_is_the_producers"
   ],
   "note": "Proved for every schedule and error point without task panics; with a panic it is refuted by three witnesses."
  },
  {
   "property": "C33",
   "status": "partial",
   "theorems": [
    "DD.Demux.C33_stopped_iff_all_dropped_partial",
    "DD.Demux.C33_nothing_pulled_after_abort",
    "DD.Demux.C33_unpolled_worker_never_contacted"
   ],
   "note": "The last clause (an uncontacted worker is notified) is refuted for every schedule without a poll."
  },
  {
   "property": "C34",
   "status": "partial",
   "theorems": [
    "DD.Sampler.C34_transparent_partial",
    "DD.Sampler.C34_transparent_without_errors",
    "DD.Sampler.C34_error_preserved",
    "DD.Sampler.C34_error_in_sample",
    "DD.Sampler.C34_each_partition_once",
    "DD.Sampler.C34_execute_after_start"
   ],
   "note": "Transparent unless the source fails; batches ready before an error in the same sample are dropped (refuted)."
  },
  {
   "property": "C35",
   "status": "proved",
   "theorems": [
    "DD.Swmr.C35_single_write_multi_read",
    "DD.Swmr.C35_reads_agree"
   ],
   "note": ""
  },
  {
   "property": "C36",
   "status": "partial",
   "theorems": [
    "DD.Worker.C36_requests_run_a_plan_set_for_their_key",
    "DD.Worker.C36_requests_agree",
    "DD.Worker.C36_plan_set_once_per_lifetime",
    "DD.Worker.C36_released_after_close_partial",
    "DD.Worker.C36_late_request_leaks",
    "DD.Worker.C36_failed_plan_leaks"
   ],
   "note": "Release after close is proved when no request arrives later; the other two cases leak and are refuted by witnesses."
  },
  {
   "property": "C37",
   "status": "partial",
   "theorems": [
    "DD.Worker.C37_metrics_at_most_once",
    "DD.Worker.C37_executed_task_reports",
    "DD.Worker.C37_unexecuted_task_never_reports",
    "DD.Metrics.C37_wait_exact",
    "DD.Metrics.C37_nothing_to_wait_for",
    "DD.Metrics.C37_store_keeps_reports"
   ],
   "note": "Each task reports at most once and an executed task reports; waiting returns exactly when every task of every stage has reported. A task that is never executed never reports (witness), so the wait may not return."
  },
  {
   "property": "C38",
   "status": "partial",
   "theorems": [
    "DD.WU.C38_units_in_order",
    "DD.WU.C38_end_of_feed_is_complete_partial",
    "DD.WU.C38_no_early_end",
    "DD.WU.C38_each_global_partition_once",
    "DD.WU.C38_feed_error_looks_complete",
    "DD.WU.C38_lost_stream_looks_complete",
    "DD.WU.C38_unknown_units_are_skipped"
   ],
   "note": "End of feed means complete only when no feed fails and the stream is not lost; both other cases are refuted."
  },
  {
   "property": "C39",
   "status": "proved",
   "theorems": [
    "DD.WU.C39_take_once"
   ],
   "note": ""
  },
  {
   "property": "C40",
   "status": "partial",
   "theorems": [
    "DD.Headers.C40_options_arrive_partial",
    "DD.Headers.C40_invalid_value_is_an_error",
    "DD.Headers.C40_upper_case_key_lost",
    "DD.Headers.C40_repeated_prefix_sets_other_option"
   ],
   "note": "Proved for lower-case prefixes without dots and keys that do not repeat the prefix; refuted for the others."
  },
  {
   "property": "C41",
   "status": "partial",
   "theorems": [
    "DD.Headers.C41_reserved_refused",
    "DD.Headers.C41_delivered_unchanged",
    "DD.Headers.C41_options_untouched_partial",
    "DD.Headers.C41_passthrough_changes_option"
   ],
   "note": "The last clause is refuted: a header named PREFIX.option is accepted and changes the option on the worker."
  },
  {
   "property": "C42",
   "status": "proved",
   "theorems": [
    "DD.Codec.C42_round_trip",
    "DD.Codec.C42_every_plan_arrives",
    "DD.Codec.C42_no_confusion",
    "DD.Codec.C42_missing_input_refused"
   ],
   "note": "Schema, partitioning and URL conversions are external contracts; equivalence properties and run-time statistics are not sent and not modelled."
  },
  {
   "property": "C43",
   "status": "proved",
   "theorems": [
    "DD.C43_one_known_url_per_task",
    "DD.C43_no_workers",
    "DD.C43_even",
    "DD.C43_even_urls",
    "DD.C43_routed_urls"
   ],
   "note": "The random start index is a free variable."
  },
  {
   "property": "C44",
   "status": "partial",
   "theorems": [
    "DD.Metrics.C44_stage",
    "DD.Metrics.C44_shown_where_recorded_partial",
    "DD.Metrics.C44_reports_exist",
    "DD.Metrics.C44_missing_task_is_an_error",
    "DD.Metrics.C44_short_report_is_an_error",
    "DD.Metrics.C44_displayed",
    "DD.Metrics.C44_equal_metrics_dropped_false",
    "DD.Metrics.C44_partial_reduce_shifts",
    "DD.Metrics.C44_partial_reduce_false",
    "DD.Metrics.C44_dynamic_shown_where_recorded",
    "DD.Metrics.C44_dynamic_reports_exist",
    "DD.Metrics.C44_rewritten_stage",
    "DD.Metrics.C44_rewritten_partial",
    "DD.Metrics.C44_dynamic_rewritten",
    "DD.Metrics.C44_instrumented_shifts",
    "DD.Metrics.C44_shared_object_false",
    "DD.Metrics.C44_in_process",
    "DD.Metrics.C44_in_process_false"
   ],
   "note": "Every plan made while the query runs, and every statically planned plan without partial reduction: what each task recorded for a node, and nothing else, is shown on that node, labelled with the task. With partial reduction enabled the property is false (witness). False of plans in which one node object occurs twice: everything is shown on the first occurrence (C44_shared_object_false). Tasks in the coordinator's own process, which record into the sets of its copy of the plan: proved with at most one such task per stage; with all of them in the process, as they are on a single node, everything a file scan records is shown as often as there are tasks (C44_in_process_false). Rewrites on the workers: proved for handlers that keep the topology of the plan and leave a repartitioning or broadcast at its root alone; the documented criterion, the same topology, is not enough (C44_instrumented_shifts)."
  },
  {
   "property": "C45",
   "status": "proved",
   "theorems": [
    "DD.C45_min",
    "DD.C45_max",
    "DD.C45_max_gauge",
    "DD.C45_bytes",
    "DD.C45_avg",
    "DD.C45_avg_mean",
    "DD.C45_order_independent",
    "DD.C45_first_order_dependent",
    "DD.Percentile.C45_percentile_order_independent",
    "DD.Percentile.C45_percentile"
   ],
   "note": "The First metric is shown to depend on order. Percentiles rest on the contract of the DDSketch crate, written as a model: a sketch is determined by the multiset of recorded values."
  },
  {
   "property": "C46",
   "status": "proved",
   "theorems": [
    "DD.C46_max_tasks_pos",
    "DD.C46_dynamic_bounds",
    "DD.C46_dynamic_mono"
   ],
   "note": ""
  },
  {
   "property": "C47",
   "status": "proved",
   "theorems": [
    "DD.C47_simplification_preserves_cost",
    "DD.C47_fractional_constants_differ"
   ],
   "note": "Constants must be whole, as in every formula of the planner; the negation for fractional ones is proved."
  },
  {
   "property": "C48",
   "status": "proved",
   "theorems": [
    "DD.C48_first_answer_wins",
    "DD.C48_unanswered",
    "DD.C48_rewrite_order",
    "DD.C48_rewrite_error",
    "DD.C48_documented_reverse_order_false"
   ],
   "note": ""
  },
  {
   "property": "C49",
   "status": "proved",
   "theorems": [
    "DD.Close.C49_close_ends_every_channel",
    "DD.Close.C49_channel_ends_with_its_feed",
    "DD.Close.C49_no_premature_end",
    "DD.Close.C49_end_is_reached",
    "DD.Close.C49_endless_feed_blocks_end"
   ],
   "note": "The channels end for every schedule; draining after the end needs the feeds to end (shown)."
  },
  {
   "property": "C50",
   "status": "partial",
   "theorems": [
    "DD.C50_sum",
    "DD.C50_average_partial",
    "DD.C50_average_mismatch",
    "DD.C50_average_skips_empty_false",
    "DD.C50_average_general"
   ],
   "note": "The average is not the mean of the non-empty vectors (negation proved)."
  },
  {
   "property": "C51",
   "status": "proved",
   "theorems": [
    "DD.Sampler.C51_final_report_exact",
    "DD.Sampler.C51_complete_report",
    "DD.Sampler.C51_final_means_ended",
    "DD.Sampler.C51_never_overstated",
    "DD.Sampler.C75_final_report"
   ],
   "note": ""
  },
  {
   "property": "C52",
   "status": "proved",
   "theorems": [
    "DD.Union.C52_largest_remainder",
    "DD.Union.C52_floor_or_ceiling"
   ],
   "note": "Weights are rationals instead of f64."
  },
  {
   "property": "C53",
   "status": "proved",
   "theorems": [
    "DD.Union.C53_rewrite_keeps_assignment",
    "DD.Union.C53_child_task_counts",
    "DD.Union.C53_specialised_keeps_executed",
    "DD.Union.C53_specialised_drops_rest"
   ],
   "note": ""
  },
  {
   "property": "C54",
   "status": "partial",
   "theorems": [
    "DD.Codec.C54_metrics_arrive_partial",
    "DD.Codec.C54_zero_time_changes",
    "DD.Codec.C54_timestamp_out_of_range"
   ],
   "note": "A timer that recorded nothing arrives as 1 ns (refuted); everything else arrives unchanged."
  },
  {
   "property": "C55",
   "status": "proved",
   "theorems": [
    "DD.Codec.C55_set_plan",
    "DD.Codec.C55_execute",
    "DD.Codec.C55_work_units",
    "DD.Codec.C55_load",
    "DD.Codec.C55_damaged_key_refused",
    "DD.Codec.C55_protocol_violations_refused"
   ],
   "note": ""
  },
  {
   "property": "C56",
   "status": "proved",
   "theorems": [
    "DD.Tree.Create.C56_each_task_sent_once",
    "DD.Tree.Create.C56_no_task_twice",
    "DD.Tree.Create.C56_consumers_ask_where_plans_went",
    "DD.Tree.Create.C56_sent_plans",
    "DD.Tree.Create.C56_cut",
    "DD.Tree.Create.C56_inputs_first",
    "DD.Tree.Create.C56_planned_plans_start",
    "DD.Tree.Create.C56_no_second_start"
   ],
   "note": "Static planning."
  },
  {
   "property": "C57",
   "status": "partial",
   "theorems": [
    "DD.ErrorWire.C57_same_error_partial",
    "DD.ErrorWire.C57_wrapping_kept",
    "DD.ErrorWire.C57_same_kind",
    "DD.ErrorWire.C57_foreign_text",
    "DD.ErrorWire.C57_missing_features",
    "DD.ErrorWire.C57_transport_errors",
    "DD.ErrorWire.C57_hops_stable",
    "DD.ErrorWire.C57_avro_lost",
    "DD.ErrorWire.C57_deep_lost",
    "DD.ErrorWire.C57_exact_nesting",
    "DD.ErrorWire.C57_store_lost",
    "DD.ErrorWire.C57_second_hop_differs",
    "DD.ErrorWire.C57_variants_told_apart"
   ],
   "note": "Proved for every error made of what the wire carries, up to a nesting limit, and for what surrounds any innermost error. Refuted for Avro errors (all text lost), more than fifty contexts, join and FFI errors and some object store and I/O errors."
  },
  {
   "property": "C58",
   "status": "partial",
   "theorems": [
    "DD.Tree.C58_is_an_answer_partial",
    "DD.Tree.C58_same_rows_partial",
    "DD.Tree.C58_statistics_do_not_matter_partial",
    "DD.Tree.C58_task_counts",
    "DD.Tree.C58_unsafe_joins_run_in_one_task",
    "DD.Tree.C58_built_for_its_consumers",
    "DD.Tree.C58_requests_exist_partial",
    "DD.Tree.C58_every_asked_stage_has_a_sampler",
    "DD.Tree.C58_ungathered_root_partial",
    "DD.Tree.Create.C58_user_boundaries_false",
    "DD.Tree.Create.C58_user_boundaries_witness"
   ],
   "note": "Plans as in C08. False of every plan with user-placed boundaries (C58_user_boundaries_false): such a query is planned and then always fails, because the boundaries the user placed keep local stages of several tasks, although the same plan runs with fixed task counts."
  },
  {
   "property": "C59",
   "status": "partial",
   "theorems": [
    "DD.Gather.C59_never_waits_for_more",
    "DD.Gather.C59_other_columns_refused",
    "DD.Gather.C59_at_least_what_is_ready",
    "DD.Gather.C59_average_of_ended_partitions",
    "DD.Gather.C59_no_reports",
    "DD.Gather.C59_bytes_not_scaled_false",
    "DD.Gather.C59_no_progress_blows_up",
    "DD.Gather.C59_first_report_decides",
    "DD.Gather.C59_columns_within_rows",
    "DD.Gather.C59_exact_only_empty",
    "DD.Gather.C59_exactly_empty_false",
    "DD.Gather.C59_declared_in_total",
    "DD.Gather.C59_declared_per_partition",
    "DD.Gather.C59_partitions_add_up",
    "DD.Gather.C59_streamed_leaves",
    "DD.Gather.C59_expected_rows",
    "DD.Gather.C59_nothing_expected",
    "DD.Gather.C59_unknown_leaves_false",
    "DD.Gather.C59_at_most_what_the_leaves_allow",
    "DD.Gather.C59_at_least_what_the_leaves_give",
    "DD.Gather.C59_in_proportion",
    "DD.Gather.C59_reported_progress",
    "DD.Gather.C59_little_progress_false"
   ],
   "note": "Up to 2^24 rows, where f32 begins to round. The bytes of a stage in progress are scaled by a truncated factor and a stage without recorded progress is taken for infinite (witnesses). A stage whose reporting partitions have nothing ready yet is declared to have exactly zero rows although it has not ended (C59_exactly_empty_false). The proportions are in exact arithmetic. Leaves that do not know their rows make the progress look greater than it is, and one whose statistics fail hides those after it (C59_unknown_leaves_false)."
  },
  {
   "property": "C60",
   "status": "partial",
   "theorems": [
    "DD.Tree.C60_limit",
    "DD.Tree.C60_limit_offset",
    "DD.Tree.C60_order_by_limit",
    "DD.Tree.C60_order_by_limit_offset",
    "DD.Tree.C60_limit_above_repartition_false"
   ],
   "note": "For the plans DataFusion makes of a limit above a gathered input, with inputs as in C08. A limit on the build side of a broadcast join is false (C08_limited_build_side_false). The order of the rows returned is C13; limits pushed below a boundary are C12. False for a limit directly above a hash repartitioning in a query that goes on (C60_limit_above_repartition_false): every task takes the limit."
  },
  {
   "property": "C61",
   "status": "partial",
   "theorems": [
    "DD.StageCost.C61_operator_cost",
    "DD.StageCost.C61_sort_cost",
    "DD.StageCost.C61_stage_cost_is_sum",
    "DD.StageCost.C61_statistics_filled",
    "DD.StageCost.C61_cost_known",
    "DD.StageCost.C61_more_data_costs_no_less_partial",
    "DD.StageCost.C61_more_data_no_fewer_tasks_partial",
    "DD.StageCost.C61_release_agrees",
    "DD.StageCost.C61_huge_join_false",
    "DD.StageCost.C61_huge_sort_false",
    "DD.StageCost.C61_broadcast_factor_false"
   ],
   "note": "More data costing no less holds as long as no sum exceeds the largest machine word; beyond, a checked build panics and a release build wraps (witness: a nested loop join of two tables of 8 GiB). Exactness flags of statistics and f32/f64 rounding are not modelled."
  },
  {
   "property": "C62",
   "status": "partial",
   "theorems": [
    "DD.Channels.C62_outcome_of_own_url",
    "DD.Channels.C62_sharers_agree",
    "DD.Channels.C62_failure_not_reused",
    "DD.Channels.C62_no_failure_left_behind",
    "DD.Channels.C62_calls_share",
    "DD.Channels.C62_connection_kept",
    "DD.Channels.C62_connections_bounded",
    "DD.Channels.C62_one_connection",
    "DD.Channels.C62_calls_return",
    "DD.Channels.C62_one_retry_per_failure_false",
    "DD.Channels.C62_same_worker",
    "DD.Channels.C62_own_data_in_process",
    "DD.Channels.C62_wrong_local_url"
   ],
   "note": "False in two points (witnesses): a late report of an old failure removes a newer working connection, and a wrong local URL makes the coordinator ask itself for another worker's data. Everything else is proved for all schedules."
  },
  {
   "property": "C63",
   "status": "partial",
   "theorems": [
    "DD.InProcess.C63_lone_task_reads_its_partitions_partial",
    "DD.InProcess.C63_shared_coalesce_partial",
    "DD.InProcess.C63_shared_shuffle_false",
    "DD.InProcess.C63_rows_of_another_task_false",
    "DD.InProcess.C63_shared_iff_both_local",
    "DD.InProcess.C63_default_routing_apart",
    "DD.InProcess.C63_crowded_stage_shares"
   ],
   "note": "Proved for tasks that are alone in their process and for coalesces; refuted, for every history, for two tasks of one stage in the coordinator's process that read a shuffle or broadcast: at most one of them gets its stream. Default routing avoids it when there are no more tasks than workers, and cannot when there are twice as many. State of other shared nodes is not modelled."
  },
  {
   "property": "C64",
   "status": "partial",
   "theorems": [
    "DD.Session.C64_options_reach_workers_partial",
    "DD.Session.C64_last_setting_wins",
    "DD.Session.C64_batch_size",
    "DD.Session.C64_unsendable_refused",
    "DD.Session.C64_compression",
    "DD.Session.C64_inserted_options_lost_false",
    "DD.Session.C64_batch_size_not_inherited_false"
   ],
   "note": "Proved for options put in by this library's own calls. False (witnesses) for options put in with DataFusion's with_option_extension, which never reach the workers, and for the batch size, which is not inherited as documented."
  },
  {
   "property": "C65",
   "status": "proved",
   "theorems": [
    "DD.UserCodec.C65_custom_nodes_arrive",
    "DD.UserCodec.C65_sent_iff_accepted",
    "DD.UserCodec.C65_own_nodes_first",
    "DD.UserCodec.C65_order_of_codecs_false",
    "DD.UserCodec.C65_writing_before_refusing_false"
   ],
   "note": "The two false variants show that the conditions of the statement (same order, nothing written when refusing) are needed."
  },
  {
   "property": "C66",
   "status": "partial",
   "theorems": [
    "DD.UserCodec.C66_functions_come_from_the_worker_partial",
    "DD.UserCodec.C66_codec_for_functions_false"
   ],
   "note": "Exactly the functions registered in the session of the worker arrive. The part about codecs is false: codecs registered by users are never asked about functions, because the codec of this library is asked first and accepts all of them."
  },
  {
   "property": "C67",
   "status": "partial",
   "theorems": [
    "DD.Display.C67_every_stage_is_shown_partial",
    "DD.Display.C67_indentation_partial",
    "DD.Display.C67_stage_below_the_root_of_a_stage_false",
    "DD.Display.C67_header_of_a_shuffled_stage",
    "DD.Display.C67_header_of_a_gathered_stage_partial",
    "DD.Display.C67_header_of_a_gathered_stage_false"
   ],
   "note": "Holds for plans in which no stage begins with a boundary; otherwise a stage is missing from the text (witness, reached by planning). The number of partitions in the header is that of the partitions read for shuffled stages, and for gathered ones unless they declare a hash partitioning: then those of one task are named for all (false)."
  },
  {
   "property": "C68",
   "status": "partial",
   "theorems": [
    "DD.Display.C68_nodes_of_the_stage",
    "DD.Display.C68_edges_are_reads_partial",
    "DD.Display.C68_broadcast_reads_false",
    "DD.Display.C68_edge_to_a_missing_node_false",
    "DD.Display.C68_gathering_in_several_tasks_false",
    "DD.Display.C68_edges_inside_a_task",
    "DD.Display.C68_edges_end_at_ports_partial",
    "DD.Display.C68_edge_to_a_missing_port_false",
    "DD.Display.C68_edges_between_stages_end_at_ports_partial"
   ],
   "note": "The nodes: in full. The edges: for stages without broadcasts that gather in a single task; false otherwise (witnesses). The edges inside a task: in full. Their ports exist if the inputs of every node have equally many partitions; false otherwise (witness)."
  },
  {
   "property": "C69",
   "status": "partial",
   "theorems": [
    "DD.MetricsDisplay.C69_text_says_what_was_recorded_partial",
    "DD.MetricsDisplay.C69_lines_determined",
    "DD.MetricsDisplay.C69_text_determined_partial",
    "DD.MetricsDisplay.C69_per_task_partial",
    "DD.MetricsDisplay.C69_aggregated_partial",
    "DD.MetricsDisplay.C69_leaf_variants_partial",
    "DD.MetricsDisplay.C69_header_partial",
    "DD.MetricsDisplay.C69_header_gap_false",
    "DD.MetricsDisplay.C69_mixed_labels_false",
    "DD.MetricsDisplay.C69_two_kinds_false",
    "DD.MetricsDisplay.C69_own_metrics",
    "DD.MetricsDisplay.C69_own_metrics_aggregated",
    "DD.MetricsDisplay.C69_two_own_kinds_false"
   ],
   "note": "Proved for metrics of one kind per name that are all from tasks or all not, and headers of stages whose tasks have all reported; false otherwise (witnesses). For the metrics of the library itself (latencies, percentiles, bytes, gauges) the values are those of C45, over all partitions of a task or of all tasks; metrics of the library of two types under one name are not refused, one of them is left out (witness)."
  },
  {
   "property": "C70",
   "status": "partial",
   "theorems": [
    "DD.Tree.C70_single_node_order",
    "DD.Tree.C70_operators_get_sorted_inputs_partial",
    "DD.Tree.C70_promised_order_is_kept_partial",
    "DD.Tree.C70_order_by",
    "DD.Tree.C70_order_by_limit",
    "DD.Tree.C70_dynamic_order_is_kept_partial",
    "DD.Tree.C70_order_preserving_repartition_false",
    "DD.Leaf.C70_scaled_scan_keeps_order",
    "DD.Leaf.C70_scaled_scan_order_false",
    "DD.Tree.C70_dynamic_operators_get_sorted_inputs_partial"
   ],
   "note": "Proved for every plan that does not rely on the order of an order-preserving hash repartitioning and every session whose leaves keep their order when scaled up, in particular for every ORDER BY and ORDER BY LIMIT; false otherwise (witnesses)."
  },
  {
   "property": "C71",
   "status": "partial",
   "theorems": [
    "DD.Faulty.C71_failures_only_cut_partial",
    "DD.Faulty.C71_answers_are_seen",
    "DD.Faulty.C71_clean_end_is_an_answer_partial",
    "DD.Faulty.C71_sorted_until_it_fails_partial",
    "DD.Faulty.C71_order_by_partial",
    "DD.Faulty.C71_limit_partial",
    "DD.Faulty.C71_dynamic_clean_end_partial",
    "DD.Faulty.C71_panic_truncates_false",
    "DD.Tree.C71_dynamic_sorted_until_it_fails_partial"
   ],
   "note": "Proved for every plan of C70 and every failure that is not a panic of a task that moves batches; with such a panic it is false (witness)."
  },
  {
   "property": "C72",
   "status": "partial",
   "theorems": [
    "DD.Demux.C72_merge_hangs_false",
    "DD.Demux.C72_every_budget_hangs_false",
    "DD.Demux.C72_fits_in_budget_partial",
    "DD.Demux.C72_one_partition"
   ],
   "note": "False in general: for every budget there are sorted partitions on which every merge hangs. Proved when a response fits in the budget or a connection carries one partition."
  },
  {
   "property": "C73",
   "status": "partial",
   "theorems": [
    "DD.Fed.C73_clean_end_read_everything_partial",
    "DD.Fed.C73_failed_feed_is_reported",
    "DD.Fed.C73_lost_connection_false",
    "DD.Fed.C73_undecodable_message_false"
   ],
   "note": "Proved when metrics are collected (the default) or no connection breaks, and every message decodes. Without metrics a broken connection is not noticed, and a message that does not decode never is (witnesses)."
  },
  {
   "property": "C74",
   "status": "partial",
   "theorems": [
    "DD.Times.C74_equal_clocks",
    "DD.Times.C74_clock_behind_partial",
    "DD.Times.C74_clock_ahead",
    "DD.Times.C74_slow_clock_false",
    "DD.Times.C74_maximum_shows_it",
    "DD.Times.C74_message_latency",
    "DD.Times.C74_task_times",
    "DD.Times.C74_task_times_ordered"
   ],
   "note": "False for work units: a worker whose clock is behind by more than the transit time panics or records centuries. Proved for agreeing clocks, for clocks ahead, for messages between workers and for the times of a task."
  },
  {
   "property": "C75",
   "status": "partial",
   "theorems": [
    "DD.Sampler.C75_rows_and_bytes",
    "DD.Sampler.C75_nulls",
    "DD.Sampler.C75_ndv_exact",
    "DD.Sampler.C75_ndv_of_picked",
    "DD.Sampler.C75_final_report",
    "DD.Sampler.C75_failed_partition",
    "DD.Sampler.C75_ndv_overestimate_false",
    "DD.Sampler.C75_memory"
   ],
   "note": "Everything proved with exact fractions (the code uses f32); beyond a thousand rows the proportion of different values is that of the sample, which can be off by any factor (shown)."
  },
  {
   "property": "C76",
   "status": "partial",
   "theorems": [
    "DD.Tree.Rec.C76_every_feed_is_declared",
    "DD.Tree.Rec.C76_every_feed_is_opened",
    "DD.Tree.Rec.C76_every_feed_is_called_once",
    "DD.Tree.Rec.C76_nodes_read_their_feed",
    "DD.Tree.Rec.C76_planned_stages_are_fed",
    "DD.Tree.Rec.C76_first_getter",
    "DD.Tree.Rec.C76_feeds_of_variants_false",
    "DD.Tree.Rec.C76_shared_feed_false",
    "DD.Tree.Rec.C76_fed_leaves_may_be_distributed",
    "DD.FeedEnds.C76_feed_on_the_wire",
    "DD.FeedEnds.C76_feeds_on_the_wire_differ",
    "DD.FeedEnds.C76_malformed_feed",
    "DD.FeedEnds.C76_provider_stays_behind",
    "DD.FeedEnds.C76_same_units_on_one_node"
   ],
   "note": "Proved for every stage of every planned plan, for nodes with feeds that the registry finds in the plan. Feeds of the variants inside a scaled-up leaf are not found, and nodes that share a feed are not noticed (witnesses)."
  },
  {
   "property": "C77",
   "status": "partial",
   "theorems": [
    "DD.Net.Net.C77_comes_to_rest",
    "DD.Net.Net.C77_never_stuck_partial",
    "DD.Net.Net.C77_ends_partial",
    "DD.Net.Net.C77_ordered_reading_ends_partial",
    "DD.Net.Net.C77_merge_join_hangs_false",
    "DD.Net.C77_planned_queries_end_partial",
    "DD.Net.C77_planned_queries_end_orderly_partial",
    "DD.Net.C77_planned_queries_come_to_rest",
    "DD.Net.Net.C77_ordered_reading_reads_everything_partial",
    "DD.Net.Net.C77_dropped_partition_hangs_false",
    "DD.Net.C77_planned_tasks_are_asked",
    "DD.Net.Net.C77_delivers",
    "DD.Net.C77_dynamic_queries_end_partial",
    "DD.Net.C77_dynamic_tasks_are_asked"
   ],
   "note": "Every query comes to rest, whichever connections fail and whenever; it comes to rest only at its end if the tasks of a stage read their inputs in one order and a task that stops drops all its inputs. False for tasks that wait for one input while another one is full, as merge joins do, and for tasks that drop one partition and go on reading another (witnesses)."
  },
  {
   "property": "C78",
   "status": "partial",
   "theorems": [
    "DD.Net.C78_received_is_right",
    "DD.Net.C78_queries_end_with_an_answer_partial",
    "DD.Net.C78_received_so_far_partial",
    "DD.Net.C78_order_by_partial",
    "DD.Net.C78_limit_partial",
    "DD.Net.C78_every_answer_arrives",
    "DD.Net.C78_dynamic_received_so_far_partial",
    "DD.Net.C78_dynamic_queries_end_with_an_answer_partial",
    "DD.Net.C78_dynamic_every_answer_arrives",
    "DD.Net.C78_dynamic_order_partial"
   ],
   "note": "Proved for every planned query of C70 whose tasks read their inputs one after the other (ending) and for every behaviour of the tasks (what has been received). Any connections may fail at any time in the run. As stated it is false: queries whose plans are wrong (witnesses of C08 and C70) do not end with their answer, and those that hang (witnesses of C77) do not end."
  },
  {
   "property": "C79",
   "status": "partial",
   "theorems": [
    "DD.Tree.C79_rewritten_queries_answer_partial",
    "DD.Tree.C79_rewritten_order_is_kept_partial",
    "DD.Tree.C79_dynamic_rewritten_partial",
    "DD.Tree.C79_rewritten_failures_only_cut_partial",
    "DD.Tree.C79_rewritten_received_so_far_partial",
    "DD.Tree.C79_same_network",
    "DD.Tree.C79_rewritten_queries_end_partial",
    "DD.Tree.C79_no_handlers",
    "DD.Tree.C79_registration_order",
    "DD.Tree.C79_every_stage_is_given"
   ],
   "note": "Proved for handlers that keep the rows of every partition of what the worker keeps of a stage, which is the stage without a repartition or broadcast at its root; a rewrite that only keeps the partitions above such a root is not covered, as the worker replaces that root. Missing also what C70 misses."
  },
  {
   "property": "C80",
   "status": "partial",
   "theorems": [
    "DD.Progress.C80_listed_tasks_are_served",
    "DD.Progress.C80_served_tasks_are_listed",
    "DD.Progress.C80_listed_once",
    "DD.Progress.C80_finished_tasks_are_not_listed",
    "DD.Progress.C80_rows_never_decrease",
    "DD.Progress.C80_plain_tasks_show_their_rows_partial",
    "DD.Progress.C80_headed_tasks_show_no_rows",
    "DD.Progress.C80_cluster_workers",
    "DD.Tree.C80_broadcast_stages_show_no_rows",
    "DD.Tree.C80_dynamic_stages_show_no_rows",
    "DD.Tree.C80_static_stages_show_no_rows",
    "DD.Progress.C80_not_shared",
    "DD.Progress.C80_shared_rows",
    "DD.Progress.C80_shared_rows_never_decrease",
    "DD.Progress.C80_in_process_false"
   ],
   "note": "Which tasks are listed is proved for every history. The rows are right only for plans without a repartition or broadcast at their root: the rows are read from the root of the plan as it was sent, and such a root is replaced before the plan runs, so reports show zero rows for these tasks forever, in particular for every broadcast stage and, with dynamic planning, for every shuffle stage (proved). Tasks in the process of the coordinator that were given the same plan object each show the rows of all of them (proved, with a witness). Not modelled: CPU and memory figures."
  },
  {
   "property": "C81",
   "status": "partial",
   "theorems": [
    "DD.Configure.C81_copies_are_independent",
    "DD.Configure.C81_every_session_has_calls",
    "DD.Configure.C81_codecs_and_feeds_add_up",
    "DD.Configure.C81_handlers_add_up",
    "DD.Configure.C81_last_given",
    "DD.Configure.C81_setting_kept",
    "DD.Configure.C81_other_options_kept",
    "DD.Configure.C81_defaults",
    "DD.Configure.C81_setters_succeed",
    "DD.Configure.C81_setters_fail",
    "DD.Configure.C81_failures_change_nothing",
    "DD.Configure.C81_failed_headers_change_options_false",
    "DD.Configure.C81_setters_are_SET",
    "DD.Configure.C81_with_is_set",
    "DD.Configure.C81_planner_handlers_once",
    "DD.Tree.Create.C81_planner_queries_once",
    "DD.Tree.Create.C81_planner_twice_analyze_false"
   ],
   "note": "False in two places, both proved: a failing `set_distributed_option_extension_from_headers` keeps the options it had set before the error (C81_failed_headers_change_options_false), and with the planner registered twice EXPLAIN ANALYZE of a distributed query is wrapped twice and fails (C81_planner_twice_analyze_false). The forms on SessionStateBuilder, SessionState and SessionContext forward to the ones on SessionConfig and are not modelled separately."
  },
  {
   "property": "C82",
   "status": "partial",
   "theorems": [
    "DD.Worker.C82_queries_do_not_disturb",
    "DD.Worker.C82_after_an_earlier_run",
    "DD.Worker.C82_dynamic_runs",
    "DD.Worker.C82_same_plan_at_once_false",
    "DD.Worker.C82_run_again_at_once_false",
    "DD.Worker.C82_plan_of_an_earlier_run_false",
    "DD.Metrics.C82_metrics_of_an_earlier_run_false",
    "DD.Metrics.C82_dynamic_metrics"
   ],
   "note": "False of two runs of one statically made plan, because its tasks keep the identifiers drawn at planning: at the same time (C82_same_plan_at_once_false), right after one another (C82_run_again_at_once_false, C82_plan_of_an_earlier_run_false) and for their metrics (C82_metrics_of_an_earlier_run_false). Memory, threads and the shared runtime environment of a worker are not modelled."
  },
  {
   "property": "C83",
   "status": "partial",
   "theorems": [
    "DD.Analyze.C83_errors_are_reported",
    "DD.Analyze.C83_nothing_hidden",
    "DD.Analyze.C83_waits_for_all",
    "DD.Analyze.C83_table",
    "DD.Analyze.C83_without_collection",
    "DD.Analyze.C83_runs_the_query",
    "DD.Analyze.C83_planned_partial",
    "DD.Analyze.C83_dynamic",
    "DD.Analyze.C83_output_rows_partial",
    "DD.Analyze.C83_several_partitions_false"
   ],
   "note": "False of plans with user-placed boundaries whose root has several partitions (C83_several_partitions_false). False with partial reduction, where metrics are shown on the wrong node (C44_partial_reduce_false). The exact text of the displayed plan is not modelled."
  },
  {
   "property": "C84",
   "status": "partial",
   "theorems": [
    "DD.Batches.C84_garbage_collection",
    "DD.Batches.C84_batches_arrive",
    "DD.Batches.C84_rows_arrive",
    "DD.Batches.C84_at_any_time",
    "DD.Batches.C84_complete",
    "DD.Batches.C84_max_message_size_false",
    "DD.Batches.C84_panic_false"
   ],
   "note": "The encoder and decoder are arrow-flight contracts written as a model. What a consumer got is a prefix of what was produced although tasks of the connection panic; that everything arrives when the stream ends is false then (C84_panic_false). Missing: dictionaries whose values have dictionaries. The setting for the size of messages has no effect (C84_max_message_size_false)."
  },
  {
   "property": "C85",
   "status": "proved",
   "theorems": [
    "DD.Traffic.C85_arrivals",
    "DD.Traffic.C85_messages",
    "DD.Traffic.C85_all_messages",
    "DD.Traffic.C85_latencies",
    "DD.Traffic.C85_memory_bound",
    "DD.Traffic.C85_memory_reached",
    "DD.Traffic.C85_rows",
    "DD.Traffic.C85_time",
    "DD.Traffic.C85_time_at_the_end"
   ],
   "note": "Counters are machine words (sums modulo 2^64). A latency or an item that took less than a nanosecond is shown as one nanosecond. The percentile latencies (a sketch) are outside the model."
  },
  {
   "property": "C86",
   "status": "proved",
   "theorems": [
    "DD.SendMetrics.C86_channels_and_bytes",
    "DD.SendMetrics.C86_latencies",
    "DD.SendMetrics.C86_final_at_the_end",
    "DD.SendMetrics.C86_every_channel"
   ],
   "note": "Counters are machine words (sums modulo 2^64; the latencies are exact while their sum fits in a word). Before the query is over no latency is shown; a latency below a nanosecond is shown as one nanosecond, also when no plan was sent."
  },
  {
   "property": "C87",
   "status": "partial",
   "theorems": [
    "DD.Requests.C87_understood",
    "DD.Requests.C87_not_understood",
    "DD.Requests.C87_others_untouched",
    "DD.Requests.C87_data_of_the_task",
    "DD.Requests.C87_unknown_task",
    "DD.Requests.C87_answered_partial",
    "DD.Requests.C87_reversed_range_false",
    "DD.Requests.C87_huge_range_false",
    "DD.Requests.C87_refused_takes_partitions_false",
    "DD.Requests.C87_refused_decides_head_false",
    "DD.Requests.C87_channel_opens",
    "DD.Requests.C87_messages_until_malformed",
    "DD.Requests.C87_second_plan_false"
   ],
   "note": "As stated it is false, and each reason is a theorem: a range that ends before it begins panics, a range longer than memory ends the process of the worker, a refused request leaves partitions executed and the producer head chosen, and a malformed message of a channel ends it silently. Proved for all other requests. How a panic is contained by the gRPC server is not modelled."
  },
  {
   "property": "C88",
   "status": "partial",
   "theorems": [
    "DD.Rebuild.C88_rebuilt_partial",
    "DD.Rebuild.C88_shuffle_any_plan",
    "DD.Rebuild.C88_children",
    "DD.Rebuild.C88_more_partitions_false",
    "DD.Rebuild.C88_broadcast_repeats_false",
    "DD.Rebuild.C88_broadcast_loses_false",
    "DD.Rebuild.C88_other_tasks_false"
   ],
   "note": "As stated it is false: exchanges keep the number of partitions they were built with, so that a child with another number of partitions is taken without an error and partitions are lost (gathering, broadcast) or repeated (broadcast). Proved for every sequence of rebuilds that keeps the number of partitions, and for shuffles without conditions."
  },
  {
   "property": "C89",
   "status": "partial",
   "theorems": [
    "DD.UserCodec.C89_custom_expressions_arrive_partial",
    "DD.UserCodec.C89_sent_iff",
    "DD.UserCodec.C89_hash_keys_false",
    "DD.UserCodec.C89_producer_heads"
   ],
   "note": "As stated it is false: exchanges write the hash keys they declare with the codec of this project alone, which knows no custom expression, so that a plan with a custom expression among the keys of an exchange cannot be sent whatever codecs are registered. Proved: exactly which plans can be sent, that every plan that can be sent arrives unchanged, and that keys of producer heads are written with all codecs."
  },
  {
   "property": "C90",
   "status": "partial",
   "theorems": [
    "DD.FeedRead.C90_every_unit_partial",
    "DD.FeedRead.C90_counts",
    "DD.FeedRead.C90_latencies_partial",
    "DD.FeedRead.C90_one_clock",
    "DD.FeedRead.C90_clock_behind_false",
    "DD.FeedRead.C90_latency_wraps_false"
   ],
   "note": "As stated it is false: latencies are unsigned differences between clocks of two machines, so that a worker whose clock is behind by more than the time a unit takes panics in builds with overflow checks and shows about 584 years in the others. Proved: what every leaf reads in builds without checks whatever the clocks, the same in all builds if no clock is behind or there is only one, the counters, and the latencies if no clock is behind."
  },
  {
   "property": "C91",
   "status": "proved",
   "theorems": [
    "DD.Buffers.C91_accounted",
    "DD.Buffers.C91_bounded",
    "DD.Buffers.C91_ended",
    "DD.Buffers.C91_abandoned",
    "DD.Buffers.C91_in_order",
    "DD.Buffers.C91_limit_not_enforced"
   ],
   "note": "Aborted tasks are gone once the runtime has run their abort steps, which is assumed to happen. The limit of the pool is not part of the claim, and is not enforced (C91_limit_not_enforced)."
  },
  {
   "property": "C92",
   "status": "partial",
   "theorems": [
    "DD.Tree.Create.C92_planning_ends_partial",
    "DD.Tree.Create.C92_automatic_planning_ends",
    "DD.Tree.Create.C92_filter_above_leaf_false"
   ],
   "note": "As stated it is false: in a plan with exchanges placed by the user, what a handler answers for a leaf is visited again, so that a handler that puts an operator above the leaf makes planning go on for ever (witness, for every plan and amount of fuel). Proved for every plan when the handlers make progress (a rank of leaves decreases, in particular when they answer a leaf that they leave alone), and for every session when exchanges are placed automatically. Planning the node of EXPLAIN ANALYZE without exchanges below is not modelled."
  },
  {
   "property": "C93",
   "status": "partial",
   "theorems": [
    "DD.Learned.C93_learned_filters_partial",
    "DD.Learned.C93_broadcast_joins",
    "DD.Learned.C93_join_on_other_workers",
    "DD.Learned.C93_join_in_one_task",
    "DD.Learned.C93_local_join_and_scan_false",
    "DD.Learned.C93_sorts_with_limits",
    "DD.Learned.C93_partitioned_alike_partial",
    "DD.Learned.C93_partitioned_alike_on_other_workers",
    "DD.Learned.C93_partitioned_alike_false"
   ],
   "note": "As stated it is false: plans are given to tasks at the URL of the coordinator without encoding them, so that a partitioned join there and a scan of another stage there share one filter object, and the scan skips rows that only match in other tasks of the join: rows are missing from the answer, without an error (for all such queries with a row that matches in another task only). Proved for every history when the build side is broadcast, when no task of the join is at the URL of the coordinator, and when the join runs in one task. What DataFusion puts into filters and for which join types is a contract; Partitioned joins with their scans in the same stage (tables partitioned alike on disk) are right when no task is at the URL of the coordinator, and can lose rows whenever one of several tasks is: tasks elsewhere get a copy of the filter as it is when their plan is encoded, which is after connecting. Filters that sorts with a limit learn are harmless on every placement, shared or not (in full)."
  },
  {
   "property": "C94",
   "status": "partial",
   "theorems": [
    "DD.Tree.C94_only_the_coordinator_writes",
    "DD.Tree.C94_only_the_coordinator_writes_dynamic",
    "DD.Tree.C94_written_rows_partial",
    "DD.Tree.C94_written_rows_dynamic_partial",
    "DD.Tree.C94_same_as_single_node_partial",
    "DD.Tree.C94_explain_analyze_partial",
    "DD.Tree.C94_failures_partial",
    "DD.Tree.C94_failures_dynamic_partial",
    "DD.Tree.C94_order_by_partial",
    "DD.Tree.C94_order_by_dynamic_partial",
    "DD.Tree.Create.C94_user_boundaries_partial"
   ],
   "note": "That only the coordinator writes holds for every query. That the right rows are written holds for the queries of C08_ungathered_root_partial and C58_ungathered_root_partial; it is false for the others (witnesses of C08, C70). Statements that fail have written the beginning of an answer, for gathered queries and failures other than panics. Exchanges placed by the user: for the queries of C08_user_boundaries_partial. EXPLAIN ANALYZE of a statement runs the same plan (task counts chosen before it runs)."
  },
  {
   "property": "C95",
   "status": "partial",
   "theorems": [
    "DD.Again.C95_right_or_fails_partial",
    "DD.Again.C95_heads_right_or_fail_partial",
    "DD.Again.C95_gathered_partial",
    "DD.Again.C95_gathered_once_fails_partial",
    "DD.Again.C95_broadcast_fails_partial",
    "DD.Again.C95_shuffle_fails_partial",
    "DD.Again.C95_one_step_partial",
    "DD.Again.C95_shuffle_reads_nothing_again_partial",
    "DD.Again.C95_shuffle_false",
    "DD.Again.C95_many_right_or_fails_partial",
    "DD.Again.C95_many_gathered_partial",
    "DD.Again.C95_exchange_kept_fails_again"
   ],
   "note": "As stated it is false if DataFusion repartitionings panic when a partition is executed again (a parameter of the model; DataFusion is not in the sandbox): the query then goes on over the network as if the table were empty from the second step on (C95_shuffle_false). If they fail instead, the property holds for the modelled queries. Several exchanges in one term and UNION without ALL are covered by the right-or-fails theorem. Missing: terms in stages of several tasks, terms that stop reading early, and terms whose own input lies below an exchange (their plans would have to be sent to workers)."
  },
  {
   "property": "C96",
   "status": "partial",
   "theorems": [
    "DD.Ranges.C96_exactly_when_no_value_is_cut_partial",
    "DD.Ranges.C96_one_line_per_row_partial",
    "DD.Ranges.C96_uncut_partial",
    "DD.Ranges.C96_false",
    "DD.Ranges.C96_declared_partial",
    "DD.Ranges.C96_blocks_partial"
   ],
   "note": "False as stated: C96_false gives a file of two rows that two tasks return as three. The rows are right exactly when no cut falls in a quoted value that goes on in the next line, for all files whose quoted values are closed; hence always for files with one line per row for files that are not cut, and for scans with a declared partitioning, which deal out whole files. How the partitioner cuts files (consecutive ranges) and how a range is read (from line start to line start) are contracts of DataFusion. Files made of blocks (Parquet) are always read right, by the contract that a range reads the blocks that begin in it. Missing: other formats, escape characters other than doubled quotation marks, and compressed files."
  },
  {
   "property": "C97",
   "status": "partial",
   "theorems": [
    "DD.OrderedScan.C97_in_order_partial",
    "DD.OrderedScan.C97_declared_few_files_partial",
    "DD.OrderedScan.C97_declared_files_in_order_partial",
    "DD.OrderedScan.C97_false"
   ],
   "note": "False as stated: C97_false gives a scan with a declared partitioning whose first task returns a partition out of order. Proved for all scans without a declared partitioning (with the contract of the partitioner that a group it makes is a part of one it was given), and for those with one if there are no more files than partitions of all tasks, or if the files are in order across partitions. What operators above make of it is the matter of C70, whose C70_scaled_scan_order_false shows the same from the side of the plan."
  },
  {
   "property": "C98",
   "status": "proved",
   "theorems": [
    "DD.Answers.C98_answers_arrive_complete",
    "DD.Answers.C98_reports_do_not_wait_for_metrics",
    "DD.Answers.C98_waits_for_reports",
    "DD.Answers.C98_broken_answers_end",
    "DD.Answers.C98_replanning_reads_all_reports",
    "DD.Answers.C98_replanned_with_at_least_what_is_ready",
    "DD.Answers.C98_no_reports_means_exactly_no_rows"
   ],
   "note": "The order in which samplers finish and which of the two streams is polled are free. The encoding of the messages is the matter of C54."
  }
 ]
}