{
 "claims": [
  {
   "property": "C01",
   "status": "proved",
   "theorems": [
    "Verif.Props.flags_set_observe",
    "Verif.Props.flags_history",
    "Verif.Props.flags_isExact",
    "Verif.Props.flags_new"
   ],
   "note": ""
  },
  {
   "property": "C02",
   "status": "proved",
   "theorems": [
    "Verif.Props.bitSetIter_enumerates",
    "Verif.Props.bitSetIter_deterministic"
   ],
   "note": ""
  },
  {
   "property": "C03",
   "status": "proved",
   "theorems": [
    "Verif.Props.lexBitSet_lt_iff",
    "Verif.Props.lexBitSet_eq_iff",
    "Verif.Props.lexBitSet_gt_iff",
    "Verif.Props.lexBitSet_swap",
    "Verif.Props.lexBitSet_lt_trans",
    "Verif.Props.lexBitSet_eq_congr",
    "Verif.Props.lexBitSet_eq_agrees"
   ],
   "note": ""
  },
  {
   "property": "C04",
   "status": "proved",
   "theorems": [
    "Verif.Props.matrix_pos_injective",
    "Verif.Props.matrix_history",
    "Verif.Props.matrix_column_overflow_aliases"
   ],
   "note": ""
  },
  {
   "property": "C05",
   "status": "proved",
   "theorems": [
    "Verif.Props.cutsetType_roundtrip",
    "Verif.Props.compilationType_roundtrip",
    "Verif.Props.solverType_roundtrip"
   ],
   "note": ""
  },
  {
   "property": "C06",
   "status": "proved",
   "theorems": [
    "Verif.Props.noDup_pop_best",
    "Verif.Props.noDup_trace_correct"
   ],
   "note": "ranking assumed to be a total preorder (Std.TransCmp)"
  },
  {
   "property": "C07",
   "status": "proved",
   "theorems": [
    "Verif.Props.noDup_len",
    "Verif.Props.noDup_trace_correct"
   ],
   "note": ""
  },
  {
   "property": "C08",
   "status": "proved",
   "theorems": [
    "Verif.Props.noDup_pop_merges",
    "Verif.Props.noDup_trace_correct"
   ],
   "note": ""
  },
  {
   "property": "C09",
   "status": "proved",
   "theorems": [
    "Verif.Props.noDup_trace_correct",
    "Verif.Props.noDup_empty"
   ],
   "note": ""
  },
  {
   "property": "C10",
   "status": "proved",
   "theorems": [
    "Verif.Props.noDup_never_panics"
   ],
   "note": ""
  },
  {
   "property": "C11",
   "status": "proved",
   "theorems": [
    "Verif.Props.noDup_drain_sorted"
   ],
   "note": ""
  },
  {
   "property": "C12",
   "status": "proved",
   "theorems": [
    "Verif.Props.exact_compile_optimum",
    "Verif.Props.exact_compile_is_exact"
   ],
   "note": "for problems that are well-formed (layered, costs bounded so that sums do not overflow) with an admissible rough bound"
  },
  {
   "property": "C13",
   "status": "proved",
   "theorems": [
    "Verif.Props.solution_real",
    "Verif.Props.solution_iff_value"
   ],
   "note": ""
  },
  {
   "property": "C14",
   "status": "proved",
   "theorems": [
    "Verif.Props.relaxed_upper_bound",
    "Verif.Props.relaxed_upper_bound_barrier"
   ],
   "note": "relaxation assumed sound (Spec.SoundRelaxation); with a non-empty barrier the bound holds unless a threshold cut the completion off"
  },
  {
   "property": "C15",
   "status": "proved",
   "theorems": [
    "Verif.Props.exact_flag",
    "Verif.Props.exact_flag_barrier"
   ],
   "note": ""
  },
  {
   "property": "C16",
   "status": "proved",
   "theorems": [
    "Verif.Props.lel_cutset_covers",
    "Verif.Props.lel_cutset_covers_barrier"
   ],
   "note": ""
  },
  {
   "property": "C17",
   "status": "proved",
   "theorems": [
    "Verif.Props.cutset_genuine"
   ],
   "note": ""
  },
  {
   "property": "C18",
   "status": "proved",
   "theorems": [
    "Verif.Props.width_respected"
   ],
   "note": ""
  },
  {
   "property": "C19",
   "status": "proved",
   "theorems": [
    "Verif.Props.solution_decides_each_variable_once",
    "Verif.Props.solution_real"
   ],
   "note": ""
  },
  {
   "property": "C20",
   "status": "partial",
   "theorems": [
    "Verif.Props.frontier_cutset_covers_partial",
    "Verif.Props.frontier_cutset_loses_solutions",
    "Verif.Props.frontier_cutset_covers_unique_terminal"
   ],
   "note": "false in the code: frontier_cutset_loses_solutions refutes it; the partial theorem says what is covered; it does hold if all complete assignments end in the same state"
  },
  {
   "property": "C21",
   "status": "proved",
   "theorems": [
    "Verif.Props.compile_total",
    "Verif.Props.mdd_ids_in_range",
    "Verif.Props.relaxed_width_zero_panics"
   ],
   "note": ""
  },
  {
   "property": "C22",
   "status": "proved",
   "theorems": [
    "Verif.Props.reuse_as_new",
    "Verif.Props.reuse_observations",
    "Verif.Props.fresh_observations"
   ],
   "note": ""
  },
  {
   "property": "C23",
   "status": "proved",
   "theorems": [
    "Verif.Props.incumbent_real"
   ],
   "note": ""
  },
  {
   "property": "C24",
   "status": "proved",
   "theorems": [
    "Verif.Props.lower_bound_monotone",
    "Verif.Props.lower_bound_le_optimum"
   ],
   "note": ""
  },
  {
   "property": "C25",
   "status": "proved",
   "theorems": [
    "Verif.Props.maximize_optimal"
   ],
   "note": "last exact layer cutset, or any cutset if all complete assignments end in the same state"
  },
  {
   "property": "C26",
   "status": "proved",
   "theorems": [
    "Verif.Props.none_iff_infeasible"
   ],
   "note": ""
  },
  {
   "property": "C27",
   "status": "proved",
   "theorems": [
    "Verif.Props.never_panics",
    "Verif.Props.no_deadlock",
    "Verif.Props.parked_implies_working",
    "Verif.Props.finishing_wakes_all"
   ],
   "note": ""
  },
  {
   "property": "C28",
   "status": "proved",
   "theorems": [
    "Verif.Props.runs_terminate",
    "Verif.Props.maximal_run_finished",
    "Verif.Props.can_finish"
   ],
   "note": "a run is infinite only if the condition variable wakes threads spuriously infinitely often"
  },
  {
   "property": "C29",
   "status": "partial",
   "theorems": [
    "Verif.Props.interrupted_bounds_partial",
    "Verif.Props.interrupted_ub_below_optimum",
    "Verif.Props.interrupted_false_gap",
    "Verif.Props.interrupted_ub_ignores_open"
   ],
   "note": "false in the code: interrupted_ub_below_optimum (one thread), interrupted_false_gap and interrupted_ub_ignores_open (two threads) refute it; for one thread the larger of the two bounds is valid"
  },
  {
   "property": "C30",
   "status": "partial",
   "theorems": [
    "Verif.Props.interrupted_bounds_partial",
    "Verif.Props.interrupted_false_gap"
   ],
   "note": "false in the code for two or more threads (interrupted_false_gap); proved for one thread"
  },
  {
   "property": "C31",
   "status": "proved",
   "theorems": [
    "Verif.Props.proved_means_proved"
   ],
   "note": "at least one thread; for none see C85"
  },
  {
   "property": "C32",
   "status": "partial",
   "theorems": [
    "Verif.Props.fewer_threads_ok_partial",
    "Verif.Props.more_threads_panic"
   ],
   "note": "false in the code: more_threads_panic refutes it; proved if the number of threads is not increased"
  },
  {
   "property": "C33",
   "status": "proved",
   "theorems": [
    "Verif.Props.noDup_lawful",
    "Verif.Props.simple_lawful",
    "Verif.Props.same_answer"
   ],
   "note": ""
  },
  {
   "property": "C34",
   "status": "proved",
   "theorems": [
    "Verif.Props.ongoing_counts",
    "Verif.Props.explored_counts"
   ],
   "note": ""
  },
  {
   "property": "C42",
   "status": "partial",
   "theorems": [
    "Verif.Props.frontier_cutset_optimal_partial",
    "Verif.Props.frontier_cutset_not_optimal"
   ],
   "note": "false in the code: frontier_cutset_not_optimal refutes it; proved if all complete assignments end in the same state"
  },
  {
   "property": "C35",
   "status": "proved",
   "theorems": [
    "Verif.Props.barrier_optimal",
    "Verif.Props.barrier_none_iff_infeasible"
   ],
   "note": ""
  },
  {
   "property": "C36",
   "status": "proved",
   "theorems": [
    "Verif.Props.barrier_incumbent_real"
   ],
   "note": "any number of threads, arbitrary readings of the barrier"
  },
  {
   "property": "C37",
   "status": "proved",
   "theorems": [
    "Verif.Props.barrier_counters",
    "Verif.Props.barrier_never_panics",
    "Verif.Props.counter_range",
    "Verif.Props.deep_cutset_panics"
   ],
   "note": ""
  },
  {
   "property": "C38",
   "status": "proved",
   "theorems": [
    "Verif.Props.barrier_nothing_lost",
    "Verif.Props.barrier_discard_safe",
    "Verif.Props.barrier_compile_prune_safe"
   ],
   "note": ""
  },
  {
   "property": "C39",
   "status": "proved",
   "theorems": [
    "Verif.Props.barrier_cleaning_safe"
   ],
   "note": ""
  },
  {
   "property": "C40",
   "status": "proved",
   "theorems": [
    "Verif.Props.barrier_threshold_monotone",
    "Verif.Props.barrier_thresholds_monotone"
   ],
   "note": ""
  },
  {
   "property": "C41",
   "status": "proved",
   "theorems": [
    "Verif.Props.barrier_never_panics",
    "Verif.Props.barrier_no_deadlock",
    "Verif.Props.barrier_parked_implies_working",
    "Verif.Props.barrier_finishing_wakes_all"
   ],
   "note": ""
  },
  {
   "property": "C43",
   "status": "partial",
   "theorems": [
    "Verif.Props.lock_uncapped_proved_partial",
    "Verif.Props.lock_uncapped_optimal_partial",
    "Verif.Props.lock_uncapped_infeasible_partial",
    "Verif.Props.lock_failure_capped",
    "Verif.Props.barrier_uncapped_proved_partial",
    "Verif.Props.barrier_uncapped_optimal_partial",
    "Verif.Props.barrier_uncapped_infeasible_partial",
    "Verif.Props.barrier_failure_capped",
    "Verif.Props.barrier_turns_optimal_partial",
    "Verif.Props.barrier_turns_infeasible_partial",
    "Verif.Props.barrier_threads_feasible_partial",
    "Verif.Props.barrier_two_threads_not_optimal",
    "Verif.Props.barrier_one_processing_not_optimal",
    "Verif.Props.lock_two_threads_not_optimal"
   ],
   "note": "false in the code: barrier_two_threads_not_optimal refutes it for two threads, barrier_one_processing_not_optimal even if calls of process_one_node never overlap, and lock_two_threads_not_optimal at the level of single accesses to the barrier; proved for one thread (C35), for any number of threads and any interleaving of the single accesses as long as no node is pushed whose bound is lowered to that of its parent and would have been improving (so every failure involves such a node), and for any number of threads as long as no two of them hold a node at the same time; in general the result is a feasible solution not above the optimum"
  },
  {
   "property": "C44",
   "status": "proved",
   "theorems": [
    "Verif.Props.barrier_lower_bound_monotone",
    "Verif.Props.barrier_lower_bound_le_optimum"
   ],
   "note": ""
  },
  {
   "property": "C45",
   "status": "proved",
   "theorems": [
    "Verif.Props.barrier_runs_terminate",
    "Verif.Props.barrier_maximal_run_finished",
    "Verif.Props.barrier_can_finish"
   ],
   "note": "a run is infinite only if the condition variable wakes threads spuriously infinitely often"
  },
  {
   "property": "C46",
   "status": "partial",
   "theorems": [
    "Verif.Props.barrier_interrupted_bounds_partial",
    "Verif.Props.barrier_interrupted_ub_below_optimum",
    "Verif.Props.barrier_interrupted_false_gap"
   ],
   "note": "false in the code: refuted for one thread (the bound alone) and for two threads (equal bounds); for one thread the larger of the two bounds is valid"
  },
  {
   "property": "C47",
   "status": "proved",
   "theorems": [
    "Verif.Props.barrier_proved_means_proved"
   ],
   "note": "one thread; for none see C85"
  },
  {
   "property": "C48",
   "status": "proved",
   "theorems": [
    "Verif.Props.barrier_ongoing_counts",
    "Verif.Props.barrier_explored_counts"
   ],
   "note": ""
  },
  {
   "property": "C49",
   "status": "proved",
   "theorems": [
    "Verif.Props.barrier_no_repeated_work"
   ],
   "note": ""
  },
  {
   "property": "C50",
   "status": "partial",
   "theorems": [
    "Verif.Props.barrier_fewer_threads_ok_partial",
    "Verif.Props.barrier_more_threads_panic"
   ],
   "note": "false in the code: barrier_more_threads_panic refutes it; proved if the number of threads is not increased"
  },
  {
   "property": "C51",
   "status": "partial",
   "theorems": [
    "Verif.Props.barrier_frontier_optimal_partial",
    "Verif.Props.barrier_threads_feasible_partial",
    "Verif.Props.barrier_frontier_cutset_not_optimal"
   ],
   "note": "false in the code: barrier_frontier_cutset_not_optimal refutes it; proved for problems all of whose complete assignments end in the same state; otherwise the result is still a feasible solution"
  },
  {
   "property": "C52",
   "status": "proved",
   "theorems": [
    "Verif.Props.tsptw_solution_is_tour"
   ],
   "note": ""
  },
  {
   "property": "C53",
   "status": "partial",
   "theorems": [
    "Verif.Props.tsptw_tour_is_solution_partial",
    "Verif.Props.tsptw_optimum_partial",
    "Verif.Props.tsptw_misses_tours"
   ],
   "note": "false in the code: tsptw_misses_tours refutes it; proved if the distances satisfy the triangle inequality"
  },
  {
   "property": "C54",
   "status": "partial",
   "theorems": [
    "Verif.Props.tsptw_estimate_exact_partial",
    "Verif.Props.tsptw_admissible_exact_partial",
    "Verif.Props.tsptw_estimate_merged_partial",
    "Verif.Props.tsptw_repaired_bound",
    "Verif.Props.tsptw_estimate_merged_wrong",
    "Verif.Props.tsptw_estimate_merged_cuts"
   ],
   "note": "false in the code for merged states: tsptw_estimate_merged_wrong and tsptw_estimate_merged_cuts refute it, because one city too many is counted; proved for states reached without merging; on merged states the estimate, unless minus infinity, is wrong by at most one city, and with the right number of cities it is a bound on the states merged"
  },
  {
   "property": "C55",
   "status": "partial",
   "theorems": [
    "Verif.Props.tsptw_merge_ends_earlier_partial",
    "Verif.Props.tsptw_relaxation_sound_partial",
    "Verif.Props.tsptw_repaired_sound",
    "Verif.Props.tsptw_repaired_optimal",
    "Verif.Props.tsptw_waiting_not_optimal",
    "Verif.Props.tsptw_relaxation_unsound"
   ],
   "note": "false in the code if there is waiting: tsptw_relaxation_unsound refutes it; proved without waiting; in general the relaxed salesman is home no later, and a relaxation with a corrected cost is sound"
  },
  {
   "property": "C56",
   "status": "partial",
   "theorems": [
    "Verif.Props.tsptw_incumbent_tour_partial",
    "Verif.Props.tsptw_terminates_partial",
    "Verif.Props.tsptw_exact_shortest",
    "Verif.Props.tsptw_not_optimal"
   ],
   "note": "false in the code: tsptw_not_optimal refutes it; the reported tour is always real, the program terminates, and an exact compilation gives a shortest tour"
  },
  {
   "property": "C57",
   "status": "partial",
   "theorems": [
    "Verif.Props.tsptw_in_range",
    "Verif.Props.tsptw_exact_no_underflow",
    "Verif.Props.tsptw_stands_no_underflow",
    "Verif.Props.tsptw_estimate_underflows",
    "Verif.Props.tsptw_underflow_worst"
   ],
   "note": "the counter of the estimate can drop below zero in merged states (tsptw_estimate_underflows), and then the estimate is the worst there is (tsptw_underflow_worst); everything else is proved"
  },
  {
   "property": "C58",
   "status": "proved",
   "theorems": [
    "Verif.Props.bounds_registered",
    "Verif.Props.interrupt_records",
    "Verif.Props.interrupt_covers",
    "Verif.Props.barrier_bounds_registered",
    "Verif.Props.barrier_interrupt_records"
   ],
   "note": ""
  },
  {
   "property": "C59",
   "status": "partial",
   "theorems": [
    "Verif.Props.tsptw_arrival_in_window_partial",
    "Verif.Props.tsptw_interval_inverted"
   ],
   "note": "false in the code: tsptw_interval_inverted refutes that the interval is not empty; it always lies within the window"
  },
  {
   "property": "C60",
   "status": "proved",
   "theorems": [
    "Verif.Props.psp_prev_demand",
    "Verif.Props.psp_rem_demand"
   ],
   "note": ""
  },
  {
   "property": "C61",
   "status": "partial",
   "theorems": [
    "Verif.Props.psp_solution_is_plan_partial",
    "Verif.Props.psp_pairs_not_met"
   ],
   "note": "proved for instances in which at most one unit of an item is due per period; false otherwise (psp_pairs_not_met): a demand of 2 is read as 1"
  },
  {
   "property": "C62",
   "status": "partial",
   "theorems": [
    "Verif.Props.psp_plan_is_solution_partial",
    "Verif.Props.psp_optimum_partial"
   ],
   "note": "proved for instances in which at most one unit of an item is due per period; otherwise see C61"
  },
  {
   "property": "C63",
   "status": "proved",
   "theorems": [
    "Verif.Props.psp_admissible",
    "Verif.Props.psp_stocking_saturates",
    "Verif.Props.psp_negated_admissible",
    "Verif.Props.psp_bound_below_plans",
    "Verif.Props.psp_estimate_reuse"
   ],
   "note": ""
  },
  {
   "property": "C64",
   "status": "partial",
   "theorems": [
    "Verif.Props.psp_relaxation_sound_partial",
    "Verif.Props.psp_relaxation_unsound"
   ],
   "note": "proved if the changeover costs satisfy the triangle inequality; psp_relaxation_unsound refutes it without"
  },
  {
   "property": "C65",
   "status": "partial",
   "theorems": [
    "Verif.Props.psp_optimal_partial",
    "Verif.Props.psp_barrier_optimal_partial",
    "Verif.Props.psp_threads_optimal_partial",
    "Verif.Props.psp_negated_optimal",
    "Verif.Props.psp_incumbent_plan_partial",
    "Verif.Props.psp_terminates_partial",
    "Verif.Props.psp_not_optimal",
    "Verif.Props.psp_barrier_frontier_not_optimal",
    "Verif.Props.psp_parallel_frontier_not_optimal"
   ],
   "note": "proved for the cutset LastExactLayer, with the triangle inequality and unit demands; psp_not_optimal refutes it without the triangle inequality; psp_barrier_frontier_not_optimal and psp_parallel_frontier_not_optimal refute it for either solver with the cutset Frontier; with several threads and a barrier it is proved for runs in which no improving bound is lowered (C43)"
  },
  {
   "property": "C66",
   "status": "partial",
   "theorems": [
    "Verif.Props.psp_in_range",
    "Verif.Props.psp_table_index",
    "Verif.Props.psp_underflow_iff",
    "Verif.Props.psp_underflow_harmless",
    "Verif.Props.psp_estimate_underflows"
   ],
   "note": "deadline - time goes below zero in the rough bound when nothing is due (psp_estimate_underflows); everything else is proved"
  },
  {
   "property": "C67",
   "status": "partial",
   "theorems": [
    "Verif.Props.psp_table_bound_partial",
    "Verif.Props.psp_table_polluted"
   ],
   "note": "false in the code: the heap is not emptied, so an entry depends on the sets before it (psp_table_polluted); the bound is proved"
  },
  {
   "property": "C68",
   "status": "partial",
   "theorems": [
    "Verif.Props.srflp_symmetrise",
    "Verif.Props.srflp_symmetric",
    "Verif.Props.srflp_equal_entries_not_added"
   ],
   "note": "the matrix is symmetric, but two equal entries are not added up while different ones are (srflp_equal_entries_not_added)"
  },
  {
   "property": "C69",
   "status": "proved",
   "theorems": [
    "Verif.Props.srflp_solution_iff_layout",
    "Verif.Props.srflp_optimum"
   ],
   "note": ""
  },
  {
   "property": "C70",
   "status": "partial",
   "theorems": [
    "Verif.Props.srflp_relaxation_sound_partial",
    "Verif.Props.srflp_relaxation_unsound"
   ],
   "note": "proved if no length is negative; srflp_relaxation_unsound refutes it otherwise"
  },
  {
   "property": "C71",
   "status": "partial",
   "theorems": [
    "Verif.Props.srflp_admissible_partial",
    "Verif.Props.srflp_bound_below_layouts_partial",
    "Verif.Props.srflp_rounding_inadmissible",
    "Verif.Props.srflp_negative_inadmissible"
   ],
   "note": "proved if no length or flow is negative and n * max flow * max length < 2^23; false otherwise: srflp_rounding_inadmissible (single precision), srflp_negative_inadmissible"
  },
  {
   "property": "C72",
   "status": "partial",
   "theorems": [
    "Verif.Props.srflp_optimal_partial",
    "Verif.Props.srflp_barrier_optimal_partial",
    "Verif.Props.srflp_threads_optimal_partial",
    "Verif.Props.srflp_incumbent_layout_partial",
    "Verif.Props.srflp_terminates_partial",
    "Verif.Props.srflp_rounding_not_optimal",
    "Verif.Props.srflp_parallel_frontier_not_optimal",
    "Verif.Props.srflp_barrier_frontier_not_optimal"
   ],
   "note": "false in the code: with the cutset Frontier the program returns wrong results (srflp_parallel_frontier_not_optimal, srflp_barrier_frontier_not_optimal), and so it does for numbers too large for f32, with the default parameters (srflp_rounding_not_optimal); proved for the cutset LastExactLayer under the conditions of C71, and with several threads and a barrier for runs in which no improving bound is lowered (C43)"
  },
  {
   "property": "C73",
   "status": "partial",
   "theorems": [
    "Verif.Props.srflp_in_range",
    "Verif.Props.srflp_estimate_in_range",
    "Verif.Props.srflp_flow_index",
    "Verif.Props.srflp_estimate_no_overflow",
    "Verif.Props.srflp_underflow_iff",
    "Verif.Props.srflp_estimate_underflows",
    "Verif.Props.srflp_underflow_harmless"
   ],
   "note": "n_from_maybe_place - 1 goes below zero in every state reached without merging (srflp_estimate_underflows); everything else is proved"
  },
  {
   "property": "C74",
   "status": "proved",
   "theorems": [
    "Verif.Props.single_of_nat",
    "Verif.Props.single_quotient",
    "Verif.Props.single_unique",
    "Verif.Props.single_compare",
    "Verif.Props.single_sign",
    "Verif.Props.single_over_zero"
   ],
   "note": ""
  },
  {
   "property": "C75",
   "status": "partial",
   "theorems": [
    "Verif.Props.gap_number",
    "Verif.Props.gap_zero",
    "Verif.Props.gap_overflow",
    "Verif.Props.gap_opposite",
    "Verif.Props.report_optimum_partial",
    "Verif.Props.barrier_report_optimum_partial",
    "Verif.Props.report_none_panics",
    "Verif.Props.report_infeasible_panics"
   ],
   "note": "proved for a nonzero optimum; false otherwise: NaN for 0 (gap_zero), overflow if no solution was found (report_none_panics), 0 for opposite bounds (gap_opposite)"
  },
  {
   "property": "C76",
   "status": "proved",
   "theorems": [
    "Verif.Props.text_line",
    "Verif.Props.text_words",
    "Verif.Props.text_white_space",
    "Verif.Props.text_unsigned",
    "Verif.Props.text_signed",
    "Verif.Props.text_decimal",
    "Verif.Props.text_float_accepted",
    "Verif.Props.text_float",
    "Verif.Props.text_row"
   ],
   "note": ""
  },
  {
   "property": "C77",
   "status": "partial",
   "theorems": [
    "Verif.Props.srflp_file",
    "Verif.Props.srflp_file_optimal_partial",
    "Verif.Props.srflp_missing_row"
   ],
   "note": "well-formed files are read as written; optimality under the conditions of C72; a missing row is not noticed (srflp_missing_row)"
  },
  {
   "property": "C78",
   "status": "partial",
   "theorems": [
    "Verif.Props.psp_file",
    "Verif.Props.psp_file_tables",
    "Verif.Props.psp_file_optimal_partial",
    "Verif.Props.psp_missing_line_due"
   ],
   "note": "well-formed files are read as written; optimality under the conditions of C65; a missing or short demand line makes an item due in period 0 (psp_missing_line_due)"
  },
  {
   "property": "C79",
   "status": "partial",
   "theorems": [
    "Verif.Props.tsptw_number_partial",
    "Verif.Props.tsptw_number_error",
    "Verif.Props.tsptw_number_integer",
    "Verif.Props.tsptw_number_order",
    "Verif.Props.tsptw_number_negative",
    "Verif.Props.tsptw_number_special",
    "Verif.Props.tsptw_number_notation",
    "Verif.Props.tsptw_file_partial",
    "Verif.Props.tsptw_integer_file_partial",
    "Verif.Props.tsptw_scaled",
    "Verif.Props.tsptw_integer_shortest_partial",
    "Verif.Props.text_exponent",
    "Verif.Props.tsptw_limit",
    "Verif.Props.tsptw_number_misread",
    "Verif.Props.tsptw_triangle_lost"
   ],
   "note": "false in the code: numbers go through single precision and are cut off (tsptw_number_misread), which can destroy the triangle inequality (tsptw_triangle_lost); proved for integers up to 26843, up to one unit below 838.8608, and in order and relative error in general"
  },
  {
   "property": "C80",
   "status": "proved",
   "theorems": [
    "Verif.Props.lock_never_panics",
    "Verif.Props.lock_state_of_views",
    "Verif.Props.lock_exclusive",
    "Verif.Props.lock_held_within",
    "Verif.Props.lock_incumbent_real",
    "Verif.Props.lock_lower_bound_le_optimum",
    "Verif.Props.lock_lower_bound_monotone",
    "Verif.Props.lock_no_deadlock",
    "Verif.Props.lock_runs_terminate",
    "Verif.Props.lock_maximal_run_finished"
   ],
   "note": ""
  },
  {
   "property": "C81",
   "status": "partial",
   "theorems": [
    "Verif.Props.lock_thresholds_grow_partial",
    "Verif.Props.lock_lost_update"
   ],
   "note": "proved for one thread; false for several: lock_lost_update"
  },
  {
   "property": "C82",
   "status": "proved",
   "theorems": [
    "Verif.Props.lock_single_sharp",
    "Verif.Props.lock_sharp_possible",
    "Verif.Props.lock_single_optimal",
    "Verif.Props.lock_single_none_iff_infeasible"
   ],
   "note": ""
  },
  {
   "property": "C83",
   "status": "proved",
   "theorems": [
    "Verif.Props.again_never_panics",
    "Verif.Props.again_incumbent_real",
    "Verif.Props.again_lower_bound_monotone",
    "Verif.Props.again_no_deadlock",
    "Verif.Props.again_terminates",
    "Verif.Props.again_proved_optimal",
    "Verif.Props.again_interrupted_bounds",
    "Verif.Props.barrier_again_never_panics",
    "Verif.Props.barrier_again_incumbent_real",
    "Verif.Props.barrier_again_lower_bound_monotone",
    "Verif.Props.barrier_again_no_deadlock",
    "Verif.Props.barrier_again_terminates",
    "Verif.Props.barrier_again_proved_optimal"
   ],
   "note": ""
  },
  {
   "property": "C84",
   "status": "partial",
   "theorems": [
    "Verif.Props.again_maximize_optimal_partial",
    "Verif.Props.barrier_again_maximize_optimal_partial",
    "Verif.Props.again_after_interrupt_idle",
    "Verif.Props.barrier_again_after_interrupt_idle",
    "Verif.Props.again_after_interrupt_not_optimal"
   ],
   "note": "proved if no earlier call was interrupted; false otherwise: the flag is never reset, so that every later call does nothing (again_after_interrupt_idle, again_after_interrupt_not_optimal)"
  },
  {
   "property": "C85",
   "status": "partial",
   "theorems": [
    "Verif.Props.options_ok_partial",
    "Verif.Props.zero_threads_proved_nothing",
    "Verif.Props.barrier_zero_threads_proved_nothing",
    "Verif.Props.zero_width_panics",
    "Verif.Props.barrier_zero_width_panics"
   ],
   "note": "proved for at least one thread and width at least one; false for no thread (Proved without a solution) and width zero (panic)"
  },
  {
   "property": "C86",
   "status": "partial",
   "theorems": [
    "Verif.Props.matrix_checked",
    "Verif.Props.matrix_debug_detects",
    "Verif.Props.matrix_new_rows",
    "Verif.Props.matrix_col",
    "Verif.Props.matrix_col_mut",
    "Verif.Props.matrix_row_partial",
    "Verif.Props.matrix_row_panics"
   ],
   "note": "rows are proved for builds without debug assertions; false with them: row and row_mut always panic (matrix_row_panics)"
  },
  {
   "property": "C87",
   "status": "partial",
   "theorems": [
    "Verif.Props.best_first_partial",
    "Verif.Props.best_first_order_partial",
    "Verif.Props.largest_bound_never_increases",
    "Verif.Props.best_first_two_threads",
    "Verif.Props.barrier_best_first_partial",
    "Verif.Props.barrier_best_first_order_partial",
    "Verif.Props.barrier_largest_bound_never_increases",
    "Verif.Props.barrier_best_first_two_threads"
   ],
   "note": "proved for one thread; false for two (best_first_two_threads); the largest bound of waiting and current nodes never increases for any number of threads"
  },
  {
   "property": "C88",
   "status": "proved",
   "theorems": [
    "Verif.Props.new_diagram",
    "Verif.Props.explored_is_expanded",
    "Verif.Props.restricted_work",
    "Verif.Props.relaxed_work",
    "Verif.Props.explored_dd_counts",
    "Verif.Props.two_diagrams_per_node",
    "Verif.Props.barrier_explored_dd_counts",
    "Verif.Props.barrier_two_diagrams_per_node"
   ],
   "note": ""
  },
  {
   "property": "C89",
   "status": "proved",
   "theorems": [
    "Verif.Props.restricted_is_beam",
    "Verif.Props.exact_is_beam",
    "Verif.Props.restricted_deterministic"
   ],
   "note": ""
  },
  {
   "property": "C90",
   "status": "proved",
   "theorems": [
    "Verif.Props.relaxed_is_widened",
    "Verif.Props.relaxed_deterministic"
   ],
   "note": ""
  },
  {
   "property": "C91",
   "status": "proved",
   "theorems": [
    "Verif.Props.cutset_last_exact_layer",
    "Verif.Props.cutset_states_differ",
    "Verif.Props.cutset_frontier",
    "Verif.Props.cutset_none"
   ],
   "note": "an exact diagram with thresholds has no cutset with the last exact layer; with the frontier C91 describes it like any other"
  },
  {
   "property": "C92",
   "status": "proved",
   "theorems": [
    "Verif.Props.thresholds_complete",
    "Verif.Props.thresholds_only",
    "Verif.Props.thresholds_ge_value"
   ],
   "note": ""
  },
  {
   "property": "C93",
   "status": "proved",
   "theorems": [
    "Verif.Props.integer_text",
    "Verif.Props.printed_line",
    "Verif.Props.printed_line_determines",
    "Verif.Props.printed_optimum",
    "Verif.Props.barrier_printed_optimum"
   ],
   "note": ""
  },
  {
   "property": "C94",
   "status": "partial",
   "theorems": [
    "Verif.Props.header_columns_partial",
    "Verif.Props.columns_never_line_up"
   ],
   "note": "false in the code: SolverType and ResolutionStatus are printed with write!, which ignores the width (columns_never_line_up); header and lines have the same number of columns"
  },
  {
   "property": "C95",
   "status": "proved",
   "theorems": [
    "Verif.Props.text_lines",
    "Verif.Props.text_written",
    "Verif.Props.text_unfinished",
    "Verif.Props.srflp_text",
    "Verif.Props.psp_text",
    "Verif.Props.tsptw_text"
   ],
   "note": ""
  },
  {
   "property": "C96",
   "status": "partial",
   "theorems": [
    "Verif.Props.srflp_white_space",
    "Verif.Props.tsptw_white_space",
    "Verif.Props.psp_white_space_partial",
    "Verif.Props.psp_header_spoiled"
   ],
   "note": "false in the code for the first three lines of a file of the example psp, which are parsed without trim: any white space in them spoils the file (psp_header_spoiled); everywhere else it is proved"
  },
  {
   "property": "C97",
   "status": "proved",
   "theorems": [
    "Verif.Props.timeout_histories",
    "Verif.Props.timeout_zero",
    "Verif.Props.timeout_one",
    "Verif.Props.timeout_once",
    "Verif.Props.timeout_no_deadlock",
    "Verif.Props.timeout_ends"
   ],
   "note": ""
  },
  {
   "property": "C98",
   "status": "proved",
   "theorems": [
    "Verif.Props.expanded_tree",
    "Verif.Props.expanded_once",
    "Verif.Props.explored_le_partial_assignments",
    "Verif.Props.expanded_twice_frontier"
   ],
   "note": "for the cutset LastExactLayer, the default of the command line; expanded_twice_frontier refutes it for the cutset Frontier"
  },
  {
   "property": "C99",
   "status": "partial",
   "theorems": [
    "Verif.Props.run_name",
    "Verif.Props.run_name_unknown",
    "Verif.Props.run_name_unique",
    "Verif.Props.options_iff",
    "Verif.Props.says_unique",
    "Verif.Props.prints_real",
    "Verif.Props.prints_optimum",
    "Verif.Props.prints_threads_partial",
    "Verif.Props.can_print",
    "Verif.Props.srflp_prints_partial",
    "Verif.Props.psp_prints_partial",
    "Verif.Props.tsptw_prints_partial"
   ],
   "note": "name, options and the general theorems are proved; that Proved means a best layout or plan is proved for srflp and psp with the cutset lel, under the conditions of C72 and C65, and for the solver barrier with one thread, or in runs in which no improving bound is lowered; without these conditions and for tsptw it is false (C43, C56, C65, C72), and only proved that the value is that of a tour"
  },
  {
   "property": "C100",
   "status": "partial",
   "theorems": [
    "Verif.Props.width_where_free",
    "Verif.Props.barrier_width_where_free",
    "Verif.Props.width_free_optimal",
    "Verif.Props.barrier_width_free_optimal",
    "Verif.Props.fixed_width_optimal",
    "Verif.Props.psp_unassigned_left",
    "Verif.Props.psp_unassigned_merged",
    "Verif.Props.psp_unassigned_optimal_partial",
    "Verif.Props.psp_unassigned_barrier_optimal_partial",
    "Verif.Props.product_width_partial",
    "Verif.Props.tsptw_width_partial",
    "Verif.Props.program_parameters",
    "Verif.Props.srflp_large_width_panics",
    "Verif.Props.psp_large_width_panics",
    "Verif.Props.tsptw_large_width_panics"
   ],
   "note": "the heuristics of the library are proved; the widths of the programs are proved if the products are a usize; otherwise they can be 0, and release builds of the programs panic although the argument is positive (srflp_large_width_panics, psp_large_width_panics, tsptw_large_width_panics)"
  },
  {
   "property": "C101",
   "status": "proved",
   "theorems": [
    "Verif.Props.barrier_expanded_tree",
    "Verif.Props.barrier_expanded_once",
    "Verif.Props.barrier_explored_le_partial_assignments",
    "Verif.Props.lock_explored_le_partial_assignments",
    "Verif.Props.barrier_expanded_once_sharp",
    "Verif.Props.barrier_explored_le_sharp"
   ],
   "note": "for the last exact layer whatever the threads see of the barrier, also at the level of single accesses; for the frontier in the steps that see the barrier as it is"
  },
  {
   "property": "C102",
   "status": "proved",
   "theorems": [
    "Verif.Props.srflp_explored_le",
    "Verif.Props.srflp_barrier_explored_le",
    "Verif.Props.psp_explored_le",
    "Verif.Props.psp_barrier_explored_le",
    "Verif.Props.tsptw_explored_le",
    "Verif.Props.tsptw_barrier_explored_le"
   ],
   "note": "from C98 and C101; with a barrier at the level of single accesses, whenever nobody is within a critical section"
  },
  {
   "property": "C103",
   "status": "partial",
   "theorems": [
    "Verif.Props.utf8_decode_iff",
    "Verif.Props.bytes_lines",
    "Verif.Props.bytes_lines_valid",
    "Verif.Props.srflp_bytes",
    "Verif.Props.tsptw_bytes",
    "Verif.Props.psp_bytes_partial",
    "Verif.Props.psp_bytes_lines_partial",
    "Verif.Props.psp_not_utf8",
    "Verif.Props.byte_order_mark_refused"
   ],
   "note": "proved for srflp and tsptw; false for psp: three lines are never looked at, so that files which are not UTF-8 are read (psp_not_utf8); then the result is that for the file in which the bad lines are empty"
  },
  {
   "property": "C104",
   "status": "proved",
   "theorems": [
    "Verif.Props.Narrow.mono",
    "Verif.Props.narrow_first_node_only",
    "Verif.Props.narrow_optimal",
    "Verif.Props.narrow_value",
    "Verif.Props.narrow_barrier_first_node_only",
    "Verif.Props.narrow_barrier_optimal",
    "Verif.Props.narrow_barrier_value",
    "Verif.Props.tsptw_narrow_optimal",
    "Verif.Props.tsptw_narrow_barrier_optimal",
    "Verif.Props.psp_narrow_optimal",
    "Verif.Props.psp_narrow_barrier_optimal",
    "Verif.Props.srflp_narrow_optimal",
    "Verif.Props.srflp_enough_width",
    "Verif.Props.srflp_enough_width_optimal"
   ],
   "note": "with barriers the counter is bounded at the times at which the lock is free; for tsptw under the triangle inequality, for psp with unit demands, for srflp with the sums exact in floating point"
  },
  {
   "property": "C105",
   "status": "proved",
   "theorems": [
    "Verif.Props.narrow_prints",
    "Verif.Props.narrow_barrier_prints",
    "Verif.Props.tsptw_narrow_prints",
    "Verif.Props.rc206_read",
    "Verif.Props.rc206_shortest",
    "Verif.Props.rc206_conditions",
    "Verif.Props.rc206_prints",
    "Verif.Props.rc206_barrier_prints",
    "Verif.Props.cl5_read",
    "Verif.Props.cl5_cheapest",
    "Verif.Props.cl5_prints",
    "Verif.Props.cl5_wide_prints",
    "Verif.Props.cl5_barrier_prints",
    "Verif.Props.narrow_line",
    "Verif.Props.narrow_barrier_line",
    "Verif.Props.narrow_can_print",
    "Verif.Props.rc206_line"
   ],
   "note": "nothing is claimed about rc_206.1.txt with the default width 1, for which the width at the root (4) is less than the largest layer (6 states), nor about lines that say Timeout beyond the value being that of a tour or layout"
  },
  {
   "property": "C106",
   "status": "proved",
   "theorems": [
    "Verif.Props.srflp_any_rows",
    "Verif.Props.srflp_surplus_ignored",
    "Verif.Props.tsptw_any_rows",
    "Verif.Props.tsptw_rows_mixed",
    "Verif.Props.tsptw_empty",
    "Verif.Props.srflp_empty",
    "Verif.Props.psp_long_row_refused",
    "Verif.Props.psp_stocking_words"
   ],
   "note": "psp is a debug build here, where the index is checked; release builds are in C107"
  },
  {
   "property": "C107",
   "status": "proved",
   "theorems": [
    "Verif.Props.psp_release_agrees",
    "Verif.Props.psp_release_file",
    "Verif.Props.psp_release_surplus",
    "Verif.Props.psp_release_accepts_more"
   ],
   "note": "sizes of the tables below 2^64"
  },
  {
   "property": "C108",
   "status": "proved",
   "theorems": [
    "Verif.Props.tsptw_merged",
    "Verif.Props.tsptw_merge_order",
    "Verif.Props.srflp_merged",
    "Verif.Props.srflp_merge_order",
    "Verif.Props.psp_merged",
    "Verif.Props.psp_merge_order"
   ],
   "note": ""
  },
  {
   "property": "C109",
   "status": "proved",
   "theorems": [
    "Verif.Props.crash_harmless",
    "Verif.Props.crash_when",
    "Verif.Props.crash_never_returns",
    "Verif.Props.crash_runs_terminate",
    "Verif.Props.crash_parked",
    "Verif.Props.crash_stuck",
    "Verif.Props.crash_hangs",
    "Verif.Props.zero_width_hangs",
    "Verif.Props.barrier_crash_harmless",
    "Verif.Props.barrier_crash_when",
    "Verif.Props.barrier_crash_never_returns",
    "Verif.Props.barrier_crash_runs_terminate",
    "Verif.Props.barrier_crash_parked",
    "Verif.Props.barrier_crash_stuck",
    "Verif.Props.barrier_crash_hangs",
    "Verif.Props.barrier_zero_width_hangs"
   ],
   "note": "About builds that unwind (not the release profile). Panics while the lock is held, and panics in the middle of the updates of the barrier, are not covered."
  },
  {
   "property": "C110",
   "status": "proved",
   "theorems": [
    "Verif.Props.first_best_way",
    "Verif.Props.barrier_best_way",
    "Verif.Props.last_best_redirected",
    "Verif.Props.last_best_terminal"
   ],
   "note": ""
  },
  {
   "property": "C111",
   "status": "proved",
   "theorems": [
    "Verif.Props.stray_harmless",
    "Verif.Props.stray_exact",
    "Verif.Props.stray_incumbent",
    "Verif.Props.stray_never_returns",
    "Verif.Props.stray_runs_terminate",
    "Verif.Props.stray_parked",
    "Verif.Props.stray_stuck",
    "Verif.Props.stray_hangs",
    "Verif.Props.stray_loses_all",
    "Verif.Props.surplus_optimal",
    "Verif.Props.barrier_stray_panics",
    "Verif.Props.barrier_stray_takes",
    "Verif.Props.barrier_stray_exact",
    "Verif.Props.barrier_stray_incumbent",
    "Verif.Props.barrier_stray_never_returns",
    "Verif.Props.barrier_stray_runs_terminate",
    "Verif.Props.barrier_stray_parked",
    "Verif.Props.barrier_stray_stuck",
    "Verif.Props.barrier_stray_hangs",
    "Verif.Props.barrier_stray_loses_all"
   ],
   "note": "About builds that unwind (not the release profile). That an answer that is returned is optimal is said without a barrier only: with one, it is not as soon as there are two workers (C43)."
  },
  {
   "property": "C112",
   "status": "proved",
   "theorems": [
    "Verif.Props.matrix_printed",
    "Verif.Props.matrix_aligned",
    "Verif.Props.matrix_print_total",
    "Verif.Props.matrix_numbers"
   ],
   "note": ""
  },
  {
   "property": "C113",
   "status": "proved",
   "theorems": [
    "Verif.Props.crash_left_unproved",
    "Verif.Props.crash_timeout_left",
    "Verif.Props.crash_timeout_two",
    "Verif.Props.crash_timeout_hangs",
    "Verif.Props.barrier_crash_left_unproved",
    "Verif.Props.barrier_crash_timeout_left",
    "Verif.Props.barrier_crash_timeout_two",
    "Verif.Props.barrier_crash_timeout_hangs"
   ],
   "note": "About builds that unwind (not the release profile). No more workers than cells."
  },
  {
   "property": "C114",
   "status": "proved",
   "theorems": [
    "Verif.Props.ask_when",
    "Verif.Props.ask_harmless",
    "Verif.Props.ask_returns",
    "Verif.Props.ask_runs_terminate",
    "Verif.Props.ask_optimal",
    "Verif.Props.ask_one_panics",
    "Verif.Props.ask_all_panic",
    "Verif.Props.barrier_ask_when",
    "Verif.Props.barrier_ask_effect",
    "Verif.Props.barrier_ask_returns",
    "Verif.Props.barrier_ask_runs_terminate",
    "Verif.Props.barrier_ask_incumbent"
   ],
   "note": "About builds that unwind (not the release profile). No more workers than cells. If interrupt() panics in all workers, nodes may be left in the frontier (ask_all_panic)."
  },
  {
   "property": "C115",
   "status": "proved",
   "theorems": [
    "Verif.Props.mix_rest",
    "Verif.Props.mix_never_leaves",
    "Verif.Props.mix_ends_iff",
    "Verif.Props.mix_runs_terminate",
    "Verif.Props.mix_incumbent",
    "Verif.Props.mix_harmless",
    "Verif.Props.mix_optimal",
    "Verif.Props.barrier_mix_rest",
    "Verif.Props.barrier_mix_never_leaves",
    "Verif.Props.barrier_mix_ends_iff",
    "Verif.Props.barrier_mix_runs_terminate",
    "Verif.Props.barrier_mix_incumbent"
   ],
   "note": "About builds that unwind (not the release profile). No more workers than cells."
  },
  {
   "property": "C116",
   "status": "proved",
   "theorems": [
    "Verif.Props.calls_when",
    "Verif.Props.calls_irrelevant",
    "Verif.Props.calls_leave",
    "Verif.Props.calls_no_more",
    "Verif.Props.calls_answers",
    "Verif.Props.calls_left",
    "Verif.Props.barrier_calls_when",
    "Verif.Props.barrier_calls_irrelevant",
    "Verif.Props.barrier_calls_leave",
    "Verif.Props.barrier_calls_no_more",
    "Verif.Props.barrier_calls_answers",
    "Verif.Props.barrier_calls_left"
   ],
   "note": ""
  },
  {
   "property": "C117",
   "status": "proved",
   "theorems": [
    "Verif.Props.no_value_exact",
    "Verif.Props.no_value_closed"
   ],
   "note": ""
  }
 ]
}