c("C01","proved",["flags_set_observe","flags_history","flags_isExact","flags_new"])
c("C02","proved",["bitSetIter_enumerates","bitSetIter_deterministic"])
c("C03","proved",["lexBitSet_lt_iff","lexBitSet_eq_iff","lexBitSet_gt_iff","lexBitSet_swap","lexBitSet_lt_trans","lexBitSet_eq_congr","lexBitSet_eq_agrees"])
c("C04","proved",["matrix_pos_injective","matrix_history","matrix_column_overflow_aliases"])
c("C05","proved",["cutsetType_roundtrip","compilationType_roundtrip","solverType_roundtrip"])
c("C06","proved",["noDup_pop_best","noDup_trace_correct"],"ranking assumed to be a total preorder (Std.TransCmp)")
c("C07","proved",["noDup_len","noDup_trace_correct"])
c("C08","proved",["noDup_pop_merges","noDup_trace_correct"])
c("C09","proved",["noDup_trace_correct","noDup_empty"])
c("C10","proved",["noDup_never_panics"])
c("C11","proved",["noDup_drain_sorted"])
c("C12","proved",["exact_compile_optimum","exact_compile_is_exact"],"for problems that are well-formed (layered, costs bounded so that sums do not overflow) with an admissible rough bound")
c("C13","proved",["solution_real","solution_iff_value"])
c("C14","proved",["relaxed_upper_bound","relaxed_upper_bound_barrier"],"relaxation assumed sound (Spec.SoundRelaxation); with a non-empty barrier the bound holds unless a threshold cut the completion off")
c("C15","proved",["exact_flag","exact_flag_barrier"])
c("C16","proved",["lel_cutset_covers","lel_cutset_covers_barrier"])
c("C17","proved",["cutset_genuine"])
c("C18","proved",["width_respected"])
c("C19","proved",["solution_decides_each_variable_once","solution_real"])
c("C20","partial",["frontier_cutset_covers_partial","frontier_cutset_loses_solutions","frontier_cutset_covers_unique_terminal"],"false in the code: frontier_cutset_loses_solutions refutes it; the partial theorem says what is covered; it does hold if all complete assignments end in the same state")
c("C21","proved",["compile_total","mdd_ids_in_range","relaxed_width_zero_panics"])
c("C22","proved",["reuse_as_new","reuse_observations","fresh_observations"])

c("C23","proved",["incumbent_real"])
c("C24","proved",["lower_bound_monotone","lower_bound_le_optimum"])
c("C25","proved",["maximize_optimal"],"last exact layer cutset, or any cutset if all complete assignments end in the same state")
c("C26","proved",["none_iff_infeasible"])
c("C27","proved",["never_panics","no_deadlock","parked_implies_working","finishing_wakes_all"])
c("C28","proved",["runs_terminate","maximal_run_finished","can_finish"],"a run is infinite only if the condition variable wakes threads spuriously infinitely often")
c("C29","partial",["interrupted_bounds_partial","interrupted_ub_below_optimum","interrupted_false_gap","interrupted_ub_ignores_open"],"false in the code: interrupted_ub_below_optimum (one thread), interrupted_false_gap and interrupted_ub_ignores_open (two threads) refute it; for one thread the larger of the two bounds is valid")
c("C30","partial",["interrupted_bounds_partial","interrupted_false_gap"],"false in the code for two or more threads (interrupted_false_gap); proved for one thread")
c("C31","proved",["proved_means_proved"],"at least one thread; for none see C85")
c("C32","partial",["fewer_threads_ok_partial","more_threads_panic"],"false in the code: more_threads_panic refutes it; proved if the number of threads is not increased")
c("C33","proved",["noDup_lawful","simple_lawful","same_answer"])
c("C34","proved",["ongoing_counts","explored_counts"])
c("C42","partial",["frontier_cutset_optimal_partial","frontier_cutset_not_optimal"],"false in the code: frontier_cutset_not_optimal refutes it; proved if all complete assignments end in the same state")
c("C35","proved",["barrier_optimal","barrier_none_iff_infeasible"])
c("C36","proved",["barrier_incumbent_real"],"any number of threads, arbitrary readings of the barrier")
c("C37","proved",["barrier_counters","barrier_never_panics","counter_range","deep_cutset_panics"])
c("C38","proved",["barrier_nothing_lost","barrier_discard_safe","barrier_compile_prune_safe"])
c("C39","proved",["barrier_cleaning_safe"])
c("C40","proved",["barrier_threshold_monotone","barrier_thresholds_monotone"])
c("C41","proved",["barrier_never_panics","barrier_no_deadlock","barrier_parked_implies_working","barrier_finishing_wakes_all"])
c("C43","partial",["lock_uncapped_proved_partial","lock_uncapped_optimal_partial","lock_uncapped_infeasible_partial","lock_failure_capped","barrier_uncapped_proved_partial","barrier_uncapped_optimal_partial","barrier_uncapped_infeasible_partial","barrier_failure_capped","barrier_turns_optimal_partial","barrier_turns_infeasible_partial","barrier_threads_feasible_partial","barrier_two_threads_not_optimal","barrier_one_processing_not_optimal","lock_two_threads_not_optimal"],"false in the code: barrier_two_threads_not_optimal refutes it for two threads, barrier_one_processing_not_optimal even if calls of process_one_node never overlap, and lock_two_threads_not_optimal at the level of single accesses to the barrier; proved for one thread (C35), for any number of threads and any interleaving of the single accesses as long as no node is pushed whose bound is lowered to that of its parent and would have been improving (so every failure involves such a node), and for any number of threads as long as no two of them hold a node at the same time; in general the result is a feasible solution not above the optimum")
c("C44","proved",["barrier_lower_bound_monotone","barrier_lower_bound_le_optimum"])
c("C45","proved",["barrier_runs_terminate","barrier_maximal_run_finished","barrier_can_finish"],"a run is infinite only if the condition variable wakes threads spuriously infinitely often")
c("C46","partial",["barrier_interrupted_bounds_partial","barrier_interrupted_ub_below_optimum","barrier_interrupted_false_gap"],"false in the code: refuted for one thread (the bound alone) and for two threads (equal bounds); for one thread the larger of the two bounds is valid")
c("C47","proved",["barrier_proved_means_proved"],"one thread; for none see C85")
c("C48","proved",["barrier_ongoing_counts","barrier_explored_counts"])
c("C49","proved",["barrier_no_repeated_work"])
c("C50","partial",["barrier_fewer_threads_ok_partial","barrier_more_threads_panic"],"false in the code: barrier_more_threads_panic refutes it; proved if the number of threads is not increased")
c("C51","partial",["barrier_frontier_optimal_partial","barrier_threads_feasible_partial","barrier_frontier_cutset_not_optimal"],"false in the code: barrier_frontier_cutset_not_optimal refutes it; proved for problems all of whose complete assignments end in the same state; otherwise the result is still a feasible solution")
c("C52","proved",["tsptw_solution_is_tour"])
c("C53","partial",["tsptw_tour_is_solution_partial","tsptw_optimum_partial","tsptw_misses_tours"],"false in the code: tsptw_misses_tours refutes it; proved if the distances satisfy the triangle inequality")
c("C54","partial",["tsptw_estimate_exact_partial","tsptw_admissible_exact_partial","tsptw_estimate_merged_partial","tsptw_repaired_bound","tsptw_estimate_merged_wrong","tsptw_estimate_merged_cuts"],"false in the code for merged states: tsptw_estimate_merged_wrong and tsptw_estimate_merged_cuts refute it, because one city too many is counted; proved for states reached without merging; on merged states the estimate, unless minus infinity, is wrong by at most one city, and with the right number of cities it is a bound on the states merged")
c("C55","partial",["tsptw_merge_ends_earlier_partial","tsptw_relaxation_sound_partial","tsptw_repaired_sound","tsptw_repaired_optimal","tsptw_waiting_not_optimal","tsptw_relaxation_unsound"],"false in the code if there is waiting: tsptw_relaxation_unsound refutes it; proved without waiting; in general the relaxed salesman is home no later, and a relaxation with a corrected cost is sound")
c("C56","partial",["tsptw_incumbent_tour_partial","tsptw_terminates_partial","tsptw_exact_shortest","tsptw_not_optimal"],"false in the code: tsptw_not_optimal refutes it; the reported tour is always real, the program terminates, and an exact compilation gives a shortest tour")
c("C57","partial",["tsptw_in_range","tsptw_exact_no_underflow","tsptw_stands_no_underflow","tsptw_estimate_underflows","tsptw_underflow_worst"],"the counter of the estimate can drop below zero in merged states (tsptw_estimate_underflows), and then the estimate is the worst there is (tsptw_underflow_worst); everything else is proved")
c("C58","proved",["bounds_registered","interrupt_records","interrupt_covers","barrier_bounds_registered","barrier_interrupt_records"])
c("C59","partial",["tsptw_arrival_in_window_partial","tsptw_interval_inverted"],"false in the code: tsptw_interval_inverted refutes that the interval is not empty; it always lies within the window")
c("C60","proved",["psp_prev_demand","psp_rem_demand"])
c("C61","partial",["psp_solution_is_plan_partial","psp_pairs_not_met"],"proved for instances in which at most one unit of an item is due per period; false otherwise (psp_pairs_not_met): a demand of 2 is read as 1")
c("C62","partial",["psp_plan_is_solution_partial","psp_optimum_partial"],"proved for instances in which at most one unit of an item is due per period; otherwise see C61")
c("C63","proved",["psp_admissible", "psp_stocking_saturates","psp_negated_admissible","psp_bound_below_plans","psp_estimate_reuse"])
c("C64","partial",["psp_relaxation_sound_partial","psp_relaxation_unsound"],"proved if the changeover costs satisfy the triangle inequality; psp_relaxation_unsound refutes it without")
c("C65","partial",["psp_optimal_partial","psp_barrier_optimal_partial","psp_threads_optimal_partial","psp_negated_optimal","psp_incumbent_plan_partial","psp_terminates_partial","psp_not_optimal","psp_barrier_frontier_not_optimal","psp_parallel_frontier_not_optimal"],"proved for the cutset LastExactLayer, with the triangle inequality and unit demands; psp_not_optimal refutes it without the triangle inequality; psp_barrier_frontier_not_optimal and psp_parallel_frontier_not_optimal refute it for either solver with the cutset Frontier; with several threads and a barrier it is proved for runs in which no improving bound is lowered (C43)")
c("C66","partial",["psp_in_range","psp_table_index","psp_underflow_iff","psp_underflow_harmless","psp_estimate_underflows"],"deadline - time goes below zero in the rough bound when nothing is due (psp_estimate_underflows); everything else is proved")
c("C67","partial",["psp_table_bound_partial","psp_table_polluted"],"false in the code: the heap is not emptied, so an entry depends on the sets before it (psp_table_polluted); the bound is proved")
c("C68","partial",["srflp_symmetrise","srflp_symmetric","srflp_equal_entries_not_added"],"the matrix is symmetric, but two equal entries are not added up while different ones are (srflp_equal_entries_not_added)")
c("C69","proved",["srflp_solution_iff_layout","srflp_optimum"])
c("C70","partial",["srflp_relaxation_sound_partial","srflp_relaxation_unsound"],"proved if no length is negative; srflp_relaxation_unsound refutes it otherwise")
c("C71","partial",["srflp_admissible_partial","srflp_bound_below_layouts_partial","srflp_rounding_inadmissible","srflp_negative_inadmissible"],"proved if no length or flow is negative and n * max flow * max length < 2^23; false otherwise: srflp_rounding_inadmissible (single precision), srflp_negative_inadmissible")
c("C72","partial",["srflp_optimal_partial","srflp_barrier_optimal_partial","srflp_threads_optimal_partial","srflp_incumbent_layout_partial","srflp_terminates_partial","srflp_rounding_not_optimal","srflp_parallel_frontier_not_optimal","srflp_barrier_frontier_not_optimal"],"false in the code: with the cutset Frontier the program returns wrong results (srflp_parallel_frontier_not_optimal, srflp_barrier_frontier_not_optimal), and so it does for numbers too large for f32, with the default parameters (srflp_rounding_not_optimal); proved for the cutset LastExactLayer under the conditions of C71, and with several threads and a barrier for runs in which no improving bound is lowered (C43)")
c("C73","partial",["srflp_in_range","srflp_estimate_in_range","srflp_flow_index","srflp_estimate_no_overflow","srflp_underflow_iff","srflp_estimate_underflows","srflp_underflow_harmless"],"n_from_maybe_place - 1 goes below zero in every state reached without merging (srflp_estimate_underflows); everything else is proved")
c("C74","proved",["single_of_nat","single_quotient","single_unique","single_compare","single_sign","single_over_zero"],"")
c("C75","partial",["gap_number","gap_zero","gap_overflow","gap_opposite","report_optimum_partial","barrier_report_optimum_partial","report_none_panics","report_infeasible_panics"],"proved for a nonzero optimum; false otherwise: NaN for 0 (gap_zero), overflow if no solution was found (report_none_panics), 0 for opposite bounds (gap_opposite)")
c("C76","proved",["text_line","text_words","text_white_space","text_unsigned","text_signed","text_decimal","text_float_accepted","text_float","text_row"],"")
c("C77","partial",["srflp_file","srflp_file_optimal_partial","srflp_missing_row"],"well-formed files are read as written; optimality under the conditions of C72; a missing row is not noticed (srflp_missing_row)")
c("C78","partial",["psp_file","psp_file_tables","psp_file_optimal_partial","psp_missing_line_due"],"well-formed files are read as written; optimality under the conditions of C65; a missing or short demand line makes an item due in period 0 (psp_missing_line_due)")
c("C79","partial",["tsptw_number_partial","tsptw_number_error","tsptw_number_integer","tsptw_number_order","tsptw_number_negative","tsptw_number_special","tsptw_number_notation","tsptw_file_partial","tsptw_integer_file_partial","tsptw_scaled","tsptw_integer_shortest_partial","text_exponent","tsptw_limit","tsptw_number_misread","tsptw_triangle_lost"],"false in the code: numbers go through single precision and are cut off (tsptw_number_misread), which can destroy the triangle inequality (tsptw_triangle_lost); proved for integers up to 26843, up to one unit below 838.8608, and in order and relative error in general")
c("C80","proved",["lock_never_panics","lock_state_of_views","lock_exclusive","lock_held_within","lock_incumbent_real","lock_lower_bound_le_optimum","lock_lower_bound_monotone","lock_no_deadlock","lock_runs_terminate","lock_maximal_run_finished"],"")
c("C81","partial",["lock_thresholds_grow_partial","lock_lost_update"],"proved for one thread; false for several: lock_lost_update")
c("C82","proved",["lock_single_sharp","lock_sharp_possible","lock_single_optimal","lock_single_none_iff_infeasible"],"")
c("C83","proved",["again_never_panics","again_incumbent_real","again_lower_bound_monotone","again_no_deadlock","again_terminates","again_proved_optimal","again_interrupted_bounds","barrier_again_never_panics","barrier_again_incumbent_real","barrier_again_lower_bound_monotone","barrier_again_no_deadlock","barrier_again_terminates","barrier_again_proved_optimal"],"")
c("C84","partial",["again_maximize_optimal_partial","barrier_again_maximize_optimal_partial","again_after_interrupt_idle","barrier_again_after_interrupt_idle","again_after_interrupt_not_optimal"],"proved if no earlier call was interrupted; false otherwise: the flag is never reset, so that every later call does nothing (again_after_interrupt_idle, again_after_interrupt_not_optimal)")
c("C85","partial",["options_ok_partial","zero_threads_proved_nothing","barrier_zero_threads_proved_nothing","zero_width_panics","barrier_zero_width_panics"],"proved for at least one thread and width at least one; false for no thread (Proved without a solution) and width zero (panic)")
c("C86","partial",["matrix_checked","matrix_debug_detects","matrix_new_rows","matrix_col","matrix_col_mut","matrix_row_partial","matrix_row_panics"],"rows are proved for builds without debug assertions; false with them: row and row_mut always panic (matrix_row_panics)")
c("C87","partial",["best_first_partial","best_first_order_partial","largest_bound_never_increases","best_first_two_threads","barrier_best_first_partial","barrier_best_first_order_partial","barrier_largest_bound_never_increases","barrier_best_first_two_threads"],"proved for one thread; false for two (best_first_two_threads); the largest bound of waiting and current nodes never increases for any number of threads")
c("C88","proved",["new_diagram", "explored_is_expanded","restricted_work","relaxed_work","explored_dd_counts","two_diagrams_per_node","barrier_explored_dd_counts","barrier_two_diagrams_per_node"])
c("C89","proved",["restricted_is_beam","exact_is_beam","restricted_deterministic"])
c("C90","proved",["relaxed_is_widened","relaxed_deterministic"])
c("C91","proved",["cutset_last_exact_layer","cutset_states_differ","cutset_frontier","cutset_none"],"an exact diagram with thresholds has no cutset with the last exact layer; with the frontier C91 describes it like any other")
c("C92","proved",["thresholds_complete","thresholds_only","thresholds_ge_value"])
c("C93","proved",["integer_text","printed_line","printed_line_determines","printed_optimum","barrier_printed_optimum"])
c("C94","partial",["header_columns_partial","columns_never_line_up"],"false in the code: SolverType and ResolutionStatus are printed with write!, which ignores the width (columns_never_line_up); header and lines have the same number of columns")
c("C95","proved",["text_lines","text_written","text_unfinished","srflp_text","psp_text","tsptw_text"],"")
c("C96","partial",["srflp_white_space","tsptw_white_space","psp_white_space_partial","psp_header_spoiled"],"false in the code for the first three lines of a file of the example psp, which are parsed without trim: any white space in them spoils the file (psp_header_spoiled); everywhere else it is proved")
c("C97","proved",["timeout_histories", "timeout_zero", "timeout_one", "timeout_once", "timeout_no_deadlock", "timeout_ends"],"")
c("C98","proved",["expanded_tree", "expanded_once", "explored_le_partial_assignments", "expanded_twice_frontier"],"for the cutset LastExactLayer, the default of the command line; expanded_twice_frontier refutes it for the cutset Frontier")
c("C99","partial",["run_name", "run_name_unknown", "run_name_unique", "options_iff", "says_unique", "prints_real", "prints_optimum", "prints_threads_partial", "can_print", "srflp_prints_partial", "psp_prints_partial", "tsptw_prints_partial"],"name, options and the general theorems are proved; that Proved means a best layout or plan is proved for srflp and psp with the cutset lel, under the conditions of C72 and C65, and for the solver barrier with one thread, or in runs in which no improving bound is lowered; without these conditions and for tsptw it is false (C43, C56, C65, C72), and only proved that the value is that of a tour")
c("C100","partial",["width_where_free", "barrier_width_where_free", "width_free_optimal", "barrier_width_free_optimal", "fixed_width_optimal", "psp_unassigned_left", "psp_unassigned_merged", "psp_unassigned_optimal_partial", "psp_unassigned_barrier_optimal_partial", "product_width_partial", "tsptw_width_partial", "program_parameters", "srflp_large_width_panics", "psp_large_width_panics", "tsptw_large_width_panics"],"the heuristics of the library are proved; the widths of the programs are proved if the products are a usize; otherwise they can be 0, and release builds of the programs panic although the argument is positive (srflp_large_width_panics, psp_large_width_panics, tsptw_large_width_panics)")
c("C101","proved",["barrier_expanded_tree", "barrier_expanded_once", "barrier_explored_le_partial_assignments", "lock_explored_le_partial_assignments", "barrier_expanded_once_sharp", "barrier_explored_le_sharp"],"for the last exact layer whatever the threads see of the barrier, also at the level of single accesses; for the frontier in the steps that see the barrier as it is")
c("C102","proved",["srflp_explored_le", "srflp_barrier_explored_le", "psp_explored_le", "psp_barrier_explored_le", "tsptw_explored_le", "tsptw_barrier_explored_le"],"from C98 and C101; with a barrier at the level of single accesses, whenever nobody is within a critical section")
c("C103","partial",["utf8_decode_iff", "bytes_lines", "bytes_lines_valid", "srflp_bytes", "tsptw_bytes", "psp_bytes_partial", "psp_bytes_lines_partial", "psp_not_utf8", "byte_order_mark_refused"],"proved for srflp and tsptw; false for psp: three lines are never looked at, so that files which are not UTF-8 are read (psp_not_utf8); then the result is that for the file in which the bad lines are empty")
c("C104","proved",["Narrow.mono", "narrow_first_node_only", "narrow_optimal", "narrow_value", "narrow_barrier_first_node_only", "narrow_barrier_optimal", "narrow_barrier_value", "tsptw_narrow_optimal", "tsptw_narrow_barrier_optimal", "psp_narrow_optimal", "psp_narrow_barrier_optimal", "srflp_narrow_optimal", "srflp_enough_width", "srflp_enough_width_optimal"],"with barriers the counter is bounded at the times at which the lock is free; for tsptw under the triangle inequality, for psp with unit demands, for srflp with the sums exact in floating point")
c("C105","proved",["narrow_prints", "narrow_barrier_prints", "tsptw_narrow_prints", "rc206_read", "rc206_shortest", "rc206_conditions", "rc206_prints", "rc206_barrier_prints", "cl5_read", "cl5_cheapest", "cl5_prints", "cl5_wide_prints", "cl5_barrier_prints", "narrow_line", "narrow_barrier_line", "narrow_can_print", "rc206_line"],"nothing is claimed about rc_206.1.txt with the default width 1, for which the width at the root (4) is less than the largest layer (6 states), nor about lines that say Timeout beyond the value being that of a tour or layout")
c("C106","proved",["srflp_any_rows", "srflp_surplus_ignored", "tsptw_any_rows", "tsptw_rows_mixed", "tsptw_empty", "srflp_empty", "psp_long_row_refused", "psp_stocking_words"],"psp is a debug build here, where the index is checked; release builds are in C107")
c("C107","proved",["psp_release_agrees", "psp_release_file", "psp_release_surplus", "psp_release_accepts_more"],"sizes of the tables below 2^64")
c("C108","proved",["tsptw_merged", "tsptw_merge_order", "srflp_merged", "srflp_merge_order", "psp_merged", "psp_merge_order"],"")
c("C109","proved",["crash_harmless", "crash_when", "crash_never_returns", "crash_runs_terminate", "crash_parked", "crash_stuck", "crash_hangs", "zero_width_hangs", "barrier_crash_harmless", "barrier_crash_when", "barrier_crash_never_returns", "barrier_crash_runs_terminate", "barrier_crash_parked", "barrier_crash_stuck", "barrier_crash_hangs", "barrier_zero_width_hangs"],"About builds that unwind (not the release profile). Panics while the lock is held, and panics in the middle of the updates of the barrier, are not covered.")
c("C110","proved",["first_best_way", "barrier_best_way", "last_best_redirected", "last_best_terminal"],"")
c("C111","proved",["stray_harmless", "stray_exact", "stray_incumbent", "stray_never_returns", "stray_runs_terminate", "stray_parked", "stray_stuck", "stray_hangs", "stray_loses_all", "surplus_optimal", "barrier_stray_panics", "barrier_stray_takes", "barrier_stray_exact", "barrier_stray_incumbent", "barrier_stray_never_returns", "barrier_stray_runs_terminate", "barrier_stray_parked", "barrier_stray_stuck", "barrier_stray_hangs", "barrier_stray_loses_all"],"About builds that unwind (not the release profile). That an answer that is returned is optimal is said without a barrier only: with one, it is not as soon as there are two workers (C43).")
c("C112","proved",["matrix_printed", "matrix_aligned", "matrix_print_total", "matrix_numbers"],"")
c("C113","proved",["crash_left_unproved", "crash_timeout_left", "crash_timeout_two", "crash_timeout_hangs", "barrier_crash_left_unproved", "barrier_crash_timeout_left", "barrier_crash_timeout_two", "barrier_crash_timeout_hangs"],"About builds that unwind (not the release profile). No more workers than cells.")
c("C114","proved",["ask_when", "ask_harmless", "ask_returns", "ask_runs_terminate", "ask_optimal", "ask_one_panics", "ask_all_panic", "barrier_ask_when", "barrier_ask_effect", "barrier_ask_returns", "barrier_ask_runs_terminate", "barrier_ask_incumbent"],"About builds that unwind (not the release profile). No more workers than cells. If interrupt() panics in all workers, nodes may be left in the frontier (ask_all_panic).")
c("C115","proved",["mix_rest", "mix_never_leaves", "mix_ends_iff", "mix_runs_terminate", "mix_incumbent", "mix_harmless", "mix_optimal", "barrier_mix_rest", "barrier_mix_never_leaves", "barrier_mix_ends_iff", "barrier_mix_runs_terminate", "barrier_mix_incumbent"],"About builds that unwind (not the release profile). No more workers than cells.")
c("C116","proved",["calls_when", "calls_irrelevant", "calls_leave", "calls_no_more", "calls_answers", "calls_left", "barrier_calls_when", "barrier_calls_irrelevant", "barrier_calls_leave", "barrier_calls_no_more", "barrier_calls_answers", "barrier_calls_left"],"")
c("C117","proved",["no_value_exact", "no_value_closed"],"")
