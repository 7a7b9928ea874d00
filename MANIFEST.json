{
 "claims": [
  {
   "property": "C01",
   "status": "partial",
   "theorems": [
    "Verif.Quad.quadRow_value",
    "Verif.Quad.quadRow_refuses_lower",
    "Verif.Quad.quadRow_assignCut",
    "Verif.Quad.quadRow_ofCut_partial",
    "Verif.Quad.quadRow_ofCut_drops_constant"
   ],
   "note": "Rows built from their parts or assigned from a cut are exact for every valid sort order; a row constructed from a quadratic cut loses the cut's constant term (refuted)."
  },
  {
   "property": "C02",
   "status": "proved",
   "theorems": [
    "Verif.Quad.quadRow_gradient",
    "Verif.Quad.quadRow_gradStruct"
   ],
   "note": "Linear part without repeated index."
  },
  {
   "property": "C03",
   "status": "proved",
   "theorems": [
    "Verif.Quad.hessian_values"
   ],
   "note": "After a structure query, for every reachable state (Rep is established by cut_history)."
  },
  {
   "property": "C04",
   "status": "proved",
   "theorems": [
    "Verif.Quad.hessian_structure",
    "Verif.Quad.cut_history",
    "Verif.Quad.indices_collide_without_structure_query",
    "Verif.Quad.initH_defined_iff",
    "Verif.Quad.compact_needs_end"
   ],
   "note": ""
  },
  {
   "property": "C05",
   "status": "proved",
   "theorems": [
    "Verif.Quad.cut_history",
    "Verif.Quad.add_remove_restores"
   ],
   "note": "At most INT_MAX cuts added in the history."
  },
  {
   "property": "C06",
   "status": "partial",
   "theorems": [
    "Verif.Quad.makeUpper_form",
    "Verif.Quad.makeUpper_accepts",
    "Verif.Quad.full_storage_never_returns",
    "Verif.Quad.removeDuplicates_loses_last",
    "Verif.Quad.removeDuplicates_changes_form",
    "Verif.Quad.full_step_iff",
    "Verif.Quad.dup_merges_partial",
    "Verif.Quad.dup_one_too_few",
    "Verif.Quad.dupLoop_length"
   ],
   "note": "Upper and lower storage preserve the form; full storage never returns and duplicate merging drops the last entry (refuted)."
  },
  {
   "property": "C07",
   "status": "proved",
   "theorems": [
    "Verif.LinObj.epigraph_feasible",
    "Verif.LinObj.epigraph_objective",
    "Verif.LinObj.epigraph_optimal",
    "Verif.LinObj.epigraph_start",
    "Verif.LinObj.epigraph_sized"
   ],
   "note": ""
  },
  {
   "property": "C08",
   "status": "partial",
   "theorems": [
    "Verif.LinObj.epigraph_jacobian",
    "Verif.LinObj.epigraph_gi",
    "Verif.LinObj.epigraph_grad_gi",
    "Verif.LinObj.epigraph_hessian",
    "Verif.LinObj.epigraph_row0_query",
    "Verif.LinObj.gradRow0_exact"
   ],
   "note": "All derivative queries are exact except the structure-only query of the gradient of row 0, which never sets the number of entries (refuted)."
  },
  {
   "property": "C09",
   "status": "proved",
   "theorems": [
    "Verif.Oa.row_cut_valid",
    "Verif.Oa.row_cut_valid_exact",
    "Verif.Oa.obj_cut_valid",
    "Verif.Oa.oa_cuts_valid",
    "Verif.Oa.oa_rows_exact",
    "Verif.Oa.cleanT_valid",
    "Verif.Oa.objOa_exact",
    "Verif.Oa.relaxRhs_exact",
    "Verif.Oa.cleanT_table"
   ],
   "note": "Valid up to the explicitly stated effect of coefficients below the silent-removal threshold; exact when there are none.  Columns of the Jacobian of a row are assumed not to repeat."
  },
  {
   "property": "C10",
   "status": "proved",
   "theorems": [
    "Verif.Oa.row_cut_support",
    "Verif.Oa.row_cut_violated_iff",
    "Verif.Oa.row_cut_unused_side_free"
   ],
   "note": ""
  },
  {
   "property": "C11",
   "status": "partial",
   "theorems": [
    "Verif.Oa.outer_row_valid_partial",
    "Verif.Oa.outer_objective_valid_partial",
    "Verif.Oa.outer_linear_row_refuted",
    "Verif.Oa.outer_objective_refuted",
    "Verif.Oa.cleanA_invalid",
    "Verif.Oa.cleanA_table"
   ],
   "note": "Holds without small coefficients; refuted with small coefficients (sign pairing of the removal rule is inverted)."
  },
  {
   "property": "C12",
   "status": "partial",
   "theorems": [
    "Verif.Oa.benders_valid_partial",
    "Verif.Oa.benders_objective_refuted",
    "Verif.Oa.benders_small_refuted",
    "Verif.Oa.bendersObj_exact"
   ],
   "note": "Holds for linear objectives; refuted for nonlinear objectives (right-hand side overwritten) and for small coefficients of >= rows."
  },
  {
   "property": "C13",
   "status": "partial",
   "theorems": [
    "Verif.Strengthen.handleOneCut_valid_partial",
    "Verif.Strengthen.handleOneCut_valid_binary",
    "Verif.Strengthen.handleOneCut_failure",
    "Verif.Strengthen.disjunction_variable",
    "Verif.Strengthen.disjunction_nearest",
    "Verif.Strengthen.frac_eq",
    "Verif.Strengthen.disjunction_general_integer_refuted"
   ],
   "note": "Holds when discrete variables of the cut take one of the two values next to the fractional one (binaries); refuted for general integers."
  },
  {
   "property": "C46",
   "status": "partial",
   "theorems": [
    "Verif.Oa.extract_valid_partial",
    "Verif.Oa.extract_misaligned",
    "Verif.Oa.extract_keeps_removed",
    "Verif.Oa.extract_linear_constant",
    "Verif.Oa.extract_rows"
   ],
   "note": "Holds under three provisos, each shown necessary by a refutation."
  },
  {
   "property": "C47",
   "status": "partial",
   "theorems": [
    "Verif.Oa.oa_rows_filtered",
    "Verif.Oa.filter_depends_on_log_level",
    "Verif.Oa.oa_exact"
   ],
   "note": "Exact characterisation of what is returned; independence from the log level is refuted."
  },
  {
   "property": "C14",
   "status": "partial",
   "theorems": [
    "Verif.Fp.fp_value",
    "Verif.Fp.fp_other_norm",
    "Verif.Fp.fp_gradient",
    "Verif.Fp.fp_hessian",
    "Verif.Fp.local_branching_hessian_size",
    "Verif.Fp.local_branching_objective_hessian",
    "Verif.Fp.cutoff_hessian_refuted",
    "Verif.Fp.last_switch",
    "Verif.Fp.fresh_transparent",
    "Verif.Fp.fresh_hessian_drops_objective",
    "Verif.Fp.local_hessian_history",
    "Verif.Fp.par_new",
    "Verif.Fp.par_toFp"
   ],
   "note": "Value, gradient and Hessian are exact for the projection objective; the Hessian is refuted when the projection objective is off (local branching) and when the cutoff row is added."
  },
  {
   "property": "C15",
   "status": "partial",
   "theorems": [
    "Verif.Fp.setCutoff_range",
    "Verif.Fp.fp_offsets",
    "Verif.Fp.cutoff_row_partial",
    "Verif.Fp.local_branching_row",
    "Verif.Fp.cutoff_row_refuted",
    "Verif.Fp.cutoff_row_accepts_worse",
    "Verif.Fp.fp_sizes",
    "Verif.Fp.fp_jacobian_cutoff",
    "Verif.Fp.fp_jacobian_local",
    "Verif.Fp.local_row_gradient",
    "Verif.Fp.fp_jacobian_both",
    "Verif.Fp.fp_linearity_swapped",
    "Verif.Fp.fp_inner_rows",
    "Verif.Fp.last_switch",
    "Verif.Fp.fresh_transparent"
   ],
   "note": "Each row alone (cutoff with the original objective) is exact; refuted for the cutoff row with the projection objective and for both rows together (writes beyond the arrays)."
  },
  {
   "property": "C16",
   "status": "partial",
   "theorems": [
    "Verif.Itf.uniform_in_bounds",
    "Verif.Itf.uniform_covers",
    "Verif.Itf.randomPoint_in_bounds_partial",
    "Verif.Itf.coord_perturb_radius",
    "Verif.Itf.randomPoint_negative_radius"
   ],
   "note": "Holds for all modes with nonnegative radii (exact range of the draw characterised); refuted for negative suffix radii, which the code does not check."
  },
  {
   "property": "C17",
   "status": "partial",
   "theorems": [
    "Verif.Itf.resolveForCost_best",
    "Verif.Itf.resolveForCost_throws",
    "Verif.Itf.resolveForCost_rows_stale"
   ],
   "note": "Status, objective, point and duals are those of the best attempt; row activities are those of the last attempt (refuted)."
  },
  {
   "property": "C18",
   "status": "partial",
   "theorems": [
    "Verif.Itf.zeroDimension_taken",
    "Verif.Itf.zeroDimension_verdict",
    "Verif.Itf.zeroDimension_fixed",
    "Verif.Itf.zeroDimension_crossed",
    "Verif.Itf.zeroDimension_crossed_optimal",
    "Verif.Itf.zeroDimension_nearly_fixed"
   ],
   "note": "Exact verdict characterised and correct for exactly fixed variables; refuted for crossed bounds and for ranges up to 1e-5."
  },
  {
   "property": "C19",
   "status": "partial",
   "theorems": [
    "Verif.Itf.ipopt_truth",
    "Verif.Itf.ipopt_abort_untruthful",
    "Verif.Itf.initialSolve_truthful",
    "Verif.Itf.resolve_truthful",
    "Verif.Itf.sticky_forever",
    "Verif.Itf.failure_reported_as_nothing",
    "Verif.Itf.unreported_failures",
    "Verif.Itf.timeLimit_recoverable",
    "Verif.Itf.isAbandoned_exact",
    "Verif.Itf.robust_settles",
    "Verif.Itf.robust_fatal",
    "Verif.Itf.robust_exhausted",
    "Verif.Itf.initialSolve_warm",
    "Verif.Itf.resolve_once",
    "Verif.Itf.resolve_repeats"
   ],
   "note": "Every normal return reports the outcome of a solve of that call; refuted: after one ignored failure no failure is ever reported, and non-convergence and time-outs are reported by no query."
  },
  {
   "property": "C20",
   "status": "partial",
   "theorems": [
    "Verif.Itf.bounds_last_write",
    "Verif.Itf.start_exact",
    "Verif.Itf.start_partial",
    "Verif.Itf.duals_alone_discard_start",
    "Verif.Itf.reset_leaves_dangling_duals",
    "Verif.Itf.resize_spec",
    "Verif.Itf.hasXInit_exact",
    "Verif.Itf.hasXInit_after",
    "Verif.Itf.start_flags"
   ],
   "note": "Bounds: proved for all histories.  Start point: exact answer for all histories; the claim fails when dual values are set alone or reset."
  },
  {
   "property": "C48",
   "status": "partial",
   "theorems": [
    "Verif.Itf.checkSolution_exact",
    "Verif.Itf.roundAndCheck_inverted"
   ],
   "note": "check_solution is exact; round_and_check inverts its meaning (refuted)."
  },
  {
   "property": "C49",
   "status": "partial",
   "theorems": [
    "Verif.Itf.forceFractional_partial",
    "Verif.Itf.forceFractional_fixed"
   ],
   "note": "Holds for variables that can move by a unit; refuted for fixed integer variables."
  },
  {
   "property": "C21",
   "status": "partial",
   "theorems": [
    "Verif.Div.diver_conserves",
    "Verif.Div.diver_stops_iff",
    "Verif.Div.diver_size_empty",
    "Verif.Div.diver_best",
    "Verif.Div.diver_dives",
    "Verif.Div.diver_top_pop",
    "Verif.Div.diver_drain",
    "Verif.Div.diver_ndebug_loses",
    "Verif.Div.diver_endSearch_drops"
   ],
   "note": "Proved for all histories of a build with asserts (and exactly which histories stop at an assert); refuted for NDEBUG builds and for endSearch."
  },
  {
   "property": "C22",
   "status": "partial",
   "theorems": [
    "Verif.Div.probed_conserves_partial",
    "Verif.Div.probed_search_conserves",
    "Verif.Div.probed_visits_never_full",
    "Verif.Div.Probed.best_spec",
    "Verif.Div.probed_size_empty",
    "Verif.Div.probed_best_undefined_iff",
    "Verif.Div.probed_follows_better",
    "Verif.Div.probed_full_loses",
    "Verif.Div.probed_stop_crashes",
    "Verif.Div.probed_stuck",
    "Verif.Div.probed_top_pop"
   ],
   "note": "Proved for the histories of Cbc's search loop and more generally when both slots are never full at a push; refuted otherwise, plus null pointer crash with stop_diving_on_cutoff."
  },
  {
   "property": "C23",
   "status": "partial",
   "theorems": [
    "Verif.Div.dfs_conserves_partial",
    "Verif.Div.dfs_invariant",
    "Verif.Div.dfs_initial",
    "Verif.Div.dfs_bound_best_loses",
    "Verif.Div.dfs_closeBound_example",
    "Verif.Div.dfs_size_empty",
    "Verif.Div.dfs_progress",
    "Verif.Div.dfs_exhausted_crashes",
    "Verif.Div.dfs_zero_backtracks_aborts",
    "Verif.Div.dfs_too_deep_aborts",
    "Verif.Div.dfs_assign_depth",
    "Verif.Div.dfs_top_exact",
    "Verif.Div.dfs_pop_top",
    "Verif.Div.dfs_top_enlarge_aborts",
    "Verif.Div.top_undefined_iff"
   ],
   "note": "Proved for the phases Enlarge and FindSolutions; in CloseBound and LimitTreeSize every call of bestNode loses a node (proved for all states)."
  },
  {
   "property": "C24",
   "status": "proved",
   "theorems": [
    "Verif.Div.diver_bestPossible",
    "Verif.Div.probed_bestPossible",
    "Verif.Div.dfs_bestPossible",
    "Verif.Div.dfs_bestPossible_lower",
    "Verif.Div.diver_bestPossible_capped"
   ],
   "note": "Lower bound for all contents; attained when the bounds are at most 1e100 (otherwise 1e100 is reported, shown by a witness)."
  },
  {
   "property": "C25",
   "status": "partial",
   "theorems": [
    "Verif.Bab.counts_are_runs",
    "Verif.Bab.node_decision",
    "Verif.Bab.branch_explored_iff",
    "Verif.Bab.failure_recorded",
    "Verif.Bab.depth_one_failure_silent"
   ],
   "note": "Exact rule proved for all branches; nodes at depth 1 are an exception the claim does not have (proved)."
  },
  {
   "property": "C26",
   "status": "partial",
   "theorems": [
    "Verif.Bab.final_solution",
    "Verif.Bab.final_status_partial",
    "Verif.Bab.final_return_agrees",
    "Verif.Bab.final_objective",
    "Verif.Bab.final_bound",
    "Verif.Bab.final_status_error",
    "Verif.Bab.final_status_second_run",
    "Verif.Bab.bestBound_exact",
    "Verif.Bab.final_objective_none",
    "Verif.Bab.final_new",
    "Verif.Bab.return_exact"
   ],
   "note": "Proved for first runs that Cbc does not abandon; refuted for Cbc status 2 and for a second run with the same object."
  },
  {
   "property": "C27",
   "status": "partial",
   "theorems": [
    "Verif.Branch.setupList_partial",
    "Verif.Branch.setupList_infeasible",
    "Verif.Branch.setupList_priorities_mixed",
    "Verif.Branch.setupList_loses_and_repeats",
    "Verif.Branch.setupList_nonpositive",
    "Verif.Branch.setupList_no_strong",
    "Verif.Branch.usefulness_pos",
    "Verif.Branch.usefulness_negative",
    "Verif.Branch.maxFra_spec",
    "Verif.Branch.second_list_top",
    "Verif.Branch.second_list_init",
    "Verif.Branch.append2_none_iff",
    "Verif.Branch.mixIn_example",
    "Verif.Branch.mixIn_both",
    "Verif.Branch.mixIn_gap",
    "Verif.Branch.mixIn_all",
    "Verif.Branch.setupList_second",
    "Verif.Branch.scan_counts_infeasible",
    "Verif.Branch.place_needs_room",
    "Verif.Branch.mixIn_exact",
    "Verif.Branch.untrusted_missed"
   ],
   "note": "Exact content and exact front part proved for all object sets with positive usefulness and the second list unused; refuted: order of the rest, second list, nonpositive usefulness, no strong branching."
  },
  {
   "property": "C28",
   "status": "partial",
   "theorems": [
    "Verif.Branch.random_list",
    "Verif.Branch.random_choose",
    "Verif.Branch.random_partial",
    "Verif.Branch.random_mixes_priorities",
    "Verif.Branch.random_loses_best",
    "Verif.Branch.random_infeasible_satisfied"
   ],
   "note": "Exact list proved for all inputs; the claim holds for equal priorities and is refuted otherwise."
  },
  {
   "property": "C30",
   "status": "partial",
   "theorems": [
    "Verif.Branch.pseudo_history_partial",
    "Verif.Branch.pseudo_average",
    "Verif.Branch.pseudo_unknown",
    "Verif.Branch.pseudo_monotone",
    "Verif.Branch.pseudo_reset",
    "Verif.Branch.combine_between",
    "Verif.Branch.step_none_iff"
   ],
   "note": "Proved for all histories with a constant number of objects; refuted when the number of objects grows (all records are erased)."
  },
  {
   "property": "C29",
   "status": "partial",
   "theorems": [
    "Verif.Branch.strong_restores",
    "Verif.Branch.strong_code",
    "Verif.Branch.strong_infeasible_partial",
    "Verif.Branch.strong_code_overwritten",
    "Verif.Branch.strong_lookAhead_aborts",
    "Verif.Branch.hotStatus_truth",
    "Verif.Branch.hotStatus_cases",
    "Verif.Branch.strong_fixed",
    "Verif.Branch.strong_lookAhead"
   ],
   "note": "Restoration proved for all candidates and answers; the code is characterised exactly; the claim about infeasibility is refuted (a later candidate overwrites the code)."
  },
  {
   "property": "C50",
   "status": "partial",
   "theorems": [
    "Verif.Branch.choose_best",
    "Verif.Branch.choose_code",
    "Verif.Branch.choose_other",
    "Verif.Branch.choose_member",
    "Verif.Branch.choose_untested",
    "Verif.Branch.choose_untested_wrong",
    "Verif.Branch.choose_nan",
    "Verif.Branch.choose_nan_up",
    "Verif.Branch.mustProbe_iff",
    "Verif.Branch.numberLeft_eq",
    "Verif.Branch.choose_code_four_wrong"
   ],
   "note": "Proved whenever strong branching takes place in time; refuted when all candidates are trusted (first entry taken, way of another), and for code 4."
  },
  {
   "property": "C31",
   "status": "partial",
   "theorems": [
    "Verif.Dec.manip_restores_partial",
    "Verif.Dec.fixInts_ok",
    "Verif.Dec.nint_in_bounds",
    "Verif.Dec.manip_cutoff_kept",
    "Verif.Dec.manip_log_lost",
    "Verif.Dec.manip_not_restored",
    "Verif.Dec.manip_deleted_rows",
    "Verif.Dec.refix_relaxes_again",
    "Verif.Dec.save_fields",
    "Verif.Dec.restore_fields",
    "Verif.Dec.run_bounds",
    "Verif.Dec.run_lengths"
   ],
   "note": "Rows, bounds and warm start restored for all histories that do not delete original rows; the cutoff of a cached solver and the log level are not restored (refuted)."
  },
  {
   "property": "C43",
   "status": "partial",
   "theorems": [
    "Verif.Dec.intFeasCol_iff",
    "Verif.Dec.intFeasObj_iff",
    "Verif.Dec.intFeas_agree_partial",
    "Verif.Dec.intFeas_paths_differ",
    "Verif.Dec.intFeasObj_accepts_all",
    "Verif.Dec.isDiff_cols",
    "Verif.Dec.isDiff_objs",
    "Verif.Dec.install_spec",
    "Verif.Dec.refix_iff",
    "Verif.Dec.diffScan_undefined",
    "Verif.Dec.install_iff"
   ],
   "note": "Each path characterised exactly; they agree within bounds and refuted otherwise."
  },
  {
   "property": "C32",
   "status": "partial",
   "theorems": [
    "Verif.Dec.oa_sound",
    "Verif.Dec.oa_fathom",
    "Verif.Dec.oa_terminates",
    "Verif.Dec.newCutoff_eq",
    "Verif.Dec.afterNlp_iff",
    "Verif.Dec.afterLp_iff",
    "Verif.Dec.afterGap_iff",
    "Verif.Dec.localSearch_iff",
    "Verif.Dec.oa_excludes_assignment",
    "Verif.Dec.exO_contract",
    "Verif.Dec.exO_finite",
    "Verif.Dec.oa_zero_aborts",
    "Verif.Dec.oa_stuck",
    "Verif.Dec.oa_failed_nlp_unsound",
    "Verif.Dec.oa_start"
   ],
   "note": "Soundness for all runs under the stated contract of the MILP, NLP and LP solvers; termination when no limit is reached; refuted: optimal value 0 stops at an assert, the loop does not end once the solution limit is reached, an unsolved NLP makes the bound wrong."
  },
  {
   "property": "C51",
   "status": "partial",
   "theorems": [
    "Verif.Dec.gen_saved",
    "Verif.Dec.gen_other",
    "Verif.Dec.gen_saved_bounded",
    "Verif.Dec.fc_exit",
    "Verif.Dec.fc_cutoff",
    "Verif.Dec.fc_rows",
    "Verif.Dec.fc_terminates",
    "Verif.Dec.fc_rows_repeat",
    "Verif.Dec.fc_benders_early",
    "Verif.Dec.fc_start",
    "Verif.Dec.fc_passes",
    "Verif.Dec.fc_terminates_again"
   ],
   "note": "Control of generateCuts and exit of the checker proved for all inputs; cuts are installed repeatedly and Benders cuts start too early (refuted)."
  },
  {
   "property": "C38",
   "status": "partial",
   "theorems": [
    "Verif.Slv.filter_roundtrip_exact",
    "Verif.Slv.filter_roundtrip_partial",
    "Verif.Slv.filter_roundtrip_iff",
    "Verif.Slv.filter_roundtrip_fails",
    "Verif.Slv.filter_replay",
    "Verif.Slv.filter_new",
    "Verif.Slv.filter_copy",
    "Verif.Slv.filter_flush_dangles",
    "Verif.Slv.filter_destroy",
    "Verif.Slv.filter_never_empty",
    "Verif.Slv.filter_empty_ws_used",
    "Verif.Slv.filter_set",
    "Verif.Slv.ipopt_roundtrip_exact",
    "Verif.Slv.ipopt_roundtrip_iff",
    "Verif.Slv.ipopt_roundtrip_empty",
    "Verif.Slv.ipopt_copy_flush",
    "Verif.Slv.filter_copy_iff",
    "Verif.Slv.filter_empty_ws",
    "Verif.Slv.filter_gen_defined",
    "Verif.Slv.filter_gen_parts",
    "Verif.Slv.lwsApply_defined",
    "Verif.Slv.path_defined",
    "Verif.Slv.apply_fields"
   ],
   "note": "Exact result of every round trip; equal to the new warm start exactly when array length, basis part and flag agree (Ipopt: no warm starter); refuted otherwise, plus the dangling array after flushPoint and the empty warm start that is not empty."
  },
  {
   "property": "C39",
   "status": "proved",
   "theorems": [
    "Verif.Slv.packed_layout",
    "Verif.Slv.packed_segment",
    "Verif.Slv.packed_value",
    "Verif.Slv.sym_value",
    "Verif.Slv.hessMult_spec",
    "Verif.Slv.jac_structure",
    "Verif.Slv.insertionSort_isSort",
    "Verif.Slv.packed_defined_iff",
    "Verif.Slv.jac_defined_iff",
    "Verif.Slv.hessObj_iff"
   ],
   "note": "For all structures with rows inside the matrix, both index styles and all offsets; std::sort is any sorting function."
  },
  {
   "property": "C40",
   "status": "partial",
   "theorems": [
    "Verif.Slv.tqp_objective",
    "Verif.Slv.tqp_gradient",
    "Verif.Slv.tqp_taylor",
    "Verif.Slv.tqp_constraints",
    "Verif.Slv.tqp_derivatives",
    "Verif.Slv.tqp_final",
    "Verif.Slv.tqp_invalid",
    "Verif.Slv.exQp_made",
    "Verif.Slv.tqp_final_rows_wrong",
    "Verif.Slv.tqp_final_rows"
   ],
   "note": "Objective, gradient, bounds, constraints, derivatives, reported point and objective proved for all problems and displacements; the row activities reported lack the constant term (refuted)."
  },
  {
   "property": "C42",
   "status": "partial",
   "theorems": [
    "Verif.Slv.sos_repair",
    "Verif.Slv.sos_strict",
    "Verif.Slv.sos_unchanged",
    "Verif.Slv.sos_monotone",
    "Verif.Slv.sos_exact_partial",
    "Verif.Slv.sos_empty_set",
    "Verif.Slv.sos_last_empty",
    "Verif.Slv.sos_absorbed",
    "Verif.Slv.sos_weak",
    "Verif.Slv.bumpAbsorb_iff",
    "Verif.Slv.sos_absorbed_all"
   ],
   "note": "Exact result for all inputs with non-empty sets; refuted for an empty set (reads before or behind its entries) and when the increment is absorbed."
  },
  {
   "property": "C41",
   "status": "partial",
   "theorems": [
    "Verif.Slv.read_exact_partial",
    "Verif.Slv.read_fuel",
    "Verif.Slv.apply_exact",
    "Verif.Slv.apply_isSome",
    "Verif.Slv.read_other_terminates",
    "Verif.Slv.read_newline_undefined",
    "Verif.Slv.read_empty_terminates",
    "Verif.Slv.apply_widens",
    "Verif.Slv.read_apply_defined",
    "Verif.Slv.store_iff"
   ],
   "note": "Exact for all files of well-formed lines whose last line is not terminated; refuted for every file that ends in a line end (undefined behaviour), for missing and empty files (terminated), and bounds may be widened."
  },
  {
   "property": "C44",
   "status": "partial",
   "theorems": [
    "Verif.Slv.sos_copy_partial",
    "Verif.Slv.sos_copy_assert",
    "Verif.Slv.sos_reset_copy",
    "Verif.Slv.branch_copy_partial",
    "Verif.Slv.radius_last",
    "Verif.Slv.sos_copy_destroys",
    "Verif.Slv.sos_copy_not_faithful",
    "Verif.Slv.branch_copy_undefined",
    "Verif.Slv.radius_null_undefined",
    "Verif.Slv.sos_copy_defined_iff",
    "Verif.Slv.branch_copy_iff",
    "Verif.Slv.sos_copy_defined"
   ],
   "note": "Proved for empty SOS information, for branching information when the uninitialised pointers are NULL, and for perturbation radii without a later NULL; refuted in all other cases."
  },
  {
   "property": "C45",
   "status": "partial",
   "theorems": [
    "Verif.Slv.create_null_iff",
    "Verif.Slv.create_carries_partial",
    "Verif.Slv.solve_data",
    "Verif.Slv.scaling_last",
    "Verif.Slv.create_drops_info",
    "Verif.Slv.solve_info",
    "Verif.Slv.solve_info_nonnull",
    "Verif.Slv.create_undefined_iff",
    "Verif.Slv.readArr_iff"
   ],
   "note": "NULL for exactly the malformed inputs and everything else carried over; SOS and branching information are dropped and two fields are read that were never set (refuted for all inputs)."
  },
  {
   "property": "C52",
   "status": "partial",
   "theorems": [
    "Verif.Slv.hasGeneral_iff",
    "Verif.Slv.hasGeneral_wrong"
   ],
   "note": "Exact for all lists of variables with integral bounds; fixed variables and mistyped binaries are classified wrongly (witness)."
  },
  {
   "property": "C53",
   "status": "partial",
   "theorems": [
    "Verif.Slv.solve_no_x",
    "Verif.Slv.solve_delivers_nothing",
    "Verif.Slv.solve_solution_lost"
   ],
   "note": "Refuted for every problem and every answer of branch-and-bound: no array of the caller is written and the status is always 0; what holds is that nothing is written without a starting point."
  },
  {
   "property": "C54",
   "status": "proved",
   "theorems": [
    "Verif.Slv.callback_point",
    "Verif.Slv.callback_protocol",
    "Verif.Slv.callback_stale",
    "Verif.Slv.starting_point",
    "Verif.Slv.callback_called_iff",
    "Verif.Slv.callback_undefined_iff"
   ],
   "note": "For all sequences of evaluations; the agreement on new_x is the stated hypothesis, and needed (witness)."
  },
  {
   "property": "C33",
   "status": "partial",
   "theorems": [
    "Verif.Heur.isFrac_iff",
    "Verif.Heur.accept_iff",
    "Verif.Heur.adjust_spec",
    "Verif.Heur.iterate_exact",
    "Verif.Heur.dive_sound",
    "Verif.Heur.dive_partial",
    "Verif.Heur.dive_abort_iff",
    "Verif.Heur.dive_integral_start",
    "Verif.Heur.dive_fractional",
    "Verif.Heur.dive_tolerance_grows",
    "Verif.Heur.dive_leaves_bounds",
    "Verif.Heur.dive_fixings_exact",
    "Verif.Heur.dive_cutoff"
   ],
   "note": "Exact description of every step and of the returned point for all oracles; the claim holds when the tolerance is not enlarged and the bounds of the node are those of the clone (partial); growing tolerance and a point outside the bounds are refutations."
  },
  {
   "property": "C34",
   "status": "partial",
   "theorems": [
    "Verif.Heur.selFractional_none",
    "Verif.Heur.selFractional_some",
    "Verif.Heur.dive_fractional",
    "Verif.Heur.colLengths_lastRun",
    "Verif.Heur.colLengths_grouped_partial",
    "Verif.Heur.selVectorLength_some",
    "Verif.Heur.selVectorLength_allowed_partial",
    "Verif.Heur.colLengths_by_rows",
    "Verif.Heur.selVectorLength_out_of_bounds"
   ],
   "note": "Fractional dive proved; vector-length dive proved for Jacobians grouped by column and integral bounds, refuted otherwise."
  },
  {
   "property": "C35",
   "status": "partial",
   "theorems": [
    "Verif.Heur.roundCol_exact",
    "Verif.Heur.roundPt_integral",
    "Verif.Heur.roundPt_box_partial",
    "Verif.Heur.roundPt_sos_partial",
    "Verif.Heur.posSum_range",
    "Verif.Heur.roundRows_no_abort",
    "Verif.Heur.recognised_iff",
    "Verif.Heur.target_round",
    "Verif.Heur.target_flip",
    "Verif.Heur.pump_targets",
    "Verif.Heur.pumpLoop_end",
    "Verif.Heur.pump_sound_partial",
    "Verif.Heur.pump_found_iff",
    "Verif.Heur.roundPt_truncates",
    "Verif.Heur.roundPt_overlap",
    "Verif.Heur.roundPt_out_of_bounds",
    "Verif.Heur.roundRow_release_zero",
    "Verif.Heur.flipOne_abort_iff",
    "Verif.Heur.perturb_abort_iff",
    "Verif.Heur.pump_log_exact"
   ],
   "note": "Exact rounding rule, loop and answer; the claim holds for integral bounds and disjoint rows, and fails otherwise (witnesses)."
  },
  {
   "property": "C36",
   "status": "partial",
   "theorems": [
    "Verif.Heur.noGood_exact",
    "Verif.Heur.noGood_binary",
    "Verif.Heur.noGood_excludes_partial",
    "Verif.Heur.milp_no_repeat",
    "Verif.Heur.milp_found_iff",
    "Verif.Heur.noGood_removes_more",
    "Verif.Heur.milp_no_solution"
   ],
   "note": "The visited point is excluded and no point is visited twice; the cut removes exactly the points with a 1 wherever the visited one has a 1, so other binary points too (refuted)."
  },
  {
   "property": "C37",
   "status": "partial",
   "theorems": [
    "Verif.Heur.rinsFix_exact",
    "Verif.Heur.rinsFix_in_bounds_partial",
    "Verif.Heur.rins_found_iff",
    "Verif.Heur.rins_howOften",
    "Verif.Heur.rins_range",
    "Verif.Heur.rins_new_range",
    "Verif.Heur.rins_off",
    "Verif.Heur.rinsFix_out_of_bounds",
    "Verif.Heur.rinsEnd_state",
    "Verif.Heur.rins_new",
    "Verif.Heur.rins_numSol"
   ],
   "note": "Frequency range proved for all histories; fixed values lie within the bounds for tolerances up to 1/20 and integral bounds, not for larger ones (witness)."
  },
  {
   "property": "C55",
   "status": "partial",
   "theorems": [
    "Verif.Heur.milp_matrix_exact",
    "Verif.Heur.milp_matrix_partial",
    "Verif.Heur.rank_spec",
    "Verif.Heur.csc_column",
    "Verif.Heur.milp_matrix_by_rows"
   ],
   "note": "Exact contents for all Jacobians; right when the Jacobian is given by columns, wrong coefficients otherwise (witness)."
  },
  {
   "property": "C56",
   "status": "proved",
   "theorems": [
    "Verif.Heur.mipAct_eq",
    "Verif.Heur.mip_rows_exact",
    "Verif.Heur.mip_rows_left_out",
    "Verif.Heur.csc_column",
    "Verif.Heur.rank_spec",
    "Verif.Heur.mip_rows_affine"
   ],
   "note": "For constraint functions affine in the linear columns with the Jacobian entries as coefficients."
  },
  {
   "property": "C57",
   "status": "partial",
   "theorems": [
    "Verif.Heur.lb_runs_iff",
    "Verif.Heur.lb_runs_bounded",
    "Verif.Heur.lb_neighbourhood",
    "Verif.Heur.lbValidate_iff",
    "Verif.Heur.fixSolve_exact",
    "Verif.Heur.fixSolve_clone",
    "Verif.Heur.lb_general_integers",
    "Verif.Heur.fixSolve_leaks",
    "Verif.Heur.fixSolve_deletes_twice",
    "Verif.Heur.lb_run_count"
   ],
   "note": "Proved for binary columns; with general integers local branching still runs, with a meaningless row (refuted)."
  },
  {
   "property": "C58",
   "status": "partial",
   "theorems": [
    "Verif.Branch.lp_branch_bounds",
    "Verif.Branch.lp_infeasible_partial",
    "Verif.Branch.lp_status",
    "Verif.Branch.lp_down_branch_infeasible",
    "Verif.Branch.lp_ecp_undefined",
    "Verif.Branch.exLp_truth"
   ],
   "note": "Exact bounds and status; the verdict is right when tightened upper bounds equal lower bounds (0-1 variables) and wrong otherwise (line 148 uses the lower bound; witness)."
  },
  {
   "property": "C59",
   "status": "proved",
   "theorems": [
    "Verif.Dec.ecp_exact",
    "Verif.Dec.ecp_sound",
    "Verif.Dec.ecp_value",
    "Verif.Dec.ecp_skip_iff",
    "Verif.Dec.ecp_install_iff"
   ],
   "note": "LP and cut generation are oracles; validity is relative to theirs."
  },
  {
   "property": "C60",
   "status": "partial",
   "theorems": [
    "Verif.Dec.consViol_le_iff",
    "Verif.Dec.consViol_norm_partial",
    "Verif.Dec.nlViol_exact",
    "Verif.Dec.consViol_nonneg",
    "Verif.Dec.consViol_misses"
   ],
   "note": "Exact characterisation; equals the norm without linear rows and with sides that are infinite or below 1e10, otherwise refuted."
  },
  {
   "property": "C61",
   "status": "partial",
   "theorems": [
    "Verif.Dec.fpCoef_iff",
    "Verif.Dec.fp_objective_partial",
    "Verif.Dec.fpObjective_exact",
    "Verif.Dec.fp_objective_wrong",
    "Verif.Dec.fp_next_iff"
   ],
   "note": "Right for 0-1 columns below 1; a column exactly at 1 is pushed away from its value (witness)."
  },
  {
   "property": "C62",
   "status": "partial",
   "theorems": [
    "Verif.Dec.fp_claim_partial",
    "Verif.Dec.fpPass_left",
    "Verif.Dec.fp_claim_wrong",
    "Verif.Dec.fp_claim_wrong_limit"
   ],
   "note": "True when the last MILP has no solution; false after the time or solution limit (witnesses)."
  },
  {
   "property": "C63",
   "status": "proved",
   "theorems": [
    "Verif.Branch.lp_bounds_restored",
    "Verif.Branch.lp_round",
    "Verif.Branch.lp_clone_solution",
    "Verif.Branch.lp_round_changes_objective"
   ],
   "note": "Bounds and status are restored for all sequences; objective value and solution are not (shown beside)."
  },
  {
   "property": "C64",
   "status": "partial",
   "theorems": [
    "Verif.Dec.ecp_value",
    "Verif.Dec.ecp_stale",
    "Verif.Dec.ecp_one_round",
    "Verif.Dec.ecp_own_aborts"
   ],
   "note": "Exact value recorded when an LP is solved; stale values are returned otherwise and with assertions a second round aborts (refuted)."
  },
  {
   "property": "C65",
   "status": "proved",
   "theorems": [
    "Verif.Dec.fp_solutions",
    "Verif.Dec.fp_terminates",
    "Verif.Dec.fp_zero_aborts"
   ],
   "note": "Runs in which no assertion fails; a solution of value 0 violates the assertion cutoff < ub."
  },
  {
   "property": "C66",
   "status": "partial",
   "theorems": [
    "Verif.Dec.hyb_solves_iff",
    "Verif.Dec.hyb_exact",
    "Verif.Dec.hyb_restored_partial",
    "Verif.Dec.hyb_skipped",
    "Verif.Dec.hyb_throw_leaves_bounds",
    "Verif.Dec.hyb_depth_zero",
    "Verif.Dec.hyb_run_single",
    "Verif.Dec.hyb_run_append"
   ],
   "note": "Exact outcome of every call; bounds are restored over all sequences without exception, not after one (witness); depth limit 0 still solves at the root, against the documentation."
  },
  {
   "property": "C67",
   "status": "proved",
   "theorems": [
    "Verif.Dec.sub_last",
    "Verif.Dec.sub_overflow"
   ],
   "note": "The path with Cbc; CPLEX is not modelled.  Without the proviso the buffer overflows (witness)."
  },
  {
   "property": "C68",
   "status": "partial",
   "theorems": [
    "Verif.Dec.lc_exact",
    "Verif.Dec.lc_slack_partial",
    "Verif.Dec.lcErase_eq",
    "Verif.Dec.lc_undefined",
    "Verif.Dec.atSide_iff",
    "Verif.Dec.lc_removes_other"
   ],
   "note": "Exact result for all collections; the claim holds for an empty one and fails otherwise (witness: indices are not shifted)."
  },
  {
   "property": "C69",
   "status": "proved",
   "theorems": [
    "Verif.Dec.hyb_sound",
    "Verif.Dec.hybInt_iff",
    "Verif.Dec.hyb_exact"
   ],
   "note": "Relative to truthful answers of the NLP solver and valid outer approximation."
  },
  {
   "property": "C70",
   "status": "partial",
   "theorems": [
    "Verif.Bab.Options.bbb_heuristics_partial",
    "Verif.Bab.Options.fpump_request_ignored",
    "Verif.Bab.Options.init_varSel",
    "Verif.Bab.Options.init_params_bonmin_partial",
    "Verif.Bab.Options.init_params_other",
    "Verif.Bab.Options.most_fractional_sub_solver_strong_branches"
   ],
   "note": "Exact lists and parameters for all options; refuted for the feasibility pump on problems with general integers and for most fractional branching in sub-solvers.  Ipopt's OptionsList is modelled by its documented behaviour."
  },
  {
   "property": "C71",
   "status": "partial",
   "theorems": [
    "Verif.Bab.Options.hyb_gens_partial",
    "Verif.Bab.Options.oa_preset_loses_to_prefixed_value",
    "Verif.Bab.Options.preset_effect",
    "Verif.Bab.Options.regDefault_iff"
   ],
   "note": "Exact list unless the user locked a preset option; for B-OA a value under bonmin.nlp_solve_frequency defeats the preset (refuted)."
  },
  {
   "property": "C72",
   "status": "proved",
   "theorems": [
    "Verif.Bab.Options.hyb_check_last",
    "Verif.Bab.Options.hyb_heuristics",
    "Verif.Bab.Options.locked_value_survives"
   ],
   "note": ""
  },
  {
   "property": "C73",
   "status": "partial",
   "theorems": [
    "Verif.Bab.Objects.cbc_objects",
    "Verif.Bab.Objects.mem_intCols",
    "Verif.Bab.Objects.intCols_sorted",
    "Verif.Bab.Objects.bb_osi_objects_partial",
    "Verif.Bab.Objects.bb_osi_pseudocosts_throw",
    "Verif.Bab.Objects.pseudocosts_silently_ignored",
    "Verif.Bab.Objects.hyb_osi_objects",
    "Verif.Bab.Objects.hyb_loses_priorities_and_sets",
    "Verif.Bab.Objects.hasPriorities_iff",
    "Verif.Bab.Objects.usesOsi_iff"
   ],
   "note": "Exact for Cbc's own rules and, without pseudo-costs, for branch-and-bound; pseudo-costs given alone are silently ignored and osi rules in outer approximation lose priorities and sets (refuted)."
  },
  {
   "property": "C74",
   "status": "partial",
   "theorems": [
    "Verif.Bab.Copies.copy_partial",
    "Verif.Bab.Copies.copies_have_no_heuristics",
    "Verif.Bab.Copies.copy_shares_objects",
    "Verif.Bab.Copies.copy_uninitialised_crashes",
    "Verif.Bab.Copies.copyWith_bb_partial",
    "Verif.Bab.Copies.copyWith_outer_approximation_crashes",
    "Verif.Bab.Copies.copy_of_copy_crashes",
    "Verif.Bab.Copies.interface_setup_copies_wrongly",
    "Verif.Bab.Copies.cloneAll_next",
    "Verif.Bab.Copies.copyWith_fresh"
   ],
   "note": "Holds without heuristics and extra objects; otherwise heuristics are lost, objects are shared and several kinds of copies use a null pointer (refuted)."
  },
  {
   "property": "C75",
   "status": "partial",
   "theorems": [
    "Verif.Div.newSolution_mode",
    "Verif.Div.every1000_mode",
    "Verif.Div.callbacks_keep_nodes",
    "Verif.Div.mode_advances",
    "Verif.Div.limit_absorbing",
    "Verif.Div.test_partial",
    "Verif.Div.clean_partial",
    "Verif.Div.clean_throws_while_enlarging",
    "Verif.Div.cmp_copy_partial",
    "Verif.Div.cmp_copy_default_crashes",
    "Verif.Div.cmp_default",
    "Verif.Div.rank_inj"
   ],
   "note": "Everything except: cleaning the tree in the initial mode with two nodes throws, and copying a default-constructed comparison uses null pointers (refuted)."
  },
  {
   "property": "C76",
   "status": "proved",
   "theorems": [
    "Verif.Div.guess_exact",
    "Verif.Div.guess_ge_objective"
   ],
   "note": ""
  },
  {
   "property": "C77",
   "status": "proved",
   "theorems": [
    "Verif.Ampl.types_exact",
    "Verif.Ampl.types_integral",
    "Verif.Ampl.linearity_exact",
    "Verif.Ampl.linear_objective_iff"
   ],
   "note": "Relative to AMPL's documented order of the variables and meaning of its counts."
  },
  {
   "property": "C78",
   "status": "proved",
   "theorems": [
    "Verif.Ampl.priorities_exact",
    "Verif.Ampl.priority_order",
    "Verif.Ampl.onoff_exact",
    "Verif.Ampl.onoff_stop_iff",
    "Verif.Ampl.sosTypes_exact",
    "Verif.Ampl.onoff_none_iff"
   ],
   "note": "For priorities whose negation fits into an int; with the default suffix handler."
  },
  {
   "property": "C79",
   "status": "partial",
   "theorems": [
    "Verif.Ampl.result_code",
    "Verif.Ampl.code_injective",
    "Verif.Ampl.code_class",
    "Verif.Ampl.finalize_exact",
    "Verif.Ampl.finish_ampl_partial",
    "Verif.Ampl.ampl_code_solution",
    "Verif.Ampl.finish_ampl_undefined_iff",
    "Verif.Ampl.unsolved_reported",
    "Verif.Ampl.file_solution_null",
    "Verif.Ampl.interrupt_code_undocumented"
   ],
   "note": "Codes and solution exact; with file_solution a run without a solution reads a NULL pointer, and the codes after a user interrupt differ from the documentation (refuted)."
  },
  {
   "property": "C80",
   "status": "partial",
   "theorems": [
    "Verif.Ampl.linearPart_exact",
    "Verif.Ampl.linearPart_undefined_iff",
    "Verif.Ampl.linearPart_correct_iff",
    "Verif.Ampl.linearPart_overrun",
    "Verif.Ampl.linearPart_loses"
   ],
   "note": "Right exactly when the constraints or the objective are linear; otherwise entries are lost or memory behind the array is written (witnesses)."
  },
  {
   "property": "C81",
   "status": "partial",
   "theorems": [
    "Verif.Ampl.upperObj_exact",
    "Verif.Ampl.activeObj_exact",
    "Verif.Ampl.objectives_partial",
    "Verif.Ampl.both_objectives_marked",
    "Verif.Ampl.concave_constraints",
    "Verif.Ampl.convexities_partial",
    "Verif.Ampl.convexities_stop_iff",
    "Verif.Ampl.unknown_id_taken",
    "Verif.Ampl.duplicate_id_taken",
    "Verif.Ampl.direction_partial",
    "Verif.Ampl.direction_misread",
    "Verif.Ampl.foreign_handler_undefined",
    "Verif.Ampl.upperObj_none",
    "Verif.Ampl.convexities_none_iff"
   ],
   "note": "Holds for one marked objective and unique known ids; several marked objectives, unknown or duplicate ids, directions and a foreign suffix handler are refuted."
  },
  {
   "property": "C82",
   "status": "partial",
   "theorems": [
    "Verif.Slv.Filter.status_exact",
    "Verif.Slv.Filter.status_agree",
    "Verif.Slv.Filter.unbounded_never",
    "Verif.Slv.Filter.truthful_iff_partial",
    "Verif.Slv.Filter.objective_exact",
    "Verif.Slv.Filter.unbounded_is_infeasible",
    "Verif.Slv.Filter.fresh_sizes"
   ],
   "note": "Truthful for every code except 1: an unbounded problem is reported infeasible (case without break)."
  },
  {
   "property": "C83",
   "status": "partial",
   "theorems": [
    "Verif.Slv.Filter.optimize_cold",
    "Verif.Slv.Filter.optimize_warm",
    "Verif.Slv.Filter.reoptimize_exact",
    "Verif.Slv.Filter.reoptimize_defined_iff",
    "Verif.Slv.Filter.reoptimize_warm",
    "Verif.Slv.Filter.solves_right_problem",
    "Verif.Slv.Filter.setWarm_exact",
    "Verif.Slv.Filter.reoptimize_tolerance_partial",
    "Verif.Slv.Filter.rho_init_ignored",
    "Verif.Slv.Filter.reoptimize_foreign_tolerance",
    "Verif.Slv.Filter.null_keeps_warm",
    "Verif.Slv.Filter.null_warm_used",
    "Verif.Slv.Filter.clone_reoptimize",
    "Verif.Slv.Filter.resized_reoptimize",
    "Verif.Slv.Filter.warm_globals"
   ],
   "note": "The exact call of filterSQP for every history; problem and warm start are right; the option rho_init, tolerances in ReOptimize and setWarmStart(NULL) are refuted."
  },
  {
   "property": "C84",
   "status": "partial",
   "theorems": [
    "Verif.Slv.Filter.resolve_drops_warm",
    "Verif.Slv.Filter.resolve_ignores_warm",
    "Verif.Slv.Filter.resolve_warm_partial"
   ],
   "note": "Refuted after a solve that left no usable cache; holds when the warm start reaches the cache."
  },
  {
   "property": "C85",
   "status": "partial",
   "theorems": [
    "Verif.Slv.Filter.multipliers_exact",
    "Verif.Slv.Filter.multipliers_complementary",
    "Verif.Slv.Filter.multipliers_stationary_partial",
    "Verif.Slv.Filter.multiplier_lost"
   ],
   "note": "Exact and complementary; stationarity is kept unless a multiplier has the sign of a side the variable does not have (witness)."
  },
  {
   "property": "C86",
   "status": "partial",
   "theorems": [
    "Verif.Slv.Bqpd.candidates_independent",
    "Verif.Slv.Bqpd.bad_then_cold",
    "Verif.Slv.Bqpd.code8_remembered",
    "Verif.Slv.Bqpd.qp_workspace",
    "Verif.Slv.Bqpd.qp_fuel",
    "Verif.Slv.Bqpd.reoptimize_bounds",
    "Verif.Slv.Bqpd.optimize_given_partial",
    "Verif.Slv.Bqpd.flag_after",
    "Verif.Slv.Bqpd.sbMark_exact",
    "Verif.Slv.Bqpd.bump_spec",
    "Verif.Slv.Bqpd.clip_points",
    "Verif.Slv.Bqpd.qp_status_exact",
    "Verif.Slv.Bqpd.qp_unbounded_is_infeasible",
    "Verif.Slv.Bqpd.candidate_unbounded_closed",
    "Verif.Slv.Bqpd.stale_problem_solved",
    "Verif.Slv.Bqpd.first_solve_exact",
    "Verif.Slv.Bqpd.retry_cold_exact",
    "Verif.Slv.Bqpd.retry_hot_exact",
    "Verif.Slv.Bqpd.no_retry_exact",
    "Verif.Slv.Bqpd.sbSolve_first"
   ],
   "note": "Independence for all sequences of candidates with default reinit_freq and no failure codes 7 and 8; refuted: unbounded QPs are reported infeasible, and after a failed hot start the old problem may be solved again.  bqpd is an oracle."
  },
  {
   "property": "C87",
   "status": "partial",
   "theorems": [
    "Verif.Branch.Curv.estimate_exact",
    "Verif.Branch.Curv.solveSystem_projects",
    "Verif.Branch.Curv.proj_unique",
    "Verif.Branch.Curv.proj_neg",
    "Verif.Branch.Curv.curvature_exact",
    "Verif.Branch.Curv.jacTd_exact",
    "Verif.Branch.Curv.number_exact",
    "Verif.Branch.Curv.xMark_exact",
    "Verif.Branch.Curv.gMark_exact",
    "Verif.Branch.Curv.direction_reversed",
    "Verif.Branch.Curv.direction_used",
    "Verif.Branch.Curv.activeG_exact",
    "Verif.Branch.Curv.activeX_exact",
    "Verif.Branch.Curv.largest_spec",
    "Verif.Branch.Curv.residuals_exact",
    "Verif.Branch.Curv.values_current",
    "Verif.Branch.Curv.accepted_partial",
    "Verif.Branch.Curv.estimate_defined_partial",
    "Verif.Branch.Curv.active_constraints_reversed",
    "Verif.Branch.Curv.push_ignored",
    "Verif.Branch.Curv.no_constraints_undefined",
    "Verif.Branch.Curv.bad_solution_accepted",
    "Verif.Branch.Curv.lambda_flag_wrong"
   ],
   "note": "The estimate is characterised exactly as a projection; refuted: the active constraints chosen are those the step moves away from, problems without constraints read out of bounds, negative residuals are accepted.  The linear solver is a parameter with hypothesis Solves."
  },
  {
   "property": "C88",
   "status": "partial",
   "theorems": [
    "Verif.Itf.Tn.copy_view",
    "Verif.Itf.Tn.copy_defined",
    "Verif.Itf.Tn.copy_plain",
    "Verif.Itf.Tn.copy_history_partial",
    "Verif.Itf.Tn.assign_partial",
    "Verif.Itf.Tn.cuts_keep_start_partial",
    "Verif.Itf.Tn.eval_exact",
    "Verif.Itf.Tn.lin_copy_partial",
    "Verif.Itf.Tn.copy_after_cut_undefined",
    "Verif.Itf.Tn.copy_after_reset_undefined",
    "Verif.Itf.Tn.assign_keeps_old",
    "Verif.Itf.Tn.assign_size_undefined",
    "Verif.Itf.Tn.cuts_zero_start",
    "Verif.Itf.Tn.lin_copy_undefined",
    "Verif.Itf.Tn.unequal_sizes_assert"
   ],
   "note": "Proved where copies are defined and for histories without cuts; refuted: copies after a solve with cuts added later or after a reset, assignment of unsolved or differently sized problems, starting point lost when cuts are added, linear objective constant not copied."
  },
  {
   "property": "C89",
   "status": "partial",
   "theorems": [
    "Verif.Itf.Copies.copy_view",
    "Verif.Itf.Copies.copy_defined",
    "Verif.Itf.Copies.status_after_solve",
    "Verif.Itf.Copies.copy_counters",
    "Verif.Itf.Copies.clone_empty",
    "Verif.Itf.Copies.target_coherent",
    "Verif.Itf.Copies.new_coherent",
    "Verif.Itf.Copies.assign_transfers",
    "Verif.Itf.Copies.assign_coherent_partial",
    "Verif.Itf.Copies.copy_outer",
    "Verif.Itf.Copies.outer_reinit",
    "Verif.Itf.Copies.copy_status_lost",
    "Verif.Itf.Copies.copy_retries_again",
    "Verif.Itf.Copies.copy_linearizer_lost",
    "Verif.Itf.Copies.assign_problem",
    "Verif.Itf.Copies.assign_solution_lost",
    "Verif.Itf.Copies.assign_incoherent",
    "Verif.Itf.Copies.assign_empty_stale",
    "Verif.Itf.Copies.assign_copy_throws",
    "Verif.Itf.Copies.assign_outer_overflow",
    "Verif.Itf.Copies.clone_empty_settings",
    "Verif.Itf.Copies.set_model_resets",
    "Verif.Itf.Copies.solve_counts",
    "Verif.Itf.Copies.assignJac_exact"
   ],
   "note": "Copies answer every query except the status; assignment loses bounds and solution and can throw or overrun arrays (refuted with witnesses)."
  },
  {
   "property": "C90",
   "status": "partial",
   "theorems": [
    "Verif.Itf.Params.read_defined",
    "Verif.Itf.Params.read_exact",
    "Verif.Itf.Params.read_idem",
    "Verif.Itf.Params.settings_kept",
    "Verif.Itf.Params.strengthener_partial",
    "Verif.Itf.Params.mean_partial",
    "Verif.Itf.Params.var_partial",
    "Verif.Itf.Params.positive_mean_partial",
    "Verif.Itf.Params.dynamic_ignored",
    "Verif.Itf.Params.decrement_never_computed",
    "Verif.Itf.Params.strengthener_stays",
    "Verif.Itf.Params.filter_default_leaks",
    "Verif.Itf.Params.resolve_ignores_eps",
    "Verif.Itf.Params.mean_counts_unsolved",
    "Verif.Itf.Params.variance_skips_zero",
    "Verif.Itf.Params.negative_mean",
    "Verif.Itf.Params.threshold_unused",
    "Verif.Itf.Params.all_failed_nan",
    "Verif.Itf.Params.abandoned_iff",
    "Verif.Itf.Params.root_done_exact",
    "Verif.Itf.Params.option_set_exact"
   ],
   "note": "Reading is characterised exactly; refuted: the options of the dynamic cutoff decrement have no effect, cut strengthening cannot be switched off again, the filterSQP default leaks to other solvers, resolve ignores the threshold, and the statistics of the dormant decrement are wrong."
  },
  {
   "property": "C91",
   "status": "partial",
   "theorems": [
    "Verif.Slv.Starts.warm_start_used",
    "Verif.Slv.Starts.initial_gives_ws",
    "Verif.Slv.Starts.resolve_gives_ws",
    "Verif.Slv.Starts.root_start_kept_partial",
    "Verif.Slv.Starts.nodes_start_partial",
    "Verif.Slv.Starts.first_start",
    "Verif.Slv.Starts.recovered_then_refused",
    "Verif.Slv.Starts.node_retry_moves_start",
    "Verif.Slv.Starts.point_lost_after_failure",
    "Verif.Slv.Starts.empty_warm_start_counts",
    "Verif.Slv.Starts.reset_keeps_multipliers",
    "Verif.Slv.Starts.best_of_retries",
    "Verif.Slv.Starts.retries_random",
    "Verif.Slv.Starts.recovered_exact",
    "Verif.Slv.Starts.not_recovered",
    "Verif.Slv.Starts.resolve_solves",
    "Verif.Slv.Starts.initial_solves",
    "Verif.Slv.Starts.root_retries_restore",
    "Verif.Slv.Starts.optimum_retries",
    "Verif.Slv.Starts.interior_retries",
    "Verif.Slv.Starts.reset_user_point",
    "Verif.Slv.Starts.empty_warm_start_off",
    "Verif.Slv.Starts.small_solves_again"
   ],
   "note": "Warm start modes hold; without warm starts the start is kept if there are no retries for better optima at the nodes and multipliers were given. Refuted: a recovered failure leaves the solver asking for multipliers that do not exist, retries move the start of later nodes, a point without multipliers is lost after a failure, an empty warm start counts as one, and forgetting a point keeps the note about multipliers."
  },
  {
   "property": "C92",
   "status": "partial",
   "theorems": [
    "Verif.Slv.Interior.carry_partial",
    "Verif.Slv.Interior.carry_x",
    "Verif.Slv.Interior.carry_same",
    "Verif.Slv.Interior.store_several",
    "Verif.Slv.Interior.store_single",
    "Verif.Slv.Interior.wanted_first_of_five",
    "Verif.Slv.Interior.fixed_unbounded_shifts",
    "Verif.Slv.Interior.fixed_unbounded_reads_past",
    "Verif.Slv.Interior.new_bound_misaligns",
    "Verif.Slv.Interior.not_fourth_latest"
   ],
   "note": "Proved when variables that become fixed had two finite bounds and the others keep their finite bounds; values of variables are always right. Refuted: fixing a variable with an infinite bound shifts the multipliers or reads past the end, a new finite bound does too, and the iterate taken is the fifth latest."
  },
  {
   "property": "C93",
   "status": "partial",
   "theorems": [
    "Verif.Slv.Diff.named_partial",
    "Verif.Slv.Diff.name_found",
    "Verif.Slv.Diff.name_outside",
    "Verif.Slv.Diff.bounds_round_trip_partial",
    "Verif.Slv.Diff.bounds_round_trip_exact_partial",
    "Verif.Slv.Diff.labels_nodup_iff",
    "Verif.Slv.Diff.start_round_trip_partial",
    "Verif.Slv.Diff.names_wrong",
    "Verif.Slv.Diff.tree_failure_succeeded",
    "Verif.Slv.Diff.strong_failure_acceptable",
    "Verif.Slv.Diff.bounds_file_unreadable",
    "Verif.Slv.Diff.labels_clash",
    "Verif.Slv.Diff.start_without_multipliers",
    "Verif.Slv.Diff.start_wrong_size",
    "Verif.Slv.Diff.same_iff",
    "Verif.Slv.Diff.small_change_lost",
    "Verif.Slv.Diff.start_read_exact",
    "Verif.Slv.Diff.lines_plain"
   ],
   "note": "Refuted: a feasible point is reported as an iteration limit, a time limit has no name, failures in the tree are named \"Solve succeeded\", no bounds file written can be read by Bonmin's reader, both bounds of a variable get the same constraint name, and a start without multipliers cannot be read back. The round trips hold once the last line end is removed, with multipliers present."
  },
  {
   "property": "C94",
   "status": "partial",
   "theorems": [
    "Verif.Bab.AltObj.returned_partial",
    "Verif.Bab.AltObj.recorded_partial",
    "Verif.Bab.AltObj.second_search",
    "Verif.Bab.AltObj.search_defined_iff",
    "Verif.Bab.AltObj.start_empty",
    "Verif.Bab.AltObj.unused",
    "Verif.Bab.AltObj.counts_iff",
    "Verif.Bab.AltObj.stale_point",
    "Verif.Bab.AltObj.early_copy_lost",
    "Verif.Bab.AltObj.no_objects_ignored",
    "Verif.Bab.AltObj.sets_ignored",
    "Verif.Bab.AltObj.failed_value_read",
    "Verif.Bab.AltObj.absent_undefined",
    "Verif.Bab.AltObj.read_exact"
   ],
   "note": "Proved for the first search on a setup, with branching objects, for copies made after the search started. Refuted: a second search on the same setup that finds nothing returns the point of the first one as optimal, copies made before the search do not take part, without branching objects the function is ignored, special ordered sets are not checked when the interface has no objects, and a failed evaluation reads an unset value."
  },
  {
   "property": "C95",
   "status": "partial",
   "theorems": [
    "Verif.Bab.AuxNlp.values_partial",
    "Verif.Bab.AuxNlp.arrays_owned",
    "Verif.Bab.AuxNlp.not_available",
    "Verif.Bab.AuxNlp.left_over",
    "Verif.Bab.AuxNlp.empty_solution_copy",
    "Verif.Bab.AuxNlp.assigned_twice_freed"
   ],
   "note": "Proved for all sequences without assignment, where the flag setHasNlpSolution is part of what is passed. Refuted: passing a solution does not set the flag, a shorter solution leaves old entries behind, an object with an empty solution cannot be copied when assertions are on, and the generated assignment operator shares the array."
  },
  {
   "property": "C96",
   "status": "partial",
   "theorems": [
    "Verif.Slv.Names.stub_replaced",
    "Verif.Slv.Names.stub_kept",
    "Verif.Slv.Names.read_release",
    "Verif.Slv.Names.read_long_partial",
    "Verif.Slv.Names.missing",
    "Verif.Slv.Names.short_stub_missed",
    "Verif.Slv.Names.short_names_undefined",
    "Verif.Slv.Names.names_not_used",
    "Verif.Slv.Names.unknown_is_first",
    "Verif.Slv.Names.duplicate_aborts",
    "Verif.Slv.Names.second_file",
    "Verif.Slv.Names.unknown_entered"
   ],
   "note": "Proved for long stubs and for names too long for the small string optimisation (whose memory does not move). Refuted: a four character stub keeps its extension, keys of short names dangle after the array grows, an unknown name gets index 0, a duplicate name aborts when assertions are on, a second file keeps the names of the first, and the interface never gets the names because the copy goes in the wrong direction."
  },
  {
   "property": "C97",
   "status": "partial",
   "theorems": [
    "Verif.Ampl.SolFile.round_trip_partial",
    "Verif.Ampl.SolFile.debug_point_partial",
    "Verif.Ampl.SolFile.multipliers_read",
    "Verif.Ampl.SolFile.limit_solution_lost",
    "Verif.Ampl.SolFile.missing_file_zero",
    "Verif.Ampl.SolFile.fewer_values",
    "Verif.Ampl.SolFile.unbounded_aborts",
    "Verif.Ampl.SolFile.cut_off_undefined",
    "Verif.Ampl.SolFile.short_file",
    "Verif.Ampl.SolFile.longer_before",
    "Verif.Ampl.SolFile.no_file",
    "Verif.Ampl.SolFile.count_undefined",
    "Verif.Ampl.SolFile.count_word",
    "Verif.Ampl.SolFile.point_defined_iff"
   ],
   "note": "Proved for runs that ended with an optimal solution. Refuted: solutions of interrupted runs are replaced by zero because their message has several words, multipliers in the file are read as values, a missing file is not noticed, a shorter solution is read behind its end, the message for unbounded problems fails an assertion and a file cut off leaves a number unset."
  },
  {
   "property": "C98",
   "status": "partial",
   "theorems": [
    "Verif.Dec.MilpChoice.setup_partial",
    "Verif.Dec.MilpChoice.setup_throws_iff",
    "Verif.Dec.MilpChoice.gens_exact",
    "Verif.Dec.MilpChoice.gens_once",
    "Verif.Dec.MilpChoice.gens_idem",
    "Verif.Dec.MilpChoice.default_solver",
    "Verif.Dec.MilpChoice.cplex_solver",
    "Verif.Dec.MilpChoice.par_solver_partial",
    "Verif.Dec.MilpChoice.cbc_par_throws",
    "Verif.Dec.MilpChoice.defaults_ignored",
    "Verif.Dec.MilpChoice.others_ignored",
    "Verif.Dec.MilpChoice.hundred_installs",
    "Verif.Dec.MilpChoice.cut_defaults",
    "Verif.Dec.MilpChoice.registered_iff"
   ],
   "note": "Proved for Cbc_D and Cplex, for the generators installed from given frequencies, and for Cbc_Par under the assumption that all options read are registered. Refuted: Cbc_Par always ends with an exception because probing_cuts is not registered; the defaults of options not set are replaced by -99, three families are ignored, and frequency 100 (documented as off) installs the generator."
  },
  {
   "property": "C99",
   "status": "partial",
   "theorems": [
    "Verif.Itf.RegOpts.valid_refines",
    "Verif.Itf.RegOpts.run_defined_iff",
    "Verif.Itf.RegOpts.declare_partial",
    "Verif.Itf.RegOpts.table_lines",
    "Verif.Itf.RegOpts.table_headers",
    "Verif.Itf.RegOpts.table_sorted",
    "Verif.Itf.RegOpts.ampl_names",
    "Verif.Itf.RegOpts.opt_file_partial",
    "Verif.Itf.RegOpts.declaring_removes",
    "Verif.Itf.RegOpts.category_shared",
    "Verif.Itf.RegOpts.doc_leaves_out",
    "Verif.Itf.RegOpts.int_min_changed",
    "Verif.Itf.RegOpts.dbl_max_changed",
    "Verif.Itf.RegOpts.empty_default_shifts",
    "Verif.Itf.RegOpts.valid_defined_iff",
    "Verif.Itf.RegOpts.num_written",
    "Verif.Itf.RegOpts.int_written"
   ],
   "note": "Proved: the tables, the list for AMPL, the exact meaning of the declarations, the round trip for defaults that six digits and one word can express. Refuted: the first declaration for one algorithm makes an option invalid for all others, the kind of a category is shared by all registrations, one category is missing in the printed documentation, and the defaults INT_MIN, DBL_MAX and the empty string are not written so that they can be read."
  },
  {
   "property": "C100",
   "status": "partial",
   "theorems": [
    "Verif.Dec.SubMipCpx.optimize_partial",
    "Verif.Dec.SubMipCpx.find_good_partial",
    "Verif.Dec.SubMipCpx.lazy_partial",
    "Verif.Dec.SubMipCpx.lp_owned_partial",
    "Verif.Dec.SubMipCpx.unbounded_stale",
    "Verif.Dec.SubMipCpx.inf_or_unbd_infeasible",
    "Verif.Dec.SubMipCpx.nodes_doubled",
    "Verif.Dec.SubMipCpx.called_again",
    "Verif.Dec.SubMipCpx.equality_lost",
    "Verif.Dec.SubMipCpx.other_rows_deleted",
    "Verif.Dec.SubMipCpx.assigned_freed_twice",
    "Verif.Dec.SubMipCpx.free_exact"
   ],
   "note": "Proved for problems CPLEX does not find unbounded, cuts with one side that are the last rows, and sequences without assignment. Refuted: with an unbounded problem stale or unset values are reported as solution, infeasible-or-unbounded counts as infeasible, find_good_sol doubles the number of nodes and calls again although it has a solution, equality cuts lose a side for good, other rows are deleted if the cuts are not last, and the generated assignment frees twice."
  },
  {
   "property": "C101",
   "status": "partial",
   "theorems": [
    "Verif.Itf.Rows.answers_partial",
    "Verif.Itf.Rows.conv_describes",
    "Verif.Itf.Rows.sense_iff",
    "Verif.Itf.Rows.step_exact",
    "Verif.Itf.Rows.undefined_iff",
    "Verif.Itf.Rows.run_holds",
    "Verif.Itf.Rows.thrown_iff",
    "Verif.Itf.Rows.keep_spec",
    "Verif.Itf.Rows.replaced_stale",
    "Verif.Itf.Rows.new_model_too_short",
    "Verif.Itf.Rows.single_cut_stale",
    "Verif.Itf.Rows.quadratic_dropped",
    "Verif.Itf.Rows.new_model_exact"
   ],
   "note": "Proved for all histories in which the problem is not replaced and cuts are added by the public calls; the exact state of the cache for all others. Refuted: setModel and use keep the arrays of the old problem, which may be too short; the protected applyRowCut keeps them too; quadratic cuts given to a problem without support for cuts are dropped without exception."
  },
  {
   "property": "C102",
   "status": "proved",
   "theorems": [
    "Verif.Itf.VarTypes.last_write",
    "Verif.Itf.VarTypes.step_defined_iff",
    "Verif.Itf.VarTypes.queries_agree",
    "Verif.Itf.VarTypes.queries_iff",
    "Verif.Itf.VarTypes.set_type_query"
   ],
   "note": "Proved as stated; a call with an index out of range or an array too short is undefined, exactly then."
  },
  {
   "property": "C103",
   "status": "partial",
   "theorems": [
    "Verif.Itf.VarTypes.free_binary_partial",
    "Verif.Itf.VarTypes.free_binary_binary",
    "Verif.Itf.VarTypes.half_not_free",
    "Verif.Itf.VarTypes.binary_lost"
   ],
   "note": "Proved for bounds 0 and 1. Refuted: a binary variable with bounds 0 and 1/2 is neither free nor fixed; relaxing and declaring integer, or declaring integer once more, makes a binary variable a general integer."
  },
  {
   "property": "C104",
   "status": "partial",
   "theorems": [
    "Verif.Itf.OsiParams.values_exact",
    "Verif.Itf.OsiParams.accepted_iff",
    "Verif.Itf.OsiParams.accepted_returned_partial",
    "Verif.Itf.OsiParams.int_params",
    "Verif.Itf.OsiParams.primal_tolerance_not_kept",
    "Verif.Itf.OsiParams.tol_ignored"
   ],
   "note": "Proved for all keys but the primal tolerance, with the exact value of every key after any settings. Refuted: the primal tolerance is accepted and never returned, nor is the option tol."
  },
  {
   "property": "C105",
   "status": "partial",
   "theorems": [
    "Verif.Itf.SolQueries.set_get_col",
    "Verif.Itf.SolQueries.set_col_then",
    "Verif.Itf.SolQueries.solve_exact",
    "Verif.Itf.SolQueries.solution_stays",
    "Verif.Itf.SolQueries.cuts_multipliers",
    "Verif.Itf.SolQueries.cuts_start_partial",
    "Verif.Itf.SolQueries.activity_iff",
    "Verif.Itf.SolQueries.new_problem_no_solution",
    "Verif.Itf.SolQueries.bound_hides_solution",
    "Verif.Itf.SolQueries.price_of_bound",
    "Verif.Itf.SolQueries.price_reads_past",
    "Verif.Itf.SolQueries.start_moved",
    "Verif.Itf.SolQueries.removed_multiplier",
    "Verif.Itf.SolQueries.activity_too_short",
    "Verif.Itf.SolQueries.reset_dangles",
    "Verif.Itf.SolQueries.set_get_price",
    "Verif.Itf.SolQueries.no_price"
   ],
   "note": "Proved: points given and computed, multipliers of other rows when cuts are added. Refuted: a new problem has no point, a change of bounds hides the solution, prices start with multipliers of bounds and need more entries than documented, multipliers or cuts move the starting point to 0, removed rows leave their multipliers to others, activities are too few after adding cuts, a reset leaves a dangling pointer."
  },
  {
   "property": "C106",
   "status": "partial",
   "theorems": [
    "Verif.Itf.SolQueries.row_status",
    "Verif.Itf.SolQueries.basis_defined",
    "Verif.Itf.SolQueries.basis_iff_inactive",
    "Verif.Itf.SolQueries.equality_not_free",
    "Verif.Itf.SolQueries.sides_not_told_apart",
    "Verif.Itf.SolQueries.no_basis"
   ],
   "note": "Proved: the exact status of each row, when it is defined, and that it is a basis exactly if no row is active. Refuted: equality rows are never free, the two bounds are not told apart, with an active row it is no basis."
  },
  {
   "property": "C107",
   "status": "partial",
   "theorems": [
    "Verif.Bab.Launch.new_matches_partial",
    "Verif.Bab.Launch.reused_matches_iff",
    "Verif.Bab.Launch.configure_exact",
    "Verif.Bab.Launch.generators_twice",
    "Verif.Bab.Launch.still_dives",
    "Verif.Bab.Launch.comparison_exact"
   ],
   "note": "Proved for a new Bab; for one used before, exactly when it still holds. Refuted: generators and heuristics are added again in each run, and a run with top-node after one with diving still dives."
  },
  {
   "property": "C108",
   "status": "partial",
   "theorems": [
    "Verif.Bab.Launch.time_partial",
    "Verif.Bab.Launch.ends_ok_iff",
    "Verif.Bab.Launch.signal_iff",
    "Verif.Bab.Launch.later_runs_lost",
    "Verif.Bab.Launch.error_leaves_optimal",
    "Verif.Bab.Launch.signal_after_end"
   ],
   "note": "Proved: time and status without signals and errors, exactly when a run ends normally, exactly what a signal does. Refuted: after one signal all later runs of the process make no search and have status FeasibleOptimal without solution; after an error the status is FeasibleOptimal too; once the Bab is gone a signal uses it still."
  },
  {
   "property": "C109",
   "status": "partial",
   "theorems": [
    "Verif.Bab.Launch.objects_partial",
    "Verif.Bab.Launch.objects_throw_iff",
    "Verif.Bab.Launch.convert_spec",
    "Verif.Bab.Launch.exception_then_undefined"
   ],
   "note": "Proved: the objects given, and the exception exactly if one is not supported. Refuted: after the exception the array has entries never set, and destroying the Bab is undefined."
  },
  {
   "property": "C110",
   "status": "partial",
   "theorems": [
    "Verif.Quad.Cut.violated_value_partial",
    "Verif.Quad.Cut.violated_defined_iff",
    "Verif.Quad.Cut.satisfied_iff",
    "Verif.Quad.Cut.row_agrees",
    "Verif.Quad.Cut.full_counts_twice",
    "Verif.Quad.Cut.constant_disagrees"
   ],
   "note": "Proved for matrices stored as upper triangle and cuts without constant. Refuted: with a full matrix off-diagonal terms count twice; with a constant the row built from the cut has another value."
  },
  {
   "property": "C111",
   "status": "partial",
   "theorems": [
    "Verif.Quad.Cut.step_refines",
    "Verif.Quad.Cut.collections_partial",
    "Verif.Quad.Cut.collections_sound",
    "Verif.Quad.Cut.all_destroyed",
    "Verif.Quad.Cut.delete_defined_iff",
    "Verif.Quad.Cut.self_insert_never"
   ],
   "note": "Proved for all sequences without insertion of a collection into itself, by refinement to collections of values. Refuted: Cuts::insert of a collection into itself never ends."
  },
  {
   "property": "C112",
   "status": "partial",
   "theorems": [
    "Verif.Oa.ObjRow.linear_value",
    "Verif.Oa.ObjRow.nonlinear_relaxes_partial",
    "Verif.Oa.ObjRow.objRow_exact",
    "Verif.Oa.ObjRow.row_tight",
    "Verif.Oa.ObjRow.defined_iff",
    "Verif.Oa.ObjRow.unconstrained_cuts_off",
    "Verif.Oa.ObjRow.failure_at_zero"
   ],
   "note": "Proved up to coefficients removed silently and the lower side -1e300. Refuted: in problems without rows coefficients below 1e-8 are removed and the row cuts off feasible points; a failed evaluation is not noticed."
  },
  {
   "property": "C113",
   "status": "partial",
   "theorems": [
    "Verif.Heur.LocalSearch.made_exact",
    "Verif.Heur.LocalSearch.change_said",
    "Verif.Heur.LocalSearch.user_prevails",
    "Verif.Heur.LocalSearch.others_unchanged",
    "Verif.Heur.LocalSearch.twice",
    "Verif.Heur.LocalSearch.default_limits",
    "Verif.Heur.LocalSearch.main_limit_ignored",
    "Verif.Heur.LocalSearch.pump_runs_bb",
    "Verif.Heur.LocalSearch.rins_without_limits",
    "Verif.Heur.LocalSearch.pump_index"
   ],
   "note": "Proved, for every prefix and option, what the options are afterwards. Refuted for RINS: it searches with a prefix without defaults, so without limits. Noted: limits given for the main search with its prefix do not hold for the local searches, and an algorithm given without prefix turns the pump into that algorithm."
  },
  {
   "property": "C114",
   "status": "partial",
   "theorems": [
    "Verif.Heur.LocalSearch.pump_found_iff",
    "Verif.Heur.LocalSearch.pump_sound",
    "Verif.Heur.LocalSearch.dummy_found_iff",
    "Verif.Heur.LocalSearch.dummy_wrong_value",
    "Verif.Heur.LocalSearch.dummy_wrong_cutoff"
   ],
   "note": "Proved for PumpForMinlp; exact result of DummyPump. Refuted: DummyPump returns the distance instead of the objective and applies the cutoff to the distance."
  },
  {
   "property": "C115",
   "status": "partial",
   "theorems": [
    "Verif.Heur.LocalSearch.balanced_iff",
    "Verif.Heur.LocalSearch.balanced_partial",
    "Verif.Heur.LocalSearch.search_live",
    "Verif.Heur.LocalSearch.deletes_twice",
    "Verif.Heur.LocalSearch.leaks_without_search",
    "Verif.Heur.LocalSearch.objects_gone"
   ],
   "note": "Proved exactly when a call is balanced (RINS with enough variables fixed, local branching, pump; no objects in the setup). Refuted: fix-and-solve and the dummy pump delete the solver twice, RINS and fix-and-solve leave it behind when they do not search, and a search deletes the objects of the setup."
  },
  {
   "property": "C116",
   "status": "partial",
   "theorems": [
    "Verif.Bab.Params.gather_exact",
    "Verif.Bab.Params.gather_defined",
    "Verif.Bab.Params.gather_branching",
    "Verif.Bab.Params.seed_exact",
    "Verif.Bab.Params.names_mean",
    "Verif.Bab.Params.selection_names",
    "Verif.Bab.Params.options_reach_search",
    "Verif.Bab.Params.other_parameters",
    "Verif.Bab.Params.defaults",
    "Verif.Bab.Params.oa_log_level_not_used",
    "Verif.Bab.Params.zero_is_a_limit",
    "Verif.Bab.Params.passed_list_not_written",
    "Verif.Bab.Params.before_reading"
   ],
   "note": "Proved for every parameter. Refuted: B-OA sets bb_log_level after it was read, a limit of 0 is a limit though documented as no limit, and presets are written to the list of the setup instead of the list passed."
  },
  {
   "property": "C117",
   "status": "partial",
   "theorems": [
    "Verif.Bab.Init.first_source_wins",
    "Verif.Bab.Init.default_file_read",
    "Verif.Bab.Init.program_and_file",
    "Verif.Bab.Init.fresh_forgets",
    "Verif.Bab.Init.set_first_crashes"
   ],
   "note": "Proved for all sequences of sources. Refuted: making a new list of options forgets everything read while bonmin.opt still counts as read, and setting an option before anything was read is a NULL access."
  },
  {
   "property": "C118",
   "status": "partial",
   "theorems": [
    "Verif.Bab.Init.algorithm_used",
    "Verif.Bab.Init.leaks_exact",
    "Verif.Bab.Init.parts_accumulate",
    "Verif.Bab.Init.once_clean_partial",
    "Verif.Bab.Init.interface_option_counts",
    "Verif.Bab.Init.second_initialisation"
   ],
   "note": "Proved: exactly which algorithm each initialisation uses, exactly which objects are lost, and that a single initialisation is clean. Refuted: after an initialisation from a problem the option is ignored, and a second initialisation loses the first interface and doubles generators and heuristics."
  },
  {
   "property": "C119",
   "status": "partial",
   "theorems": [
    "Verif.Strengthen.Nlp.row_problem_partial",
    "Verif.Strengthen.Nlp.obj_problem_partial",
    "Verif.Strengthen.Nlp.row_bound_best_partial",
    "Verif.Strengthen.Nlp.obj_bound_best_partial",
    "Verif.Strengthen.Nlp.handled_cut_valid_partial",
    "Verif.Strengthen.Nlp.rand_in_box",
    "Verif.Strengthen.Nlp.start_is_point",
    "Verif.Strengthen.Nlp.obj_gradient",
    "Verif.Strengthen.Nlp.exits_iff",
    "Verif.Strengthen.Nlp.fortran_exits",
    "Verif.Strengthen.Nlp.random_point_misses",
    "Verif.Strengthen.Nlp.stale_point",
    "Verif.Strengthen.Nlp.start_exact",
    "Verif.Strengthen.Nlp.flat_gradient"
   ],
   "note": "Proved for structures numbered from 0 that cover the constraint, and for objectives whose gradient at the random point shows every variable; composed with C13. Refuted: numbering from 1 ends the program, a gradient that vanishes at the random point does too, and user functions that rely on new_x see an old point."
  },
  {
   "property": "C120",
   "status": "proved",
   "theorems": [
    "Verif.Strengthen.Compute.tight_exact",
    "Verif.Strengthen.Compute.global_valid",
    "Verif.Strengthen.Compute.local_valid",
    "Verif.Strengthen.Compute.global_unchanged",
    "Verif.Strengthen.Compute.local_inserted_iff",
    "Verif.Strengthen.Compute.only_bound_moves",
    "Verif.Strengthen.Compute.inserted_shape",
    "Verif.Strengthen.Compute.inserted_valid",
    "Verif.Strengthen.Compute.at_least_as_strong",
    "Verif.Strengthen.Compute.nlp_sound_partial",
    "Verif.Strengthen.Compute.inserted_exact"
   ],
   "note": "Proved for every oracle of bounds that is sound; C119 shows the oracle of the code is, under its conditions."
  },
  {
   "property": "C121",
   "status": "partial",
   "theorems": [
    "Verif.Strengthen.Compute.valid_disjunction_partial",
    "Verif.Strengthen.Compute.coefficient_change_lost",
    "Verif.Strengthen.Compute.disjunction_alone_ignored"
   ],
   "note": "Proved: both cuts hold at points whose discrete variables are next to the point (all binary problems). Refuted: the option alone does nothing, and a local cut improved in its coefficient only is dropped; general integers see C13."
  },
  {
   "property": "C122",
   "status": "proved",
   "theorems": [
    "Verif.Quad.Wrap.values_exact",
    "Verif.Quad.Wrap.jacobian_appended",
    "Verif.Quad.Wrap.jacobian_original",
    "Verif.Quad.Wrap.jacobian_sizes",
    "Verif.Quad.Wrap.linear_is_affine",
    "Verif.Quad.Wrap.linearity_exact",
    "Verif.Quad.Wrap.linear_objective",
    "Verif.Quad.Wrap.linear_objective_derivative",
    "Verif.Quad.Wrap.objective_round_trip",
    "Verif.Quad.Wrap.gradient_undefined_iff"
   ],
   "note": "Rows built by QuadRow::initialize from entries on or above the diagonal and linear parts without repeated indices; Hessian see C03."
  },
  {
   "property": "C123",
   "status": "partial",
   "theorems": [
    "Verif.Quad.Wrap.copy_constraints",
    "Verif.Quad.Wrap.copy_hessian",
    "Verif.Quad.Wrap.copy_objective_partial",
    "Verif.Quad.Wrap.copy_loses_constant"
   ],
   "note": "Constraints, structures and Hessian proved for all orderings; the Hessian by the invariant of C03. Refuted for the objective: the constant of a linear objective is not copied."
  },
  {
   "property": "C124",
   "status": "partial",
   "theorems": [
    "Verif.Quad.Wrap.single_row_partial",
    "Verif.Quad.Wrap.single_row_reports_failure",
    "Verif.Quad.Wrap.scaling_never_returns",
    "Verif.Quad.Wrap.single_row_flags"
   ],
   "note": "Proved: the numbers written are right. Refuted: the calls report failure for every appended row, and the request for scaling calls itself without end."
  },
  {
   "property": "C125",
   "status": "partial",
   "theorems": [
    "Verif.Nway.covered_once_partial",
    "Verif.Nway.covered_iff",
    "Verif.Nway.branch_keeps_iff",
    "Verif.Nway.branch_box_cases",
    "Verif.Nway.last_lost"
   ],
   "note": "Proved when no member is skipped; which branch keeps which solution is given exactly. Refuted with skipped members (the default below the root): the branch of the last listed member is replaced by the branch for the skipped ones, and one more branch fixes everything to 0, so solutions with the last listed member at 1 are lost."
  },
  {
   "property": "C126",
   "status": "partial",
   "theorems": [
    "Verif.Nway.infeasibility_exact",
    "Verif.Nway.infeasibility_le_half",
    "Verif.Nway.feasibleRegion_exact",
    "Verif.Nway.fractional_listed",
    "Verif.Nway.branch_progress",
    "Verif.Nway.moves_cancel"
   ],
   "note": "Proved except for the amount returned by fixing: it is the sum of signed moves, so it can be 0 although members move."
  },
  {
   "property": "C127",
   "status": "partial",
   "theorems": [
    "Verif.Nway.copy_partial",
    "Verif.Nway.assign_partial",
    "Verif.Nway.assign_exact",
    "Verif.Nway.quick_ignored",
    "Verif.Nway.copy_loses_bounds",
    "Verif.Nway.assign_out_of_range",
    "Verif.Nway.assign_keeps_bounds",
    "Verif.Nway.quick_lists_zero"
   ],
   "note": "Proved: copies judge, fix and branch alike if no bounds are known; what assignment does is given exactly. Refuted: copies lose the bounds, assignment keeps the old ones and deletes as many consequences as the new object has, and the quick setting has no effect."
  },
  {
   "property": "C128",
   "status": "partial",
   "theorems": [
    "Verif.Nway.strong_keeps_partial",
    "Verif.Nway.choose_keeps_partial",
    "Verif.Nway.strong_skipped_undefined",
    "Verif.Nway.no_skipped",
    "Verif.Nway.row_too_short",
    "Verif.Nway.strong_below_root_fails"
   ],
   "note": "Proved for objects that do not skip members at the depth of the node. Refuted otherwise: with skipped members (default below the root) the order is always read beyond its end; rows of bounds have as many entries as objects, so members beyond are out of range."
  },
  {
   "property": "C129",
   "status": "partial",
   "theorems": [
    "Verif.Nway.root_bounds_valid_partial",
    "Verif.Nway.quick_keeps_partial",
    "Verif.Nway.quick_exact",
    "Verif.Nway.quickMembers_spec",
    "Verif.Nway.unevaluated_fixed",
    "Verif.Nway.failed_solve_recorded",
    "Verif.Nway.all_members_fixed",
    "Verif.Nway.big_values",
    "Verif.Nway.big_below_cutoff"
   ],
   "note": "Proved for rows recorded by solves that succeed or prove infeasibility. Refuted: the value of a failed solve is recorded as a bound, and objects not evaluated at the root keep the old cutoff as bound, so all their members are fixed to 0 once the cutoff improves (also with fixing in strong branching only)."
  },
  {
   "property": "C130",
   "status": "partial",
   "theorems": [
    "Verif.Nway.choose_codes_partial",
    "Verif.Nway.no_candidate",
    "Verif.Nway.fixing_not_told",
    "Verif.Nway.strong_code",
    "Verif.Nway.code_of_object"
   ],
   "note": "Proved except: with no object admitted to strong branching the code is 0 without a candidate, and below the root fixings by strong branching are not told (code 0)."
  },
  {
   "property": "C131",
   "status": "partial",
   "theorems": [
    "Verif.Nway.objects_exact",
    "Verif.Nway.no_objects",
    "Verif.Nway.consequences_exact",
    "Verif.Nway.consequences_partial",
    "Verif.Nway.weight_out_of_range",
    "Verif.Nway.addNWays_defined",
    "Verif.Nway.weights_of_first_set"
   ],
   "note": "Members, priorities and settings proved for all data. Consequences proved if every set has the weights of the first places of the list. Refuted otherwise: weights are read at the place within the set, not at the place of the variable, and used as indices of an array with one entry more than there are sets."
  },
  {
   "property": "C132",
   "status": "partial",
   "theorems": [
    "Verif.Nway.list_exact",
    "Verif.Nway.candidates_exact",
    "Verif.Nway.candidates_partial",
    "Verif.Nway.no_strong",
    "Verif.Nway.one_candidate",
    "Verif.Nway.less_useful_offered"
   ],
   "note": "List and number proved for all inputs, exact set of candidates characterised. At the root the candidates are as stated. Refuted below the root: objects of the best priority that have no positive usefulness are not offered, except the one with the least number."
  },
  {
   "property": "C133",
   "status": "partial",
   "theorems": [
    "Verif.Nway.useful_exact",
    "Verif.Nway.useful_mono_partial",
    "Verif.Nway.negative_cutoff",
    "Verif.Nway.usefulness_rows",
    "Verif.Nway.crossed_bounds"
   ],
   "note": "The value is proved exactly. Sign and monotony proved for cutoffs that are not negative. Refuted: the cutoff is multiplied by a factor above 1, which lowers a negative cutoff, so that every object has a negative usefulness and a single one is offered."
  },
  {
   "property": "C134",
   "status": "partial",
   "theorems": [
    "Verif.Nway.mean_partial",
    "Verif.Nway.mean_unevaluated",
    "Verif.Nway.recordTree_entry",
    "Verif.Nway.recordRoot_entry",
    "Verif.Nway.fresh_partial",
    "Verif.Nway.setup_counts",
    "Verif.Nway.geometric_zero",
    "Verif.Nway.unbranched_root",
    "Verif.Nway.second_search_larger",
    "Verif.Nway.second_search",
    "Verif.Nway.unit_change_recovers"
   ],
   "note": "Proved for members branched on at the root, and for arithmetic means also for objects not evaluated there. Refuted: the geometric mean (default) of an object not evaluated at the root is 0 for ever; a member not branched on at the root counts as a change of -DBL_MAX; a second search keeps the counts of the first, or reads beyond their rows."
  },
  {
   "property": "C135",
   "status": "partial",
   "theorems": [
    "Verif.Sepa.inner_exact",
    "Verif.Sepa.inner_sound_partial",
    "Verif.Sepa.negative_upper_bound",
    "Verif.Sepa.equality_row",
    "Verif.Sepa.range_clipped",
    "Verif.Sepa.shared_variable",
    "Verif.Sepa.one_point_no_chord",
    "Verif.Sepa.sample_range"
   ],
   "note": "Proved for rows f(x_k) + linear <= u with f convex, u >= 0, no lower bound, the other columns declared linear, x_k within [-1000, 100], at least two points. Refuted outside: upper bound below 0 (the bound is not read), lower bounds (equality rows), ranges beyond 100, a column that is linear in the row and nonlinear elsewhere, one point with a short range."
  },
  {
   "property": "C136",
   "status": "proved",
   "theorems": [
    "Verif.Sepa.exit_exact",
    "Verif.Sepa.fixed_variable_exits"
   ],
   "note": "Exact. A fixed variable is enough for the process to end (fixed_variable_exits)."
  },
  {
   "property": "C137",
   "status": "partial",
   "theorems": [
    "Verif.Sepa.heurSepa_exact",
    "Verif.Sepa.heurSepa_feasible_partial",
    "Verif.Sepa.infeasible_returned",
    "Verif.Sepa.linear_constant_lost"
   ],
   "note": "What is returned is proved exactly. Feasible if the rows are as in C135 and linear rows have no constant term. Refuted otherwise."
  },
  {
   "property": "C138",
   "status": "proved",
   "theorems": [
    "Verif.Sepa.heurBon_exact",
    "Verif.Sepa.heurBon_feasible",
    "Verif.Sepa.rounded_outside"
   ],
   "note": "Exact. With fractional bounds of integer variables the fixed value can leave the bounds (rounded_outside)."
  },
  {
   "property": "C139",
   "status": "partial",
   "theorems": [
    "Verif.Sepa.bonCuts_prefix",
    "Verif.Sepa.linear_first",
    "Verif.Sepa.single_row_turn_partial",
    "Verif.Sepa.linear_row_in_front",
    "Verif.Sepa.wrong_coordinate_moves",
    "Verif.Sepa.one_column_overflow",
    "Verif.Sepa.sample_points",
    "Verif.Sepa.single_row_exact",
    "Verif.Sepa.all_rows_exact"
   ],
   "note": "Proved: exactly the rows before the first linear one are looked at; the chords of a single row. Refuted: a linear row in front leaves all nonlinear rows out; the moving coordinate is chosen by the number of the row, so that a row can get its last chord only; one variable and two nonlinear rows write beyond an array."
  },
  {
   "property": "C140",
   "status": "partial",
   "theorems": [
    "Verif.Sepa.tangent_valid_partial",
    "Verif.Sepa.off_valid",
    "Verif.Sepa.tangent_exact",
    "Verif.Sepa.tangents_exact",
    "Verif.Sepa.indicator_zero_ignored",
    "Verif.Sepa.two_sides_throw",
    "Verif.Sepa.od_cuts_off",
    "Verif.Sepa.od_zero_dual_free",
    "Verif.Sepa.od_tangent_exact",
    "Verif.Sepa.od_small_exact",
    "Verif.Sepa.od_small_other"
   ],
   "note": "Proved for SepaTMINLP2OsiLP when coefficients dropped silently are zero. Refuted: an indicator of index 0 is not seen; two finite bounds and an indicator throw; in BonOuterDescription small coefficients are moved to the wrong bound, and multiplier 0 of a two-sided row gives a cut without sides."
  },
  {
   "property": "C141",
   "status": "partial",
   "theorems": [
    "Verif.Sepa.points_exact",
    "Verif.Sepa.points_in_box_partial",
    "Verif.Sepa.clipped_below_lower",
    "Verif.Sepa.linear_at_zero"
   ],
   "note": "Points proved exactly. Within bounds for nonlinear variables with lower bound at most 10000 and upper bound at least -10000. Refuted: beyond that the ends are clipped past each other; linear variables are put at 0."
  },
  {
   "property": "C142",
   "status": "partial",
   "theorems": [
    "Verif.Sepa.sample_exact",
    "Verif.Sepa.ends_partial",
    "Verif.Sepa.near_partial",
    "Verif.Sepa.never_ends_integer",
    "Verif.Sepa.never_ends",
    "Verif.Sepa.leaves_range",
    "Verif.Sepa.clustered"
   ],
   "note": "End and points characterised exactly. Ends if the value changes by the threshold again and again. Refuted: never ends for a convex function that settles, nor (Bonmin variant) for rows over integer variables; points leave the range; equal end values put all points at the start."
  },
  {
   "property": "C143",
   "status": "proved",
   "theorems": [
    "Verif.Bcp.request_round_trip",
    "Verif.Bcp.request_other_size",
    "Verif.Bcp.result_round_trip",
    "Verif.Bcp.readers_exact",
    "Verif.Bcp.Wire.arrays_exact",
    "Verif.Bcp.Wire.result_exact",
    "Verif.Bcp.Wire.request_exact"
   ],
   "note": "Buffers are lists of typed tokens; BCP_buffer itself is not modelled."
  },
  {
   "property": "C144",
   "status": "proved",
   "theorems": [
    "Verif.Bcp.pc_round_trip",
    "Verif.Bcp.node_round_trip",
    "Verif.Bcp.node_back",
    "Verif.Bcp.update_exact",
    "Verif.Bcp.other_message",
    "Verif.Bcp.Wire.pc_exact",
    "Verif.Bcp.Wire.node_exact"
   ],
   "note": "Both sides must have the same number of objects (hypothesis of the theorems)."
  },
  {
   "property": "C145",
   "status": "partial",
   "theorems": [
    "Verif.Bcp.cut_round_trip_partial",
    "Verif.Bcp.cut_second_trip",
    "Verif.Bcp.cut_bounds_lost",
    "Verif.Bcp.cut_made",
    "Verif.Bcp.cut_read_free"
   ],
   "note": "Row and the bounds of the row cut proved. Refuted for the bounds that cuts_to_rows uses: they come back as minus and plus infinity."
  },
  {
   "property": "C146",
   "status": "partial",
   "theorems": [
    "Verif.Bcp.module_round_trip_partial",
    "Verif.Bcp.text_cut_at_nul",
    "Verif.Bcp.Wire.module_exact"
   ],
   "note": "Proved for texts without NUL. Refuted: a text is cut at its first NUL (binary .nl files)."
  },
  {
   "property": "C147",
   "status": "partial",
   "theorems": [
    "Verif.Bcp.lists_exact",
    "Verif.Bcp.flat_order",
    "Verif.Bcp.priority_order_partial",
    "Verif.Bcp.priority_violated",
    "Verif.Bcp.feasible_priorities_mixed",
    "Verif.Bcp.infeasible_object_ignored",
    "Verif.Bcp.listed_iff",
    "Verif.Bcp.le_iff"
   ],
   "note": "Membership proved exactly; order proved when no feasible object is listed or priorities are disregarded. Refuted otherwise: a listed feasible object closes the block of its priority, feasible objects are sorted across priorities, and an object proving infeasibility is ignored by the caller."
  },
  {
   "property": "C148",
   "status": "partial",
   "theorems": [
    "Verif.Bcp.collect_exact",
    "Verif.Bcp.collect_length",
    "Verif.Bcp.crossed_bounds_counted"
   ],
   "note": "Exact; the count agrees when no object has crossed bounds. Refuted with crossed bounds: an entry stays uninitialised."
  },
  {
   "property": "C149",
   "status": "proved",
   "theorems": [
    "Verif.Bcp.solve_exact"
   ],
   "note": "Exact."
  },
  {
   "property": "C150",
   "status": "partial",
   "theorems": [
    "Verif.Bcp.send_tiles",
    "Verif.Bcp.send_places",
    "Verif.Bcp.send_even",
    "Verif.Bcp.kept_exact",
    "Verif.Bcp.share_assertion",
    "Verif.Bcp.granted_fails"
   ],
   "note": "Proved for the processes asked. Refuted for the local process: it keeps nothing as soon as one other process is granted, and the assertion on its share fails exactly when there is one branch for each process."
  },
  {
   "property": "C151",
   "status": "partial",
   "theorems": [
    "Verif.Bcp.limit_le",
    "Verif.Bcp.level_is_index",
    "Verif.Bcp.limit_exact"
   ],
   "note": "Never more than there are. Refuted: the number of the node is compared with SBMaxLevel instead of its level."
  },
  {
   "property": "C152",
   "status": "proved",
   "theorems": [
    "Verif.Bcp.distribution_irrelevant",
    "Verif.Bcp.register_exact",
    "Verif.Bcp.clear_exact",
    "Verif.Bcp.collect_nodup",
    "Verif.Bcp.records_exact"
   ],
   "note": "Solver as a function of the bounds."
  },
  {
   "property": "C153",
   "status": "partial",
   "theorems": [
    "Verif.Bcp.fathom_sound",
    "Verif.Bcp.fix_sound",
    "Verif.Bcp.node_sound_partial",
    "Verif.Bcp.odd_number_fathoms",
    "Verif.Bcp.process_error"
   ],
   "note": "Proved from true records, and for the whole step when an even number of branches or all of the infeasible objects are tried. Refuted for an odd number: an answer of another node is used."
  },
  {
   "property": "C154",
   "status": "partial",
   "theorems": [
    "Verif.Bcp.return_code",
    "Verif.Bcp.fixed_bounds",
    "Verif.Bcp.records_are_complete",
    "Verif.Bcp.odd_number_asserts",
    "Verif.Bcp.odd_number_reads_unwritten"
   ],
   "note": "Exact for complete records, which an even number of branches gives. Refuted for an odd number: assertion, or reading of a status never written."
  },
  {
   "property": "C155",
   "status": "partial",
   "theorems": [
    "Verif.Bcp.chosen_exact",
    "Verif.Bcp.fallback_new",
    "Verif.Bcp.fallback_half",
    "Verif.Bcp.unsolved_preferred",
    "Verif.Bcp.least_improvement_chosen"
   ],
   "note": "The choice is proved exactly. Refuted as best: solves stopped by a limit count with value 0, and the default prefers the candidate that improves least."
  },
  {
   "property": "C156",
   "status": "partial",
   "theorems": [
    "Verif.Bcp.decision_exact",
    "Verif.Bcp.try_no_fatal",
    "Verif.Bcp.resolve_cuts",
    "Verif.Bcp.nothing_infeasible_fatal",
    "Verif.Bcp.tryBranch_exact"
   ],
   "note": "Proved when some object is infeasible. Refuted otherwise: the run ends with a fatal error."
  },
  {
   "property": "C157",
   "status": "partial",
   "theorems": [
    "Verif.Bcp.child_bounds_partial",
    "Verif.Bcp.abandoned_child_bound",
    "Verif.Bcp.unevaluated_child_bound"
   ],
   "note": "Proved if both sides were solved to optimality at this node. Refuted for abandoned sides (0) and objects not evaluated (left-overs)."
  },
  {
   "property": "C158",
   "status": "partial",
   "theorems": [
    "Verif.Bcp.dropped_iff",
    "Verif.Bcp.counter_exact",
    "Verif.Bcp.failures_drop_solution"
   ],
   "note": "The count is proved exactly (a run of failures anywhere on the path). Refuted: a dropped node counts as fathomed whatever it contains."
  },
  {
   "property": "C159",
   "status": "partial",
   "theorems": [
    "Verif.Bcp.before_asymm",
    "Verif.Bcp.before_lex_partial",
    "Verif.Bcp.before_circle"
   ],
   "note": "Asymmetric always; the stated order when qualities are equal or more than 1e-8 apart. Refuted: three nodes with close qualities form a circle."
  },
  {
   "property": "C160",
   "status": "partial",
   "theorems": [
    "Verif.Bcp.updates_exact",
    "Verif.Bcp.limit_taken_for_infeasible",
    "Verif.Bcp.negative_pseudo_cost",
    "Verif.Bcp.sideUpd_error"
   ],
   "note": "Entries proved exactly. Refuted as pseudo-costs: sides stopped at a limit are taken for infeasible; negative values are sent."
  },
  {
   "property": "C161",
   "status": "proved",
   "theorems": [
    "Verif.Bcp.bounds_propagated"
   ],
   "note": "Assumes the node's bounds were the NLP's before."
  },
  {
   "property": "C162",
   "status": "partial",
   "theorems": [
    "Verif.Bcp.dense_exact",
    "Verif.Bcp.hybrid_written_partial",
    "Verif.Bcp.negative_lost"
   ],
   "note": "Writing proved exactly; solutions of the hybrid algorithm without negative values. Refuted: the hybrid algorithm leaves negative values out."
  },
  {
   "property": "C163",
   "status": "partial",
   "theorems": [
    "Verif.Bcp.lower_bound_partial",
    "Verif.Bcp.hybrid_bound_unset"
   ],
   "note": "Pure branch and bound only. Refuted for the hybrid algorithm: the variable is never set."
  },
  {
   "property": "C164",
   "status": "partial",
   "theorems": [
    "Verif.Bcp.called_exact",
    "Verif.Bcp.frequency_not_respected"
   ],
   "note": "Which generators are called is proved exactly. Refuted as frequency: the frequency is compared with a random number in (0, 1], so that it is always or never."
  },
  {
   "property": "C165",
   "status": "partial",
   "theorems": [
    "Verif.Bcp.parameters_partial",
    "Verif.Bcp.limit_unset",
    "Verif.Bcp.limit_needs",
    "Verif.Bcp.defaults_exact"
   ],
   "note": "Integer parameters with a keyword. Refuted for the three of strong branching: neither keyword nor default, for every file and node the number of branches depends on a value never set."
  },
  {
   "property": "C166",
   "status": "proved",
   "theorems": [
    "Verif.Itf.bounds_last_write",
    "Verif.Itf.resize_spec"
   ],
   "note": "Part of C20 that holds in full, stated by itself."
  },
  {
   "property": "C167",
   "status": "proved",
   "theorems": [
    "Verif.Branch.strong_restores",
    "Verif.Branch.hotStatus_truth",
    "Verif.Branch.hotStatus_cases"
   ],
   "note": "Part of C29 that holds in full, stated by itself."
  },
  {
   "property": "C168",
   "status": "proved",
   "theorems": [
    "Verif.Dec.fixInts_ok",
    "Verif.Dec.nint_in_bounds"
   ],
   "note": "Part of C31 that holds in full, stated by itself."
  },
  {
   "property": "C169",
   "status": "proved",
   "theorems": [
    "Verif.Heur.selFractional_none",
    "Verif.Heur.selFractional_some",
    "Verif.Heur.dive_fractional"
   ],
   "note": "Part of C34 that holds in full, stated by itself."
  },
  {
   "property": "C170",
   "status": "proved",
   "theorems": [
    "Verif.Heur.milp_no_repeat",
    "Verif.Heur.milp_found_iff",
    "Verif.Heur.milp_no_solution"
   ],
   "note": "Part of C36 that holds in full, stated by itself."
  },
  {
   "property": "C171",
   "status": "proved",
   "theorems": [
    "Verif.Heur.rins_howOften",
    "Verif.Heur.rins_range",
    "Verif.Heur.rins_new_range",
    "Verif.Heur.rinsFix_exact",
    "Verif.Heur.rins_found_iff",
    "Verif.Heur.rinsEnd_state"
   ],
   "note": "Part of C37 that holds in full, stated by itself."
  },
  {
   "property": "C172",
   "status": "proved",
   "theorems": [
    "Verif.Slv.tqp_objective",
    "Verif.Slv.tqp_gradient",
    "Verif.Slv.tqp_taylor",
    "Verif.Slv.tqp_constraints",
    "Verif.Slv.tqp_derivatives",
    "Verif.Slv.tqp_final",
    "Verif.Slv.tqp_invalid"
   ],
   "note": "Part of C40 that holds in full, stated by itself."
  },
  {
   "property": "C173",
   "status": "proved",
   "theorems": [
    "Verif.Dec.isDiff_cols",
    "Verif.Dec.isDiff_objs"
   ],
   "note": "Part of C43 that holds in full, stated by itself."
  },
  {
   "property": "C174",
   "status": "proved",
   "theorems": [
    "Verif.Dec.gen_saved",
    "Verif.Dec.gen_other",
    "Verif.Dec.gen_saved_bounded"
   ],
   "note": "Part of C51 that holds in full, stated by itself."
  },
  {
   "property": "C175",
   "status": "proved",
   "theorems": [
    "Verif.Dec.fc_exit",
    "Verif.Dec.fc_cutoff",
    "Verif.Dec.fc_terminates",
    "Verif.Dec.fc_start",
    "Verif.Dec.fc_passes"
   ],
   "note": "Part of C51 that holds in full, stated by itself."
  },
  {
   "property": "C176",
   "status": "proved",
   "theorems": [
    "Verif.Dec.hyb_solves_iff",
    "Verif.Dec.hyb_exact",
    "Verif.Dec.hyb_skipped",
    "Verif.Dec.hyb_run_single",
    "Verif.Dec.hyb_run_append"
   ],
   "note": "Part of C66 that holds in full, stated by itself."
  },
  {
   "property": "C177",
   "status": "proved",
   "theorems": [
    "Verif.Itf.resolveForCost_best",
    "Verif.Itf.resolveForCost_throws"
   ],
   "note": "Part of C17 that holds in full, stated by itself."
  },
  {
   "property": "C178",
   "status": "proved",
   "theorems": [
    "Verif.Itf.zeroDimension_taken",
    "Verif.Itf.zeroDimension_verdict"
   ],
   "note": "Part of C18 that holds in full, stated by itself."
  },
  {
   "property": "C179",
   "status": "proved",
   "theorems": [
    "Verif.Itf.uniform_in_bounds",
    "Verif.Itf.uniform_covers",
    "Verif.Itf.coord_perturb_radius"
   ],
   "note": "Part of C16 that holds in full, stated by itself."
  },
  {
   "property": "C180",
   "status": "proved",
   "theorems": [
    "Verif.Div.diver_conserves",
    "Verif.Div.diver_stops_iff",
    "Verif.Div.diver_size_empty",
    "Verif.Div.diver_best",
    "Verif.Div.diver_top_pop",
    "Verif.Div.diver_drain",
    "Verif.Div.diver_dives"
   ],
   "note": "Part of C21 that holds in full, stated by itself."
  },
  {
   "property": "C181",
   "status": "proved",
   "theorems": [
    "Verif.Div.probed_search_conserves",
    "Verif.Div.probed_visits_never_full",
    "Verif.Div.probed_size_empty",
    "Verif.Div.probed_follows_better"
   ],
   "note": "Part of C22 that holds in full, stated by itself."
  },
  {
   "property": "C182",
   "status": "proved",
   "theorems": [
    "Verif.Bab.counts_are_runs",
    "Verif.Bab.node_decision",
    "Verif.Bab.branch_explored_iff",
    "Verif.Bab.failure_recorded"
   ],
   "note": "Part of C25 that holds in full, stated by itself."
  },
  {
   "property": "C183",
   "status": "proved",
   "theorems": [
    "Verif.Branch.random_list",
    "Verif.Branch.random_choose"
   ],
   "note": "Part of C28 that holds in full, stated by itself."
  },
  {
   "property": "C184",
   "status": "proved",
   "theorems": [
    "Verif.Dec.oa_sound",
    "Verif.Dec.oa_fathom",
    "Verif.Dec.oa_terminates",
    "Verif.Dec.oa_excludes_assignment",
    "Verif.Dec.newCutoff_eq",
    "Verif.Dec.afterNlp_iff",
    "Verif.Dec.afterLp_iff",
    "Verif.Dec.afterGap_iff",
    "Verif.Dec.localSearch_iff",
    "Verif.Dec.oa_start"
   ],
   "note": "Part of C32 that holds in full, stated by itself."
  },
  {
   "property": "C185",
   "status": "proved",
   "theorems": [
    "Verif.Slv.filter_replay",
    "Verif.Slv.filter_roundtrip_exact",
    "Verif.Slv.filter_roundtrip_iff",
    "Verif.Slv.filter_copy_iff",
    "Verif.Slv.filter_gen_defined",
    "Verif.Slv.path_defined",
    "Verif.Slv.filter_destroy"
   ],
   "note": "Part of C38 that holds in full, stated by itself."
  },
  {
   "property": "C186",
   "status": "proved",
   "theorems": [
    "Verif.Slv.sos_repair",
    "Verif.Slv.sos_strict",
    "Verif.Slv.sos_unchanged",
    "Verif.Slv.sos_monotone",
    "Verif.Slv.sos_weak",
    "Verif.Slv.bumpAbsorb_iff"
   ],
   "note": "Part of C42 that holds in full, stated by itself."
  },
  {
   "property": "C187",
   "status": "proved",
   "theorems": [
    "Verif.Slv.create_null_iff",
    "Verif.Slv.create_undefined_iff",
    "Verif.Slv.readArr_iff",
    "Verif.Slv.scaling_last"
   ],
   "note": "Part of C45 that holds in full, stated by itself."
  },
  {
   "property": "C188",
   "status": "proved",
   "theorems": [
    "Verif.Branch.choose_best",
    "Verif.Branch.choose_code",
    "Verif.Branch.choose_other",
    "Verif.Branch.choose_member",
    "Verif.Branch.mustProbe_iff",
    "Verif.Branch.numberLeft_eq"
   ],
   "note": "Part of C50 that holds in full, stated by itself."
  },
  {
   "property": "C189",
   "status": "proved",
   "theorems": [
    "Verif.Fp.fp_value",
    "Verif.Fp.fp_gradient",
    "Verif.Fp.fp_hessian",
    "Verif.Fp.last_switch",
    "Verif.Fp.fresh_transparent"
   ],
   "note": "Part of C14 that holds in full, stated by itself."
  },
  {
   "property": "C190",
   "status": "proved",
   "theorems": [
    "Verif.Fp.setCutoff_range",
    "Verif.Fp.local_branching_row",
    "Verif.Fp.fp_jacobian_cutoff",
    "Verif.Fp.fp_jacobian_local",
    "Verif.Fp.local_row_gradient",
    "Verif.Fp.fp_sizes"
   ],
   "note": "Part of C15 that holds in full, stated by itself."
  },
  {
   "property": "C191",
   "status": "proved",
   "theorems": [
    "Verif.Bab.Objects.cbc_objects",
    "Verif.Bab.Objects.mem_intCols",
    "Verif.Bab.Objects.intCols_sorted",
    "Verif.Bab.Objects.hasPriorities_iff",
    "Verif.Bab.Objects.usesOsi_iff"
   ],
   "note": "Part of C73 that holds in full, stated by itself."
  },
  {
   "property": "C192",
   "status": "proved",
   "theorems": [
    "Verif.Div.newSolution_mode",
    "Verif.Div.every1000_mode",
    "Verif.Div.callbacks_keep_nodes",
    "Verif.Div.mode_advances",
    "Verif.Div.limit_absorbing",
    "Verif.Div.rank_inj"
   ],
   "note": "Part of C75 that holds in full, stated by itself."
  },
  {
   "property": "C193",
   "status": "proved",
   "theorems": [
    "Verif.Ampl.result_code",
    "Verif.Ampl.code_injective",
    "Verif.Ampl.code_class",
    "Verif.Ampl.finalize_exact",
    "Verif.Ampl.ampl_code_solution",
    "Verif.Ampl.unsolved_reported"
   ],
   "note": "Part of C79 that holds in full, stated by itself."
  },
  {
   "property": "C194",
   "status": "proved",
   "theorems": [
    "Verif.Slv.Filter.solves_right_problem",
    "Verif.Slv.Filter.optimize_warm",
    "Verif.Slv.Filter.setWarm_exact",
    "Verif.Slv.Filter.reoptimize_exact",
    "Verif.Slv.Filter.reoptimize_defined_iff",
    "Verif.Slv.Filter.reoptimize_warm"
   ],
   "note": "Part of C83 that holds in full, stated by itself."
  },
  {
   "property": "C195",
   "status": "proved",
   "theorems": [
    "Verif.Slv.Filter.multipliers_exact",
    "Verif.Slv.Filter.multipliers_complementary"
   ],
   "note": "Part of C85 that holds in full, stated by itself."
  },
  {
   "property": "C196",
   "status": "proved",
   "theorems": [
    "Verif.Branch.Curv.estimate_exact",
    "Verif.Branch.Curv.solveSystem_projects",
    "Verif.Branch.Curv.proj_unique",
    "Verif.Branch.Curv.proj_neg",
    "Verif.Branch.Curv.curvature_exact",
    "Verif.Branch.Curv.jacTd_exact",
    "Verif.Branch.Curv.number_exact",
    "Verif.Branch.Curv.xMark_exact",
    "Verif.Branch.Curv.gMark_exact",
    "Verif.Branch.Curv.values_current"
   ],
   "note": "Part of C87 that holds in full, stated by itself."
  },
  {
   "property": "C197",
   "status": "proved",
   "theorems": [
    "Verif.Slv.Bqpd.reoptimize_bounds",
    "Verif.Slv.Bqpd.qp_workspace",
    "Verif.Slv.Bqpd.qp_fuel",
    "Verif.Slv.Bqpd.clip_points",
    "Verif.Slv.Bqpd.sbMark_exact",
    "Verif.Slv.Bqpd.bump_spec"
   ],
   "note": "Part of C86 that holds in full, stated by itself."
  },
  {
   "property": "C198",
   "status": "proved",
   "theorems": [
    "Verif.Itf.Copies.target_coherent",
    "Verif.Itf.Copies.new_coherent",
    "Verif.Itf.Copies.clone_empty",
    "Verif.Itf.Copies.clone_empty_settings",
    "Verif.Itf.Copies.set_model_resets",
    "Verif.Itf.Copies.copy_outer"
   ],
   "note": "Part of C89 that holds in full, stated by itself."
  },
  {
   "property": "C199",
   "status": "proved",
   "theorems": [
    "Verif.Itf.Params.read_defined",
    "Verif.Itf.Params.read_exact",
    "Verif.Itf.Params.read_idem",
    "Verif.Itf.Params.settings_kept"
   ],
   "note": "Part of C90 that holds in full, stated by itself."
  },
  {
   "property": "C200",
   "status": "proved",
   "theorems": [
    "Verif.Slv.Starts.warm_start_used",
    "Verif.Slv.Starts.initial_gives_ws",
    "Verif.Slv.Starts.resolve_gives_ws",
    "Verif.Slv.Starts.first_start"
   ],
   "note": "Part of C91 that holds in full, stated by itself."
  },
  {
   "property": "C201",
   "status": "proved",
   "theorems": [
    "Verif.Slv.Interior.carry_x",
    "Verif.Slv.Interior.carry_same",
    "Verif.Slv.Interior.store_several",
    "Verif.Slv.Interior.store_single",
    "Verif.Slv.Interior.wanted_first_of_five"
   ],
   "note": "Part of C92 that holds in full, stated by itself."
  },
  {
   "property": "C202",
   "status": "proved",
   "theorems": [
    "Verif.Dec.MilpChoice.gens_exact",
    "Verif.Dec.MilpChoice.gens_once",
    "Verif.Dec.MilpChoice.gens_idem",
    "Verif.Dec.MilpChoice.setup_throws_iff"
   ],
   "note": "Part of C98 that holds in full, stated by itself."
  },
  {
   "property": "C203",
   "status": "proved",
   "theorems": [
    "Verif.Itf.RegOpts.valid_refines",
    "Verif.Itf.RegOpts.run_defined_iff",
    "Verif.Itf.RegOpts.table_lines",
    "Verif.Itf.RegOpts.table_headers",
    "Verif.Itf.RegOpts.table_sorted",
    "Verif.Itf.RegOpts.ampl_names"
   ],
   "note": "Part of C99 that holds in full, stated by itself."
  },
  {
   "property": "C204",
   "status": "proved",
   "theorems": [
    "Verif.Itf.Rows.conv_describes",
    "Verif.Itf.Rows.sense_iff",
    "Verif.Itf.Rows.keep_spec",
    "Verif.Itf.Rows.thrown_iff",
    "Verif.Itf.Rows.undefined_iff"
   ],
   "note": "Part of C101 that holds in full, stated by itself."
  },
  {
   "property": "C205",
   "status": "proved",
   "theorems": [
    "Verif.Bab.Launch.objects_throw_iff",
    "Verif.Bab.Launch.convert_spec"
   ],
   "note": "Part of C109 that holds in full, stated by itself."
  },
  {
   "property": "C206",
   "status": "proved",
   "theorems": [
    "Verif.Heur.LocalSearch.made_exact",
    "Verif.Heur.LocalSearch.change_said",
    "Verif.Heur.LocalSearch.user_prevails",
    "Verif.Heur.LocalSearch.others_unchanged",
    "Verif.Heur.LocalSearch.twice",
    "Verif.Heur.LocalSearch.default_limits"
   ],
   "note": "Part of C113 that holds in full, stated by itself."
  },
  {
   "property": "C207",
   "status": "proved",
   "theorems": [
    "Verif.Bab.Params.gather_exact",
    "Verif.Bab.Params.gather_defined",
    "Verif.Bab.Params.options_reach_search",
    "Verif.Bab.Params.other_parameters",
    "Verif.Bab.Params.names_mean",
    "Verif.Bab.Params.selection_names",
    "Verif.Bab.Params.defaults",
    "Verif.Bab.Params.seed_exact",
    "Verif.Bab.Params.before_reading"
   ],
   "note": "Part of C116 that holds in full, stated by itself."
  },
  {
   "property": "C208",
   "status": "proved",
   "theorems": [
    "Verif.Bab.Init.first_source_wins",
    "Verif.Bab.Init.default_file_read",
    "Verif.Bab.Init.program_and_file"
   ],
   "note": "Part of C117 that holds in full, stated by itself."
  },
  {
   "property": "C209",
   "status": "proved",
   "theorems": [
    "Verif.Quad.Wrap.copy_constraints",
    "Verif.Quad.Wrap.copy_hessian"
   ],
   "note": "Part of C123 that holds in full, stated by itself."
  },
  {
   "property": "C210",
   "status": "proved",
   "theorems": [
    "Verif.Nway.infeasibility_exact",
    "Verif.Nway.infeasibility_le_half",
    "Verif.Nway.feasibleRegion_exact",
    "Verif.Nway.fractional_listed",
    "Verif.Nway.branch_progress"
   ],
   "note": "Part of C126 that holds in full, stated by itself."
  },
  {
   "property": "C211",
   "status": "proved",
   "theorems": [
    "Verif.Nway.objects_exact",
    "Verif.Nway.no_objects",
    "Verif.Nway.addNWays_defined"
   ],
   "note": "Part of C131 that holds in full, stated by itself."
  },
  {
   "property": "C212",
   "status": "proved",
   "theorems": [
    "Verif.Nway.list_exact",
    "Verif.Nway.candidates_exact",
    "Verif.Nway.no_strong"
   ],
   "note": "Part of C132 that holds in full, stated by itself."
  },
  {
   "property": "C213",
   "status": "proved",
   "theorems": [
    "Verif.Nway.useful_exact",
    "Verif.Nway.usefulness_rows"
   ],
   "note": "Part of C133 that holds in full, stated by itself."
  },
  {
   "property": "C214",
   "status": "proved",
   "theorems": [
    "Verif.Bcp.lists_exact",
    "Verif.Bcp.flat_order"
   ],
   "note": "Part of C147 that holds in full, stated by itself."
  },
  {
   "property": "C215",
   "status": "proved",
   "theorems": [
    "Verif.Bcp.send_tiles",
    "Verif.Bcp.send_places",
    "Verif.Bcp.send_even"
   ],
   "note": "Part of C150 that holds in full, stated by itself."
  },
  {
   "property": "C216",
   "status": "proved",
   "theorems": [
    "Verif.Bcp.return_code",
    "Verif.Bcp.fixed_bounds",
    "Verif.Bcp.records_are_complete"
   ],
   "note": "Part of C154 that holds in full, stated by itself."
  },
  {
   "property": "C217",
   "status": "proved",
   "theorems": [
    "Verif.Bcp.chosen_exact",
    "Verif.Bcp.fallback_new",
    "Verif.Bcp.fallback_half"
   ],
   "note": "Part of C155 that holds in full, stated by itself."
  },
  {
   "property": "C218",
   "status": "proved",
   "theorems": [
    "Verif.Bcp.dropped_iff",
    "Verif.Bcp.counter_exact"
   ],
   "note": "Part of C158 that holds in full, stated by itself."
  },
  {
   "property": "C219",
   "status": "proved",
   "theorems": [
    "Verif.Bcp.updates_exact"
   ],
   "note": "Part of C160 that holds in full, stated by itself."
  },
  {
   "property": "C220",
   "status": "partial",
   "theorems": [
    "Verif.Quad.num_rows_partial",
    "Verif.Quad.num_cols_partial",
    "Verif.Quad.shrinking_undefined",
    "Verif.Quad.empty_keeps_list",
    "Verif.Quad.assigned_keeps_list",
    "Verif.Quad.set_exact",
    "Verif.Quad.none_empty"
   ],
   "note": "Proved for non-empty matrices along all histories that do not lower the size below an existing ordering. Refuted: after shrinking the old ordering reads beyond the arrays; an empty matrix and one just assigned keep the old list."
  },
  {
   "property": "C221",
   "status": "proved",
   "theorems": [
    "Verif.Quad.copies_have",
    "Verif.Quad.copy_undefined_iff"
   ],
   "note": "Size of the arrays at least the number of entries as invariant."
  },
  {
   "property": "C222",
   "status": "partial",
   "theorems": [
    "Verif.Quad.resize_keeps_partial",
    "Verif.Quad.resize_loses_array"
   ],
   "note": "Entries kept, and the cases in which an array is lost, are proved exactly. Refuted: arrays of size 0 are lost."
  },
  {
   "property": "C223",
   "status": "partial",
   "theorems": [
    "Verif.Quad.dedup_partial",
    "Verif.Quad.dedup_deletes_all",
    "Verif.Quad.dedup_single"
   ],
   "note": "On a matrix just taken from a packed matrix it does what C06 describes (which loses the last entry). Refuted: a matrix built with resize loses all entries but keeps a positive count; with one entry the arrays are lost."
  },
  {
   "property": "C224",
   "status": "partial",
   "theorems": [
    "Verif.Bcp.objects_partial",
    "Verif.Bcp.sos_ignored",
    "Verif.Bcp.sets_exact"
   ],
   "note": "Proved for integer variables. Refuted for special ordered sets: disregarded by a compile time switch in BM.hpp."
  },
  {
   "property": "C225",
   "status": "proved",
   "theorems": [
    "Verif.Bcp.order_exact"
   ],
   "note": "CoinSort_2 is any sort by key."
  },
  {
   "property": "C226",
   "status": "partial",
   "theorems": [
    "Verif.Bcp.core_partial",
    "Verif.Bcp.binary_overwritten"
   ],
   "note": "Proved but for the type of binary variables. Refuted for these: the type is overwritten by integer."
  },
  {
   "property": "C227",
   "status": "partial",
   "theorems": [
    "Verif.Bcp.sync_partial",
    "Verif.Bcp.cutoff_right_iff",
    "Verif.Bcp.cutoff_above"
   ],
   "note": "Parameters and warnings proved exactly. Refuted for the cutoff: the improvement is added instead of subtracted, right only if it is 0."
  },
  {
   "property": "C228",
   "status": "partial",
   "theorems": [
    "Verif.Slv.IpoptState.solve_fails_iff",
    "Verif.Slv.IpoptState.single_problem_partial",
    "Verif.Slv.IpoptState.clone_fresh",
    "Verif.Slv.IpoptState.stat_exact",
    "Verif.Slv.IpoptState.initial_solve_partial",
    "Verif.Slv.IpoptState.switch_then_resolve",
    "Verif.Slv.IpoptState.stat_run",
    "Verif.Slv.IpoptState.resolve_exact",
    "Verif.Slv.IpoptState.calls_exact"
   ],
   "note": "The failing calls are characterised exactly; none for a single problem, a copy, or initialSolve in the modes from Optimum on. Refuted in general: resolve after switchToFeasibilityProblem re-optimises another problem."
  },
  {
   "property": "C229",
   "status": "partial",
   "theorems": [
    "Verif.Slv.IpoptState.defaults_partial",
    "Verif.Slv.IpoptState.level_taken_over",
    "Verif.Slv.IpoptState.default_before_init"
   ],
   "note": "Proved for one initialisation, the print level being an integer. Refuted otherwise: the level 0 set by the interface after the first solve becomes the default at a further initialisation, and the default level is not initialised before the first."
  },
  {
   "property": "C230",
   "status": "proved",
   "theorems": [
    "Verif.Slv.IpoptState.output_restored",
    "Verif.Slv.IpoptState.warm_exact"
   ],
   "note": "The print level, if set, is an integer (Ipopt refuses others)."
  },
  {
   "property": "C231",
   "status": "partial",
   "theorems": [
    "Verif.Itf.Others.first_success_partial",
    "Verif.Itf.Others.last_reported",
    "Verif.Itf.Others.first_solver_alone",
    "Verif.Itf.Others.feasibility_fallback",
    "Verif.Itf.Others.other_unrecoverable",
    "Verif.Itf.Others.abandoned_exact"
   ],
   "note": "Proved for the problem itself, with exact conditions for exceptions and for the calls made. Refuted: in feasibility mode the further solver solves the problem itself, and its irrecoverable errors are not thrown."
  },
  {
   "property": "C232",
   "status": "partial",
   "theorems": [
    "Verif.Itf.Others.compare_transparent",
    "Verif.Itf.Others.disagree_partial",
    "Verif.Itf.Others.suspect_iff",
    "Verif.Itf.Others.feasibility_disagree",
    "Verif.Itf.Others.tolerance_disagree"
   ],
   "note": "Results unchanged and exact condition proved for the problem itself. Refuted: in feasibility mode the problems compared differ, and optimal to different tolerances counts as a different status."
  },
  {
   "property": "C233",
   "status": "partial",
   "theorems": [
    "Verif.Itf.Others.calls_time_partial",
    "Verif.Itf.Others.iterations_exact",
    "Verif.Itf.Others.iterations_partial",
    "Verif.Itf.Others.throw_negative",
    "Verif.Itf.Others.iterations_lost",
    "Verif.Itf.Others.calls_exact",
    "Verif.Itf.Others.time_exact"
   ],
   "note": "Calls and time proved as long as solvers return; iterations characterised exactly. Refuted: a solver that throws leaves a negative time, and iterations of feasibility problems, failed solves and further solvers are not counted."
  },
  {
   "property": "C234",
   "status": "partial",
   "theorems": [
    "Verif.Heur.mip_found_from",
    "Verif.Heur.mip_found_partial",
    "Verif.Heur.mip_direct",
    "Verif.Heur.mip_outside_bounds"
   ],
   "note": "Proved with the bounds of integer columns up to the integer tolerance, and exactly for integer bounds. Refuted for other bounds of integer columns."
  },
  {
   "property": "C235",
   "status": "proved",
   "theorems": [
    "Verif.Heur.mip_terminates",
    "Verif.Heur.mip_abort_iff",
    "Verif.Heur.mip_nothing_iff"
   ],
   "note": "For NLP solvers whose solutions respect the bounds and selection rules that take fractional columns."
  },
  {
   "property": "C236",
   "status": "proved",
   "theorems": [
    "Verif.Heur.round_runs_iff",
    "Verif.Heur.round_skips",
    "Verif.Heur.round_every_twenty",
    "Verif.Heur.round_found_iff"
   ],
   "note": ""
  },
  {
   "property": "C237",
   "status": "partial",
   "theorems": [
    "Verif.Heur.round_value_partial",
    "Verif.Heur.round_nearest_partial",
    "Verif.Heur.round_milp_data",
    "Verif.Heur.round_far"
   ],
   "note": "Proved for 0-1 columns. Refuted for general integer columns, whose objective pulls them to an end of their bounds."
  },
  {
   "property": "C238",
   "status": "partial",
   "theorems": [
    "Verif.Heur.round_cuts_exact",
    "Verif.Heur.round_no_repeat_partial",
    "Verif.Heur.copy_repeats"
   ],
   "note": "Proved for the calls of one object. Refuted for copies (made by clone), which start without the cuts."
  },
  {
   "property": "C239",
   "status": "partial",
   "theorems": [
    "Verif.Heur.round_allowed_iff",
    "Verif.Heur.dead_forever",
    "Verif.Heur.zero_kills"
   ],
   "note": "Proved: which assignments remain. Refuted: an answer with no positive integer column leaves a cut that no point satisfies, so the heuristic never finds anything afterwards."
  },
  {
   "property": "C240",
   "status": "partial",
   "theorems": [
    "Verif.Bab.Programs.bonmin_exit_iff",
    "Verif.Bab.Programs.bonmin_status",
    "Verif.Bab.Programs.bonmin_completed_partial",
    "Verif.Bab.Programs.node_completed_partial",
    "Verif.Bab.Programs.status_zero_after_failure"
   ],
   "note": "Proved together with an empty error stream. Refuted for the status alone: after known exceptions the status is 0 too."
  },
  {
   "property": "C241",
   "status": "partial",
   "theorems": [
    "Verif.Bab.Programs.bonmin_files_iff",
    "Verif.Bab.Programs.bonmin_undefined_iff",
    "Verif.Bab.Programs.node_undefined_iff",
    "Verif.Bab.Programs.node_report_iff",
    "Verif.Bab.Programs.node_solver_terminates",
    "Verif.Bab.Programs.takes_iff"
   ],
   "note": "Exact conditions proved. Refuted: the node solver does not catch failed NLPs and reads its first argument before it knows that there is one; bonmin prints a null name."
  },
  {
   "property": "C242",
   "status": "partial",
   "theorems": [
    "Verif.Slv.BqpdWarm.new_exact",
    "Verif.Slv.BqpdWarm.run_exact",
    "Verif.Slv.BqpdWarm.copies_equal",
    "Verif.Slv.BqpdWarm.flushed_copy_undefined"
   ],
   "note": "Exact result proved for every sequence. Refuted: flushPoint keeps the size, so the copy of a flushed warm start reads through a null pointer."
  },
  {
   "property": "C243",
   "status": "partial",
   "theorems": [
    "Verif.Bab.Forced.branchable_partial",
    "Verif.Bab.Forced.status_branchable_partial",
    "Verif.Bab.Forced.infeasible_exact",
    "Verif.Bab.Forced.force_idempotent",
    "Verif.Bab.Forced.fixed_moved",
    "Verif.Bab.Forced.unbounded_not_branchable",
    "Verif.Bab.Forced.no_integers_unchanged",
    "Verif.Bab.Forced.after_status_exact"
   ],
   "note": "Proved for integer variables that are not fixed and have whole bounds of moderate size. Refuted: fixed variables are moved above their upper bounds (1/2 on the wrong side of the test); variables without lower bound stay whole, so that the point counts as a solution of value -1e200; without integer variables nothing changes."
  },
  {
   "property": "C244",
   "status": "proved",
   "theorems": [
    "Verif.Slv.IpoptState.solve_fails_iff",
    "Verif.Slv.IpoptState.clone_fresh",
    "Verif.Slv.IpoptState.stat_exact"
   ],
   "note": "Part of C228 that holds in full, stated by itself."
  },
  {
   "property": "C245",
   "status": "proved",
   "theorems": [
    "Verif.Itf.Others.compare_transparent",
    "Verif.Itf.Others.first_solver_alone",
    "Verif.Itf.Others.suspect_iff",
    "Verif.Itf.Others.last_reported"
   ],
   "note": "Part of C231 that holds in full, stated by itself."
  },
  {
   "property": "C246",
   "status": "proved",
   "theorems": [
    "Verif.Heur.round_cuts_exact",
    "Verif.Heur.round_milp_data",
    "Verif.Heur.round_allowed_iff"
   ],
   "note": "Part of C238 that holds in full, stated by itself."
  },
  {
   "property": "C247",
   "status": "proved",
   "theorems": [
    "Verif.Bab.Programs.bonmin_exit_iff",
    "Verif.Bab.Programs.bonmin_status",
    "Verif.Bab.Programs.bonmin_files_iff",
    "Verif.Bab.Programs.bonmin_undefined_iff",
    "Verif.Bab.Programs.node_undefined_iff",
    "Verif.Bab.Programs.node_report_iff",
    "Verif.Bab.Programs.node_completed_exit"
   ],
   "note": "Part of C240 that holds in full, stated by itself."
  },
  {
   "property": "C248",
   "status": "proved",
   "theorems": [
    "Verif.Slv.BqpdWarm.new_exact",
    "Verif.Slv.BqpdWarm.run_exact",
    "Verif.Slv.BqpdWarm.copies_equal"
   ],
   "note": "Part of C242 that holds in full, stated by itself."
  },
  {
   "property": "C249",
   "status": "proved",
   "theorems": [
    "Verif.Heur.mip_found_from",
    "Verif.Heur.mip_direct"
   ],
   "note": "Part of C234 that holds in full, stated by itself."
  },
  {
   "property": "C250",
   "status": "proved",
   "theorems": [
    "Verif.Bab.Forced.infeasible_exact",
    "Verif.Bab.Forced.force_idempotent"
   ],
   "note": "Part of C243 that holds in full, stated by itself."
  },
  {
   "property": "C251",
   "status": "partial",
   "theorems": [
    "Verif.Itf.Make.first_verdict",
    "Verif.Itf.Make.first_state",
    "Verif.Itf.Make.error_keeps",
    "Verif.Itf.Make.history_exact",
    "Verif.Itf.Make.history_missing",
    "Verif.Itf.Make.initialised_partial",
    "Verif.Itf.Make.second_try_passes",
    "Verif.Itf.Make.second_options_ignored",
    "Verif.Itf.Make.user_solver_unread",
    "Verif.Itf.Make.all_needs_filter",
    "Verif.Itf.Make.broken_other_kept"
   ],
   "note": "Proved for calls after which no solver is there yet. Refuted: after a solver failed to initialise a second call passes with that solver and without any option read; later calls ignore their options; with a solver of the user's the options are not read; all fails without filterSQP; a comparison solver that fails to initialise is kept."
  },
  {
   "property": "C252",
   "status": "partial",
   "theorems": [
    "Verif.Itf.ObjCoef.coef_exact",
    "Verif.Itf.ObjCoef.coef_defined_iff",
    "Verif.Itf.ObjCoef.coef_linear",
    "Verif.Itf.ObjCoef.coef_current_partial",
    "Verif.Itf.ObjCoef.coef_lives_iff",
    "Verif.Itf.ObjCoef.coef_failed",
    "Verif.Itf.ObjCoef.redCost_zero",
    "Verif.Itf.ObjCoef.redCost_stays",
    "Verif.Itf.ObjCoef.refused_keeps",
    "Verif.Itf.ObjCoef.stale_point",
    "Verif.Itf.ObjCoef.unsolved_undefined",
    "Verif.Itf.ObjCoef.no_columns_undefined",
    "Verif.Itf.ObjCoef.earlier_array_gone",
    "Verif.Itf.ObjCoef.col_exact"
   ],
   "note": "Proved: the gradient at the point of the last solve, which is the current solution until one is given or something is changed. Refuted: after setColSolution the old point is used; before the first solve and without columns the call is undefined; each call frees the array returned before. Reduced costs are always zero."
  },
  {
   "property": "C253",
   "status": "partial",
   "theorems": [
    "Verif.Branch.Debug.solve_alarm_iff",
    "Verif.Branch.Debug.lost_reported",
    "Verif.Branch.Debug.solve_alarm_partial",
    "Verif.Branch.Debug.path_exact",
    "Verif.Branch.Debug.strong_transparent",
    "Verif.Branch.Debug.strong_throws",
    "Verif.Branch.Debug.strong_quiet_partial",
    "Verif.Branch.Debug.kept_side_feasible",
    "Verif.Branch.Debug.continuous_ignored",
    "Verif.Branch.Debug.found_solution_throws",
    "Verif.Branch.Debug.clone_misjudged",
    "Verif.Branch.Debug.unfinished_throws",
    "Verif.Branch.Debug.osi_status_exact"
   ],
   "note": "Proved: solves that lose a known point within all bounds throw, and if the solver is right and the node contains the point they do not; strong branching that does not throw is as without debugging. Refuted: bounds of continuous columns are not looked at; a side that contains the known solution counts as infeasible once that solution is the incumbent; branches on clones are judged by the bounds of the node; unfinished solves throw."
  },
  {
   "property": "C254",
   "status": "proved",
   "theorems": [
    "Verif.Itf.Make.first_verdict",
    "Verif.Itf.Make.first_state",
    "Verif.Itf.Make.error_keeps",
    "Verif.Itf.Make.history_exact",
    "Verif.Itf.Make.history_missing"
   ],
   "note": "Part of C251 that holds in full, stated by itself."
  },
  {
   "property": "C255",
   "status": "proved",
   "theorems": [
    "Verif.Itf.ObjCoef.coef_exact",
    "Verif.Itf.ObjCoef.coef_defined_iff",
    "Verif.Itf.ObjCoef.coef_linear",
    "Verif.Itf.ObjCoef.coef_lives_iff",
    "Verif.Itf.ObjCoef.redCost_zero",
    "Verif.Itf.ObjCoef.redCost_stays"
   ],
   "note": "Part of C252 that holds in full, stated by itself."
  },
  {
   "property": "C256",
   "status": "proved",
   "theorems": [
    "Verif.Branch.Debug.solve_alarm_iff",
    "Verif.Branch.Debug.lost_reported",
    "Verif.Branch.Debug.path_exact",
    "Verif.Branch.Debug.strong_transparent",
    "Verif.Branch.Debug.strong_throws"
   ],
   "note": "Part of C253 that holds in full, stated by itself."
  },
  {
   "property": "C257",
   "status": "partial",
   "theorems": [
    "Verif.Bab.Search.search_sound_partial",
    "Verif.Bab.Search.search_runs",
    "Verif.Bab.Search.search_finite",
    "Verif.Bab.Search.search_limit",
    "Verif.Bab.Search.report_right",
    "Verif.Bab.Search.report_limit",
    "Verif.Bab.Search.fate_threw_iff",
    "Verif.Bab.Search.fate_meaning",
    "Verif.Bab.Search.strong_spec",
    "Verif.Bab.Search.strong_exact",
    "Verif.Bab.Search.probe_exact",
    "Verif.Bab.Search.deepen_spec",
    "Verif.Bab.Search.improve_spec",
    "Verif.Bab.Search.visit_spec",
    "Verif.Bab.Search.sides_partition",
    "Verif.Bab.Search.cands_exact",
    "Verif.Bab.Search.heapTree_lawful",
    "Verif.Bab.Search.diveTree_lawful",
    "Verif.Bab.Search.search_depth_one_lost",
    "Verif.Bab.Search.search_decrement_suboptimal",
    "Verif.Bab.Search.forced_exact",
    "Verif.Bab.Search.close_exact"
   ],
   "note": "Proved: every solution is not better than reported by more than the larger of decrement and gap, or lies in a box that was dropped although its NLP was not solved. Refuted: children of the root on which the solver gives up are dropped without any mark, so that a problem with solutions is reported as infeasible; with the default decrement of 1e-5 the point reported as optimal need not be. The loop itself is Cbc's and is modelled from its documentation; cuts are left out. Strong branching is that of C29 with fixings, heuristics are arbitrary as long as they hand over solutions."
  },
  {
   "property": "C258",
   "status": "proved",
   "theorems": [
    "Verif.Bab.Search.search_runs",
    "Verif.Bab.Search.search_finite",
    "Verif.Bab.Search.search_limit",
    "Verif.Bab.Search.report_right",
    "Verif.Bab.Search.report_limit",
    "Verif.Bab.Search.fate_threw_iff",
    "Verif.Bab.Search.strong_spec",
    "Verif.Bab.Search.strong_exact",
    "Verif.Bab.Search.probe_exact",
    "Verif.Bab.Search.deepen_spec",
    "Verif.Bab.Search.sides_partition",
    "Verif.Bab.Search.cands_exact",
    "Verif.Bab.Search.heapTree_lawful",
    "Verif.Bab.Search.diveTree_lawful"
   ],
   "note": "Part of C257 that holds in full, stated by itself."
  },
  {
   "property": "C259",
   "status": "partial",
   "theorems": [
    "Verif.Dec.Qg.qg_sound_partial",
    "Verif.Dec.Qg.qg_finite",
    "Verif.Dec.Qg.qg_limit",
    "Verif.Dec.Qg.treat_meaning",
    "Verif.Dec.Qg.treat_extra",
    "Verif.Dec.Qg.visit_spec",
    "Verif.Dec.Qg.whole_iff",
    "Verif.Dec.Qg.differ_false",
    "Verif.Dec.Qg.qg_repeat_loses",
    "Verif.Dec.Qg.improve_spec",
    "Verif.Dec.Qg.handle_spec",
    "Verif.Dec.Qg.settle_stuck_iff",
    "Verif.Dec.Qg.search_stuck",
    "Verif.Dec.Qg.qg_lost",
    "Verif.Dec.Qg.qg_finite_again"
   ],
   "note": "Proved: every solution is settled in the sense claimed, or lies in the box of a node that was given up because the LP came within 1/10 of the integers of an NLP already treated. Refuted: such a node may contain solutions; for max y, y^2 <= 8.7, y in 0..3 the checker gives up the root and the problem is taken for infeasible although 2 is a solution. Cbc's loop and the effect of setMipBound(1e200) are modelled from documentation; strong branching is left out; heuristics hand over arbitrary solutions of the problem, other cut generators arbitrary valid cuts added before the LP."
  },
  {
   "property": "C260",
   "status": "proved",
   "theorems": [
    "Verif.Dec.Qg.qg_optimal",
    "Verif.Dec.Qg.qg_finite",
    "Verif.Dec.Qg.whole_iff",
    "Verif.Bab.Search.heapTree_lawful",
    "Verif.Bab.Search.diveTree_lawful"
   ],
   "note": "Part of C259 that holds in full, stated by itself."
  },
  {
   "property": "C261",
   "status": "proved",
   "theorems": [
    "Verif.Quad.quadRow_value",
    "Verif.Quad.quadRow_refuses_lower",
    "Verif.Quad.quadRow_assignCut"
   ],
   "note": "Part of C01 that holds in full, stated by itself."
  },
  {
   "property": "C262",
   "status": "proved",
   "theorems": [
    "Verif.Quad.makeUpper_form",
    "Verif.Quad.makeUpper_accepts"
   ],
   "note": "Part of C06 that holds in full, stated by itself."
  },
  {
   "property": "C263",
   "status": "proved",
   "theorems": [
    "Verif.LinObj.epigraph_jacobian",
    "Verif.LinObj.epigraph_gi",
    "Verif.LinObj.epigraph_grad_gi",
    "Verif.LinObj.epigraph_hessian",
    "Verif.LinObj.gradRow0_exact"
   ],
   "note": "Part of C08 that holds in full, stated by itself."
  },
  {
   "property": "C264",
   "status": "proved",
   "theorems": [
    "Verif.Strengthen.handleOneCut_valid_binary",
    "Verif.Strengthen.handleOneCut_failure",
    "Verif.Strengthen.disjunction_variable",
    "Verif.Strengthen.disjunction_nearest"
   ],
   "note": "Part of C13 that holds in full, stated by itself."
  },
  {
   "property": "C265",
   "status": "proved",
   "theorems": [
    "Verif.Itf.ipopt_truth",
    "Verif.Itf.initialSolve_truthful",
    "Verif.Itf.resolve_truthful",
    "Verif.Itf.isAbandoned_exact",
    "Verif.Itf.robust_settles",
    "Verif.Itf.robust_fatal",
    "Verif.Itf.robust_exhausted"
   ],
   "note": "Part of C19 that holds in full, stated by itself."
  },
  {
   "property": "C266",
   "status": "proved",
   "theorems": [
    "Verif.Div.dfs_invariant",
    "Verif.Div.dfs_initial",
    "Verif.Div.dfs_size_empty",
    "Verif.Div.dfs_pop_top",
    "Verif.Div.dfs_top_exact",
    "Verif.Div.dfs_progress"
   ],
   "note": "Part of C23 that holds in full, stated by itself."
  },
  {
   "property": "C267",
   "status": "proved",
   "theorems": [
    "Verif.Bab.final_solution",
    "Verif.Bab.final_return_agrees",
    "Verif.Bab.final_objective",
    "Verif.Bab.final_bound",
    "Verif.Bab.bestBound_exact",
    "Verif.Bab.final_objective_none"
   ],
   "note": "Part of C26 that holds in full, stated by itself."
  },
  {
   "property": "C268",
   "status": "proved",
   "theorems": [
    "Verif.Branch.pseudo_average",
    "Verif.Branch.pseudo_unknown",
    "Verif.Branch.pseudo_monotone",
    "Verif.Branch.combine_between",
    "Verif.Branch.step_none_iff"
   ],
   "note": "Part of C30 that holds in full, stated by itself."
  },
  {
   "property": "C269",
   "status": "proved",
   "theorems": [
    "Verif.Heur.dive_sound",
    "Verif.Heur.adjust_spec",
    "Verif.Heur.iterate_exact",
    "Verif.Heur.dive_abort_iff",
    "Verif.Heur.dive_fixings_exact",
    "Verif.Heur.dive_cutoff",
    "Verif.Heur.dive_fractional"
   ],
   "note": "Part of C33 that holds in full, stated by itself."
  },
  {
   "property": "C270",
   "status": "proved",
   "theorems": [
    "Verif.Heur.roundCol_exact",
    "Verif.Heur.roundPt_integral",
    "Verif.Heur.pump_targets",
    "Verif.Heur.pumpLoop_end",
    "Verif.Heur.pump_found_iff",
    "Verif.Heur.pump_log_exact",
    "Verif.Heur.target_round",
    "Verif.Heur.target_flip"
   ],
   "note": "Part of C35 that holds in full, stated by itself."
  },
  {
   "property": "C271",
   "status": "proved",
   "theorems": [
    "Verif.Slv.apply_exact",
    "Verif.Slv.apply_isSome",
    "Verif.Slv.read_apply_defined",
    "Verif.Slv.store_iff",
    "Verif.Slv.read_fuel"
   ],
   "note": "Part of C41 that holds in full, stated by itself."
  },
  {
   "property": "C272",
   "status": "proved",
   "theorems": [
    "Verif.Oa.oa_rows_filtered",
    "Verif.Oa.oa_exact"
   ],
   "note": "Part of C47 that holds in full, stated by itself."
  },
  {
   "property": "C273",
   "status": "proved",
   "theorems": [
    "Verif.Heur.lb_runs_iff",
    "Verif.Heur.lb_runs_bounded",
    "Verif.Heur.lb_run_count",
    "Verif.Heur.lb_neighbourhood",
    "Verif.Heur.lbValidate_iff",
    "Verif.Heur.fixSolve_exact"
   ],
   "note": "Part of C57 that holds in full, stated by itself."
  },
  {
   "property": "C274",
   "status": "proved",
   "theorems": [
    "Verif.Dec.consViol_le_iff",
    "Verif.Dec.nlViol_exact",
    "Verif.Dec.consViol_nonneg"
   ],
   "note": "Part of C60 that holds in full, stated by itself."
  },
  {
   "property": "C275",
   "status": "proved",
   "theorems": [
    "Verif.Ampl.linearPart_exact",
    "Verif.Ampl.linearPart_undefined_iff",
    "Verif.Ampl.linearPart_correct_iff"
   ],
   "note": "Part of C80 that holds in full, stated by itself."
  },
  {
   "property": "C276",
   "status": "proved",
   "theorems": [
    "Verif.Ampl.upperObj_exact",
    "Verif.Ampl.activeObj_exact",
    "Verif.Ampl.concave_constraints",
    "Verif.Ampl.convexities_stop_iff"
   ],
   "note": "Part of C81 that holds in full, stated by itself."
  },
  {
   "property": "C277",
   "status": "proved",
   "theorems": [
    "Verif.Slv.Filter.status_exact",
    "Verif.Slv.Filter.status_agree",
    "Verif.Slv.Filter.objective_exact",
    "Verif.Slv.Filter.fresh_sizes"
   ],
   "note": "Part of C82 that holds in full, stated by itself."
  },
  {
   "property": "C278",
   "status": "proved",
   "theorems": [
    "Verif.Itf.Tn.copy_view",
    "Verif.Itf.Tn.copy_defined",
    "Verif.Itf.Tn.copy_plain"
   ],
   "note": "Part of C88 that holds in full, stated by itself."
  },
  {
   "property": "C279",
   "status": "proved",
   "theorems": [
    "Verif.Bab.AuxNlp.arrays_owned"
   ],
   "note": "Part of C95 that holds in full, stated by itself."
  },
  {
   "property": "C280",
   "status": "proved",
   "theorems": [
    "Verif.Itf.OsiParams.values_exact",
    "Verif.Itf.OsiParams.accepted_iff"
   ],
   "note": "Part of C104 that holds in full, stated by itself."
  },
  {
   "property": "C281",
   "status": "proved",
   "theorems": [
    "Verif.Itf.SolQueries.set_get_col",
    "Verif.Itf.SolQueries.solution_stays",
    "Verif.Itf.SolQueries.cuts_multipliers",
    "Verif.Itf.SolQueries.set_get_price",
    "Verif.Itf.SolQueries.activity_iff",
    "Verif.Itf.SolQueries.no_price"
   ],
   "note": "Part of C105 that holds in full, stated by itself."
  },
  {
   "property": "C282",
   "status": "proved",
   "theorems": [
    "Verif.Itf.SolQueries.row_status",
    "Verif.Itf.SolQueries.basis_defined",
    "Verif.Itf.SolQueries.basis_iff_inactive"
   ],
   "note": "Part of C106 that holds in full, stated by itself."
  },
  {
   "property": "C283",
   "status": "proved",
   "theorems": [
    "Verif.Bab.Launch.configure_exact",
    "Verif.Bab.Launch.comparison_exact",
    "Verif.Bab.Launch.reused_matches_iff"
   ],
   "note": "Part of C107 that holds in full, stated by itself."
  },
  {
   "property": "C284",
   "status": "proved",
   "theorems": [
    "Verif.Bab.Launch.ends_ok_iff",
    "Verif.Bab.Launch.signal_iff",
    "Verif.Bab.Launch.search_signal"
   ],
   "note": "Part of C108 that holds in full, stated by itself."
  },
  {
   "property": "C285",
   "status": "proved",
   "theorems": [
    "Verif.Quad.Cut.violated_defined_iff",
    "Verif.Quad.Cut.satisfied_iff",
    "Verif.Quad.Cut.row_agrees"
   ],
   "note": "Part of C110 that holds in full, stated by itself."
  },
  {
   "property": "C286",
   "status": "proved",
   "theorems": [
    "Verif.Quad.Cut.step_refines",
    "Verif.Quad.Cut.collections_sound",
    "Verif.Quad.Cut.all_destroyed"
   ],
   "note": "Part of C111 that holds in full, stated by itself."
  },
  {
   "property": "C287",
   "status": "proved",
   "theorems": [
    "Verif.Oa.ObjRow.linear_value",
    "Verif.Oa.ObjRow.objRow_exact",
    "Verif.Oa.ObjRow.row_tight",
    "Verif.Oa.ObjRow.defined_iff"
   ],
   "note": "Part of C112 that holds in full, stated by itself."
  },
  {
   "property": "C288",
   "status": "proved",
   "theorems": [
    "Verif.Heur.LocalSearch.pump_sound",
    "Verif.Heur.LocalSearch.pump_found_iff",
    "Verif.Heur.LocalSearch.dummy_found_iff"
   ],
   "note": "Part of C114 that holds in full, stated by itself."
  },
  {
   "property": "C289",
   "status": "proved",
   "theorems": [
    "Verif.Bab.Init.algorithm_used",
    "Verif.Bab.Init.leaks_exact"
   ],
   "note": "Part of C118 that holds in full, stated by itself."
  },
  {
   "property": "C290",
   "status": "proved",
   "theorems": [
    "Verif.Nway.branch_keeps_iff",
    "Verif.Nway.branch_box_cases"
   ],
   "note": "Part of C125 that holds in full, stated by itself."
  },
  {
   "property": "C291",
   "status": "proved",
   "theorems": [
    "Verif.Nway.quick_exact",
    "Verif.Nway.quickMembers_spec",
    "Verif.Nway.big_values"
   ],
   "note": "Part of C129 that holds in full, stated by itself."
  },
  {
   "property": "C292",
   "status": "proved",
   "theorems": [
    "Verif.Nway.unit_change_recovers",
    "Verif.Nway.recordTree_entry",
    "Verif.Nway.recordRoot_entry",
    "Verif.Nway.mean_unevaluated",
    "Verif.Nway.setup_counts"
   ],
   "note": "Part of C134 that holds in full, stated by itself."
  },
  {
   "property": "C293",
   "status": "proved",
   "theorems": [
    "Verif.Sepa.off_valid",
    "Verif.Sepa.tangent_exact",
    "Verif.Sepa.tangents_exact",
    "Verif.Sepa.od_tangent_exact",
    "Verif.Sepa.od_small_exact",
    "Verif.Sepa.od_small_other"
   ],
   "note": "Part of C140 that holds in full, stated by itself."
  },
  {
   "property": "C294",
   "status": "proved",
   "theorems": [
    "Verif.Bcp.collect_exact",
    "Verif.Bcp.collect_length"
   ],
   "note": "Part of C148 that holds in full, stated by itself."
  },
  {
   "property": "C295",
   "status": "proved",
   "theorems": [
    "Verif.Bcp.fathom_sound",
    "Verif.Bcp.fix_sound"
   ],
   "note": "Part of C153 that holds in full, stated by itself."
  },
  {
   "property": "C296",
   "status": "proved",
   "theorems": [
    "Verif.Bcp.decision_exact",
    "Verif.Bcp.try_no_fatal",
    "Verif.Bcp.resolve_cuts",
    "Verif.Bcp.tryBranch_exact"
   ],
   "note": "Part of C156 that holds in full, stated by itself."
  },
  {
   "property": "C297",
   "status": "proved",
   "theorems": [
    "Verif.Bcp.dense_exact"
   ],
   "note": "Part of C162 that holds in full, stated by itself."
  },
  {
   "property": "C298",
   "status": "proved",
   "theorems": [
    "Verif.Heur.round_allowed_iff",
    "Verif.Heur.dead_forever",
    "Verif.Heur.round_milp_data"
   ],
   "note": "Part of C239 that holds in full, stated by itself."
  },
  {
   "property": "C299",
   "status": "proved",
   "theorems": [
    "Verif.Itf.Make.first_verdict",
    "Verif.Itf.Make.first_state",
    "Verif.Itf.Make.error_keeps",
    "Verif.Itf.Make.history_exact",
    "Verif.Itf.Make.history_missing"
   ],
   "note": "Part of C251 that holds in full, stated by itself."
  },
  {
   "property": "C300",
   "status": "proved",
   "theorems": [
    "Verif.Itf.ObjCoef.coef_exact",
    "Verif.Itf.ObjCoef.coef_defined_iff",
    "Verif.Itf.ObjCoef.coef_linear",
    "Verif.Itf.ObjCoef.coef_lives_iff"
   ],
   "note": "Part of C252 that holds in full, stated by itself."
  },
  {
   "property": "C301",
   "status": "proved",
   "theorems": [
    "Verif.Branch.Debug.solve_alarm_iff",
    "Verif.Branch.Debug.path_exact",
    "Verif.Branch.Debug.strong_transparent",
    "Verif.Branch.Debug.strong_throws",
    "Verif.Branch.Debug.kept_side_feasible",
    "Verif.Branch.Debug.osi_status_exact"
   ],
   "note": "Part of C253 that holds in full, stated by itself."
  },
  {
   "property": "C302",
   "status": "partial",
   "theorems": [
    "Verif.Bcp.Search.nothing_lost_partial",
    "Verif.Bcp.Search.search_optimal_partial",
    "Verif.Bcp.Search.dropped_optimum",
    "Verif.Bcp.Search.abandoned_accepted"
   ],
   "note": "Proved: at any moment every solution is settled, or in an open node with a lower bound that is right, or in a node dropped after too many abandoned solves in a row; with no solve abandoned a search that has ended is optimal. Refuted: nodes dropped after repeated failures may contain the only solution; if the framework asks for bound and feasibility after an abandoned solve, its value is trusted. the framework BCP as described in the module: any order of the nodes, one solve at a time, upper bound with a granularity; bounds handed over for the children are not used."
  },
  {
   "property": "C303",
   "status": "proved",
   "theorems": [
    "Verif.Bcp.Search.incumbent_exact"
   ],
   "note": "the framework BCP as described in the module: any order of the nodes, one solve at a time, upper bound with a granularity."
  },
  {
   "property": "C304",
   "status": "partial",
   "theorems": [
    "Verif.Bcp.Search.no_error_partial",
    "Verif.Bcp.Search.tolerance_gap_fatal",
    "Verif.Bcp.Search.no_integers_undef"
   ],
   "note": "Proved if the primal tolerance of the NLP solver is not above integer_tolerance and there is an integer column. Refuted otherwise: a point between the two tolerances is neither a solution nor can it be branched on, and the run ends with the fatal error. the framework BCP as described in the module: any order of the nodes, one solve at a time, upper bound with a granularity."
  },
  {
   "property": "C305",
   "status": "proved",
   "theorems": [
    "Verif.Bcp.Search.search_ends",
    "Verif.Bcp.Search.end_reached",
    "Verif.Bcp.Search.numbers_unique"
   ],
   "note": "the framework BCP as described in the module: any order of the nodes, one solve at a time, upper bound with a granularity."
  },
  {
   "property": "C306",
   "status": "partial",
   "theorems": [
    "Verif.Dec.Cvx.cuts_hold",
    "Verif.Dec.Cvx.right_of_convex",
    "Verif.Dec.Cvx.moves_of_convex",
    "Verif.Dec.Cvx.qg_convex_partial",
    "Verif.Dec.Cvx.other_cuts_hold"
   ],
   "note": "Proved without assuming anything of the outer-approximation cuts: validity follows from convexity, and that the LP does not come back follows from the first-order conditions of the NLP solutions. Missing: solutions in boxes dropped because the LP came within 1/10 of the integers of an NLP (C259 refutes the claim there); Benders cuts are assumed to be right; integer tolerance and relaxation of right-hand sides are zero and no coefficient is small."
  },
  {
   "property": "C307",
   "status": "partial",
   "theorems": [
    "Verif.Dec.Cvx.contract_of_convex",
    "Verif.Dec.Cvx.oa_convex_partial"
   ],
   "note": "Proved without assuming anything of the cuts. Missing: the comparisons on integers (tolerances cbc_integer_tolerance and 1/10) are assumed not to confuse different proposals of LP and MILP; right-hand sides not relaxed and no small coefficient."
  },
  {
   "property": "C308",
   "status": "proved",
   "theorems": [
    "Verif.Dec.Cvx.cuts_mean",
    "Verif.Dec.Cvx.no_return"
   ],
   "note": "First-order conditions are stated with the sides of the rows that the interface linearises."
  },
  {
   "property": "C309",
   "status": "partial",
   "theorems": [
    "Verif.Dec.Cvx.gens_valid",
    "Verif.Dec.Cvx.gens_found",
    "Verif.Dec.Cvx.hyb_convex_partial"
   ],
   "note": "Proved without assuming anything of the cuts of NLP relaxations, ECP rounds and checker, and of the solutions of NLP relaxations only that they are feasible, inside the bounds and whole when they are whole up to 1e-7. Missing: as in C306; failures of NLP solvers (an exception ends the run); strong branching."
  },
  {
   "property": "C310",
   "status": "partial",
   "theorems": [
    "Verif.Dec.Cvx.oa_trail",
    "Verif.Dec.Cvx.oa_runs",
    "Verif.Dec.Cvx.oa_returns",
    "Verif.Dec.Cvx.boa_root",
    "Verif.Dec.Cvx.quit_root",
    "Verif.Dec.Cvx.boa_convex_partial"
   ],
   "note": "Proved without assuming anything of the cuts: the parts about the decomposition in full, for an increment that is positive and not below the gap tolerance. The decomposition is assumed to run into no assert (`oa_runs`: it does not when no NLP has the value 0; C32 shows that it does otherwise). Missing: as in C306, solutions in boxes dropped by the checker because of a repetition."
  },
  {
   "property": "C311",
   "status": "proved",
   "theorems": [
    "Verif.Dec.Ship.documented",
    "Verif.Dec.Ship.derivatives",
    "Verif.Dec.Ship.structures",
    "Verif.Dec.Ship.flags",
    "Verif.Dec.Ship.optimum",
    "Verif.Dec.Ship.asserts"
   ],
   "note": "Polynomials over the rationals: derivatives are stated as exact expansions."
  },
  {
   "property": "C312",
   "status": "partial",
   "theorems": [
    "Verif.Dec.Degen.unchanged_solved_partial",
    "Verif.Dec.Degen.optimum",
    "Verif.Dec.Degen.exact",
    "Verif.Dec.Degen.not_first_order",
    "Verif.Dec.Degen.milp_best",
    "Verif.Dec.Degen.declared_solved",
    "Verif.Dec.Degen.boa_suboptimal",
    "Verif.Dec.Degen.qg_suboptimal",
    "Verif.Dec.Ship.convex",
    "Verif.Dec.Ship.cuts_at_optimum",
    "Verif.Dec.Ship.proposed_again",
    "Verif.Dec.Ship.optimum_not_first_order"
   ],
   "note": "Proved when the answers of the NLP solver satisfy the first-order conditions. Refuted without: on the shipped example the MILP comes back to the integers of the optimum with a lower value (`proposed_again`); on a convex problem with two variables B-OA ends with the value -1 for every set of right solvers, although the optimum is -5/4 (`boa_suboptimal`), and B-QG does when the LP solver returns one of two optimal vertices (`qg_suboptimal`)."
  },
  {
   "property": "C313",
   "status": "partial",
   "theorems": [
    "Verif.Slv.Output.step_level",
    "Verif.Slv.Output.default_undefined_iff_partial",
    "Verif.Slv.Output.bqpd_root",
    "Verif.Slv.Output.forced_run",
    "Verif.Slv.Output.loaded_exact",
    "Verif.Slv.Output.default_level",
    "Verif.Slv.Output.root_undefined",
    "Verif.Slv.Output.default_not_first",
    "Verif.Slv.Output.bqpd_default_defined",
    "Verif.Slv.Output.new_exact",
    "Verif.Slv.Output.run_count"
   ],
   "note": "Refuted for FilterSQP: its copy constructor does not copy `default_log_level_`, so that in B-BB, which works on a copy, going back to the default level after the root relaxation reads a variable never set; the level forced for the root has no effect, since `OptimizeTNLP` makes a new cache with the level of option `iprint`; the default level is `print_level`, not the level of the first run. Exact conditions proved."
  },
  {
   "property": "C314",
   "status": "partial",
   "theorems": [
    "Verif.Slv.Output.file_read_partial",
    "Verif.Slv.Output.empty_name",
    "Verif.Slv.Output.console_exact_partial",
    "Verif.Slv.Output.missing_accepted",
    "Verif.Slv.Output.console_stale",
    "Verif.Slv.Output.truncated_accepted",
    "Verif.Slv.Output.option_file_exact",
    "Verif.Slv.Output.option_file_unopened",
    "Verif.Slv.Output.refused_iff"
   ],
   "note": "Refuted: a file that cannot be opened and one ending in the middle of a setting are accepted with return value true; the console gets the print level from before the file is read (FilterSQP) or none (Bqpd). A setting that is refused ends the initialisation with an exception."
  },
  {
   "property": "C315",
   "status": "partial",
   "theorems": [
    "Verif.Dec.Ifp.fp_trail",
    "Verif.Dec.Ifp.fp_passes",
    "Verif.Dec.Ifp.fp_runs",
    "Verif.Dec.Ifp.ifp_root",
    "Verif.Dec.Ifp.ifp_returns",
    "Verif.Dec.Ifp.ifp_convex_partial",
    "Verif.Dec.Ifp.ifp_ends",
    "Verif.Dec.Ifp.fp_tie_loops",
    "Verif.Dec.Ifp.ifp_limit_wrong",
    "Verif.Dec.Ifp.fp_limits"
   ],
   "note": "Proved in full for a pump that reaches no limit, with a positive increment, no solution of value 0 and no solution whose value is a cutoff (`ifp_ends`), when `fp_pass_infeasible yes` reaches the pump; the preset of B-iFP does not reach it (C316), and then `ifp_convex_partial` is the statement about the search that follows. Refuted: at its limit on solutions the pump gives the root up although there is a better solution; in case of a tie the same assignment is proposed in every pass. Missing: as in C306, solutions in boxes dropped by the checker because of a repetition."
  },
  {
   "property": "C316",
   "status": "partial",
   "theorems": [
    "Verif.Dec.SubOptions.sub_exact",
    "Verif.Dec.SubOptions.limits_exact",
    "Verif.Dec.SubOptions.pass_partial",
    "Verif.Dec.SubOptions.pass_bare",
    "Verif.Dec.SubOptions.pass_lost",
    "Verif.Dec.SubOptions.ifp_goes_on"
   ],
   "note": "Limits proved in full. Refuted for `fp_pass_infeasible`: B-iFP sets it under `bonmin.`, where the pump does not look, so that the pump of B-iFP never gives up the root (`ifp_goes_on`); a user's `bonmin.fp_pass_infeasible yes` is ignored as well."
  },
  {
   "property": "C317",
   "status": "partial",
   "theorems": [
    "Verif.Dec.Cvx.obj_means",
    "Verif.Dec.Cvx.cuts_mean_relaxed",
    "Verif.Dec.Cvx.kkt_margin",
    "Verif.Dec.Cvx.no_return_relaxed",
    "Verif.Dec.Cvx.loose_of_convex",
    "Verif.Dec.Cvx.oa_sound_loose",
    "Verif.Dec.Cvx.oa_relaxed_partial",
    "Verif.Dec.Cvx.oa_relaxed_refuted"
   ],
   "note": "Proved with an explicit margin when every infeasible NLP is infeasible by more than the relaxation. Refuted without that: the relaxation is relative to the right-hand side of the cut, the NLP solver's tolerance is not, and a problem with a solution is declared finished without one (`oa_relaxed_refuted`). Small coefficients are covered in columns with finite bounds; without those, and for the tolerances of the comparisons on integers, it remains excluded."
  },
  {
   "property": "C318",
   "status": "partial",
   "theorems": [
    "Verif.Dec.Cvx.lost_beside",
    "Verif.Dec.Cvx.lost_margin",
    "Verif.Dec.Cvx.qg_relaxed_partial",
    "Verif.Dec.Cvx.qg_relaxed_refuted"
   ],
   "note": "Proved with an explicit margin. Refuted when an NLP is infeasible by less than the relaxation: the root is dropped and a problem with a solution is declared finished without one (`qg_relaxed_refuted`). Boxes dropped beside the integers of an NLP (C259) and small coefficients in columns without finite bounds remain excluded."
  },
  {
   "property": "C319",
   "status": "partial",
   "theorems": [
    "Verif.Dec.Cvx.hyb_relaxed_partial"
   ],
   "note": "Proved with an explicit margin. What is excluded is as in C318: boxes dropped beside the integers of an NLP, NLPs infeasible by less than the relaxation (refuted there), small coefficients in columns without finite bounds."
  },
  {
   "property": "C320",
   "status": "partial",
   "theorems": [
    "Verif.Dec.Cvx.boa_root_relaxed",
    "Verif.Dec.Cvx.boa_relaxed_partial",
    "Verif.Dec.Cvx.boa_relaxed_refuted"
   ],
   "note": "Proved with an explicit margin. Refuted when an NLP is infeasible by less than the relaxation: B-OA declares a problem with a solution finished at the root without one (`boa_relaxed_refuted`). Boxes dropped beside the integers of an NLP (C259) and small coefficients in columns without finite bounds remain excluded."
  },
  {
   "property": "C321",
   "status": "partial",
   "theorems": [
    "Verif.Itf.OptDoc.latex_exact",
    "Verif.Itf.OptDoc.latex_name_iff",
    "Verif.Itf.OptDoc.html_rows_partial",
    "Verif.Itf.OptDoc.cells_exact",
    "Verif.Itf.OptDoc.cells_as_header",
    "Verif.Itf.OptDoc.links_are_sections",
    "Verif.Itf.OptDoc.link_leads",
    "Verif.Itf.OptDoc.link_leads_partial",
    "Verif.Itf.OptDoc.anchor_exact",
    "Verif.Itf.OptDoc.latex_hyphen_lost",
    "Verif.Itf.OptDoc.html_never_wellformed",
    "Verif.Itf.OptDoc.link_astray",
    "Verif.Itf.OptDoc.no_category_no_section"
   ],
   "note": "Cells and links proved for all lists. Refuted: a hyphen in a name is lost in LaTeX (`latex_hyphen_lost`); the HTML table always closes a row that is not open (`html_never_wellformed`); of categories that differ only in blanks or underscores all links lead to the first (`link_astray`); options without a category have no section (`no_category_no_section`). Proved without these."
  },
  {
   "property": "C322",
   "status": "partial",
   "theorems": [
    "Verif.Sepa.Setup.defined_iff",
    "Verif.Sepa.Setup.points_exact",
    "Verif.Sepa.Setup.init_exact_partial",
    "Verif.Sepa.Setup.init_adds",
    "Verif.Sepa.Setup.itf_exact",
    "Verif.Sepa.Setup.sub_exact",
    "Verif.Sepa.Setup.init_unread",
    "Verif.Sepa.Setup.itf_points",
    "Verif.Sepa.Setup.sub_points_kept",
    "Verif.Sepa.Setup.copy_loses",
    "Verif.Sepa.Setup.init_twice"
   ],
   "note": "State after every step characterised for all sequences. Refuted: initialize without options read before follows a null pointer (`init_unread`); with an interface the points come from other options than all else (`itf_points`); a copy with another prefix keeps the points of the first one (`sub_points_kept`); a plain copy has no heuristics (`copy_loses`); a second initialize doubles the heuristics and keeps the first algorithm (`init_twice`). Full agreement proved for reading the options and initializing once with a problem."
  }
 ]
}