{"claims": [
 {"property": "C01", "status": "proved", "theorems": ["Verif.C01_successor_enumeration_exact", "Verif.C01_prefix_sound", "Verif.C01_no_places_generator_finds_nothing"], "note": "Any flat net satisfying the layout invariant (established by C03); the 0-place net is a finding."},
 {"property": "C02", "status": "proved", "theorems": ["Verif.C02_deadlock_exact", "Verif.C02_deadlock_exact_no_places", "Verif.C02_fireable_exact"], "note": ""},
 {"property": "C03", "status": "proved", "theorems": ["Verif.C03_makePetriNet_faithful", "Verif.C03_compiled_net_bisimilar", "Verif.C03_no_arcs_to_unmentioned", "Verif.C03_players_preserved", "Verif.C03_finding_orphan_player_lost", "Verif.C03_directions"], "note": "Net structure, weights and initial marking for every history of builder calls; the player of input-less transitions is lost (finding)."},
 {"property": "C04", "status": "proved", "theorems": ["Verif.C04_no_silent_wrap"], "note": ""},
 {"property": "C05", "status": "proved", "theorems": ["Verif.C05_round_trip"], "note": ""},
 {"property": "C06", "status": "proved", "theorems": ["Verif.C06_compress_injective", "Verif.C06_length_and_bounds", "Verif.C06_twobit_format"], "note": ""},
 {"property": "C07", "status": "proved", "theorems": ["Verif.C07_state_set_is_a_set", "Verif.C07_spec_new_iff", "Verif.C07_throws_only_when_long", "Verif.C07_finding_bound_wraps", "Verif.C07_statistics"], "note": "The prefix trie library (external) is trusted to be a map from byte strings to consecutive numbers. With a token bound the theorem needs the token sum to fit in 32 bits; the wrap is a finding."},
 {"property": "C08", "status": "proved", "theorems": ["Verif.C08_bfs_is_bag", "Verif.C08_dfs_is_bag", "Verif.C08_rdfs_is_bag", "Verif.C08_heur_is_bag", "Verif.C08_potency_is_bag", "Verif.C08_potency_no_undefined_behaviour", "Verif.C08_heur_best_first", "Verif.C08_finding_ids_truncated", "Verif.C08_finding_potency_wrap", "Verif.C08_finding_potency_no_transitions"], "note": "Identifiers below 2^32; potency queue on nets with a transition and potencies within 32 bits (the failures outside are findings)."},
 {"property": "C09", "status": "proved", "theorems": ["Verif.SearchProps.C09_satisfied_has_witness", "Verif.SearchProps.C09_calls_wellformed"], "note": "Any net satisfying FlatNet.WF (proved for every builder output), any of the five queues, any queries/handler/random choices, at any point of the execution."},
 {"property": "C10", "status": "proved", "theorems": ["Verif.SearchProps.C10_not_satisfied_no_witness", "Verif.SearchProps.C10_not_satisfied_unreachable", "Verif.SearchProps.C10_terminates", "Verif.SearchProps.C10_all_answered", "Verif.SearchProps.C10_bound_cuts_states_silently"], "note": "Completeness relative to the token bound plus termination on finite reachability sets (at most 2^32 markings, because markings are numbered with 32 bits)."},
 {"property": "C11", "status": "proved", "theorems": ["Verif.SearchProps.C11_answers_agree", "Verif.SearchProps.C11_strategy_independent"], "note": "Any two searches of the same net, with any strategies, query sets and random choices."},
 {"property": "C12", "status": "proved", "theorems": ["Verif.SearchProps.C12_trace_is_a_run"], "note": "The history table at the time of the report is walked back exactly as printTrace does."},
 {"property": "C13", "status": "partial", "theorems": ["Verif.VerdictProps.C13_accepted_has_goal", "Verif.VerdictProps.C13_goal_polarity", "Verif.VerdictProps.C13_printer", "Verif.VerdictProps.C13_overapproximation", "Verif.VerdictProps.C13_preparation_succeeds", "Verif.VerdictProps.C13_tool_verdicts_partial", "Verif.VerdictProps.C13_finding_shared_deadlock_flag", "Verif.VerdictProps.C13_finding_null_dereference", "Verif.CtlSplitProps.C13_split_correct_partial", "Verif.CtlSplitProps.C13_rewritten_query_partial", "Verif.CtlSplitProps.C13_finding_ctl_engine_AG", "Verif.CtlSplitProps.C13_search_is_engine"], "note": "Polarity of goals and answers proved end to end (prepare, search, printer) for runs where the goals are distinct objects; the claim fails for goals that share the DEADLOCK object (finding). CTL splitting proved for rewritten queries; un-rewritten AG gets the wrong polarity (finding)."},
 {"property": "C14", "status": "partial", "theorems": ["Verif.RandomWalkProps.C14_answers_have_witnesses", "Verif.RandomWalkProps.C14_first_trace_is_a_run", "Verif.RandomWalkProps.C14_single_query_traces_partial", "Verif.RandomWalkProps.C14_no_ub_without_traces", "Verif.RandomWalkProps.C14_first_candidate_chosen", "Verif.RandomWalkProps.C14_finding_second_trace_wrong", "Verif.RandomWalkProps.C14_finding_empty_stack", "Verif.RandomWalkProps.C14_finding_no_places"], "note": "Witnesses proved in full; traces proved for a single query (and for the first trace of any run). With several queries the second trace is wrong or undefined behaviour occurs (findings)."},
 {"property": "C15", "status": "proved", "theorems": ["Verif.EvalProps.C15_expression_value", "Verif.EvalProps.C15_sum_constructor", "Verif.EvalProps.C15_product_constructor", "Verif.EvalProps.C15_predicate_evaluation", "Verif.EvalProps.C15_paths_exist", "Verif.EvalProps.C15_evaluate_and_set_agrees"], "note": "64-bit expression values are unbounded integers in the model."},
 {"property": "C16", "status": "proved", "theorems": ["Verif.EvalProps.C16_early_evaluation_sound", "Verif.EvalProps.C16_evaluate_and_set_sound"], "note": "CTL and LTL operators."},
 {"property": "C17", "status": "partial", "theorems": ["Verif.RewriteProps.C17_rewriting_everywhere_partial", "Verif.RewriteProps.C17_rewriting_initially_partial", "Verif.RewriteProps.C17_state_formulas", "Verif.RewriteProps.C17_finding_vacuous_disjunct", "Verif.RewriteProps.C17_finding_products_cancelled"], "note": "The full claim is false of the code (two findings with witnesses); proved for all formulas without vacuous or out-of-range place/constant comparisons and without common places in compared products."},
 {"property": "C18", "status": "partial", "theorems": ["Verif.RewriteProps.C18_ltl_rewriting_partial", "Verif.RewriteProps.C18_ltl_query_partial"], "note": "Same restriction as C17 (the temporal rules are unrestricted)."},
 {"property": "C19", "status": "partial", "theorems": ["Verif.RewriteProps.C19_conjunction_partial", "Verif.RewriteProps.C19_disjunction_partial", "Verif.RewriteProps.C19_closed", "Verif.RewriteProps.C19_merge_same_polarity", "Verif.RewriteProps.C19_merge_never_throws", "Verif.RewriteProps.C19_finding_vacuous_disjunct", "Verif.RewriteProps.C19_finding_unsatisfiable_conjunct", "Verif.RewriteProps.C19_finding_negative_constant", "Verif.RewriteProps.C19_finding_large_constant", "Verif.RewriteProps.C19_finding_maximal_constant", "Verif.RewriteProps.C19_finding_trivial_interval_dropped"], "note": "The full claim is false of the code; each excluded kind of comparison has a witness theorem."},
 {"property": "C20", "status": "partial", "theorems": ["Verif.ShorthandProps.C20_fireable", "Verif.ShorthandProps.C20_fireable_coloured", "Verif.ShorthandProps.C20_quasi_live", "Verif.ShorthandProps.C20_quasi_live_coloured", "Verif.ShorthandProps.C20_live", "Verif.ShorthandProps.C20_live_coloured", "Verif.ShorthandProps.C20_k_safe", "Verif.ShorthandProps.C20_k_safe_places", "Verif.ShorthandProps.C20_stable_partial", "Verif.ShorthandProps.C20_stable_coloured_partial", "Verif.ShorthandProps.C20_finding_stable_large"], "note": "All shorthands, coloured and uncoloured, proved equivalent to their meaning over reachable markings; stable marking only for initial markings below 2^31 (finding), hence partial. Fireability needs 32-bit markings, which C04 guarantees."},
 {"property": "C21", "status": "partial", "theorems": ["Verif.BinaryProps.C21_formula_partial", "Verif.BinaryProps.C21_file_partial", "Verif.BinaryProps.C21_finding_constants_truncated"], "note": "Whole files (name table, any number of formulas, games, upper-bound queries) round-trip with the same meaning when constants are 32-bit integers; larger constants are truncated by the code (finding), hence partial. control: and bounds are modelled as outermost operators only; doubles are opaque bit patterns."},
 {"property": "C22", "status": "partial", "theorems": ["Verif.SimplifyProps.C22_simplification_partial", "Verif.SimplifyProps.C22_initial_marking_partial", "Verif.SimplifyProps.C22_programs_cover_partial", "Verif.SimplifyProps.C22_finding_bound_truncated", "Verif.SimplifyProps.C22_finding_literal_truncated"], "note": "Proved for every net, clock, sound solver and every formula whose numbers fit an int (exactC) and that is well-formed (wf, as for C17). False beyond that: two theorems give formulas whose truth changes because bounds above INT_MAX are truncated. Upper-bound queries are not modelled."},
 {"property": "C23", "status": "partial", "theorems": ["Verif.SimplifyProps.C23_linear_form_partial", "Verif.SimplifyProps.C23_trivial_verdict_partial", "Verif.SimplifyProps.C23_linear_analysable", "Verif.SimplifyProps.C23_finding_literal_truncated"], "note": "Proved for every net, firing sequence and expression whose constants fit an int; false beyond that (C23_finding_literal_truncated)."},
 {"property": "C24", "status": "partial", "theorems": ["Verif.StubbornProps.C24_reduction_preserves_reachability_partial", "Verif.StubbornProps.C24_search_satisfied", "Verif.StubbornProps.C24_search_not_satisfied_partial", "Verif.StubbornProps.C24_search_terminates", "Verif.StubbornProps.C24_agrees_with_full_search_partial", "Verif.StubbornProps.C24_finding_negative_product", "Verif.StubbornProps.C24_finding_unary_minus", "Verif.StubbornProps.C24_finding_truncated_value", "Verif.StubbornProps.C24_finding_token_bound"], "note": "The unrestricted claim is false of the code (four findings with witnesses). Proved for every net, query list, memory contents and marking when comparisons contain no unary minus over places, no product of a negative constant with exactly one operand, and operands fit into 32 bits; also for the whole search without token bound. The upper-bounds visitor is not modelled."},
 {"property": "C25", "status": "proved", "theorems": ["Verif.StubbornProps.C25_reduction_preserves_deadlock"], "note": "For every net, 32-bit reachable markings, any other queries in the list."},
 {"property": "C26", "status": "proved", "theorems": ["Verif.CtlEngineProps.C26_graph_encodes_ctl", "Verif.CtlEngineProps.C26_solution_exists", "Verif.CtlEngineProps.C26_graph_encodes_ctl_stubborn"], "note": "Every configuration reachable in the graph from the top of the query. The query is in the engine's normal form (CtlF) and no reachable marking trips the 32-bit overflow check (Small). With partial-order reduction also for the stubborn sets of the code, when the EF bodies satisfy the restrictions of C24. Condition objects are taken not to be shared inside a query."},
 {"property": "C27", "status": "partial", "theorems": ["Verif.CTL.certainZero_correct_partial", "Verif.CTL.certainZero_terminates", "Verif.CTL.certainZero_total_partial", "Verif.CTL.certainZero_not_stratified"], "note": "Right answer for every edge order, and termination, on layered graphs (every ordinary edge stays on a negation level, every negated edge has one target on the next level); these are the graphs the CTL encoding produces. For stratified graphs in general the property is false of the code: certainZero_not_stratified gives a graph and an order with a wrong answer."},
 {"property": "C28", "status": "partial", "theorems": ["Verif.CTL.localFPA_correct_partial", "Verif.CTL.localFPA_terminates", "Verif.CTL.localFPA_total_partial", "Verif.CTL.localFPA_eq_certainZero", "Verif.CTL.localFPA_not_stratified"], "note": "Proved for every layered graph (those the CTL encoding generates), every edge order and every number of rounds, with termination on finite graphs. For stratified graphs in general the property is false of the code: localFPA_not_stratified gives the counterexample."},
 {"property": "C29", "status": "proved", "theorems": ["Verif.LTL.C29_ndfs_exact", "Verif.LTL.C29_ndfs_sound", "Verif.LTL.C29_ndfs_terminates", "Verif.LTL.C29_ndfs_runs", "Verif.LTL.C29_ndfs_trace", "Verif.LTL.C29_finding_trace_without_loop"], "note": "On every graph and for every order of successors (chosen anew at each visit). The hypothesis InvOK says that an accepting automaton state with a true self loop leads to an accepting cycle; it is discharged for products of a net and an automaton with finitely many states. Every cycle the trace shows exists; a finding shows that the trace need not contain the closing transition."},
 {"property": "C30", "status": "proved", "theorems": ["Verif.LTL.C30_tarjan_exact", "Verif.LTL.C30_tarjan_sound", "Verif.LTL.C30_tarjan_terminates", "Verif.LTL.C30_tarjan_runs"], "note": "As C29, for the Tarjan-based search with its hash table, lowlinks and stacks."},
 {"property": "C31", "status": "partial", "theorems": ["Verif.C31_reduce_partial", "Verif.C31_compiled_partial", "Verif.C31_reduce_plain", "Verif.C31_query_places_kept", "Verif.C31_rules_sound", "Verif.C31_rules_sound_plain", "Verif.Reduce.Bugs.C31_ruleB_initial_tokens_lost", "Verif.Reduce.Bugs.C31_ruleB_all_or_nothing", "Verif.Reduce.Bugs.C31_ruleB_inhibitor", "Verif.Reduce.Bugs.C31_ruleC_inhibitor", "Verif.Reduce.Bugs.C31_ruleD_inhibitor", "Verif.Reduce.Bugs.C31_ruleEP_revives_dead_transitions", "Verif.Reduce.Bugs.C31_ruleI_inhibitor", "Verif.Reduce.Bugs.C31_ruleJ_sentinel", "Verif.Reduce.Bugs.C31_ruleS_all_or_nothing"], "note": "All rules (A-J, L-S), all modes and any clock are modelled. Full statement is false for the code: nine theorems give nets on which a reduction changes the answer (five under the default mode). Proved: for every built net and every predicate over the query places the answer is unchanged for each run in which no rule was applied outside of its soundness condition (ghost flag bad), also on the compiled nets; unconditionally for rules A, E, F, G, H, L, M, N, O, Q on every net, C, D, I, R on nets without inhibitor arcs, and whole runs of -r 2 (and -r 3 without B, E, P, S) on nets without inhibitor arcs. Not covered: rule K, LTL/CTL preservation, trace reconstruction."},
 {"property": "C32", "status": "proved", "theorems": ["Verif.OffsetsProps.C32_in_range", "Verif.OffsetsProps.C32_cyclic", "Verif.OffsetsProps.C32_additive", "Verif.OffsetsProps.C32_inverse", "Verif.OffsetsProps.C32_modulo", "Verif.OffsetsProps.C32_succ_pred"], "note": "Both engines: signedWrap/addColorOffset and the ++/-- of Color."},
 {"property": "C33", "status": "partial", "theorems": ["Verif.ColMsProps.C33_add", "Verif.ColMsProps.C33_sub", "Verif.ColMsProps.C33_mul", "Verif.ColMsProps.C33_type_error", "Verif.ColMsProps.C33_empty", "Verif.ColMsProps.C33_isSubsetOrEqTo", "Verif.ColMsProps.C33_isSubsetOf", "Verif.ColMsProps.C33_size", "Verif.ColMsProps.C33_ofList", "Verif.ColMsProps.C33_operations_partial", "Verif.ColMsProps.C33_finding_wraps", "Verif.ColMsProps.C33_finding_distinct_size"], "note": "Every operation is characterised exactly (with 32-bit wrap-around) and every combination of operations refines the mathematical multisets as long as no count exceeds 32 bits; the code wraps beyond that (finding), hence partial."},
 {"property": "C34", "status": "partial", "theorems": ["Verif.CPN.C34_unfolding_same_firings_partial", "Verif.CPN.C34_unfolding_returns", "Verif.CPN.C34_unfolding_same_reachability_partial", "Verif.CPN.C34_query_counts_all_tokens_partial", "Verif.CPN.C34Findings.C34_not_full", "Verif.CPN.C34Findings.C34_finding_sum_place_counted", "Verif.CPN.C34Findings.C34_finding_inhibited_input_throws", "Verif.CPN.C34Findings.C34_finding_twin_products_lose_tokens", "Verif.CPN.C34Findings.C34_finding_heavy_arc_no_sum"], "note": "Proved for well-formed nets with the naive binding generator (no partition, no colour fixed point), where no transition inhibits its own input place; the full statement is refuted (C34_not_full)."},
 {"property": "C35", "status": "partial", "theorems": ["Verif.OffsetsProps.C35_round_trip", "Verif.OffsetsProps.C35_decode_rank", "Verif.OffsetsProps.C35_injective", "Verif.OffsetsProps.C35_surjective", "Verif.OffsetsProps.C35_addToValue", "Verif.OffsetsProps.C35_finding_wraps", "Verif.OffsetsProps.C35_finding_division_by_zero"], "note": "Full bijection for products below 2^32 (2^64 for the codec); false beyond, where the code wraps (F15, witnesses proved)."},
 {"property": "C36", "status": "proved", "theorems": ["Verif.RangeProps.C36_contains", "Verif.RangeProps.C36_add", "Verif.RangeProps.C36_sub", "Verif.RangeProps.C36_add_exact", "Verif.RangeProps.C36_sub_exact", "Verif.RangeProps.C36_inter", "Verif.RangeProps.C36_join", "Verif.RangeProps.C36_joinVal", "Verif.RangeProps.C36_setVal", "Verif.RangeProps.C36_compare", "Verif.RangeProps.C36_intersects", "Verif.RangeProps.C36_size", "Verif.RangeProps.C36_vector_lookup", "Verif.RangeProps.C36_vector_update", "Verif.RangeProps.C36_vector_compact", "Verif.RangeProps.C36_vector_and_place", "Verif.RangeProps.C36_vector_and", "Verif.RangeProps.C36_vector_compare", "Verif.RangeProps.C36_vector_compare_sound", "Verif.RangeProps.C36_vector_restricts", "Verif.RangeProps.C36_vector_lt", "Verif.RangeProps.C36_finding_and_repeats", "Verif.RangeProps.C36_finding_size_unbounded"], "note": "Ranges and vectors of place ranges, with 32-bit boundary behaviour."},
 {"property": "C37", "status": "proved", "theorems": ["Verif.BoundsProps.C37_reports_maximum", "Verif.BoundsProps.C37_test_is_exact", "Verif.BoundsProps.C37_simplify", "Verif.BoundsProps.C37_lp_bounds", "Verif.BoundsProps.C37_fresh", "Verif.BoundsProps.C37_lp_only_total", "Verif.BoundsProps.C37_finding_second_simplification"], "note": "Maximum over all reachable markings, every net, strategy, fuel; the MIP solver is an oracle assumed right about the marking equation (OracleOK). Second simplification of a query with an offset would be wrong but cannot arise from LinearProgram::bounds."},
 {"property": "C38", "status": "partial", "theorems": ["Verif.SynthProps.C38_synthesis_correct_partial", "Verif.SynthProps.C38_synthesis_correct_reachability", "Verif.SynthProps.C38_errors", "Verif.SynthProps.C38_terminates_bounded", "Verif.SynthProps.C38_terminates_finite", "Verif.SynthProps.C38_finding_idle_transition"], "note": "Full strength for AF objectives and permissive mode; safety in the mode used by main.cpp needs that controllable transitions without effect do not compete with environment moves (finding shows the code is wrong otherwise). Game stubborn sets are not modelled."},
 {"property": "C39", "status": "partial", "theorems": ["Verif.LightDequeProps.C39_deque_is_list", "Verif.LightDequeProps.C39_assign_partial", "Verif.LightDequeProps.C39_finding_assign_empty"], "note": "Every sequence of operations is the list specification; assignment is proved for a nonempty source, and the assignment from an empty deque is shown to break (F14)."},
 {"property": "C40", "status": "partial", "theorems": ["Verif.ReplayProps.C40_replay_exact", "Verif.ReplayProps.C40_replay_iff", "Verif.ReplayProps.C40_finding_extra_tokens", "Verif.ReplayProps.C40_finding_after_deadlock"], "note": "Exact for enabledness, weights listed for the input places, deadlock entry and loop; tokens listed for other places are not checked by the code (F17), so the full statement is false."},
 {"property": "C41", "status": "proved", "theorems": ["Verif.CtlEngineProps.C41_ctl_correct", "Verif.CtlEngineProps.C41_single_correct", "Verif.CtlEngineProps.C41_ctl_total", "Verif.CtlEngineProps.C41_ctl_correct_stubborn", "Verif.CtlEngineProps.C41_ctl_total_stubborn"], "note": "CTLMain for the strategies that solve the query as a whole, both algorithms, every order, with and without partial-order reduction; same hypotheses as C26. The splitting done for the other strategies is C13."},
 {"property": "C42", "status": "proved", "theorems": ["Verif.CTL.refcounts_exact"], "note": "States between rounds of the certain-zero algorithm, for every choice of edges."},
 {"property": "C43", "status": "proved", "theorems": ["Verif.LTL.C43_product_successors", "Verif.LTL.C43_product_initial", "Verif.LTL.C43_product_runs", "Verif.LTL.C43_finding_parallel_edges", "Verif.LTL.C43_finding_no_places"], "note": "Product generator of the LTL searches, against the edge relation of the product; parallel edges and nets without places are findings."},
 {"property": "C44", "status": "proved", "theorems": ["Verif.LTL.C44_product_id", "Verif.LTL.C44_product_id_inj", "Verif.LTL.C44_finding_collision"], "note": "Round trip and injectivity within the bit widths; collision beyond them as a finding."},
 {"property": "C45", "status": "proved", "theorems": ["Verif.LTL.C45_translation", "Verif.LTL.C45_to_ltl", "Verif.LTL.C45_finding_until"], "note": "Queries of the form path quantifier + LTL formula; HyperLTL not modelled. The validator also lets other queries pass (finding)."},
 {"property": "C46", "status": "proved", "theorems": ["Verif.LTL.C46_search_violated", "Verif.LTL.C46_search_exact", "Verif.LTL.C46_search_terminates", "Verif.LTL.C46_ltl_found", "Verif.LTL.C46_ltl_correct", "Verif.LTL.C46_ltl_terminates", "Verif.LTL.C46_finding_token_bound"], "note": "End to end without partial-order reduction; spot's contract is a hypothesis."},
 {"property": "C47", "status": "partial", "theorems": ["Verif.SynthProps.C47_printed_strategy_reachability_partial", "Verif.SynthProps.C47_finding_printed_strategy_cycles", "Verif.SynthProps.C47_finding_unsafe_move_printed"], "note": "False of the code in general (two findings). Proved for AF: every marking met stays winning and has a printed winning move; the table does not force progress."},
 {"property": "C48", "status": "proved", "theorems": ["Verif.ST.C48_no_deadlock", "Verif.ST.C48_checkNet", "Verif.ST.C48_terminates", "Verif.ST.C48_exact", "Verif.ST.C48_finding_no_transitions"], "note": "Soundness for all random choices and clocks, exactness when the clock does not run out, termination on every compiled net. Finding: nets without transitions (F50)."},
 {"property": "C49", "status": "partial", "theorems": ["Verif.SeqMultiSetProps.C49_empty", "Verif.SeqMultiSetProps.C49_add", "Verif.SeqMultiSetProps.C49_set", "Verif.SeqMultiSetProps.C49_plus", "Verif.SeqMultiSetProps.C49_take", "Verif.SeqMultiSetProps.C49_minus", "Verif.SeqMultiSetProps.C49_shrink", "Verif.SeqMultiSetProps.C49_shrink_unique", "Verif.SeqMultiSetProps.C49_get", "Verif.SeqMultiSetProps.C49_total", "Verif.SeqMultiSetProps.C49_le", "Verif.SeqMultiSetProps.C49_ge", "Verif.SeqMultiSetProps.C49_eq", "Verif.SeqMultiSetProps.C49_highest", "Verif.SeqMultiSetProps.C49_add_machine", "Verif.SeqMultiSetProps.C49_plus_machine_partial", "Verif.SeqMultiSetProps.C49_finding_le_negative", "Verif.SeqMultiSetProps.C49_finding_plus_overflow", "Verif.SeqMultiSetProps.C49_finding_set_overflow"], "note": "All operations proved to be multiset operations with unbounded numbers. That sums beyond 2^31-1 are refused is proved for addCount and refuted for += and setCount (signed overflow)."},
 {"property": "C50", "status": "partial", "theorems": ["Verif.ColEncoderProps.C50_round_trip", "Verif.ColEncoderProps.C50_injective", "Verif.ColEncoderProps.C50_shrunk", "Verif.ColEncoderProps.C50_finding_truncated"], "note": "Proved for encodings of at most 65535 bytes; refuted beyond, where the code cuts the encoding off."},
 {"property": "C51", "status": "partial", "theorems": ["Verif.ExplicitColoredProps.C51_successors_partial", "Verif.ExplicitColoredProps.C51_binding_sound", "Verif.ExplicitColoredProps.C51_enabled", "Verif.ExplicitColoredProps.C51_keys", "Verif.ExplicitColoredProps.C51_finding_constant", "Verif.ExplicitColoredProps.C51_finding_subtraction", "Verif.ExplicitColoredProps.C51_finding_two_arcs", "Verif.ExplicitColoredProps.C51_finding_product_variable", "Verif.ExplicitColoredProps.C51_finding_keys"], "note": "The unrestricted claim is false of the code (five findings with witnesses). Proved for every well-typed net with at most 2^16 transitions in which no two input arcs of a transition share a place, minimal markings of input arcs have no negative entries, constant tuples at the top of an expression have components of one size and, for transitions with more than 30 bindings, input arcs have positive numbers and variables of plain types."},
 {"property": "C52", "status": "partial", "theorems": ["Verif.ExplicitColoredProps.C52_verdict_partial", "Verif.ExplicitColoredProps.C52_answer_partial", "Verif.ExplicitColoredProps.C52_terminates_partial", "Verif.ExplicitColoredProps.C52_finding_unknown", "Verif.ExplicitColoredProps.C52_finding_negative"], "note": "For every order of the waiting list and both generators, under the conditions of C51, numbers of tokens below 2^32, non-negative literals and fewer than 2^48 rounds; refuted beyond: cut encodings are answered with no, negative literals become great ones."},
 {"property": "C53", "status": "partial", "theorems": ["Verif.ExplicitColoredProps.C53_trace_partial"], "note": "Same conditions as C52, where the unrestricted claim fails (F55-F61)."},
 {"property": "C54", "status": "proved", "theorems": ["Verif.AntiChainProps.C54_antichain", "Verif.AntiChainProps.C54_insert", "Verif.AntiChainProps.C54_users"], "note": "Also links the list-based antichains used by the models of the siphon-trap solver and of runTAR to the container."},
 {"property": "C55", "status": "proved", "theorems": ["Verif.TARProps.C55_satisfied", "Verif.TARProps.C55_builder"], "note": "Every query the engine accepts; nets of the builder without inhibitor arcs. Upper-bound queries are not modelled."},
 {"property": "C56", "status": "partial", "theorems": ["Verif.TARProps.C56_notSatisfied_partial", "Verif.TARProps.C56_wrong"], "note": "Full claim refuted (ranges overwritten in RangeContext); proved for queries in which no range is overwritten and which do not hold in the empty marking."},
 {"property": "C57", "status": "partial", "theorems": ["Verif.TARProps.C57_terminal_partial", "Verif.TARProps.C57_transition", "Verif.TARProps.C57_overwritten", "Verif.TARProps.C57_lowerCheck"], "note": "Transition part proved; query part proved when no range is overwritten, refuted otherwise."},
 {"property": "C58", "status": "proved", "theorems": ["Verif.TARProps.C58_hoare", "Verif.TARProps.C58_notStuck"], "note": "Overflows of bounds are a separate outcome of the model."},
 {"property": "C59", "status": "partial", "theorems": ["Verif.TARProps.C59_noAnswer"], "note": "The claim is false of the code: refuted for all numbers of steps and random numbers."},
 {"property": "C60", "status": "partial", "theorems": ["Verif.XmlProps.C60_formula_partial", "Verif.XmlProps.C60_file_partial", "Verif.XmlProps.C60_sugar", "Verif.XmlProps.C60_sugar_compare", "Verif.XmlProps.C60_sugar_fireable", "Verif.XmlProps.C60_finding_bounds_not_read", "Verif.XmlProps.C60_finding_trivial_constraints", "Verif.XmlProps.C60_finding_large_constants", "Verif.XmlProps.C60_finding_empty_sum", "Verif.XmlProps.C60_finding_single_difference", "Verif.XmlProps.C60_finding_white_space", "Verif.XmlProps.C60_finding_reachability_tag"], "note": "The full statement is refuted (upper-bounds queries, trivial constraints, large constants, empty sums, differences with one operand, white space in names are not read back). Proved for files of any number of formulas and games of any size without those; meaning on all paths of 32-bit markings; CTL formulas via the conversion of AsCTL. rapidxml, white space between elements and escaping are not modelled. The elements that are read but never written (implication, equivalence, exclusive disjunction, old reachability names, gt/ge, fireability of several transitions) are proved to have their usual meanings."},
 {"property": "C61", "status": "partial", "theorems": ["Verif.CtlProps.C61_conversion", "Verif.CtlProps.C61_check_complete", "Verif.CtlProps.C61_check_partial", "Verif.CtlProps.C61_accepted_partial", "Verif.CtlProps.C61_next_in_deadlock", "Verif.CtlProps.C61_finding_path_formula_accepted", "Verif.CtlProps.C61_finding_until_operand_not_checked", "Verif.CtlProps.C61_finding_type_not_initialised", "Verif.CtlProps.C61_finding_quantifier_dropped"], "note": "Conversion of every CTL formula proved (with next operators: in systems without deadlocks). The exactness of the check is refuted (path formula at the top, second operand of EU/AU, uninitialised type); the accepted formulas are characterised without these."},
 {"property": "C62", "status": "partial", "theorems": ["Verif.CFP.C62_join", "Verif.CFP.C62_join_exact", "Verif.CFP.C62_cut", "Verif.CFP.C62_bounds", "Verif.CFP.C62_shift", "Verif.CFP.C62_count", "Verif.CFP.C62_finding_join_adds", "Verif.CFP.C62_finding_simplify_leaves_overlaps", "Verif.CFP.C62_finding_shift_far", "Verif.CFP.C62_finding_count_wraps", "Verif.CFP.C62_finding_no_ids", "Verif.CFP.C62_full_fails"], "note": "No operation loses a value, for all boxes; cuts and differences exact; joins exact in one dimension; shifts exact for modifiers not below minus the size; counts exact for disjoint boxes below 2^32. The full statement is refuted (joins over-approximate in several dimensions, one-pass simplification leaves overlaps, far modifiers, 32-bit counts)."},
 {"property": "C63", "status": "partial", "theorems": ["Verif.CFP.C63_input_maps_cover_partial", "Verif.CFP.C63_sums_aligned", "Verif.CFP.C63_finding_constant_first", "Verif.CFP.C63_finding_two_constants_first", "Verif.CFP.C63_finding_subtracted_variable", "Verif.CFP.C63_finding_several_terms", "Verif.CFP.C63_full_fails"], "note": "Proved for all sets of arcs whose leaves the visitor counts right (decidable condition, proved for sums of multiples of single terms with a variable in the first one). Full statement refuted: a constant before the first variable loses bindings."},
 {"property": "C64", "status": "partial", "theorems": ["Verif.CFP.C64_guard_keeps_partial", "Verif.CFP.C64_plain_guards", "Verif.CFP.C64_finding_different_variables", "Verif.CFP.C64_finding_successor_bound", "Verif.CFP.C64_finding_same_variable", "Verif.CFP.C64_finding_tuple_successor", "Verif.CFP.C64_finding_tuple_different", "Verif.CFP.C64_finding_order_of_variables", "Verif.CFP.C64_full_fails"], "note": "Proved for all guards that pass a decidable check (proved for guards over plain types without three kinds of comparison). Full statement refuted: x != y loses bindings. Guards with variables of product types are not modelled."},
 {"property": "C65", "status": "partial", "theorems": ["Verif.CFP.C65_output_covers_partial", "Verif.CFP.C65_finding_product_constant", "Verif.CFP.C65_full_fails"], "note": "For all arcs with constants of plain types; refuted for constants of product types."},
 {"property": "C66", "status": "partial", "theorems": ["Verif.CFP.C66_fixpoint_covers_partial", "Verif.CFP.C66_finding_considered", "Verif.CFP.C66_finding_restrict", "Verif.CFP.C66_finding_subtraction", "Verif.CFP.C66_full_fails"], "note": "Soundness of the whole fixed point for the nets of C63-C65 under the run-time condition that no growth is missed by the counts; the full claim is refuted by three defects of the code."},
 {"property": "C67", "status": "partial", "theorems": ["Verif.CFP.C67_generator_complete_partial", "Verif.CFP.C67_generator_exact_partial", "Verif.CFP.C67_generator_no_variables", "Verif.CFP.C67_finding_product_boxes", "Verif.CFP.C67_finding_common_colour", "Verif.CFP.C67_full_fails"], "note": "The generator (without symmetric variables) ends, gives only bindings satisfying the guard and all those within a map, if the boxes of each variable are tame (no upper corner of a box is passed inside another one); for plain types with disjoint boxes it gives exactly the bindings of each map, each once. Refuted in general: boxes of product types lose bindings, boxes with a common colour make it loop."},
 {"property": "C68", "status": "partial", "theorems": ["Verif.CFP.C68_unfolding_with_fixpoint_partial", "Verif.CFP.C68_finding_lost_transition", "Verif.CFP.C68_full_fails"], "note": "Composition of C66, C67 and C34: for nets of the class of C66, if no growth is missed (tidy), all transitions with variables are watched and the maps can be gone through (usable; both decidable checks), the unfolder returns and the compiled net has the reachable markings and deadlocks of the coloured net. Refuted in general: a transition without variables on its output arcs loses bindings, and the unfolded net is dead where the coloured net is not."},
 {"property": "C69", "status": "partial", "theorems": ["Verif.ColorIgnorantProps.C69_color_ignorant_partial", "Verif.ColorIgnorantProps.C69_strip_colors_partial", "Verif.ColorIgnorantProps.C69_returns", "Verif.ColorIgnorantProps.C69_finding_inhibitor_throws", "Verif.ColorIgnorantProps.Example.C69_finding_name_of_copy", "Verif.ColorIgnorantProps.C69_full_fails"], "note": "Proved for nets where no transition has the name of a copy and (for the explicit engine) subtraction and inhibitor arcs do not meet; both conditions are necessary (findings). Also assumed: sums of arc bounds below 2^32, no empty arc in nets without subtraction, no place that is both input and inhibitor of a transition."},
 {"property": "C70", "status": "partial", "theorems": ["Verif.ColorIgnorantCheckProps.C70_cardinality_verdict_partial", "Verif.ColorIgnorantCheckProps.cardCheck_sound"], "note": "For every coloured net for which C69 holds, every formula without vacuous comparisons and with constants that the linear programs represent exactly (C17, C22), counters below 2^32, every sound solver. The query is taken after the first rewriting."},
 {"property": "C71", "status": "partial", "theorems": ["Verif.ColorIgnorantCheckProps.C71_fireability_verdict_partial", "Verif.ColorIgnorantCheckProps.C71_finding_no_arcs", "Verif.ColorIgnorantCheckProps.C71_finding_inhibitors_only", "Verif.ColorIgnorantCheckProps.C71_full_fails"], "note": "Right whenever each transition asked about takes a token in the net without colours, or has no arcs and can always fire; refuted for transitions without input arcs whose guard fails (F98). Any order of the search, any time limit."},
 {"property": "C72", "status": "partial", "theorems": ["Verif.CRed.C72_redundantPlaces_partial", "Verif.CRed.C72_finding_throws"], "note": "Proved: whenever the rule returns, the net before and after are bisimilar with equal tokens on the remaining places (for well-formed nets with arcs sorted by place). Refuted: the rule never throws (a product-typed variable next to a tuple of variables throws)."},
 {"property": "C73", "status": "partial", "theorems": ["Verif.CRed.C73_deadTransitions_partial", "Verif.CRed.C73_removed_dead", "Verif.CRed.C73_finding_producers", "Verif.CRed.C73_finding_names"], "note": "Proved: removed transitions never fire, and the whole rule keeps the behaviour when places go only with all their consumers and equal texts mean equal expressions. Refuted without these: the code compares with the number of producers (F100), and compares expressions by text (F101)."},
 {"property": "C74", "status": "partial", "theorems": ["Verif.CRed.C74_parallelTransitions_partial", "Verif.CRed.C74_graph_partial", "Verif.CRed.C74_finding_guard", "Verif.CRed.C74_finding_wrap", "Verif.CRed.C74_finding_zero"], "note": "Proved for nets with weights below 2^16, readable texts and no empty products, and for deadlocks if transitions without arcs have no guard and arcs carry tokens; refuted beyond (guards of empty transitions, 32-bit wrap, arcs that carry nothing)."},
 {"property": "C75", "status": "partial", "theorems": ["Verif.CRed.C75_relevance_partial", "Verif.CRed.C75_cardinality_partial", "Verif.CRed.C75_fireable_partial", "Verif.CRed.C75_total_partial", "Verif.CRed.C75_finding_flagged", "Verif.CRed.C75_finding_inhibited", "Verif.CRed.C75_finding_subtraction"], "note": "Proved for nets without subtractions at inhibiting places, for queries about numbers of tokens, about one transition, and all others whose transitions have their places treated as places of the query; refuted beyond.  The place added when none is left is not modelled."},
 {"property": "C76", "status": "partial", "theorems": ["Verif.CRed.C76_parallelPlaces_partial", "Verif.CRed.C76_even_partial", "Verif.CRed.C76_whole", "Verif.CRed.C76_finding_cut", "Verif.CRed.C76_finding_wrap"], "note": "Proved for nets whose tokens at the start are in the ratio found by the rule, in particular for whole ratios without overflow and for nets with equal weights; refuted in general (ratio cut to an integer, product in 32 bits)."},
 {"property": "C77", "status": "partial", "theorems": ["Verif.CRed.C77_preemptiveFiring_partial", "Verif.CRed.C77_neat_partial", "Verif.CRed.C77_finding_loop", "Verif.CRed.C77_finding_wrap", "Verif.CRed.C77_finding_notDead", "Verif.CRed.C77_finding_stale", "Verif.CRed.C77_finding_zero", "Verif.CRed.C77_finding_constant"], "note": "Proved for all nets, markings and runs if each transition that is fired carries tokens of one variable on its arcs, puts none back, and the tokens fit 32 bits, and no deadlock is negated in the query. False without these conditions, with a witness for each: a constant on the arc moves tokens of other colours, tokens put back are lost, sums wrap, EF not deadlock changes. The rule also reads a cleared vector and may divide by 0."},
 {"property": "C78", "status": "partial", "theorems": ["Verif.CFP.C78_symmetric_variables_partial", "Verif.CFP.C78_found_sets", "Verif.CFP.C78_finding_repeated", "Verif.CFP.C78_finding_two_sets", "Verif.CFP.C78_finding_output", "Verif.CFP.C78_finding_types", "Verif.CFP.C78_full_fails"], "note": "Full claim C78_full is refuted (F116-F119). Proved for nets in the class of C68 whose transitions have at most one set of symmetric variables, of one type, on which the arcs are even (a decidable check); covers termination of the generator, reachability in both directions and deadlock. Without partition of colours. C78_found_sets: on input arcs that are sums of numbers of distinct variables, the sets found are even on the input arcs and lie whole on one output arc."},
 {"property": "C79", "status": "partial", "theorems": ["Verif.PQL.C79_loops_partial", "Verif.PQL.C79_ctl", "Verif.PQL.C79_ltl", "Verif.PQL.C79_net", "Verif.PQL.C79_finding_flag", "Verif.PQL.C79_finding_negated", "Verif.PQL.C79_full_fails"], "note": "Full claim C79_full is refuted (F120, F121: the flag of the visitor is not turned back). Proved for all CTL queries, for LTL queries without inner negations, and in general for queries on which the flag tells the truth (a decidable check)."},
 {"property": "C80", "status": "partial", "theorems": ["Verif.PQL.C80_next_partial", "Verif.PQL.C80_next_exact", "Verif.PQL.C80_nested_partial", "Verif.PQL.C80_finding_late", "Verif.PQL.C80_full_fails"], "note": "Full claim C80_full is refuted (deadlocks that pass for harmless, F122). Proved for queries without deadlocks, and with deadlocks if related states agree on being dead; containsNext is exact; hasNestedDeadlock is right when it says yes, and exact if operands with connectives come last."},
 {"property": "C81", "status": "partial", "theorems": ["Verif.LTLVisibleProps.C81_classic_reduction_keeps_ltl_partial", "Verif.LTLVisibleProps.C81_classic_reduction_keeps_runs_partial", "Verif.LTLVisibleProps.C81_finding_ignoring", "Verif.LTLVisibleProps.C81_finding_deadlock"], "note": "Proved for formulas without deadlock propositions under the ignoring proviso; findings F123 and F124 show that both restrictions are needed (the program never ensures the proviso)."},
 {"property": "C82", "status": "partial", "theorems": ["Verif.LTLStubbornProps.C82_automaton_reduction_keeps_accepting_runs_partial", "Verif.LTLStubbornProps.C82_comparisons_turned", "Verif.LTLStubbornProps.C82_finding_deadlock", "Verif.LTLStubbornProps.C82_finding_conjunction"], "note": "Proved for nets without reachable deadlock and steady conditions; findings F125 and F126 show that both restrictions are needed. The conditions made by spot from decision diagrams are trusted to evaluate like the guards."},
 {"property": "C83", "status": "partial", "theorems": ["Verif.PartitionProps.C83_split_refines_partial", "Verif.PartitionProps.C83_split_ends_partial", "Verif.PartitionProps.C83_split_flag_partial", "Verif.PartitionProps.C83_merge_partial", "Verif.PartitionProps.C83_merge_keeps", "Verif.PartitionProps.C83_finding_subtract", "Verif.PartitionProps.C83_finding_flag"], "note": "Proved for colour types with one component and classes whose boxes do not touch (merging: for all classes); finding F127 refutes the statement for boxes that touch. F128: the result flag says only that classes meet."},
 {"property": "C84", "status": "partial", "theorems": ["Verif.PartitionProps.C84_same_place_partial", "Verif.PartitionProps.C84_representative_partial", "Verif.PartitionProps.C84_finding_collision"], "note": "Proved for colour types with one component (no diagonal positions); finding F129 refutes the statement with diagonal positions."},
 {"property": "C85", "status": "proved", "theorems": ["Verif.HyperProps.C85_compound_successors", "Verif.HyperProps.C85_each_once", "Verif.HyperProps.C85_initial"], "note": "For nets that satisfy the layout invariant and markings below the 32-bit limit (beyond it the program stops with an error)."},
 {"property": "C86", "status": "partial", "theorems": ["Verif.HyperProps.C86_evaluated_on_trace_partial", "Verif.HyperProps.C86_finding_scope", "Verif.HyperProps.C86_finding_scope_net", "Verif.HyperProps.C86_full_fails", "Verif.HyperProps.C86_finding_never_apart", "Verif.HyperProps.C86_finding_sum"], "note": "Full claim C86_full is refuted (F130). Proved where scopes are around expressions that are no sums of places, and for everything about the first trace; finding F131: sums."},
 {"property": "C87", "status": "proved", "theorems": ["Verif.BucketsProps.C87_ids_distinct", "Verif.BucketsProps.C87_cells_distinct", "Verif.BucketsProps.C87_cells_stay", "Verif.BucketsProps.C87_one_thread", "Verif.BucketsProps.C87_finding_pop"], "note": "Calls of different threads do not overlap in the model. Finding F132 is about pop_back, which nothing uses."},
 {"property": "C88", "status": "proved", "theorems": ["Verif.SucQueueProps.C88_plain", "Verif.SucQueueProps.C88_extended", "Verif.SucQueueProps.C88_generate_all", "Verif.SucQueueProps.C88_needs_old"], "note": "generate_all is modelled without heuristic."},
 {"property": "C89", "status": "partial", "theorems": ["Verif.LTL.C89_simplify", "Verif.LTL.C89_simplify_quantified", "Verif.LTL.C89_query_A", "Verif.LTL.C89_query_E", "Verif.LTL.C89_query_partial", "Verif.LTL.C89_push", "Verif.LTL.C89_initial", "Verif.LTL.C89_chain_partial", "Verif.LTL.C89_chain_shape", "Verif.LTL.C89_program_partial", "Verif.LTL.C89_program_shape", "Verif.LTL.C89_finding_quantifier", "Verif.LTL.C89_finding_chain", "Verif.LTL.C89_full_fails"], "note": "Full for LTL::simplify. simplify_ltl_query keeps the answers of the queries A, E, AF, AG and AU; C89_program_partial has all its steps (spot, initialMarkingRW, pushNegation, linear programs), with the restrictions of C17 and C22 on numbers. The full statement C89_full fails: EF, EG and EU are treated as queries about all paths (F133). Spot's simplifier is a parameter with the contract SimpOK."},
 {"property": "C90", "status": "partial", "theorems": ["Verif.LTL.C90_answer_partial", "Verif.LTL.C90_answer_ends", "Verif.LTL.C90_finding_quantifier"], "note": "End to end for the simplification and the LTL engine, without partial-order reduction and structural reductions; an answer comes whenever the simplification ends (cf. C91). Not for EF, EG and EU, which the simplification mistreats: C90_finding_quantifier gives a wrong answer (F133). The restrictions of C17 and C22 on numbers remain. Spot's contracts are hypotheses."},
 {"property": "C91", "status": "proved", "theorems": ["Verif.LTL.C91_push_ends", "Verif.LTL.C91_fuel", "Verif.LTL.C91_push_weight", "Verif.LTL.C91_chain_ends", "Verif.LTL.C91_simplify_ends"], "note": "Full for formulas of LTL. That the step with linear programs ends is a hypothesis of the last two theorems."}
]}
