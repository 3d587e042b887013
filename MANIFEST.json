{
 "claims": [
  {
   "property": "C01",
   "status": "proved",
   "theorems": [
    "Satis.C01_find_n_m_l_zero",
    "Satis.C01_find_n_m_l_sound"
   ],
   "note": "Full. Covers X = 0 (ValueError) and every X >= 1; leaves and splitters are counted on an inductive splitter tree."
  },
  {
   "property": "C02",
   "status": "proved",
   "theorems": [
    "Satis.C02_find_n_m_l_optimal",
    "Satis.C02_best_shape_unique"
   ],
   "note": "Full: optimal among all (n', m'), least looped leaves on ties, l < X, and the best shape is unique."
  },
  {
   "property": "C03",
   "status": "proved",
   "theorems": [
    "Satis.C03_tree_tables",
    "Satis.C03_depth_inhabited"
   ],
   "note": "Full: tables against the subtrees of the tree found at each depth."
  },
  {
   "property": "C04",
   "status": "proved",
   "theorems": [
    "Satis.C04_n_looping_exact",
    "Satis.C04_n_looping_determined",
    "Satis.C04_n_looping_disjoint",
    "Satis.C04_n_looping_negative"
   ],
   "note": "Full: termination, exactness, fewest subtrees, determinacy, disjointness when they fit, IndexError for l < 0."
  },
  {
   "property": "C05",
   "status": "proved",
   "theorems": [
    "Satis.C05_looping_branches_exact"
   ],
   "note": "Full: exact cover, ignore counts, widths, and fewest subtrees."
  },
  {
   "property": "C06",
   "status": "proved",
   "theorems": [
    "Satis.C06_merge_cost_minimal"
   ],
   "note": "Full, against sequences of 2- and 3-input mergers."
  },
  {
   "property": "C07",
   "status": "proved",
   "theorems": [
    "Satis.C07_extract_cost_pos",
    "Satis.C07_divide_cost_pos",
    "Satis.C07_divide_raises",
    "Satis.C07_extract_raises",
    "Satis.C07_merge_cost_pos",
    "Satis.C07_split_cost"
   ],
   "note": "Full, for every set of belt speeds."
  },
  {
   "property": "C08",
   "status": "partial",
   "theorems": [
    "Satis.C08_divide_uniform_partial",
    "Satis.C08_divide_uniform_iff_partial",
    "Satis.C08_divide_uniform_false"
   ],
   "note": "The code violates the property for one or two looped branches over the limit: C08_divide_uniform_false (1200 into 5). C08_divide_uniform_partial proves it in every other case; C08_divide_uniform_iff_partial says exactly when the formula is right."
  },
  {
   "property": "C09",
   "status": "partial",
   "theorems": [
    "Satis.C09_surcharge_partial",
    "Satis.C09_surcharge_iff_partial",
    "Satis.C09_divide_surcharge_partial",
    "Satis.C09_divide_surcharge_iff_partial",
    "Satis.C09_surcharge_false"
   ],
   "note": "The code violates the property: C09_surcharge_false (201 out of 1005). The partial theorems prove it outside the window between the code's estimate and the real belt; C09_surcharge_iff_partial and C09_divide_surcharge_iff_partial say exactly when the surcharge is right."
  },
  {
   "property": "C10",
   "status": "proved",
   "theorems": [
    "Satis.C10_fastlist_ordered_set"
   ],
   "note": "Full for the five overridden methods plus the constructor, exceptions included; other methods inherited from list are never called on a FastList and are not modelled."
  },
  {
   "property": "C11",
   "status": "proved",
   "theorems": [
    "Satis.C11_remove_pairs_exact",
    "Satis.C11_remove_pairs_idempotent"
   ],
   "note": "Full, for lists of rationals (the lemmas are generic)."
  },
  {
   "property": "C12",
   "status": "proved",
   "theorems": [
    "Satis.C12_scaling_exact",
    "Satis.C12_scaling_order"
   ],
   "note": "Full."
  },
  {
   "property": "C13",
   "status": "proved",
   "theorems": [
    "Satis.C13_decimal_classification"
   ],
   "note": "Full, against the actual decimal digits of |f|."
  },
  {
   "property": "C14",
   "status": "proved",
   "theorems": [
    "Satis.C14_literals",
    "Satis.C14_zero_denominator"
   ],
   "note": "Full for ASCII digits; the value of a repeating block is stated as a limit."
  },
  {
   "property": "C15",
   "status": "proved",
   "theorems": [
    "Satis.C15_name_round_trip",
    "Satis.C15_sorted_adjacent"
   ],
   "note": "Full, with either slash."
  },
  {
   "property": "C16",
   "status": "proved",
   "theorems": [
    "Satis.C16_no_separator",
    "Satis.C16_names_injective"
   ],
   "note": "Full."
  },
  {
   "property": "C17",
   "status": "partial",
   "theorems": [
    "Satis.C17_linear_combinations_partial",
    "Satis.C17_linear_combinations_false",
    "Satis.C17_exact_iff_ascending_partial"
   ],
   "note": "The code violates the property: C17_linear_combinations_false ([1, 1], 1). The partial theorem gives the prefix form that does hold; C17_exact_iff_ascending_partial: the enumeration is exact for every sum if and only if the positive values are strictly ascending."
  },
  {
   "property": "C18",
   "status": "proved",
   "theorems": [
    "Satis.C18_all_sums",
    "Satis.C18_counts"
   ],
   "note": "Full."
  },
  {
   "property": "C19",
   "status": "proved",
   "theorems": [
    "Satis.C19_gcd_filter",
    "Satis.C19_divisors"
   ],
   "note": "Full."
  },
  {
   "property": "C20",
   "status": "proved",
   "theorems": [
    "Satis.C20_load_total",
    "Satis.C20_rejected_unchanged",
    "Satis.C20_cli",
    "Satis.C20_cancelled_resets"
   ],
   "note": "Full: every string and previous state; the exceptions are ValueError and AssertionError only. C20_cancelled_resets records that an input that cancels out is refused but forgets the previous solutions."
  },
  {
   "property": "C21",
   "status": "proved",
   "theorems": [
    "Satis.C21_balanced"
   ],
   "note": "Full, for every accepted input (zeros included)."
  },
  {
   "property": "C22",
   "status": "proved",
   "theorems": [
    "Satis.C22_loaded_problem",
    "Satis.C22_search_assumptions"
   ],
   "note": "Full, for every accepted input of positive values; C22_search_assumptions shows that a loaded problem meets the hypotheses of the theorems on the search."
  },
  {
   "property": "C23",
   "status": "proved",
   "theorems": [
    "Satis.C23_assertion_holds"
   ],
   "note": "Full. Without positivity it is false ('5 to 0 5' raises AssertionError, shown by an example)."
  },
  {
   "property": "C24",
   "status": "partial",
   "theorems": [
    "Satis.C24_loads_false",
    "Satis.C24_loads_partial"
   ],
   "note": "The code violates the property: '2 to 1 1' raises ValueError (C24_loads_false). C24_loads_partial characterises exactly the inputs of positive values that raise."
  },
  {
   "property": "C25",
   "status": "proved",
   "theorems": [
    "Satis.C25_grouping_lossless"
   ],
   "note": "Full, for every list of positive integers and every configuration."
  },
  {
   "property": "C26",
   "status": "proved",
   "theorems": [
    "Satis.C26_extract_conserves",
    "Satis.C26_divide_conserves",
    "Satis.C26_split_conserves",
    "Satis.C26_merge_conserves",
    "Satis.C26_merge_share",
    "Satis.C26_links_preserved"
   ],
   "note": "Full for extract, divide, split and merge (merge: distinct inputs without children, which is what the search passes)."
  },
  {
   "property": "C27",
   "status": "proved",
   "theorems": [
    "Satis.C27_states_well_formed"
   ],
   "note": "Full, at every loop test of solve for every oracle; an oracle may clear the flag at any read, which covers the moments inside a round."
  },
  {
   "property": "C28",
   "status": "proved",
   "theorems": [
    "Satis.C28_predicted_states"
   ],
   "note": "Full, for trees built by permitted moves and every state of the search at the time of the test."
  },
  {
   "property": "C29",
   "status": "proved",
   "theorems": [
    "Satis.C29_states_layered"
   ],
   "note": "Full."
  },
  {
   "property": "C30",
   "status": "partial",
   "theorems": [
    "Satis.C30_copy_faithful_partial",
    "Satis.C30_copy_levels_false"
   ],
   "note": "The code violates the property for the levels of roots: C30_copy_levels_false. C30_copy_faithful_partial proves the rest (and levels of all other nodes), cyclic graphs included."
  },
  {
   "property": "C31",
   "status": "partial",
   "theorems": [
    "Satis.C31_copy_past_partial",
    "Satis.C31_past_lost_false"
   ],
   "note": "The code violates the property: C31_past_lost_false. C31_copy_past_partial states exactly what is kept."
  },
  {
   "property": "C32",
   "status": "proved",
   "theorems": [
    "Satis.C32_no_revisit"
   ],
   "note": "Full."
  },
  {
   "property": "C33",
   "status": "proved",
   "theorems": [
    "Satis.C33_solutions_correct"
   ],
   "note": "Full, with an explicit flow on every edge."
  },
  {
   "property": "C34",
   "status": "proved",
   "theorems": [
    "Satis.C34_best_size",
    "Satis.C34_best_size_monotone"
   ],
   "note": "Full."
  },
  {
   "property": "C35",
   "status": "proved",
   "theorems": [
    "Satis.C35_terminates"
   ],
   "note": "Full: some amount of fuel suffices, for every oracle that never stops."
  },
  {
   "property": "C36",
   "status": "partial",
   "theorems": [
    "Satis.C36_stop_partial",
    "Satis.C36_stop_freezes",
    "Satis.C36_stop_false"
   ],
   "note": "The code violates the property: C36_stop_false (flag cleared between the loop test and dequeue: TypeError). C36_stop_partial and C36_stop_freezes prove it for every other moment."
  },
  {
   "property": "C37",
   "status": "proved",
   "theorems": [
    "Satis.C37_no_solution"
   ],
   "note": "Full."
  },
  {
   "property": "C38",
   "status": "partial",
   "theorems": [
    "Satis.C38_optimal_false",
    "Satis.C38_optimal_partial",
    "Satis.C38_optimal_one_move_partial"
   ],
   "note": "The code violates the property: C38_optimal_false (4 4 to 1 2 5, real scores and duplicate test). C38_optimal_partial pins down the only possible cause of a missed optimum."
  },
  {
   "property": "C39",
   "status": "partial",
   "theorems": [
    "Satis.Run.C39_reads",
    "Satis.Run.C39_stop_partial",
    "Satis.Run.C39_false"
   ],
   "note": "False as stated: C39_false (requests before solving=True and between the end of solve and concluding=True are lost, in three schedules). C39_stop_partial: in every schedule a request made while solve or conclude runs makes it read only false once the handler has returned. C39_reads: the reads are true first and false then. A run with a single solution does not read the flag while concluding."
  },
  {
   "property": "C40",
   "status": "proved",
   "theorems": [
    "Satis.C40_attached"
   ],
   "note": "Full, for every solution of every search of a loaded problem, attached to the heap the search leaves. Attaching a second solution after the first one has been saved is C41."
  },
  {
   "property": "C41",
   "status": "partial",
   "theorems": [
    "Satis.C41_independent_partial",
    "Satis.C41_endless",
    "Satis.C41_mixed",
    "Satis.C41_pictures_false",
    "Satis.C41_conclude_false"
   ],
   "note": "False where a group of more than three equal targets is inside of another group: C41_conclude_false (three solutions, each can be saved alone, saving all three does not end) and C41_pictures_false (saving ends, but the unexpanded network of the second solution shows the group that was expanded with the first). C41_endless: the first kind in general: if such a group has a number of members that is not a product of twos and threes, and there is a second solution, then, if the first can be saved, its division was left out in expansion (C46) or saving does not end. C41_mixed: the second kind in general, for any number of members over three: unless its division was left out, the network to which the second solution is attached has nodes made while the first was expanded; attached alone it has none. C41_independent_partial: if the groups that are inside of another have at most three members (and the others any number) then concluding ends; it succeeds exactly if every solution can be saved alone, and then writes for each what is written alone: the same unexpanded network, and the same expanded network up to the ids of the nodes made while expanding."
  },
  {
   "property": "C42",
   "status": "proved",
   "theorems": [
    "Satis.C42_expand_divide"
   ],
   "note": "Full below the limit, as stated: shape, arities, flows (unique), one belt per part, link consistency, merge requests."
  },
  {
   "property": "C43",
   "status": "proved",
   "theorems": [
    "Satis.C43_expand_extract"
   ],
   "note": "Full, below and above the limit."
  },
  {
   "property": "C44",
   "status": "partial",
   "theorems": [
    "Satis.C44_merge_inputs",
    "Satis.C44_expand_merge_partial",
    "Satis.C44_expand_merge_false",
    "Satis.C44_repeated_inputs"
   ],
   "note": "False for repeated inputs: C44_expand_merge_false (8 out of 9: belts are cut). C44_expand_merge_partial proves the full network statement for different inputs; C44_repeated_inputs decides it for all inputs: exactly when no machine has one belt among the merged ones and one among those left alone (Parted) is the network right; C44_merge_inputs proves termination, arity and minimality for all inputs."
  },
  {
   "property": "C45",
   "status": "partial",
   "theorems": [
    "Satis.C45_extract_limit",
    "Satis.C45_divide_limit_partial",
    "Satis.C45_divide_limit_false",
    "Satis.C45_merge_limit"
   ],
   "note": "False for divisions: C45_divide_limit_false (1005 in five parts). C45_divide_limit_partial says exactly when the limit is kept; C45_extract_limit and C45_merge_limit are full for extractions and merges of different inputs."
  },
  {
   "property": "C46",
   "status": "partial",
   "theorems": [
    "Satis.C46_over_limit",
    "Satis.C46_over_limit_root",
    "Satis.C46_solutions_lost",
    "Satis.C46_expand_levels_partial",
    "Satis.C46_expand_levels_false"
   ],
   "note": "False above the limit: C46_expand_levels_false (TypeError while expanding). C46_expand_levels_partial: below the limit every node keeps a level and nothing raises. C46_over_limit: above the limit, where part of the flow is sent back, expand_roots raises or never gets to the node, on every graph; C46_over_limit_root: at a root it raises. C46_solutions_lost: at the level of the program, if a root of the solution that is saved first is over the limit with the targets attached, saving the solutions ends in an exception, also when the others could be saved alone (example with a limit of 5)."
  },
  {
   "property": "C47",
   "status": "partial",
   "theorems": [
    "Satis.C47_split_flows_partial",
    "Satis.C47_split_links_false"
   ],
   "note": "Flows proved (C47_split_flows_partial); the link consistency part of the claim is false for every input (C47_split_links_false)."
  },
  {
   "property": "C48",
   "status": "proved",
   "theorems": [
    "Satis.C48_round_trip"
   ],
   "note": "Full at graph level. The textual form (str / ast.literal_eval) is trusted to be inverse."
  },
  {
   "property": "C49",
   "status": "partial",
   "theorems": [
    "Satis.C49_data_complete_partial",
    "Satis.C49_data_complete_false"
   ],
   "note": "False: C49_data_complete_false (drawing has 6 nodes, data 3). C49_data_complete_partial says exactly which nodes are written."
  },
  {
   "property": "C50",
   "status": "partial",
   "theorems": [
    "Satis.C50_test_exact",
    "Satis.C50_duplicates_partial",
    "Satis.C50_equal_recognised",
    "Satis.C50_duplicates_false"
   ],
   "note": "The code violates the property: C50_duplicates_false (1 1 1 2 to 5). Proved: the test never fails, decides exactly equality of the undirected unlabelled shapes, and recognises every equal network. networkx.is_isomorphic is replaced by its definition, decided by exhaustive search."
  },
  {
   "property": "C51",
   "status": "partial",
   "theorems": [
    "Satis.Files.C51_clear_partial",
    "Satis.Files.C51_overmatch_false",
    "Satis.Files.C51_conclude"
   ],
   "note": "False as stated: C51_overmatch_false (the pattern is not anchored at the end). C51_clear_partial: all own files are removed, and exactly the names that start like one; C51_conclude: after a run the own files are exactly those of this run."
  },
  {
   "property": "C52",
   "status": "proved",
   "theorems": [
    "Satis.Files.C52_history",
    "Satis.Files.C52_recent"
   ],
   "note": "For every sequence of append_string and prompt (load), plus the directories at the start."
  },
  {
   "property": "C53",
   "status": "proved",
   "theorems": [
    "Satis.C53_cant_use_exact",
    "Satis.C53_needed_protected"
   ],
   "note": "Full."
  },
  {
   "property": "C54",
   "status": "proved",
   "theorems": [
    "Satis.C54_values_bounded",
    "Satis.C54_values_within_total"
   ],
   "note": "Full. C54_values_within_total bounds every value in every tree by the sum of the sources besides."
  },
  {
   "property": "C55",
   "status": "partial",
   "theorems": [
    "Satis.C55_limit_false",
    "Satis.C55_limit_partial",
    "Satis.C55_limit_iff_partial"
   ],
   "note": "The code violates the property on fractional inputs: C55_limit_false ('601/2 601/2 to 601' is refused its only merge and the search finds nothing). C55_limit_partial proves one direction always and the other for unscaled inputs. C55_limit_iff_partial says exactly when the decision about a candidate agrees with the flow it stands for."
  },
  {
   "property": "C56",
   "status": "proved",
   "theorems": [
    "Satis.C56_solution_test"
   ],
   "note": "Full."
  },
  {
   "property": "C57",
   "status": "partial",
   "theorems": [
    "Satis.C57_min_level",
    "Satis.C57_level_updates",
    "Satis.C57_populate",
    "Satis.C57_expand_ends_partial",
    "Satis.C57_expand_visits_all_false"
   ],
   "note": "min_level, tag_levels_update/apply_levels_update and populate: full (C57_min_level, C57_level_updates, C57_populate). Expansion ends and visits no node twice (C57_expand_ends_partial) but need not visit every reachable node: C57_expand_visits_all_false."
  },
  {
   "property": "C58",
   "status": "partial",
   "theorems": [
    "Satis.C58_run_scores",
    "Satis.C58_score_defined",
    "Satis.C58_solution_score",
    "Satis.C58_full_score_partial",
    "Satis.C58_reaches_iff",
    "Satis.C58_single_false",
    "Satis.C58_full_score_false"
   ],
   "note": "Definedness, non-negativity, lower bound and the value on solutions are proved. That only solutions reach n^2 fails in general (C58_full_score_false: a source too many; C58_single_false: the source 10 for the target 5) and is proved for balanced totals, which all states of a search have, with a gap of 2/3 (C58_full_score_partial); C58_run_scores says so of every tree that waits in the queue at any round of a run on what load() made. C58_reaches_iff: for two or more targets, whatever the totals, n^2 is reached exactly if every target is matched by a source of its own."
  },
  {
   "property": "C59",
   "status": "proved",
   "theorems": [
    "Satis.C59_bound_is_plan",
    "Satis.C59_search_succeeds"
   ],
   "note": "The bound minus the grouping offset is the cost of an explicit plan (Converts); when the plan is within the permitted moves (PlanFits) it is a play of exactly that cost and an unstopped search that ends has a solution."
  },
  {
   "property": "C60",
   "status": "proved",
   "theorems": [
    "Satis.Run.C60_flag",
    "Satis.Run.C60_returns",
    "Satis.Run.C60_outcome"
   ],
   "note": "For arbitrary programs in place of solve and conclude (return, raise, read on) and every schedule; returning needs a fair schedule and that the programs end."
  },
  {
   "property": "C61",
   "status": "proved",
   "theorems": [
    "Satis.C61_request_answered"
   ],
   "note": "Full: end to end from the input string to the attached graph (per solution, right after the search)."
  },
  {
   "property": "C62",
   "status": "proved",
   "theorems": [
    "Satis.Files.C62_names_distinct"
   ],
   "note": "Names for solutions 0..n-1 pairwise different, four each."
  },
  {
   "property": "C63",
   "status": "partial",
   "theorems": [
    "Satis.C63_divide_partial",
    "Satis.C63_extract_partial",
    "Satis.C63_divide_over",
    "Satis.C63_extract_over",
    "Satis.C63_split",
    "Satis.C63_merge",
    "Satis.C63_divide_false",
    "Satis.C63_extract_false"
   ],
   "note": "Proved for splits, merges, and for divisions and extractions whose tree is fed within the belt limit. Over the limit the code violates it in both directions (C63_divide_false: priced 4, takes 7; C63_extract_false: priced 8, takes 7); C63_extract_over and C63_divide_over give the exact difference: an extraction the code knows to be over the limit is priced at most one machine too high, a division at most one too low; where the code does not notice, the price is too low."
  },
  {
   "property": "C64",
   "status": "proved",
   "theorems": [
    "Satis.Run.C64_lines",
    "Satis.Run.C64_words",
    "Satis.Run.C64_close",
    "Satis.Run.C64_requests",
    "Satis.Run.C64_ends_iff"
   ],
   "note": "For arbitrary lines, load results, programs and schedules. Coming back to the prompt and ending need a fair schedule, finitely many signals and runs that end."
  },
  {
   "property": "C65",
   "status": "partial",
   "theorems": [
    "Satis.Run.C65_handler_partial",
    "Satis.Run.C65_quits_false",
    "Satis.Run.C65_load_false"
   ],
   "note": "The code violates it: C65_quits_false (the backend lowers running between the arrival of the signal and the look of the handler; the program quits), C65_load_false (a signal during load lets the problem run to its end, then the program quits). C65_handler_partial gives the exact condition."
  },
  {
   "property": "C66",
   "status": "partial",
   "theorems": [
    "Satis.C66_expanded_delivers_partial",
    "Satis.C66_pending_false",
    "Satis.C66_expanded_delivers_false"
   ],
   "note": "The code violates it: C66_expanded_delivers_false (9 to 8 1: four belts, two from the same machine, are merged; the network carries 15/2 and 3/2), C66_pending_false (36 to 33 1 2: no belt gets lost, but an extraction stays pending). C66_expanded_delivers_partial proves it for all networks in which merging does not separate belts that come from the same machine (Roomy; the merges include those of belts that lead back and of belts of extractions), under the belt limit, without pending splits: the result has the same leaves, nothing is left pending if the belts to what is extracted need no merge (Light; those to what is left may need one), and whenever nothing is left pending the flows exist, are the only ones, and stay under the limit. C67_solutions_sound shows that solutions of the search meet the structural hypotheses."
  },
  {
   "property": "C67",
   "status": "partial",
   "theorems": [
    "Satis.C67_solutions_sound",
    "Satis.C67_request_delivered_partial",
    "Satis.C67_fractions_false"
   ],
   "note": "The code violates it: C67_fractions_false (61.5 to 30 31.5: the scaled part 60 counts as a conveyor speed although the flow is 30; the network built cannot bring the targets), and C66_expanded_delivers_false, C66_pending_false. C67_solutions_sound proves without such conditions that every solution with its targets attached is a consistent network. C67_request_delivered_partial proves the claim for requests without fractions, or with fractions where the solution uses no conveyor of a given speed (Even), and solutions without pending splits where merging does not separate belts from the same machine (Roomy), under the belt limit, if nothing is left pending, which is proved for those where belts to what is extracted need no merge (Light)."
  },
  {
   "property": "C68",
   "status": "proved",
   "theorems": [
    "Satis.Comb.C68_combinations",
    "Satis.Comb.C68_stack_exact"
   ],
   "note": "Full. C68_stack_exact: the bound on n is exact."
  },
  {
   "property": "C69",
   "status": "partial",
   "theorems": [
    "Satis.Comb.C69_old_combinations_false",
    "Satis.Comb.C69_old_combinations_partial"
   ],
   "note": "The code violates it in three ways: C69_old_combinations_false (two out of 1 2 3 writes behind the buffers, two out of 1 2 stores 2 2, two out of 1 2 3 4 misses 3 4). C69_old_combinations_partial: with n(n-1)...(n-r+1) rows of room it is memory safe and stores different sorted rows of values with their sums."
  },
  {
   "property": "C70",
   "status": "proved",
   "theorems": [
    "Satis.Comb.C70_binomial"
   ],
   "note": "Full."
  },
  {
   "property": "C71",
   "status": "proved",
   "theorems": [
    "Satis.Merging.C71_simulate",
    "Satis.Merging.C71_histories",
    "Satis.Merging.C71_rates"
   ],
   "note": "Full."
  },
  {
   "property": "C72",
   "status": "partial",
   "theorems": [
    "Satis.Merging.C72_three_inputs_false",
    "Satis.Merging.C72_reset_false",
    "Satis.Merging.C72_hands_on_partial"
   ],
   "note": "The code violates it: C72_three_inputs_false (120/270/480 into 780: the buffers are swapped while the inputs rotate, so after 52 steps the input of 120 handed on 14 of 8 items), C72_reset_false (reset keeps buffers and order). C72_hands_on_partial: new merger with at most two inputs; total conservation and one item per step for any number of inputs."
  },
  {
   "property": "C73",
   "status": "proved",
   "theorems": [
    "Satis.Pairing.C73_methods_agree",
    "Satis.Pairing.C73_consistent",
    "Satis.Pairing.C73_comparison"
   ],
   "note": "Full. The script itself passes the undefined name remove_pairs_optimized; the comparison is modelled with the method that exists."
  },
  {
   "property": "C74",
   "status": "proved",
   "theorems": [
    "Satis.Speeds.C74_speeds",
    "Satis.Speeds.C74_label"
   ],
   "note": "Full. Divisions are modelled as divisibility, exact for these speeds."
  },
  {
   "property": "C75",
   "status": "proved",
   "theorems": [
    "Satis.Greedy.C75_grouping_undone"
   ],
   "note": "Full."
  },
  {
   "property": "C76",
   "status": "partial",
   "theorems": [
    "Satis.Greedy.C76_extract_two",
    "Satis.Greedy.C76_extract_one",
    "Satis.Greedy.C76_extract_two_cheapest",
    "Satis.Greedy.C76_extract_one_cheapest",
    "Satis.Greedy.C76_merge_false",
    "Satis.Greedy.C76_merge_partial",
    "Satis.Greedy.C76_run",
    "Satis.Greedy.C76_run_all"
   ],
   "note": "The code violates it for the merge: C76_merge_false (sources 3 3 8 8, targets 16 4 2: a coefficient left from an earlier branch merges all four). The two extractions hold in full; C76_merge_partial: the merge accounts for its target if the set is listed in ascending order, and never raises in any order."
  },
  {
   "property": "C77",
   "status": "partial",
   "theorems": [
    "Satis.Greedy.C77_solve",
    "Satis.Greedy.C77_assertion_iff_partial",
    "Satis.Greedy.C77_assertion_reached",
    "Satis.Greedy.C77_assertion_false"
   ],
   "note": "The code violates the last part: C77_assertion_false (sources 1 10 2, target 10: the overflow is appended behind the sorted targets). C77_solve holds in full up to order; C77_assertion_iff_partial: the assertion holds exactly if the scaled targets are in order. The solver leaves with exit(0) once more than one target remains; the steps behind that are C76."
  },
  {
   "property": "C78",
   "status": "proved",
   "theorems": [
    "Satis.Looping.C78_never_please_no",
    "Satis.Looping.C78_compute"
   ],
   "note": "Full."
  },
  {
   "property": "C79",
   "status": "partial",
   "theorems": [
    "Satis.Looping.C79_count_merges_false",
    "Satis.Looping.C79_count_merges_partial"
   ],
   "note": "The code violates it: C79_count_merges_false (three branches: one instead of two). C79_count_merges_partial: right exactly for one branch and for an even number, otherwise one short."
  },
  {
   "property": "C80",
   "status": "proved",
   "theorems": [
    "Satis.Sim.C80_ends"
   ],
   "note": "Full."
  },
  {
   "property": "C81",
   "status": "proved",
   "theorems": [
    "Satis.Sim.C81_merge",
    "Satis.Sim.C81_two",
    "Satis.Sim.C81_one",
    "Satis.Sim.C81_one_raises"
   ],
   "note": "Full; also that the last step raises if no source is as large as any target."
  },
  {
   "property": "C82",
   "status": "partial",
   "theorems": [
    "Satis.Sim.C82_merge_false",
    "Satis.Sim.C82_group_false",
    "Satis.Sim.C82_equal_false",
    "Satis.Sim.C82_start",
    "Satis.Sim.C82_single_partial",
    "Satis.Sim.C82_sums_partial"
   ],
   "note": "The code violates it in three ways: C82_merge_false (a merge does not strike off its target: 3 6 30 to 9 12 18), C82_group_false (6 to 3 3), C82_equal_false (5 7 to 7 5 raises). C82_single_partial proves it for one source and different targets; C82_sums_partial shows that only merges unbalance the sums."
  },
  {
   "property": "C83",
   "status": "proved",
   "theorems": [
    "Satis.Merging.C83_slow_input",
    "Satis.Merging.C83_fast_inputs"
   ],
   "note": "Full."
  },
  {
   "property": "C84",
   "status": "partial",
   "theorems": [
    "Satis.Merging.C84_predicate_partial",
    "Satis.Merging.C84_predicate_false"
   ],
   "note": "The code violates it: C84_predicate_false (2 and 4 into 3). C84_predicate_partial: a row passes if and only if its output is even or the slower belt brings less than half of it."
  },
  {
   "property": "C85",
   "status": "proved",
   "theorems": [
    "Satis.RandomMerging.C85_one_simulation",
    "Satis.RandomMerging.C85_script"
   ],
   "note": "Full, for any conveyors (C85_one_simulation) and for those of the script (C85_script)."
  },
  {
   "property": "C86",
   "status": "proved",
   "theorems": [
    "Satis.Show.C86_steady",
    "Satis.Show.C86_loop_ends",
    "Satis.Show.C86_rounds"
   ],
   "note": "Full."
  },
  {
   "property": "C87",
   "status": "proved",
   "theorems": [
    "Satis.ChunkFiles.C87_chunks",
    "Satis.ChunkFiles.C87_unique",
    "Satis.ChunkFiles.C87_empty_list"
   ],
   "note": "Full; C87_unique shows that the specification leaves no choice. An empty list given counts as none given (C87_empty_list)."
  },
  {
   "property": "C88",
   "status": "partial",
   "theorems": [
    "Satis.Utils.C88_numbers_partial",
    "Satis.Utils.C88_complete_false"
   ],
   "note": "The code violates it: C88_complete_false (1.5abc is read as 3/2, 1.2.3 as 6/5, 1.5(3 as 3/2, because re.match only needs a prefix). C88_numbers_partial: the exact set of accepted words with their values, including what is ignored."
  },
  {
   "property": "C89",
   "status": "proved",
   "theorems": [
    "Satis.Utils.C89_line",
    "Satis.Utils.C89_unique",
    "Satis.Utils.C89_number_unique"
   ],
   "note": "Full. The numbers are those of C88_numbers_partial."
  },
  {
   "property": "C90",
   "status": "partial",
   "theorems": [
    "Satis.Greedy.C90_finds_partial",
    "Satis.Greedy.C90_finds_false",
    "Satis.Greedy.C90_cheapest_false",
    "Satis.Greedy.C90_cheapest_equal_false",
    "Satis.Greedy.C90_cheapest_partial"
   ],
   "note": "The code violates both: C90_finds_false (3 8 8 for 16: the set is listed as 8, 3 and a stale coefficient hides 8 + 8) and C90_cheapest_false (1 1 1 2 for 5 and 3: four sources merged although 1 + 2 is cheaper). C90_finds_partial: if the set is listed in ascending order, none is reported exactly if there is none. C90_cheapest_partial: if moreover no target is asked for twice and no two different merges use the same number of different sources (so that the early break is never taken), the merge applied needs the fewest mergers of all."
  },
  {
   "property": "C91",
   "status": "proved",
   "theorems": [
    "Satis.Video.C91_colour",
    "Satis.Video.C91_items",
    "Satis.Video.C91_shares"
   ],
   "note": "Full: C91_items gives the exact condition (equal neighbours are separated by an empty frame); if it fails items are missed."
  },
  {
   "property": "C92",
   "status": "proved",
   "theorems": [
    "Satis.Trial.C92_answered",
    "Satis.Trial.C92_reads",
    "Satis.Trial.C92_returns"
   ],
   "note": "Full. The solver itself loses requests at some moments (C39_false)."
  },
  {
   "property": "C93",
   "status": "proved",
   "theorems": [
    "Satis.C93_individual",
    "Satis.C93_score",
    "Satis.C93_score_iff"
   ],
   "note": "Full, in exact arithmetic and with solving up. The number of summands is that of taking from the last source to the first, not the smallest one (example in Props/Utils.lean), so the score depends on the order of the sources (example in Props/ScoreExact.lean)."
  },
  {
   "property": "C94",
   "status": "partial",
   "theorems": [
    "Satis.C94_announced_size_partial",
    "Satis.C94_announced_size_false"
   ],
   "note": "The code violates it for belts over the limit: C94_announced_size_false (1100 to 220 five times: announced 4, built 6). C94_announced_size_partial: the exact equation under the hypotheses of C67 (no splits, no belts lost, within the limit, nothing left pending)."
  },
  {
   "property": "C95",
   "status": "partial",
   "theorems": [
    "Satis.C95_built_partial"
   ],
   "note": "C95_built_partial joins C67 and C94 under the single condition Modest; the requests for which C66, C67 or C94 is false are missing (fractions with conveyors of a given speed, belts lost in merging, belts over the limit)."
  },
  {
   "property": "C96",
   "status": "proved",
   "theorems": [
    "Satis.C96_up_to_ten",
    "Satis.C96_small_requests",
    "Satis.C96_example",
    "Satis.C96_bound_sharp"
   ],
   "note": "Full for a total of at most 8, without any condition on the solution; C96_up_to_ten extends it to 10 for solutions that never extract 1 from 9, and C96_bound_sharp shows that \"9 to 1 8\" is built wrongly."
  },
  {
   "property": "C97",
   "status": "proved",
   "theorems": [
    "Satis.C97_small_requests_answered"
   ],
   "note": "Full for a total of at most 8."
  },
  {
   "property": "C98",
   "status": "partial",
   "theorems": [
    "Satis.C98_labels_partial",
    "Satis.C98_labels_false",
    "Satis.C98_request_labels_partial",
    "Satis.C98_small_labels"
   ],
   "note": "False where belts from the same machine are merged by different mergers (C98_labels_false); proved where they are merged together, and for all requests of a total of at most 8."
  },
  {
   "property": "C99",
   "status": "partial",
   "theorems": [
    "Satis.C99_pictures_partial",
    "Satis.C99_picture_partial",
    "Satis.C99_small_pictures"
   ],
   "note": "Proved where nothing gets lost in expansion (the conditions of C67 and C98) and no group of more than three equal targets is inside of another group, and without conditions on the solutions for totals of at most 8 (C99_small_pictures); C67, C98 and C41 have the cases in which it is false."
  },
  {
   "property": "C100",
   "status": "partial",
   "theorems": [
    "Satis.C100_outline",
    "Satis.C100_first",
    "Satis.C100_outlines_partial"
   ],
   "note": "Proved for any solution that is saved first (C100_outline, C100_first), with no conditions, whether or not it can be expanded, and for all solutions unless a group of more than three targets is inside of another group (C100_outlines_partial). There, the other solutions are pictured with that group already expanded."
  },
  {
   "property": "C101",
   "status": "partial",
   "theorems": [
    "Satis.C101_drawn_iff",
    "Satis.C101_drawn_partial",
    "Satis.C101_drawn_fails",
    "Satis.C101_crowd",
    "Satis.C101_chances",
    "Satis.C101_likely",
    "Satis.C101_drawn_false"
   ],
   "note": "False: C101_drawn_false, for a solution of \"4 to 1 1 1 1\". C101_drawn_iff: the picture shows the network if and only if any two nodes with the same value, level and kinds of pending expansions have ids that end with different three digits. C101_crowd: with more than 4096 nodes that look the same it never does; C101_chances, C101_likely: the share of choices of the digits for which it does, less than half from 76 nodes on. C101_drawn_partial: it does if no two nodes look the same."
  },
  {
   "property": "C102",
   "status": "proved",
   "theorems": [
    "Satis.C102_ranks",
    "Satis.C102_save",
    "Satis.C102_solution_pictures"
   ],
   "note": "C102_ranks: on every network, exactly if all nodes have levels. C102_save: for both pictures of a network whose nodes have levels, unless expand_roots raises. C102_solution_pictures: for the solutions of a request."
  },
  {
   "property": "C103",
   "status": "partial",
   "theorems": [
    "Satis.C103_can_be_served",
    "Satis.C103_answered_iff",
    "Satis.C103_group_over",
    "Satis.C103_answered_partial",
    "Satis.C103_four_targets",
    "Satis.C103_answered_false"
   ],
   "note": "False: C103_answered_false has two requests that can be served (C103_can_be_served) and that no run answers, one because the targets of a group exceed the limit together (C103_group_over, in general), one because the initial bound is too small. Exactly when a request is answered: C103_answered_iff. Answered: all requests with a single source, and those within PlanOpen (C103_answered_partial); with at most four targets and groups it is enough that the sources together do not exceed the limit and none has the value of a target or group (C103_four_targets). Missing: which of the others are answered, apart from the equivalence."
  },
  {
   "property": "C104",
   "status": "proved",
   "theorems": [
    "Satis.C104_round_trip",
    "Satis.C104_exact",
    "Satis.C104_injective",
    "Satis.C104_written",
    "Satis.C104_cut",
    "Satis.C104_goes_on"
   ],
   "note": "C104_round_trip is C48 for the characters of the file; C104_exact says when the text is read and that it is read like the tuples; C104_injective: different data, different texts; C104_written: the files of the program are always read like the tuples. Of the literals of Python the reader knows ints, strings in single quotes without escapes, None, lists and tuples. C104_cut: no proper beginning of a text can be loaded; C104_goes_on: what may follow it (comments, tuples without parentheses and continued lines are not known to the model of the reader, so texts that go on with #, a comma or a backslash are left out)."
  },
  {
   "property": "C105",
   "status": "proved",
   "theorems": [
    "Satis.C105_same_or_raised",
    "Satis.C105_populate",
    "Satis.C105_wrap",
    "Satis.C105_expand",
    "Satis.C105_chain",
    "Satis.C105_picture_without_data",
    "Satis.C105_solution"
   ],
   "note": "`limit` counts nested calls of one method: Python's bound less the frames of the callers and of the functions a single visit calls."
  },
  {
   "property": "C106",
   "status": "proved",
   "theorems": [
    "Satis.C106_calls",
    "Satis.C106_cycle",
    "Satis.C106_search",
    "Satis.C106_depth",
    "Satis.C106_doubling"
   ],
   "note": "The doubling is a statement about networks made by the moves of `Node`; the search itself does not return to source values it has had, so it does not make this very network."
  },
  {
   "property": "C107",
   "status": "proved",
   "theorems": [
    "Satis.C107_divide",
    "Satis.C107_search",
    "Satis.C107_solution",
    "Satis.C107_request"
   ],
   "note": "Lower bound on the sizes of the search. It is met for example by 3 to 1 1 1."
  },
  {
   "property": "C108",
   "status": "proved",
   "theorems": [
    "Satis.C108_remains",
    "Satis.C108_order",
    "Satis.C108_both",
    "Satis.C108_lacking",
    "Satis.C108_unit",
    "Satis.C108_search",
    "Satis.C108_fresh",
    "Satis.C108_objects"
   ],
   "note": "The last part shows why the belt limit, which is not scaled, cannot be right for both of two such requests (C55)."
  },
  {
   "property": "C109",
   "status": "proved",
   "theorems": [
    "Satis.C109_machines",
    "Satis.C109_optimal",
    "Satis.C109_built"
   ],
   "note": "`C109_machines` and `C109_optimal` speak of arbitrary networks in the sense of `Carries`; `C109_built` of what the program builds. Met for example by 3 6 to 1 1 1 2 2 2 and by 9 to nine times 1."
  }
 ]
}
