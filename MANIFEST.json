{
 "claims": [
  {
   "property": "C01",
   "status": "proved",
   "theorems": [
    "Verif.Props.c01_pre_sound"
   ],
   "note": "at every step, any callback, any hash order; input automaton without transitions into control states"
  },
  {
   "property": "C02",
   "status": "partial",
   "theorems": [
    "Verif.Props.c02_pre_complete_partial",
    "Verif.Props.c02_pre_exact_partial",
    "Verif.Props.c02_pre_exact_unweighted",
    "Verif.Props.c02_pre_misses"
   ],
   "note": "full for unweighted PDAs and for any weights as long as no PUSH rule with operand label 0 has a negative weight; c02_pre_misses is a machine-checked counterexample with such a rule"
  },
  {
   "property": "C03",
   "status": "proved",
   "theorems": [
    "Verif.Props.c03_post_sound_eps",
    "Verif.Props.c03_post_sound"
   ],
   "note": "at every step, any callback, any hash order"
  },
  {
   "property": "C04",
   "status": "proved",
   "theorems": [
    "Verif.Props.c04_post_complete_eps",
    "Verif.Props.c04_post_complete",
    "Verif.Props.c04_post_exact",
    "Verif.Props.c04_post_exact_eps",
    "Verif.Props.c04_post_misses_empty"
   ],
   "note": "exact language with epsilon read as nothing; accepts() is exact for nonempty stacks, and c04_post_misses_empty is a machine-checked counterexample for the empty stack"
  },
  {
   "property": "C05",
   "status": "proved",
   "theorems": [
    "Verif.Props.c05_pre_terminates",
    "Verif.Props.c05_pre_workset_empty"
   ],
   "note": "explicit bound 2*N*L*N"
  },
  {
   "property": "C06",
   "status": "proved",
   "theorems": [
    "Verif.Props.c06_post_terminates",
    "Verif.Props.c06_post_states"
   ],
   "note": "explicit bound N*(L+1)*N, with a bound on the number of added states"
  },
  {
   "property": "C07",
   "status": "partial",
   "theorems": [
    "Verif.Props.c07_pre_star_accepts_partial",
    "Verif.Props.c07_pre_star_accepts_unweighted"
   ],
   "note": "full for unweighted PDAs and whenever the rule lookup misses nothing (C24)"
  },
  {
   "property": "C08",
   "status": "proved",
   "theorems": [
    "Verif.Props.c08_post_star_accepts",
    "Verif.Props.c08_post_star_accepts_no_et",
    "Verif.Props.c11_nfa_instance_partial"
   ],
   "note": "For PDAs with labels below epsilon and an initial automaton without transitions into control states. Not the Shortest version, see C32."
  },
  {
   "property": "C09",
   "status": "partial",
   "theorems": [
    "Verif.Props.c09_pre_star_accepts_partial",
    "Verif.Props.c11_engines_unweighted",
    "Verif.Props.c11_nfa_instance_partial",
    "Verif.Props.c11_engines_differ",
    "Verif.Props.c09_pre_star_sound"
   ],
   "note": "full for unweighted PDAs and whenever the rule lookup misses nothing (C24); c11_engines_differ is a wrong answer otherwise"
  },
  {
   "property": "C10",
   "status": "partial",
   "theorems": [
    "Verif.Props.c10_dual_search_accepts_partial",
    "Verif.Props.c11_engines_unweighted",
    "Verif.Props.c11_nfa_instance_partial",
    "Verif.Props.c10_dual_search_sound"
   ],
   "note": "full for unweighted PDAs and whenever the rule lookup misses nothing (C24)"
  },
  {
   "property": "C11",
   "status": "partial",
   "theorems": [
    "Verif.Props.c11_engines_agree_partial",
    "Verif.Props.c11_engines_unweighted",
    "Verif.Props.c11_nfa_instance_partial",
    "Verif.Props.c11_engines_differ"
   ],
   "note": "full for unweighted PDAs and whenever the rule lookup misses nothing (C24); c11_engines_differ is an instance where the answers differ"
  },
  {
   "property": "C12",
   "status": "proved",
   "theorems": [
    "Verif.Props.c12_pre_trace_rules",
    "Verif.Props.c12_pre_trace_configs",
    "Verif.Props.c12_pre_get_trace",
    "Verif.Props.c12_get_trace_undefined"
   ],
   "note": "every accepting path of the automaton at any point of pre*; the input automaton carries no traces; a non-accepted configuration gives undefined behaviour"
  },
  {
   "property": "C13",
   "status": "proved",
   "theorems": [
    "Verif.Props.c13_post_trace_rules",
    "Verif.Props.c13_post_trace_rules_unweighted",
    "Verif.Props.c13_post_trace_configs",
    "Verif.Props.c13_post_get_trace",
    "Verif.Props.c13_weight_of_other_rule"
   ],
   "note": "fewer than 2^32-1 labels; the weight shown on a PUSH rule may be that of another rule with the same target and pushed label (witness)"
  },
  {
   "property": "C14",
   "status": "proved",
   "theorems": [
    "Verif.Props.c14_pre_terminates",
    "Verif.Props.c14_post_terminates"
   ],
   "note": "explicit bound on the rounds"
  },
  {
   "property": "C15",
   "status": "proved",
   "theorems": [
    "Verif.Props.c15_single",
    "Verif.Props.c15_single_ok"
   ],
   "note": "initial state in range"
  },
  {
   "property": "C16",
   "status": "proved",
   "theorems": [
    "Verif.Props.c16_from_nfa",
    "Verif.Props.c16_from_nfa_ok",
    "Verif.Props.c16_needs_compile"
   ],
   "note": "Control states sorted and in range, listed symbols below number_of_labels; the NFA must be compiled (c16_needs_compile shows why)."
  },
  {
   "property": "C17",
   "status": "proved",
   "theorems": [
    "Verif.Props.c17_or_extend",
    "Verif.Props.c17_or_extend_paut",
    "Verif.Props.c17_or_extend_ok",
    "Verif.Props.c17_into_control"
   ],
   "note": "for automata without transitions into control states; c17_into_control is a counterexample without this precondition. c17_or_extend_ok: the union is again a legal input."
  },
  {
   "property": "C18",
   "status": "proved",
   "theorems": [
    "Verif.Props.c18_add_edges",
    "Verif.Props.c18_add_edges_from",
    "Verif.Props.c18_add_edges_states",
    "Verif.Props.c18_repeated_label",
    "Verif.Props.c18_unsorted_labels"
   ],
   "note": "labels strictly sorted and in range; the code's assertion (is_sorted) is too weak: c18_repeated_label"
  },
  {
   "property": "C19",
   "status": "proved",
   "theorems": [
    "Verif.Props.c19_accepts",
    "Verif.Props.c19_accept_path",
    "Verif.Props.c19_no_epsilon",
    "Verif.Props.c19_misses_epsilon"
   ],
   "note": "plain (not shortest) search; epsilon transitions are read literally by the code, c19_misses_epsilon shows the consequence"
  },
  {
   "property": "C20",
   "status": "proved",
   "theorems": [
    "Verif.Props.c20_find_path"
   ],
   "note": ""
  },
  {
   "property": "C21",
   "status": "proved",
   "theorems": [
    "Verif.Props.c21_init",
    "Verif.Props.c21_language",
    "Verif.Props.c21_incremental",
    "Verif.Props.c21_incremental_language",
    "Verif.Props.c21_automata",
    "Verif.Props.c21_of_nfas"
   ],
   "note": "For every pair of automata with transitions in range, with epsilon transitions, both modes, with and without early termination, and every sequence of insertions."
  },
  {
   "property": "C22",
   "status": "proved",
   "theorems": [
    "Verif.Props.c22_contains",
    "Verif.Props.c22_empty",
    "Verif.Props.c22_merge",
    "Verif.Props.c22_intersect",
    "Verif.Props.c22_noop_pre_filter"
   ],
   "note": ""
  },
  {
   "property": "C23",
   "status": "proved",
   "theorems": [
    "Verif.Props.c23_rules",
    "Verif.Props.c23_moves",
    "Verif.Props.c23_reverse_index",
    "Verif.Props.c23_add_rule",
    "Verif.Props.c23_add_wildcard_rule",
    "Verif.Props.c23_typed_add_rule",
    "Verif.Props.c23_typed_add_wildcard_rule",
    "Verif.Props.c23_typed_empty",
    "Verif.Props.c23_hash_container",
    "Verif.Props.c23_unsorted_pre"
   ],
   "note": "Pre-label lists sorted, as merge requires (c23_unsorted_pre shows the effect of an unsorted list). Includes the typed interface and the hash container used while building."
  },
  {
   "property": "C24",
   "status": "partial",
   "theorems": [
    "Verif.Props.c24_lookup_exact",
    "Verif.Props.c24_lookup_partial",
    "Verif.Props.c24_lookup_unweighted",
    "Verif.Props.c24_lookup_unsigned",
    "Verif.Props.c24_lookup_misses"
   ],
   "note": "exact characterisation for all weights; full for unweighted and unsigned PDAs; for signed weights the code misses PUSH rules with operand label 0 and negative weight (c24_lookup_misses)"
  },
  {
   "property": "C25",
   "status": "proved",
   "theorems": [
    "Verif.Props.c25_clear_state",
    "Verif.Props.c25_clear_state_wf"
   ],
   "note": ""
  },
  {
   "property": "C26",
   "status": "proved",
   "theorems": [
    "Verif.Props.c26_of_set",
    "Verif.Props.c26_of_bool",
    "Verif.Props.c26_or",
    "Verif.Props.c26_concat",
    "Verif.Props.c26_plus"
   ],
   "note": "Two NFAs combined must have disjoint states (unique_ptr ownership)."
  },
  {
   "property": "C27",
   "status": "partial",
   "theorems": [
    "Verif.Props.c27_question_partial",
    "Verif.Props.c27_star_partial",
    "Verif.Props.c27_no_incoming",
    "Verif.Props.c27_question_wrong",
    "Verif.Props.c27_star_wrong"
   ],
   "note": "The code is wrong when a path leads back to an initial state (witnesses proved); the partial theorems give the language when no such path accepts something new."
  },
  {
   "property": "C28",
   "status": "proved",
   "theorems": [
    "Verif.Props.c28_follow_epsilon",
    "Verif.Props.c28_run",
    "Verif.Props.c28_empty_accept",
    "Verif.Props.c28_compile_lang"
   ],
   "note": "The result does not depend on addresses."
  },
  {
   "property": "C29",
   "status": "partial",
   "theorems": [
    "Verif.Props.c29_leads_to",
    "Verif.Props.c29_has_as_successor",
    "Verif.Props.c29_sound",
    "Verif.Props.c29_exact_partial",
    "Verif.Props.c29_missing"
   ],
   "note": "Every label returned is right; labels are missed when three or more edges match because temp is not cleared (c29_missing); exact for at most two matching edges."
  },
  {
   "property": "C30",
   "status": "partial",
   "theorems": [
    "Verif.Props.c30_strict_total",
    "Verif.Props.c30_bounds",
    "Verif.Props.c30_add_comm",
    "Verif.Props.c30_add_zero_max",
    "Verif.Props.c30_add_value",
    "Verif.Props.c30_add_assoc",
    "Verif.Props.c30_add_mono",
    "Verif.Props.c30_add_strict",
    "Verif.Props.c30_assoc_at_marks",
    "Verif.Props.c30_floating_bounds",
    "Verif.Props.c30_array_less",
    "Verif.Props.c30_array_add",
    "Verif.Props.c30_unsigned_model",
    "Verif.Props.c30_signed_model",
    "Verif.Props.c30_maximise_model",
    "Verif.Props.c30_array_model"
   ],
   "note": "Proved for integer types of every width, both optimisation directions, and arrays. Fails for floating point types: numeric_limits::min() is positive (c30_floating_bounds). 'No overflow' must also exclude sums that hit max() or bottom() exactly (c30_assoc_at_marks). The mathematical weights that the models of the searches use are images of the code's weights, with the same order and sums (c30_unsigned_model, c30_signed_model, c30_maximise_model, c30_array_model)."
  },
  {
   "property": "C31",
   "status": "partial",
   "theorems": [
    "Verif.Props.c31_firstLess_weak_order",
    "Verif.Props.c31_less_partial",
    "Verif.Props.c31_less_undefined",
    "Verif.Props.c31_add",
    "Verif.Props.c31_reads_past_end",
    "Verif.Props.c31_unsigned_missing",
    "Verif.Props.c31_above_max"
   ],
   "note": "less reads past the end of the shorter vector in exactly the cases of c31_less_undefined; minimised unsigned vectors compare lexicographically, so [] < [0] (c31_unsigned_missing). add is proved."
  },
  {
   "property": "C32",
   "status": "proved",
   "theorems": [
    "Verif.Props.c32_throws",
    "Verif.Props.c32_throws_build",
    "Verif.Props.c32_terminates",
    "Verif.Props.c32_sound",
    "Verif.Props.c32_complete",
    "Verif.Props.c32_minimum",
    "Verif.Props.c32_minimum_literal",
    "Verif.Props.c32_input_weights_ignored"
   ],
   "note": "For every linearly ordered cancellative weight monoid with exact addition (no saturation at max()), every priority queue and hash order; the input weights must be zero, because the saturation ignores them (c32_input_weights_ignored)."
  },
  {
   "property": "C33",
   "status": "proved",
   "theorems": [
    "Verif.Props.c33_round_trip",
    "Verif.Props.c33_skip_epsilon",
    "Verif.Props.c33_emplace_pop",
    "Verif.Props.c33_pop_emplace",
    "Verif.Props.c33_split",
    "Verif.Props.c33_remove_epsilon"
   ],
   "note": ""
  },
  {
   "property": "C34",
   "status": "proved",
   "theorems": [
    "Verif.Props.c34_vector_map",
    "Verif.Props.c34_vector_set"
   ],
   "note": ""
  },
  {
   "property": "C35",
   "status": "proved",
   "theorems": [
    "Verif.Props.c35_fut_set"
   ],
   "note": "All nestings of hash and vector containers; keys of all levels have one type."
  },
  {
   "property": "C36",
   "status": "partial",
   "theorems": [
    "Verif.Props.c36_priority_set_partial",
    "Verif.Props.c36_pops_twice"
   ],
   "note": "Fails as stated: an element popped before, inserted into a queue that is not empty with a better weight than the top, is popped twice (c36_pops_twice). Proved under the condition that it does not become the top."
  },
  {
   "property": "C37",
   "status": "proved",
   "theorems": [
    "Verif.Props.c37_is_disjoint"
   ],
   "note": ""
  },
  {
   "property": "C38",
   "status": "proved",
   "theorems": [
    "Verif.Props.c38_flag_mask",
    "Verif.Props.c38_width",
    "Verif.Props.c38_fill_eq",
    "Verif.Props.c38_is_single"
   ],
   "note": ""
  },
  {
   "property": "C39",
   "status": "proved",
   "theorems": [
    "Verif.Props.c39_round_trip",
    "Verif.Props.c39_injective",
    "Verif.Props.c39_prefix_free",
    "Verif.Props.c39_size"
   ],
   "note": "Scalars are their bytes in the order of ptrie::byte_iterator (external library)."
  },
  {
   "property": "C40",
   "status": "partial",
   "theorems": [
    "Verif.Props.c40_terminates",
    "Verif.Props.c40_only_removes",
    "Verif.Props.c40_counts",
    "Verif.Props.c40_zero",
    "Verif.Props.c40_runs_partial",
    "Verif.Props.c40_reachability_partial",
    "Verif.Props.c40_dual_partial",
    "Verif.Props.c40_terminal_lost",
    "Verif.Props.c40_dual_loses",
    "Verif.Props.c40_terminal_lost_witness"
   ],
   "note": "The property fails in two ways, both proved: a terminal state that is neither state 0 nor the initial state and has no rule to itself is always cut off (c40_terminal_lost, an exact statement), and aggressivity 2 or 4 loses runs that uncover the initial stack (c40_dual_loses). Outside these cases reachability and the runs themselves are preserved for all PDAs and stacks (c40_runs_partial, c40_reachability_partial), and runs above the initial stack for every aggressivity (c40_dual_partial). Precondition asserted by the code: initial rules push; label lists strictly increasing."
  },
  {
   "property": "C41",
   "status": "proved",
   "theorems": [
    "Verif.Props.c41_pair_refinement",
    "Verif.Props.c41_simple_pair_refinement",
    "Verif.Props.c43_pair_refined"
   ],
   "note": "Precondition: X, Y and the wildcards disjoint, as asserted by the code. The hash set of second components is iterated in an arbitrary order."
  },
  {
   "property": "C42",
   "status": "proved",
   "theorems": [
    "Verif.Props.c42_combine",
    "Verif.Props.c42_of_pair",
    "Verif.Props.c42_header"
   ],
   "note": "The second refinement is a split into two sorted parts, as asserted by the code."
  },
  {
   "property": "C43",
   "status": "proved",
   "theorems": [
    "Verif.Props.c43_abstraction_mapping",
    "Verif.Props.c43_refine_splits",
    "Verif.Props.c43_refine_separates",
    "Verif.Props.c43_pair_refined",
    "Verif.Props.c43_header_refined"
   ],
   "note": "The ptrie is modelled by the list of its keys."
  },
  {
   "property": "C44",
   "status": "partial",
   "theorems": [
    "Verif.Props.c44_positive_partial",
    "Verif.Props.c44_negated_exact",
    "Verif.Props.c44_negated_wrong"
   ],
   "note": "False for negated edges: the test in encode_labels is inverted. Proved: exactness for edges that are not negated, the exact set matched by a negated edge and when it over-approximates, and a concrete counterexample."
  },
  {
   "property": "C45",
   "status": "proved",
   "theorems": [
    "Verif.Props.c45_reachable_part",
    "Verif.Props.c45_terminates",
    "Verif.Props.c45_initial_twice"
   ],
   "note": "The PDA is built in a vector container in the model; c23_hash_container shows that the hash container gives the same PDA."
  },
  {
   "property": "C46",
   "status": "proved",
   "theorems": [
    "Verif.Props.c46_minimum",
    "Verif.Props.c46_path",
    "Verif.Props.c46_terminates",
    "Verif.Props.c46_infinite",
    "Verif.Props.c46_scalar_weights"
   ],
   "note": "For every weighted automaton and every ordered weight monoid with max and bottom: run() terminates; without a negative cycle on an accepting path, not_accepting, get_weight and get_path are exact. is_infinite implies a negative cycle; the converse (every negative cycle on an accepting path is reported) is not proved. get_path_with_loop is not modelled."
  },
  {
   "property": "C48",
   "status": "partial",
   "theorems": [
    "Verif.Props.c48_numbered_partial",
    "Verif.Props.c48_numbered_all_labels",
    "Verif.Props.c48_numbered_no_wildcard",
    "Verif.Props.c48_named_partial",
    "Verif.Props.c48_named_all_labels",
    "Verif.Props.c48_weights_void",
    "Verif.Props.c48_weights_int",
    "Verif.Props.c48_weights_vector",
    "Verif.Props.c48_false_unused_label",
    "Verif.Props.c48_false_star",
    "Verif.Props.c48_false_max_weight",
    "Verif.Props.c48_false_unknown_property"
   ],
   "note": "Reading back what was printed gives the same moves for every label that occurs in a printed rule; all moves when every label occurs or no rule is a wildcard. The full statement is false: an unused label is lost to wildcard rules, a label named * becomes a wildcard, the extreme weights of a type are not accepted."
  },
  {
   "property": "C49",
   "status": "partial",
   "theorems": [
    "Verif.Props.c49_regex_partial",
    "Verif.Props.c49_empty",
    "Verif.Props.c49_wrong"
   ],
   "note": "Holds for expressions in which ? and * are not applied to an expression that loops back to its start; c49_wrong is the counterexample inherited from C27."
  },
  {
   "property": "C50",
   "status": "partial",
   "theorems": [
    "Verif.Props.c50_linear_partial",
    "Verif.Props.c50_linear_unsigned",
    "Verif.Props.c50_ordered_partial",
    "Verif.Props.c50_linear_truncates"
   ],
   "note": "std::accumulate runs in int: 64 bit sums are cut to 32 bits (c50_linear_truncates). Proved when partial sums are values of int, and for unsigned types up to 32 bits without condition."
  },
  {
   "property": "C51",
   "status": "proved",
   "theorems": [
    "Verif.Props.c51_pre_range",
    "Verif.Props.c51_pre_stable",
    "Verif.Props.c51_post_range",
    "Verif.Props.c51_post_stable"
   ],
   "note": ""
  },
  {
   "property": "C52",
   "status": "proved",
   "theorems": [
    "Verif.Props.c52_copy",
    "Verif.Props.c52_assign_appends"
   ],
   "note": "Copy construction; copy assignment onto a non-empty NFA appends instead (c52_assign_appends)."
  },
  {
   "property": "C53",
   "status": "partial",
   "theorems": [
    "Verif.Props.c53_terminates",
    "Verif.Props.c53_shortest_partial",
    "Verif.Props.c53_shortest_no_epsilon",
    "Verif.Props.c53_after_post_star",
    "Verif.Props.c53_path_starts_elsewhere",
    "Verif.Props.c53_negative_weight"
   ],
   "note": "The weight is proved to be the least for every automaton, and after post* to be that of a lightest run. The path is proved to be a genuine path for automata without epsilon transitions. With epsilon transitions, which post* creates, the full statement is false: the returned path may begin in another state (c53_path_starts_elsewhere)."
  },
  {
   "property": "C54",
   "status": "proved",
   "theorems": [
    "Verif.Props.c54_terminates",
    "Verif.Props.c54_shortest"
   ],
   "note": "Every automaton with no negative weight and no transition stored twice, every priority queue and hash order."
  },
  {
   "property": "C55",
   "status": "proved",
   "theorems": [
    "Verif.Props.c55_post_trace",
    "Verif.Props.c55_post_trace_no_et",
    "Verif.Props.c55_pre_trace",
    "Verif.Props.c55_dual_trace"
   ],
   "note": "numbers of states are assumed to fit into 64 bits"
  },
  {
   "property": "C56",
   "status": "partial",
   "theorems": [
    "Verif.Props.c56_pre_rule_trace",
    "Verif.Props.c56_post_rule_trace_partial",
    "Verif.Props.c56_post_empty_trace",
    "Verif.Props.c56_dual_rule_trace_partial",
    "Verif.Props.c56_dual_no_answer",
    "Verif.Props.c56_post_paths_swapped",
    "Verif.Props.c56_dual_empty_trace"
   ],
   "note": "complete for pre*; after post* and dual search the code is wrong if an initial configuration is final (paths swapped, first element of an empty trace read) or, for dual search, if there is no trace; weights of PUSH rules as in C13"
  },
  {
   "property": "C57",
   "status": "partial",
   "theorems": [
    "Verif.Props.c57_terminates",
    "Verif.Props.c57_sound",
    "Verif.Props.c57_complete",
    "Verif.Props.c57_minimum_partial",
    "Verif.Props.c57_one_symbol",
    "Verif.Props.c57_yes_right",
    "Verif.Props.c57_input_yes",
    "Verif.Props.c57_no_early_termination",
    "Verif.Props.c57_accepting_control_state",
    "Verif.Props.c57_popped_out_of_range"
   ],
   "note": "The code violates the statement without early termination and with accepting control states; the witnesses are machine-checked. With early termination and without accepting control states the least weights are proved right for every callback that does not stop the saturation, and the answer for a stack of one symbol. For stacks of any length, weights of any sign and accepting control states, the answer yes is proved right, and configurations of the input language are proved to be answered with yes."
  },
  {
   "property": "C58",
   "status": "partial",
   "theorems": [
    "Verif.Props.c58_post_answer_wrong",
    "Verif.Props.c58_post_empty_stack",
    "Verif.Props.c58_terminates",
    "Verif.Props.c58_minimum_partial"
   ],
   "note": "The code violates the statement: the answer can be no although there is a run, and the weight is junk for an empty stack in both languages; machine-checked witnesses. Proved for all instances without such a stack: the search ends, the weight is the least one and max() exactly if there is no run, yes is right, and no excludes runs of weight zero."
  },
  {
   "property": "C59",
   "status": "partial",
   "theorems": [
    "Verif.Props.c59_terminates",
    "Verif.Props.c59_minimum_partial",
    "Verif.Props.c59_common",
    "Verif.Props.c59_pre_answer_wrong",
    "Verif.Props.c59_pre_weight_junk",
    "Verif.Props.c59_pre_trace_heavier"
   ],
   "note": "The code violates the statement: the answer can be no although there is a run, weight and path are junk if the automata have a configuration in common, and the trace can be heavier than the weight; machine-checked witnesses. Proved for all instances whose final automaton accepts no empty stack: the search ends, and unless the automata have a configuration in common the weight is the least one and max() exactly if there is no run (the uninitialized members may hold any values that are not negative), yes is right, no excludes runs of weight zero, and a common configuration gives yes."
  },
  {
   "property": "C60",
   "status": "partial",
   "theorems": [
    "Verif.Props.c60_terminates",
    "Verif.Props.c60_minimum_partial",
    "Verif.Props.c60_common",
    "Verif.Props.c60_dual_answer_wrong",
    "Verif.Props.c60_dual_weight_junk"
   ],
   "note": "The weight returned after the search is the least one, and the answer yes is right, if the uninitialized members are not negative and zero when the automata meet. The answer no can be wrong (c60_dual_answer_wrong), and the weight is arbitrary when the automata have a configuration in common (c60_dual_weight_junk), so the full claim is false of the code."
  },
  {
   "property": "C61",
   "status": "partial",
   "theorems": [
    "Verif.Props.c61_path_trace",
    "Verif.Props.c61_get_trace_partial",
    "Verif.Props.c61_get_trace_no_pop",
    "Verif.Props.c61_trace_elsewhere"
   ],
   "note": "Every accepting path unwinds to a run of exactly its weight. For the entry point the condition is that the path found begins in the given state; c61_trace_elsewhere shows a tie in the queue with which it does not, and then the trace is not a run. Without POP rules the claim holds in full."
  },
  {
   "property": "C62",
   "status": "partial",
   "theorems": [
    "Verif.Props.c62_find_path_partial",
    "Verif.Props.c62_get_trace_partial"
   ],
   "note": "Full for instances where no configuration with the empty stack is in both languages; without this it is false (c58_post_empty_stack)."
  },
  {
   "property": "C64",
   "status": "partial",
   "theorems": [
    "Verif.Props.c64_initial",
    "Verif.Props.c64_initial_word",
    "Verif.Props.c64_update_wildcard",
    "Verif.Props.c64_update",
    "Verif.Props.c64_pre_labels_sound",
    "Verif.Props.c64_pre_labels_partial",
    "Verif.Props.c64_final_found",
    "Verif.Props.c64_final_spurious",
    "Verif.Props.c64_final_class",
    "Verif.Props.c64_final_nonempty",
    "Verif.Props.c64_final_split_partial",
    "Verif.Props.c64_final_separates_partial",
    "Verif.Props.c64_final_repeats"
   ],
   "note": "pre_labels and the second part of a refinement are exact only if different edges to the next state read different labels: intersect_edge_labels (C29) loses or repeats labels otherwise. Everything else is proved in full."
  },
  {
   "property": "C65",
   "status": "proved",
   "theorems": [
    "Verif.Props.c65_terminates",
    "Verif.Props.c65_trace",
    "Verif.Props.c65_stuck",
    "Verif.Props.c65_labels",
    "Verif.Props.c65_labels_separate"
   ],
   "note": "The functions of the user are arbitrary; ranges of configurations are finite lists."
  },
  {
   "property": "C66",
   "status": "partial",
   "theorems": [
    "Verif.Props.c66_round_no_partial",
    "Verif.Props.c66_no_partial",
    "Verif.Props.c66_negated_wrong"
   ],
   "note": "Under the condition that no class has both labels of a negated edge and others. c66_negated_wrong: cegar_solve returns std::nullopt although an initial configuration is final, because a negated edge excludes a whole class if it excludes one of its labels (see C44). The NFAs are the compiled ones."
  },
  {
   "property": "C67",
   "status": "partial",
   "theorems": [
    "Verif.Props.c67_round_yes_partial",
    "Verif.Props.c67_yes_partial",
    "Verif.Props.c67_solvable",
    "Verif.Props.c67_post_swapped_wrong"
   ],
   "note": "With post* the claim is proved for non-empty traces; for empty ones the code violates it (c67_post_swapped_wrong). With pre* and dual search it holds without that condition (c67_solvable)."
  },
  {
   "property": "C68",
   "status": "partial",
   "theorems": [
    "Verif.Props.c68_pre_trace_partial",
    "Verif.Props.c68_dual_trace_partial",
    "Verif.Props.c68_pre_trace_wrong",
    "Verif.Props.c68_dual_trace_wrong",
    "Verif.Props.c68_dual_trace_heavier",
    "Verif.Props.c68_dual_no_path_weight"
   ],
   "note": "Proved for automata without a configuration in common and non-negative uninitialized members: the configurations returned are a run from the initial to the final automaton and the weight is the least of all runs. With a configuration in common the trace is wrong (witnesses), the trace may be heavier than the weight (witness), and without a run the dual version returns the weight zero instead of max() (witness)."
  },
  {
   "property": "C69",
   "status": "partial",
   "theorems": [
    "Verif.Props.c69_round_partial",
    "Verif.Props.c69_terminates_partial",
    "Verif.Props.c69_list_decides",
    "Verif.Props.c69_list_decides_pre",
    "Verif.Props.c69_negated_no_progress"
   ],
   "note": "Proved for header automata without negated edges other than wildcards and without two edges that read the same label to the same state; with post* and dual search moreover no abstract configuration may be both initial and final. With a negated edge whose labels are a class of their own the iteration repeats itself (c69_negated_no_progress): it adds an empty class for ever. The refinements that the user's class returns are assumed to make progress; for a client in the style of the repository's tests this is proved."
  },
  {
   "property": "C70",
   "status": "partial",
   "theorems": [
    "Verif.Props.c70_accepting",
    "Verif.Props.c70_infinite",
    "Verif.Props.c70_path",
    "Verif.Props.c70_post",
    "Verif.Props.c70_pre_partial",
    "Verif.Props.c70_interleaving_partial"
   ],
   "note": "Proved for automata and for post*; for pre* and the interleaved search with the proviso that the pre* rule lookup meets every rule, which is false in general (C24)."
  },
  {
   "property": "C47",
   "status": "partial",
   "theorems": [
    "Verif.Props.c47_pre_terminates",
    "Verif.Props.c47_pre_sound",
    "Verif.Props.c47_pre_complete",
    "Verif.Props.c47_pre_minimum_partial",
    "Verif.Props.c47_pre_maximum_partial",
    "Verif.Props.c47_post_terminates",
    "Verif.Props.c47_post_sound",
    "Verif.Props.c47_post_complete",
    "Verif.Props.c47_post_minimum",
    "Verif.Props.c47_post_minimum_literal",
    "Verif.Props.c47_post_maximum",
    "Verif.Props.c47_finalize_undefined",
    "Verif.Props.c47_pre_observed_partial",
    "Verif.Props.c47_post_observed",
    "Verif.Props.c47_pre_observed_longest_partial",
    "Verif.Props.c47_post_observed_longest",
    "Verif.Props.c47_pre_bounded_partial",
    "Verif.Props.c47_post_bounded",
    "Verif.Props.c47_pre_bounded_longest_partial",
    "Verif.Props.c47_post_bounded_longest"
   ],
   "note": "pre* and post* fixed-point saturation always end. If no weight can be improved again and again, or no weight of the result is bottom() and nothing undefined happened, the best path weight equals the best run weight for every configuration, for minimum and maximum. The post* part is complete; pre* needs the rule lookup to meet every rule (see C24). Found: with a negative cycle the second phase reads a missing transition, so the result is undefined."
  },
  {
   "property": "C63",
   "status": "partial",
   "theorems": [
    "Verif.Props.c63_post",
    "Verif.Props.c63_pre_partial",
    "Verif.Props.c63_interleaving_partial",
    "Verif.Props.c63_post_longest",
    "Verif.Props.c63_post_observed",
    "Verif.Props.c63_pre_observed_partial",
    "Verif.Props.c63_interleaving_observed_partial",
    "Verif.Props.c63_post_bounded",
    "Verif.Props.c63_pre_bounded_partial",
    "Verif.Props.c63_interleaving_bounded_partial",
    "Verif.Props.c63_pre_undefined"
   ],
   "note": "Proved for all inputs whose weights cannot be improved again and again anywhere in the saturation, and for all whose saturated automaton has no weight bottom(). If only the runs between the two automata are bounded the code can read a missing transition (c63_pre_undefined). pre* moreover needs the rule lookup to meet every rule (see C24)."
  },
  {
   "property": "C71",
   "status": "partial",
   "theorems": [
    "Verif.Props.c71_post",
    "Verif.Props.c71_pre_partial",
    "Verif.Props.c71_interleaving_partial",
    "Verif.Props.c71_post_longest"
   ],
   "note": "Proved for post* in both orders of the weights. For pre* and the interleaved search with the proviso that the pre* rule lookup meets every rule (the lookup defect is C24). Weights that can be improved again and again are excluded, because the saturation then reads missing transitions (C47)."
  },
  {
   "property": "C72",
   "status": "partial",
   "theorems": [
    "Verif.Props.c72_errors",
    "Verif.Props.c72_labels",
    "Verif.Props.c72_legal",
    "Verif.Props.c72_language_partial",
    "Verif.Props.c72_known_partial",
    "Verif.Props.c72_order",
    "Verif.Props.c72_later_label"
   ],
   "note": "Errors, labels and that the result is a legal input are proved in full. The language is proved for expressions that meet the condition of C49 on * and ?, and as the plain union only if no label is new; wildcards do not match labels that become known later (c72_order, c72_later_label)."
  },
  {
   "property": "C73",
   "status": "partial",
   "theorems": [
    "Verif.Props.c73_errors",
    "Verif.Props.c73_labels",
    "Verif.Props.c73_report_partial",
    "Verif.Props.c73_report_unweighted_partial"
   ],
   "note": "Errors and the labels are proved in full. The report is proved for expressions that meet the condition of C49 (see c49), fewer labels than the epsilon value, and state numbers that fit into 64 bits when a trace is made; with weights the engines pre* and dual* also need the lookup condition of C24, without weights none of them does. Trace options shortest, longest and the fixed-point one are not part of this property."
  },
  {
   "property": "C74",
   "status": "partial",
   "theorems": [
    "Verif.Props.c74_errors_partial",
    "Verif.Props.c74_labels_partial",
    "Verif.Props.c74_document_partial",
    "Verif.Props.c74_accepts_partial",
    "Verif.Props.c74_legal_partial",
    "Verif.Props.c74_round_trip_partial",
    "Verif.Props.c74_no_accepting",
    "Verif.Props.c74_mixed",
    "Verif.Props.c74_mixed_loses",
    "Verif.Props.c74_undefined",
    "Verif.Props.c74_empty_label",
    "Verif.Props.c74_illegal",
    "Verif.Props.c74_initial_ignored"
   ],
   "note": "Which documents are refused and which labels they add is proved for every document made of states and edges; what the automaton accepts is proved for documents whose new states are all named or all numbered. False beyond: mixing both mixes up states, which adds words or loses words (c74_mixed, c74_mixed_loses); short edges and a bare number are undefined behaviour (c74_undefined); automata without accepting states are printed but refused (c74_no_accepting); a label that is the empty string is read as epsilon (c74_empty_label). The entry initial is checked but has no effect (c74_initial_ignored). Edges into PDA states are not refused (c74_illegal)."
  },
  {
   "property": "C75",
   "status": "partial",
   "theorems": [
    "Verif.Props.c75_report_partial",
    "Verif.Props.c75_errors_partial",
    "Verif.Props.c75_labels_partial",
    "Verif.Props.c75_illegal"
   ],
   "note": "Errors and labels are proved whatever states the documents use. The report is proved for documents whose new states are all named or all numbered (see C74), without empty labels and without edges into states of the PDA. The program accepts such edges but then answers wrongly: c75_illegal. As in C09, pre* and dual* need rules without the lookup defect; with a trace, the number of states must fit."
  },
  {
   "property": "C76",
   "status": "partial",
   "theorems": [
    "Verif.Props.c76_shortest_partial",
    "Verif.Props.c76_shortest_docs_partial",
    "Verif.Props.c76_fixed_partial",
    "Verif.Props.c76_fixed_docs_partial",
    "Verif.Props.c76_unbounded_partial",
    "Verif.Props.c76_unbounded_docs_partial",
    "Verif.Props.c76_longest_partial",
    "Verif.Props.c76_negative",
    "Verif.Props.c76_negative_docs",
    "Verif.Props.c76_errors",
    "Verif.Props.c76_answer_wrong",
    "Verif.Props.c76_shortest_engines",
    "Verif.Props.c76_fixed_engines"
   ],
   "note": "With trace type shortest the program may say no although there is a run (c76_answer_wrong, as in C58-C60); proved for the answer no is only that there is no run of weight zero or less. Preconditions as in C58-C63: no configuration both initial and final (post*: none with the empty stack), no final empty stack for pre* and dual*, rules without the lookup defect for pre* and dual*, weights that cannot be improved for ever while an engine saturates, numbers of states that fit."
  },
  {
   "property": "C77",
   "status": "partial",
   "theorems": [
    "Verif.Props.c77_elements",
    "Verif.Props.c77_type",
    "Verif.Props.c77_wellformed",
    "Verif.Props.c77_weights",
    "Verif.Props.c77_labels_partial",
    "Verif.Props.c77_refused",
    "Verif.Props.c77_errors_partial",
    "Verif.Props.c77_report_partial",
    "Verif.Props.c77_fifth",
    "Verif.Props.c77_vector_size",
    "Verif.Props.c77_number",
    "Verif.Props.c77_scalar_ignored",
    "Verif.Props.c77_nested"
   ],
   "note": "Proved for all instances of four elements. Partial: a fifth element may replace the instance (c77_fifth), a vector type with a size is refused (c77_vector_size), a number may follow the type only if it is in two arrays (c77_nested), a number as type is undefined behaviour (c77_number), weights may be ignored (c77_scalar_ignored); the report, unlike errors and labels, needs automata that are pure and legal, see C74 and C75."
  },
  {
   "property": "C78",
   "status": "partial",
   "theorems": [
    "Verif.Props.c78_answer_partial",
    "Verif.Props.c78_last_state",
    "Verif.Props.c78_signed",
    "Verif.Props.c78_no_accepting"
   ],
   "note": "Proved for all instances that meet InstOK. Partial: a last numbered state without rules is lost (c78_last_state), pre* can answer differently with signed weights (c78_signed), and an automaton without accepting states is printed but refused (c78_no_accepting)."
  },
  {
   "property": "C79",
   "status": "partial",
   "theorems": [
    "Verif.Props.c79_text",
    "Verif.Props.c79_language_partial",
    "Verif.Props.c79_only",
    "Verif.Props.c79_unique",
    "Verif.Props.c79_error_partial",
    "Verif.Props.c79_undefined",
    "Verif.Props.c79_bar",
    "Verif.Props.c79_space"
   ],
   "note": "That every other text is an error is false: with a bar behind an expression and before none the builder pops an automaton that is not there (c79_bar); exactly such texts can be undefined (c79_undefined). The language is as in C49, for the uses of * and ? that the builder gets right. Texts are sequences of characters, that is valid UTF-8."
  },
  {
   "property": "C80",
   "status": "partial",
   "theorems": [
    "Verif.Props.c80_text",
    "Verif.Props.c80_unique",
    "Verif.Props.c80_only",
    "Verif.Props.c80_error_partial",
    "Verif.Props.c80_undefined",
    "Verif.Props.c80_language_partial",
    "Verif.Props.c80_run",
    "Verif.Props.c80_run_error_partial",
    "Verif.Props.c80_report_partial",
    "Verif.Props.c80_bar"
   ],
   "note": "As C79 for a dangling bar (c80_bar), and as C72 and C73 for what is accepted and reported."
  },
  {
   "property": "C81",
   "status": "partial",
   "theorems": [
    "Verif.Props.c81_state",
    "Verif.Props.c81_identifier",
    "Verif.Props.c81_quoted",
    "Verif.Props.c81_options",
    "Verif.Props.c81_refused",
    "Verif.Props.c81_run",
    "Verif.Props.c81_syntax_partial",
    "Verif.Props.c81_errors",
    "Verif.Props.c81_report_partial",
    "Verif.Props.c81_quoted_wrong",
    "Verif.Props.c81_blank",
    "Verif.Props.c81_sign",
    "Verif.Props.c81_minus_wrong"
   ],
   "note": "That anything but a numeral is an error holds without quotes (c81_state, c81_identifier) and fails in quotes: what follows the digits is ignored (c81_quoted, c81_quoted_wrong), and white space and a sign may stand before them (c81_blank, c81_sign, c81_minus_wrong). Texts with a dangling bar are as in C79; the report has the conditions of C72 and C73. Reading files from disk is not modelled."
  },
  {
   "property": "C82",
   "status": "partial",
   "theorems": [
    "Verif.Props.c82_stream",
    "Verif.Props.c82_prefix",
    "Verif.Props.c82_open",
    "Verif.Props.c82_output",
    "Verif.Props.c82_nothing",
    "Verif.Props.c82_end_twice"
   ],
   "note": "Keys are written without escapes, so the theorems are about keys that need none; all keys of the program are such. With --silent and no engine nothing is written, which is not a JSON object (c82_nothing). One end_object too many makes the counter wrap around (c82_end_twice)."
  },
  {
   "property": "C83",
   "status": "partial",
   "theorems": [
    "Verif.Props.c83_option",
    "Verif.Props.c83_refused",
    "Verif.Props.c83_run",
    "Verif.Props.c83_run_docs",
    "Verif.Props.c83_syntax_partial",
    "Verif.Props.c83_states",
    "Verif.Props.c83_unweighted",
    "Verif.Props.c83_shortest_partial",
    "Verif.Props.c83_fixed_partial",
    "Verif.Props.c83_fixed_signed_partial",
    "Verif.Props.c83_longest_partial",
    "Verif.Props.c83_unbounded_partial",
    "Verif.Props.c83_unbounded_longest_partial"
   ],
   "note": "Partial: trace type 2 can say no although there is a run (c76_answer_wrong); expressions must be ok (C36) and numbers must fit; longest and signed least weights need runs that cannot be improved again and again (c83_fixed_signed_partial, c83_longest_partial), or runs without a best weight and a saturated automaton without a transition of weight bottom() (c83_unbounded_partial, c83_unbounded_longest_partial). Sums do not overflow."
  },
  {
   "property": "C84",
   "status": "partial",
   "theorems": [
    "Verif.Props.c84_post_partial",
    "Verif.Props.c84_pre_partial",
    "Verif.Props.c84_post_rule_weights",
    "Verif.Props.c84_post_paths_swapped",
    "Verif.Props.c84_pre_heavier",
    "Verif.Props.c84_pre_wrong",
    "Verif.Props.c84_dual_half"
   ],
   "note": "Proved after post* (up to the weights of the returned rules, and with the paths exchanged when there are no rules) and after pre* (automata without a common configuration; the rules may be heavier than the weight). The code violates the rest, with machine-checked witnesses: rules with the weight of another rule, exchanged paths, heavier traces, and half a trace after dual search."
  },
  {
   "property": "C85",
   "status": "partial",
   "theorems": [
    "Verif.Props.c85_input",
    "Verif.Props.c85_separate",
    "Verif.Props.c85_ignored",
    "Verif.Props.c85_ignored_wrong",
    "Verif.Props.c85_missing",
    "Verif.Props.c85_missing_final",
    "Verif.Props.c85_others",
    "Verif.Props.c85_printed",
    "Verif.Props.c85_output",
    "Verif.Props.c85_engine",
    "Verif.Props.c85_unclosed",
    "Verif.Props.c85_plain",
    "Verif.Props.c85_shortest",
    "Verif.Props.c85_fixed",
    "Verif.Props.c85_longest",
    "Verif.Props.c85_answer_partial",
    "Verif.Props.c85_again_partial",
    "Verif.Props.c85_refused",
    "Verif.Props.c85_syntax_partial",
    "Verif.Props.c85_states",
    "Verif.Props.c85_pda_partial",
    "Verif.Props.c85_json_partial",
    "Verif.Props.c85_json_refused_partial",
    "Verif.Props.c85_json_malformed",
    "Verif.Props.c85_document_partial",
    "Verif.Props.c85_document_refused_partial",
    "Verif.Props.c85_document_malformed",
    "Verif.Props.c85_least_partial",
    "Verif.Props.c85_signed_partial",
    "Verif.Props.c85_greatest_partial",
    "Verif.Props.c85_unbounded_partial",
    "Verif.Props.c85_priority_partial",
    "Verif.Props.c85_negative",
    "Verif.Props.c85_unweighted"
   ],
   "note": "The program on files. Partial: if only some of the three files are given, they are ignored without an error (c85_ignored, c85_ignored_wrong); if a file cannot be opened for printing, what is on standard output is the beginning of a JSON object (c85_unclosed); the answers are right under the hypotheses of C81 and C83 on texts, of C75 and C76 on P-automata in JSON, and of C77 on instances, and a printed instance has the same answer under those of C78. Trace types shortest, longest and shortest by fixed point are not modelled for vectors as weights."
  },
  {
   "property": "C86",
   "status": "partial",
   "theorems": [
    "Verif.Props.c86_nfa_graph",
    "Verif.Props.c86_nfa_label",
    "Verif.Props.c86_nfa_read",
    "Verif.Props.c86_graph",
    "Verif.Props.c86_labels",
    "Verif.Props.c86_star",
    "Verif.Props.c86_read",
    "Verif.Props.c86_default",
    "Verif.Props.c86_weights",
    "Verif.Props.c86_named_partial",
    "Verif.Props.c86_names_wrong",
    "Verif.Props.c86_comma_wrong",
    "Verif.Props.c86_hidden_wrong"
   ],
   "note": "Proved for printers that tell states and labels apart, write no quote or backslash, and no comma or no blank, in particular for numbers and weights of all kinds; the printers of automaton_to_dot do not when a state of the PDA is called like a number (c86_names_wrong) or labels contain commas and blanks (c86_comma_wrong), and the node that marks an initial state may be the node of another state (c86_hidden_wrong)."
  }
 ]
}