{"id": "C01", "title": "pre* is sound", "statement": "After Solver::pre_star(automaton), every configuration <p,w> accepted by the automaton can reach, by zero or more PDA rules, some configuration accepted by the automaton before the call (provided the input automaton has no transitions into control states and no epsilon transitions).", "quantifier": "every PDA built with add_rule/add_wildcard_rule, every input automaton, every configuration, at every intermediate step of the saturation", "why_tests_cant": "PDAs, automata, stacks and run lengths are unbounded; a test observes finitely many configurations of one automaton.", "anchors": ["src/include/pdaaal/internal/PdaSaturation.h:PreStarSaturation", "src/include/pdaaal/Solver.h:pre_star"]}
{"id": "C02", "title": "pre* is complete", "statement": "After Solver::pre_star(automaton), every configuration that can reach a configuration accepted by the input automaton is accepted by automaton.accepts.", "quantifier": "every PDA, every input automaton, every configuration and every run", "why_tests_cant": "Needs all runs of all lengths to be covered.", "anchors": ["src/include/pdaaal/internal/PdaSaturation.h:PreStarSaturation", "src/include/pdaaal/Solver.h:pre_star"]}
{"id": "C03", "title": "post* is sound", "statement": "After Solver::post_star(automaton), every configuration the automaton accepts (following epsilon transitions) is reachable from some configuration accepted before the call.", "quantifier": "every PDA, every input automaton without epsilon transitions and without transitions into control states, every configuration, every intermediate step", "why_tests_cant": "Unbounded inputs and stacks.", "anchors": ["src/include/pdaaal/internal/PdaSaturation.h:PostStarSaturation", "src/include/pdaaal/Solver.h:post_star"]}
{"id": "C04", "title": "post* is complete", "statement": "After Solver::post_star(automaton), every configuration reachable from an accepted configuration is accepted by the automaton; automaton.accepts agrees for every non-empty stack.", "quantifier": "every PDA, input automaton, run, configuration", "why_tests_cant": "Needs all runs of all lengths.", "anchors": ["src/include/pdaaal/internal/PdaSaturation.h:PostStarSaturation", "src/include/pdaaal/internal/PAutomaton.h:accepts"]}
{"id": "C05", "title": "pre* saturation terminates", "statement": "The pre* loop empties its workset after a number of steps bounded by twice the number of possible transitions of the automaton, on every input.", "quantifier": "every PDA and automaton", "why_tests_cant": "Non-termination cannot be observed by a finite test run.", "anchors": ["src/include/pdaaal/internal/PdaSaturation.h:PreStarSaturation::step", "src/include/pdaaal/Solver.h:pre_star"]}
{"id": "C06", "title": "post* saturation terminates", "statement": "The post* loop empties its workset after a bounded number of steps on every input, including cyclic push/pop systems.", "quantifier": "every PDA and automaton", "why_tests_cant": "Non-termination cannot be observed by a finite test run.", "anchors": ["src/include/pdaaal/internal/PdaSaturation.h:PostStarSaturation::run"]}
{"id": "C07", "title": "pre_star_accepts(automaton,state,stack) decides reachability", "statement": "Solver::pre_star_accepts(automaton,state,stack) returns true iff <state,stack> can reach a configuration accepted by the input automaton, although for one-symbol stacks it stops the saturation early.", "quantifier": "every PDA, automaton, state, stack", "why_tests_cant": "Early termination must not change the answer for any input; unbounded input space.", "anchors": ["src/include/pdaaal/Solver.h:pre_star_accepts", "src/include/pdaaal/internal/PdaSaturation.h:PreStarSaturation"]}
{"id": "C08", "title": "post_star_accepts decides reachability", "statement": "Solver::post_star_accepts(instance) returns true iff some configuration accepted by the initial automaton reaches a configuration accepted by the final automaton, with the on-the-fly product and early termination.", "quantifier": "every PDA, initial and final automaton", "why_tests_cant": "Early termination, incremental product and saturation interleave; all inputs.", "anchors": ["src/include/pdaaal/Solver.h:post_star_accepts", "src/include/pdaaal/PAutomatonProduct.h:add_edge,construct_reachable"]}
{"id": "C09", "title": "pre_star_accepts(instance) decides reachability", "statement": "Solver::pre_star_accepts(instance) returns true iff some initial configuration reaches a final configuration.", "quantifier": "every PDA, initial and final automaton", "why_tests_cant": "As for post*.", "anchors": ["src/include/pdaaal/Solver.h:pre_star_accepts", "src/include/pdaaal/PAutomatonProduct.h:add_edge,construct_reachable"]}
{"id": "C10", "title": "dual_search_accepts decides reachability", "statement": "Solver::dual_search_accepts(instance) returns true iff some initial configuration reaches a final configuration, although it stops as soon as either direction has finished.", "quantifier": "every PDA, initial and final automaton", "why_tests_cant": "The interleaving stops in a state where one automaton is only partly saturated; must hold for all inputs.", "anchors": ["src/include/pdaaal/Solver.h:dual_search_accepts,dual_search"]}
{"id": "C11", "title": "The engines agree", "statement": "For the same instance pre_star_accepts, post_star_accepts and dual_search_accepts return the same answer.", "quantifier": "every instance", "why_tests_cant": "A test compares engines on finitely many instances.", "anchors": ["src/include/pdaaal/Solver.h"]}
{"id": "C12", "title": "pre* traces are real runs", "statement": "Unwinding an accepting path of the (possibly partially) saturated pre* automaton with TraceBack yields a sequence of rules that, applied in order to the starting configuration, are each applicable and end in a configuration accepted by the original automaton.", "quantifier": "every PDA, automaton, saturation step, accepting path", "why_tests_cant": "Every trace of every instance must replay.", "anchors": ["src/include/pdaaal/internal/PdaSaturation.h:TraceBack::next", "src/include/pdaaal/Solver.h:_get_trace"]}
{"id": "C13", "title": "post* traces are real runs", "statement": "Unwinding an accepting path of the post* automaton with TraceBack yields, reversed, a run from a configuration accepted by the original automaton to the configuration on the path.", "quantifier": "every PDA, automaton, saturation step, accepting path", "why_tests_cant": "Every trace of every instance must replay.", "anchors": ["src/include/pdaaal/internal/PdaSaturation.h:TraceBack::next", "src/include/pdaaal/Solver.h:_get_trace"]}
{"id": "C14", "title": "Trace reconstruction terminates", "statement": "TraceBack::next always returns and the loop over it always ends, for paths in pre* and post* automata, including systems with cycles of rules.", "quantifier": "every PDA, automaton, path", "why_tests_cant": "A loop through mutually referring trace labels would only show on particular insertion orders.", "anchors": ["src/include/pdaaal/internal/PdaSaturation.h:TraceBack::next"]}
{"id": "C15", "title": "Automaton for one configuration", "statement": "PAutomaton(pda, state, stack) accepts exactly the configuration <state,stack>.", "quantifier": "every PDA size, state, stack (including the empty stack), every queried configuration", "why_tests_cant": "Universal over all queried configurations.", "anchors": ["src/include/pdaaal/internal/PAutomaton.h:PAutomaton(const PDA<W>&,size_t,const vector<uint32_t>&)"]}
{"id": "C16", "title": "Automaton from an NFA", "statement": "PAutomaton(pda, nfa, states) accepts <p,w> iff p is in states and the compiled nfa accepts w (labels given as ids).", "quantifier": "every NFA, every set of states, every configuration", "why_tests_cant": "Unbounded NFAs and words.", "anchors": ["src/include/pdaaal/internal/PAutomaton.h:construct", "src/include/pdaaal/NFA.h:compile,follow_epsilon"]}
{"id": "C17", "title": "Union of automata", "statement": "a.or_extend(b) makes a accept exactly the configurations that a or b accepted before.", "quantifier": "every pair of automata over the same PDA, every configuration", "why_tests_cant": "Unbounded.", "anchors": ["src/include/pdaaal/internal/PAutomaton.h:or_extend"]}
{"id": "C18", "title": "Negated edges", "statement": "add_edges(from,to,true,labels) with labels sorted adds exactly the labels of the alphabet that are not listed; add_edges(from,to,false,labels) exactly the listed labels.", "quantifier": "every alphabet size, every label list", "why_tests_cant": "Unbounded.", "anchors": ["src/include/pdaaal/internal/PAutomaton.h:add_edges"]}
{"id": "C19", "title": "accepts and accept_path", "statement": "accepts(p,w) is true iff there is a path spelling w from p to an accepting state; accept_path returns a path with those labels iff accepts is true, and an empty vector otherwise.", "quantifier": "every automaton, state, stack", "why_tests_cant": "DFS over an unbounded graph; needs all inputs.", "anchors": ["src/include/pdaaal/internal/PAutomaton.h:accepts,accept_path"]}
{"id": "C20", "title": "find_path", "statement": "find_path returns an accepting path starting in a control state iff the automaton accepts some configuration, and returns the null path otherwise.", "quantifier": "every automaton", "why_tests_cant": "The path buffer is reused between branches of the DFS, so an error would show only for particular shapes.", "anchors": ["src/include/pdaaal/internal/PAutomaton.h:find_path"]}
{"id": "C21", "title": "Product accepts the intersection", "statement": "initialize_product returns true iff some configuration is accepted by both automata, and adding the transitions one by one through add_edge_product gives the same answer as building the product from scratch.", "quantifier": "every pair of automata, every sequence of added transitions", "why_tests_cant": "All histories of insertions.", "anchors": ["src/include/pdaaal/PAutomatonProduct.h:initialize_product,add_edge,construct_reachable"]}
{"id": "C22", "title": "Label sets", "statement": "labels_t behaves as a set of labels: merge is union (a wildcard absorbs), contains is membership, intersect keeps exactly the labels in the argument, noop_pre_filter keeps exactly the useful labels.", "quantifier": "every sequence of operations with sorted arguments, every label", "why_tests_cant": "Algebraic laws over all sets.", "anchors": ["src/include/pdaaal/internal/PDA.h:labels_t", "src/include/pdaaal/internal/PDA.cpp"]}
{"id": "C23", "title": "add_rule builds the intended transition system", "statement": "After any sequence of add_rule/add_wildcard_rule calls the PDA's rules are exactly those added: a move is possible iff some call added it, and the reverse index used by pre* is consistent.", "quantifier": "every sequence of calls", "why_tests_cant": "All histories.", "anchors": ["src/include/pdaaal/internal/PDA.h:add_untyped_rule_impl,add_rule,add_wildcard_rule", "src/include/pdaaal/PDA.h:add_rule"]}
{"id": "C24", "title": "pre* rule lookup finds every rule", "statement": "The lookup of rules leading to a state (lower_bound on the sorted rule table) visits every rule into that state, for weighted and unweighted PDAs.", "quantifier": "every rule table, every state, every weight", "why_tests_cant": "Depends on the ordering of all possible keys.", "anchors": ["src/include/pdaaal/internal/PdaSaturation.h:add_pop,step", "src/include/pdaaal/internal/PDA.h:pda_rule_t::operator<"]}
{"id": "C25", "title": "clear_state removes a state", "statement": "clear_state(s) removes exactly the rules from s and into s and keeps the PDA well formed.", "quantifier": "every PDA and state", "why_tests_cant": "All PDAs.", "anchors": ["src/include/pdaaal/internal/PDA.h:clear_state"]}
{"id": "C26", "title": "NFA union, concatenation and plus", "statement": "or_extend, concat and plus_extend make the NFA accept the union, concatenation and positive closure of the languages.", "quantifier": "every NFA (any shape), every word", "why_tests_cant": "Unbounded NFAs and words.", "anchors": ["src/include/pdaaal/NFA.h:concat,plus_extend,or_extend"]}
{"id": "C27", "title": "NFA question and star", "statement": "question_extend and star_extend make the NFA accept L + {empty} and L*.", "quantifier": "every NFA, every word", "why_tests_cant": "Unbounded NFAs and words.", "anchors": ["src/include/pdaaal/NFA.h:question_extend,star_extend"]}
{"id": "C28", "title": "NFA epsilon closure and successor", "statement": "follow_epsilon/compile/empty_accept/successor compute the epsilon closure (restricted to useful states) so that running successor over a word decides membership.", "quantifier": "every NFA and word, every pointer order", "why_tests_cant": "Unbounded; result must not depend on addresses.", "anchors": ["src/include/pdaaal/NFA.h:follow_epsilon,successor,empty_accept,compile"]}
{"id": "C29", "title": "intersect_edge_labels", "statement": "intersect_edge_labels(from,to,labels) returns exactly the labels l in labels for which has_as_successor(from,l,to) holds.", "quantifier": "every NFA, every label list", "why_tests_cant": "Unbounded.", "anchors": ["src/include/pdaaal/NFA.h:intersect_edge_labels"]}
{"id": "C30", "title": "Scalar weights form an ordered monoid with absorbing elements", "statement": "For scalar weights less is a strict total order with bottom below and max above everything; add is commutative, associative and monotone as long as no overflow occurs, zero is neutral, max is absorbing.", "quantifier": "all representable weights", "why_tests_cant": "All values of the type and all triples.", "anchors": ["src/include/pdaaal/Weight.h:weight_impl"]}
{"id": "C31", "title": "Vector weights", "statement": "For std::vector weights less is a strict weak order in which missing components count as zero, and add is commutative with the empty vector neutral.", "quantifier": "all vectors of all lengths", "why_tests_cant": "All lengths.", "anchors": ["src/include/pdaaal/Weight.h:weight_impl<std::vector>"]}
{"id": "C32", "title": "Shortest post* computes minimum weights", "statement": "With non-negative weights, after Solver::post_star<Shortest> the minimum weight over accepting paths of <p,w> equals the minimum total rule weight over all runs from an accepted initial configuration to <p,w>.", "quantifier": "every weighted PDA with non-negative weights, every automaton, every configuration", "why_tests_cant": "Minimum over infinitely many runs.", "anchors": ["src/include/pdaaal/internal/PdaSaturation.h:PostStarShortestSaturation"]}
{"id": "C33", "title": "AutomatonPath", "statement": "AutomatonPath built from a path and stack gives them back (get_path_and_stack, stack, front_state), emplace and pop are inverse, split projects a path of pairs to its two paths.", "quantifier": "every path", "why_tests_cant": "All lengths.", "anchors": ["src/include/pdaaal/AutomatonPath.h"]}
{"id": "C34", "title": "vector_map and vector_set are finite maps", "statement": "emplace/insert_or_assign/find/contains on vector_map and vector_set behave as a finite map/set for every sequence of operations, with elements kept sorted without duplicates.", "quantifier": "every sequence of operations", "why_tests_cant": "All histories.", "anchors": ["src/include/pdaaal/utils/vector_set.h"]}
{"id": "C35", "title": "fut_set is a map from tuples", "statement": "The nested fut_set behaves as one finite map from tuples: emplace never overwrites, get/contains return what was stored first, insert_or_assign overwrites.", "quantifier": "every sequence of operations", "why_tests_cant": "All histories.", "anchors": ["src/include/pdaaal/utils/fut_set.h"]}
{"id": "C36", "title": "priority_set never pops an element twice", "statement": "Over any sequence of emplace and pop the popped elements are distinct, provided an element already popped is not inserted into an empty queue; each pop returns an element of best weight among those not yet popped.", "quantifier": "every sequence of operations", "why_tests_cant": "All histories.", "anchors": ["src/include/pdaaal/utils/more_algorithms.h:priority_set"]}
{"id": "C37", "title": "is_disjoint", "statement": "is_disjoint(a,b) on sorted vectors returns true iff they have no common element.", "quantifier": "all sorted vectors", "why_tests_cant": "All lengths.", "anchors": ["src/include/pdaaal/utils/more_algorithms.h:is_disjoint"]}
{"id": "C38", "title": "Flag masks", "statement": "flag_mask<N>: got_flag(f) turns exactly f off, missing-flag iteration yields exactly the flags not yet seen.", "quantifier": "all N and sequences of flags", "why_tests_cant": "All histories.", "anchors": ["src/include/pdaaal/utils/flags.h"]}
{"id": "C39", "title": "Byte encoding is injective", "statement": "The byte representation used for ptrie keys round-trips for scalars, tuples, vectors and variants, hence different keys have different encodings.", "quantifier": "all values of all composed key types", "why_tests_cant": "All values and all nestings.", "anchors": ["src/include/pdaaal/utils/ptrie_interface.h"]}
{"id": "C40", "title": "Reducer keeps reachability", "statement": "Reducer::reduce does not change whether the terminal state can be reached from the initial state with the initial stacks.", "quantifier": "every PDA, initial and terminal state, initial NFA", "why_tests_cant": "All PDAs and runs.", "anchors": ["src/include/pdaaal/internal/Reducer.h", "src/include/pdaaal/internal/Reducer.cpp"]}
{"id": "C41", "title": "Pair refinement separates", "statement": "make_pair_refinement returns partitions of the two abstract classes such that no pair of parts contains both a pair of X and a pair of Y, when X and Y are disjoint; parts are disjoint.", "quantifier": "all finite relations X, Y", "why_tests_cant": "All relations.", "anchors": ["src/include/pdaaal/cegar/Refinement.h:make_pair_refinement"]}
{"id": "C42", "title": "Refinement::combine", "statement": "combine(other) yields pairwise disjoint parts covering both refinements' values and separating whatever either of them separated.", "quantifier": "all pairs of refinements", "why_tests_cant": "All partitions.", "anchors": ["src/include/pdaaal/cegar/Refinement.h:combine"]}
{"id": "C43", "title": "RefinementMapping", "statement": "AbstractionMapping maps every inserted concrete value to the id of its abstract value, refine only splits classes, and the forward and backward maps stay inverse to each other.", "quantifier": "every sequence of insert and refine", "why_tests_cant": "All histories.", "anchors": ["src/include/pdaaal/cegar/AbstractionMapping.h"]}
{"id": "C44", "title": "Abstract labels over-approximate negated label sets", "statement": "AbstractionPDA::encode_labels(labels, negated) passed to add_edges over-approximates: every concrete label matched by the concrete edge maps to an abstract label matched by the abstract edge.", "quantifier": "all abstractions, all label lists", "why_tests_cant": "All mappings.", "anchors": ["src/include/pdaaal/cegar/AbstractionPDA.h:encode_labels"]}
{"id": "C45", "title": "DFS factory builds the reachable part", "statement": "DFS_PDAFactory::build_pda contains exactly the rules of states reachable from the initial states.", "quantifier": "every rule function with finite reachable set", "why_tests_cant": "All transition systems.", "anchors": ["src/include/pdaaal/PDAFactory.h"]}
{"id": "C46", "title": "Fixed-point shortest path on automata", "statement": "PAutomatonFixedPoint computes the minimum weight of an accepting path when no negative cycle lies on one.", "quantifier": "every automaton, all signed weights", "why_tests_cant": "All graphs.", "anchors": ["src/include/pdaaal/internal/PAutomatonAlgorithms.h", "src/include/pdaaal/utils/workset.h"]}
{"id": "C48", "title": "PDA JSON round trip", "statement": "Parsing the JSON printed by to_json gives a PDA with the same moves.", "quantifier": "every PDA", "why_tests_cant": "All PDAs.", "anchors": ["src/include/pdaaal/PDA.h:to_json", "src/pdaaal-bin/parsing/PdaJsonParser.h"]}
{"id": "C49", "title": "Regular expressions", "statement": "The NFA built by the regex parser actions accepts the language of the expression.", "quantifier": "every expression", "why_tests_cant": "All expressions and words.", "anchors": ["src/include/pdaaal/parsing/NfaParserGrammar.h"]}
{"id": "C50", "title": "Weight functions", "statement": "linear_weight_function computes the linear combination of its component functions; ordered_weight_function the vector of the components.", "quantifier": "all functions, coefficients, arguments", "why_tests_cant": "All values.", "anchors": ["src/include/pdaaal/Weight.h:linear_weight_function"]}
{"id": "C51", "title": "Saturation stays in range", "statement": "Neither saturation ever creates a transition whose endpoint is not a state of the automaton or whose label is neither epsilon nor in the alphabet, and never removes or changes a transition (its trace label is the one stored first).", "quantifier": "every PDA, automaton, step", "why_tests_cant": "All executions.", "anchors": ["src/include/pdaaal/internal/PdaSaturation.h", "src/include/pdaaal/internal/PAutomaton.h:emplace_edge"]}
{"id": "C52", "title": "Copying an NFA", "statement": "A copied NFA accepts the same language as the original, has its own states, and leaves the original as it was.", "quantifier": "every NFA, every choice of fresh addresses", "why_tests_cant": "Unbounded automata and words; pointer remapping for every shape.", "anchors": ["src/include/pdaaal/NFA.h:operator="]}
{"id": "C53", "title": "Shortest accepting path of a configuration", "statement": "accept_path<Trace_Type::Shortest>(state, stack) on a weighted automaton without negative weights ends and returns the states and the weight of a lightest accepting path that starts in the given state and reads the stack, or the empty path and max() if there is none; after post_star<Shortest> the weight is the least total weight of a run from the input language to the configuration.", "quantifier": "every automaton, configuration, order of hash maps, choice among equal weights in the priority queue", "why_tests_cant": "Unbounded automata and stacks; the claim is a minimum over all paths (and runs), for every order in which ties are broken.", "anchors": ["src/include/pdaaal/internal/PAutomaton.h:accept_path", "src/include/pdaaal/Solver.h:get_trace"]}
{"id": "C54", "title": "Shortest accepting path of an automaton", "statement": "find_path_shortest() on a weighted automaton without negative weights ends and returns an accepting path from a PDA state with its weight, no accepting path from any PDA state being lighter; it returns the null path and max() exactly if no configuration is accepted.", "quantifier": "every automaton, order of hash maps, choice among equal weights in the priority queue", "why_tests_cant": "The minimum is over infinitely many paths in automata with cycles.", "anchors": ["src/include/pdaaal/internal/PAutomaton.h:find_path_shortest"]}
{"id": "C55", "title": "The trace of a solver instance is a witness", "statement": "After post_star_accepts, post_star_accepts_no_ET or pre_star_accepts has run on an instance, get_trace(instance) (and after dual_search_accepts get_trace_dual_search(instance)) returns a sequence of configurations that starts in a configuration accepted by the initial automaton, makes one step of the PDA from each configuration to the next, and ends in a configuration accepted by the final automaton, if the engine answered yes; it returns the empty sequence if the engine answered no.", "quantifier": "every PDA, initial and final automaton, order of hash maps in both calls", "why_tests_cant": "The trace is put together from a path of an early-terminated product and from the back pointers of one or two partly saturated automata; the claim is for all of these.", "anchors": ["src/include/pdaaal/Solver.h:get_trace,get_trace_dual_search,_get_trace", "src/include/pdaaal/PAutomatonProduct.h:find_path,get_original_ids", "src/include/pdaaal/AutomatonPath.h:split,remove_epsilon"]}
{"id": "C56", "title": "Rule traces come with the accepting paths of both automata", "statement": "get_rule_trace_and_paths(instance) returns, if the engine answered yes, a control state, rules of the PDA, an initial and a final stack, and two lists of states such that the rules lead from the control state with the initial stack to a configuration with the final stack, the first list is an accepting path for the initial stack in the initial automaton and the second one is an accepting path for the final stack in the final automaton; if the engine answered no, it returns the state size_t::max and empty lists.", "quantifier": "every PDA, initial and final automaton, order of hash maps", "why_tests_cant": "As for C55; in addition the two paths must fit the stacks at both ends of the run.", "anchors": ["src/include/pdaaal/Solver.h:get_rule_trace_and_paths,_get_rule_trace_and_paths,_get_trace_stack_path"]}
{"id": "C57", "title": "Shortest pre* computes the least weights", "statement": "After pre_star<Trace_Type::Shortest> on a PDA without negative weights, for every configuration the least weight of an accepting path of the automaton is the least total weight over all runs from the configuration to the language of the input automaton; there is such a path exactly if there is such a run.", "quantifier": "every PDA without negative weights, input automaton, configuration, order of hash maps, choice among equal weights in the priority queue", "why_tests_cant": "The minimum is over infinitely many runs of arbitrary length; the saturation uses a Dijkstra order whose correctness depends on every key being right at every moment.", "anchors": ["src/include/pdaaal/Solver.h:pre_star", "src/include/pdaaal/internal/PdaSaturation.h:PreStarSaturation"]}
{"id": "C58", "title": "Shortest post* search answers correctly with the least weight", "statement": "post_star_accepts<Trace_Type::Shortest>(instance) answers yes exactly if some configuration of the final automaton is reachable from one of the initial automaton, and then the weight returned by find_path<Shortest>() (and by get_trace<Shortest>(instance)) is the least total weight of such a run; otherwise it is max().", "quantifier": "every PDA without negative weights, pair of automata, order of hash maps, choice among equal weights in both priority queues", "why_tests_cant": "The search stops early, while both the automaton and the product are incomplete; that the first answer is the least one is a claim about all the paths not yet found.", "anchors": ["src/include/pdaaal/Solver.h:post_star_accepts", "src/include/pdaaal/PAutomatonProduct.h:add_edge,construct_reachable", "src/include/pdaaal/internal/PAutomaton.h:make_back_edge_shortest,get_path_shortest"]}
{"id": "C59", "title": "Shortest pre* search answers correctly with the least weight", "statement": "pre_star_accepts<Trace_Type::Shortest>(instance) answers yes exactly if some configuration of the final automaton is reachable from one of the initial automaton, and then the weight and the trace returned by get_trace<Shortest>(instance) belong to a run of least total weight.", "quantifier": "every PDA without negative weights, pair of automata, order of hash maps, choice among equal weights in both priority queues", "why_tests_cant": "As for C58.", "anchors": ["src/include/pdaaal/Solver.h:pre_star_accepts", "src/include/pdaaal/internal/PdaSaturation.h:PreStarSaturation", "src/include/pdaaal/PAutomatonProduct.h:add_edge"]}
{"id": "C60", "title": "Shortest dual search answers correctly with the least weight", "statement": "dual_search_accepts<Trace_Type::Shortest>(instance) answers yes exactly if some configuration of the final automaton is reachable from one of the initial automaton, and then the weight returned by find_path<Shortest>() is the least total weight of such a run.", "quantifier": "every PDA without negative weights, pair of automata, order of hash maps, choice among equal weights in the three priority queues", "why_tests_cant": "Two saturations feed one product in turn and either of them may stop the search.", "anchors": ["src/include/pdaaal/Solver.h:dual_search_accepts,dual_short_search", "src/include/pdaaal/PAutomatonProduct.h:add_edge"]}
{"id": "C61", "title": "Shortest post* traces are runs of least weight", "statement": "After post_star<Trace_Type::Shortest>, get_trace<Trace_Type::Shortest>(pda, automaton, state, stack) on a reachable configuration returns a sequence of configurations that follow each other by rules of the PDA, from a configuration of the input language to the given one. The weights of these rules add up to the returned weight, which is the least of all runs from the input language to the configuration.", "quantifier": "for all PDAs without negative weights, all input automata, all configurations, all orders in which the priority queues return elements of equal weight", "why_tests_cant": "The trace is put together from traces stored when each transition was settled, and it has to agree in weight with a shortest path that is found later by another search; whether it does can depend on ties in the queues, of which a test run sees one outcome.", "anchors": ["src/include/pdaaal/Solver.h:332-354", "src/include/pdaaal/internal/PdaSaturation.h:494-714", "src/include/pdaaal/internal/PdaSaturation.h:1062-1159", "src/include/pdaaal/internal/PAutomaton.h:535-645"]}
{"id": "C62", "title": "get_trace<Shortest>(instance) after a post* search returns a run of least weight", "statement": "After post_star_accepts<Trace_Type::Shortest> on an instance, get_trace<Trace_Type::Shortest>(instance) returns a sequence of configurations in which each follows from the one before by a rule of the PDA. The first is accepted by the initial automaton, the last by the final automaton, the weights of the rules add up to the returned weight, and no run between the two languages is lighter. If there is no run, the trace is empty and the weight is max(). The path that find_path<Shortest> returns is an accepting path of both automata for the last configuration.", "quantifier": "All PDAs with non-negative rule weights, all initial and final automata with unweighted transitions and without transitions into control states of the initial one, all orders of hash maps and priority queues, all contents of uninitialized memory.", "why_tests_cant": "The path runs along back edges that are rewritten while the saturation and the product grow, and the search stops at the first accepting state that cannot be improved. A test fixes a few small instances with one order of insertion; only an invariant over all executions shows that the back edges never form a loop and that their weights add up to the least weight.", "anchors": ["src/include/pdaaal/Solver.h:215-233", "src/include/pdaaal/Solver.h:260-281", "src/include/pdaaal/PAutomatonProduct.h:192-210", "src/include/pdaaal/PAutomatonProduct.h:290-390", "src/include/pdaaal/internal/PAutomaton.h:679-698", "src/include/pdaaal/internal/PAutomaton.h:731-756"]}
{"id": "C64", "title": "CEGAR headers stand for the right stacks", "statement": "A header (wildcards and known labels) of the CEGAR reconstruction stands for a set of stacks: initial_header() for the stacks the initial NFA reads along the path of the abstract trace. update_header(header, pre, post, pops) fails exactly if no such stack has pre on top; otherwise the new header stands for exactly the stacks got by popping pre and pops more labels and pushing post, and the labels it returns are a valid choice for popped wildcards. pre_labels lists the labels that can be on top. A header returned by finalize_header is one of these stacks and is read by the final NFA along the final path; if a refinement is returned instead, no such stack exists, and the refinement is a split of one class of labels that separates the header from the final NFA.", "quantifier": "All NFAs, all paths, all label abstractions, all headers, labels and numbers of pops.", "why_tests_cant": "Each header stands for exponentially many stacks; a test runs a few rules on one path. Whether wildcards are instantiated consistently in every order of pops and pushes is a statement about all of them.", "anchors": ["src/include/pdaaal/cegar/CegarPdaFactory.h:75-106", "src/include/pdaaal/cegar/CegarPdaFactory.h:272-430", "src/include/pdaaal/NFA.h:254-290"]}
{"id": "C65", "title": "The search for a concrete trace is exhaustive", "statement": "reconstruct_trace terminates. A concrete trace it returns has one configuration for each rule of the abstract trace, the first from initial_concrete_rules and each further one from search_concrete_rules on the one before, and the header of the last has been made final. If no sequence gets to the end of the trace, the refinement is asked for with exactly the configurations at the greatest depth that can be reached. If all complete sequences fail at the end, the label refinement combines the refinements of exactly these sequences.", "quantifier": "All abstract traces and all functions of the user with finite ranges.", "why_tests_cant": "The search backtracks over a tree given by user code; a test sees one tree. That no branch is skipped and the deepest configurations are complete is a statement about all trees.", "anchors": ["src/include/pdaaal/cegar/CegarPdaFactory.h:160-257", "src/include/pdaaal/cegar/Refinement.h:175-187"]}
{"id": "C66", "title": "A negative answer of cegar_solve is right", "statement": "If the user's factory always builds an abstraction (each concrete rule, initial state and final state has its image in the abstract PDA) and cegar_solve returns std::nullopt, then the concrete pushdown system has no run from an initial state with a stack of the language of initial_headers to a final state with a stack of the language of final_headers.", "quantifier": "All concrete pushdown systems, all factories that build abstractions, all label abstractions, all NFAs, all three solver modes, all numbers of iterations.", "why_tests_cant": "A wrong negative answer shows only for a problem whose solution is lost by some abstraction; a test compares a few answers with known ones. The claim is about every abstraction that any sequence of refinements can produce.", "anchors": ["src/include/pdaaal/cegar/CegarPdaFactory.h:445-490", "src/include/pdaaal/cegar/AbstractionPAutomaton.h:40-50", "src/include/pdaaal/cegar/AbstractionPDA.h:52-90", "src/include/pdaaal/cegar/AbstractionSolverInstance.h:41-61"]}
{"id": "C67", "title": "A trace returned by cegar_solve is real", "statement": "If the functions of the user's reconstruction offer only configurations that come from rules of the concrete pushdown system applied with update_header, and cegar_solve returns a trace, then the rules of that trace form a run of the concrete system from a stack of the language of initial_headers to the returned final stack, which is in the language of final_headers. So the concrete problem has a solution.", "quantifier": "All concrete pushdown systems, all factories and reconstructions of that kind, all label abstractions, all NFAs (with negated edges and wildcards), all three solver modes, all numbers of iterations.", "why_tests_cant": "Abstract traces are almost always spurious, and the header arithmetic that rejects them has many cases (wildcards, stacks shorter than the path, post stacks). A test sees that a few traces are right; it cannot exclude that a spurious one slips through.", "anchors": ["src/include/pdaaal/cegar/CegarPdaFactory.h:130-258", "src/include/pdaaal/cegar/CegarPdaFactory.h:272-430", "src/include/pdaaal/cegar/CegarPdaFactory.h:445-490", "src/include/pdaaal/Solver.h:393-460"]}
{"id": "C68", "title": "The trace after a shortest pre* or dual search is a run", "statement": "After pre_star_accepts<Trace_Type::Shortest> on an instance, get_trace<Trace_Type::Shortest>(instance) returns a sequence of configurations in which each follows from the one before by a rule of the PDA, the first is accepted by the initial automaton and the last by the final automaton. The returned weight is the least weight of all such runs, and the weight of the trace. If there is no run, the trace is empty and the weight is max(). The same holds for get_trace_dual_search<Shortest>(instance) after dual_search_accepts<Shortest>.", "quantifier": "All PDAs with non-negative rule weights, all initial and final automata with unweighted transitions and without transitions into control states of the saturated ones, all orders of hash maps and priority queues, all contents of uninitialized memory.", "why_tests_cant": "The product is first built without back edges and later extended with them, so whether the path that is followed back ends in a control state depends on how old and new states of the product mix. A test sees a few instances with one order of insertion; an invariant over all executions is needed to show when the chain is complete.", "anchors": ["src/include/pdaaal/Solver.h:84-145", "src/include/pdaaal/Solver.h:181-192", "src/include/pdaaal/Solver.h:260-301", "src/include/pdaaal/PAutomatonProduct.h:86-120", "src/include/pdaaal/PAutomatonProduct.h:192-195", "src/include/pdaaal/internal/PAutomaton.h:679-698"]}
{"id": "C69", "title": "The CEGAR loop makes progress and terminates", "statement": "An iteration of cegar_solve that does not return always ends, and leaves a strictly finer abstraction of the labels: no two labels of different classes are put together, and two labels of one class are separated (or it applies a refinement that the user's class has returned). So cegar_solve returns, for every initial abstraction, if the refinements of the user's class make progress, and with a factory whose states are not abstracted it decides the concrete problem: std::nullopt means that no run from an initial to a final header exists, a trace means that one exists.", "quantifier": "for all factories, reconstructions, header automata, initial abstractions, engines and hash orders", "why_tests_cant": "Whether a counterexample-guided loop ends depends on every abstraction it can pass through and on every spurious trace; a test shows one sequence of refinements, and a loop that repeats itself looks like one that needs longer.", "anchors": ["src/include/pdaaal/cegar/CegarPdaFactory.h:130-258", "src/include/pdaaal/cegar/CegarPdaFactory.h:337-430", "src/include/pdaaal/cegar/CegarPdaFactory.h:445-490", "src/include/pdaaal/cegar/Refinement.h", "src/include/pdaaal/cegar/AbstractionMapping.h"]}
{"id": "C70", "title": "Fixed-point search recognises unbounded weights", "statement": "PAutomatonFixedPoint reports bottom() as its weight exactly when a cycle of negative weight lies on an accepting path or an accepting path has that weight itself, and reports that nothing is accepted exactly when there is no accepting path, whatever cycles there are. get_path_with_loop always returns, and returns an accepting path. So find_path_fixed_point on an instance whose saturated automaton has no bottom() weight returns, for every set of runs, one of three things: max() and the null path if there is no run; the best weight of a run with an accepting path of that weight; bottom() with an accepting path, and then some part of a run can be repeated, each time improving the weight by the same amount.", "quantifier": "All weighted automata with cycles of any sign; all PDAs and all initial and final automata with unweighted transitions and none into control states; all orders of hash maps.", "why_tests_cant": "The search stops after a number of rounds that depends on the automaton and then marks everything that can still be improved. Whether the limit is late enough for every graph, and whether following predecessors around a cycle always ends, are questions about all graphs; one missed round would report a finite weight for an unbounded problem, or the reverse, only on particular shapes.", "anchors": ["src/include/pdaaal/internal/PAutomatonAlgorithms.h:36-223", "src/include/pdaaal/utils/workset.h:37-94", "src/include/pdaaal/PAutomatonProduct.h:172-190", "src/include/pdaaal/Solver.h:40-82"]}
{"id": "C47", "title": "Fixed-point saturation", "statement": "pre* and post* fixed-point saturation always return. If the weights of runs cannot be improved again and again (no run has a cycle that can be repeated with a better weight each time), or no transition of the returned automaton has the weight bottom(), then for every configuration the best weight of an accepting path is the best weight (least for ShortestFixedPoint, greatest for Longest) over all runs to, respectively from, the language of the input automaton, and there is a path whenever there is a run.", "quantifier": "Every weighted PDA with rule weights of either sign, every input automaton with unweighted transitions and none into control states, every configuration, every order of hash maps.", "why_tests_cant": "There are infinitely many runs and configurations, and the rounds stop at a limit that itself grows while transitions are added; only a proof shows that weights not marked by the second phase are final.", "anchors": ["src/include/pdaaal/internal/PdaSaturation.h:PreStarFixedPointSaturation,PostStarFixedPointSaturation"]}
{"id": "C63", "title": "Fixed-point search on an instance returns the best weight of a run", "statement": "post_star_fixed_point_accepts, pre_star_fixed_point_accepts and interleaving_fixed_point_accepts on an instance return true exactly when a run of the PDA leads from a configuration accepted by the initial automaton to one accepted by the final automaton. Afterwards find_path_fixed_point returns the best weight of such a run (least for ShortestFixedPoint, greatest for Longest) with an accepting path of the saturated automaton that has this weight and whose configuration the other automaton accepts; if there is no run it returns max() and the null path.", "quantifier": "All PDAs, with rule weights of either sign as long as the weights of the runs are bounded; all initial and final automata with unweighted transitions and none into control states; all orders of hash maps; both orders of the weights.", "why_tests_cant": "The answer combines a saturation that improves weights in rounds, a product of two automata and a Bellman-Ford search on it, where the reported weight is read from one place and the path from another. A test compares a few instances; only a proof over all of them shows that no order of rounds or of transitions makes the two disagree or misses a better run.", "anchors": ["src/include/pdaaal/Solver.h:40-82", "src/include/pdaaal/PAutomatonProduct.h:86-101", "src/include/pdaaal/PAutomatonProduct.h:172-190", "src/include/pdaaal/internal/PAutomatonAlgorithms.h:140-218", "src/include/pdaaal/utils/workset.h:37-94"]}
{"id": "C71", "title": "The trace after a fixed-point search is a run of the reported weight", "statement": "After post_star_fixed_point_accepts, pre_star_fixed_point_accepts or interleaving_fixed_point_accepts on an instance, get_trace returns the best weight of a run from a configuration of the initial automaton to one of the final automaton (least for ShortestFixedPoint, greatest for Longest) together with a trace. The trace starts in a configuration accepted by the initial automaton, ends in one accepted by the final automaton, each step is a rule of the PDA, and the weights of its rules add up to the reported weight. Only if that weight is bottom() of a signed type is the trace empty. If there is no run, the trace is empty and the weight is max().", "quantifier": "All PDAs with rule weights of either sign for which no weight of a run can be improved again and again; all initial and final automata with unweighted, untraced transitions and none into control states; all orders of hash maps; both orders of the weights.", "why_tests_cant": "The trace of a transition is overwritten whenever its weight gets better, possibly by a trace that goes through transitions added later, so that following traces could run in a circle or collect weights from different rounds. A test sees the traces of a few saturations; whether every order of improvements leaves traces that end and add up needs an argument over all of them.", "anchors": ["src/include/pdaaal/Solver.h:260-281", "src/include/pdaaal/Solver.h:371-391", "src/include/pdaaal/internal/PdaSaturation.h:716-1159", "src/include/pdaaal/PAutomatonProduct.h:172-190"]}
{"id": "C72", "title": "P-automaton expressions", "statement": "Parsing `<S1, R1> | ... | <Sn, Rn>` for a PDA gives an automaton that accepts a configuration exactly if some Si lists its state and Ri matches its stack. Labels of the expression that the PDA does not have are added to it behind the others, nothing else about it changes, and the automaton is a legal input for the solvers. An error is reported exactly if a state is not in the PDA.", "quantifier": "every expression, PDA, name lookup, hash order, allocation of NFA states, configuration", "why_tests_cant": "All expressions and stacks. The result depends on the order in which labels become known, which a test only sees if it mentions a new label after a wildcard.", "anchors": ["src/pdaaal-bin/parsing/PAutomatonParser.h", "src/include/pdaaal/parsing/NfaParserGrammar.h", "src/include/pdaaal/PAutomaton.h"]}
{"id": "C73", "title": "The report of the program", "statement": "Given a PDA and two P-automaton expressions, the program reports for engine post*, pre* and dual* the name of the engine and whether some configuration described by the first expression reaches one described by the second by the rules of the PDA. If a trace is asked for and the answer is yes, the trace in the report, with states and label names, is such a run; otherwise it is empty. It fails exactly if an expression names an unknown state or the engine does not exist, and reports nothing if no engine is chosen.", "quantifier": "every PDA, pair of expressions, engine, trace option none or any, name lookup, hash order, allocation of NFA states", "why_tests_cant": "All PDAs and expressions. The labels of the second expression reach the PDA after the first automaton is built, so the parts can each be right and the report still wrong.", "anchors": ["src/pdaaal-bin/Verifier.h", "src/pdaaal-bin/main.cpp", "src/pdaaal-bin/parsing/Parsing.h", "src/pdaaal-bin/parsing/PAutomatonParser.h"]}
{"id": "C74", "title": "P-automata in JSON", "statement": "A P-automaton given as JSON has exactly the accepting states and the transitions of the document: every state of the document gets its own number, states of the PDA keep theirs, and the labels of the edges are added to the PDA. A control state with a stack of labels is accepted exactly if the document has a path with these labels from it to an accepting state. Documents that lack an entry, have one twice, list an initial state that is not a state of the PDA, or use names for a PDA without state names are refused. An automaton that is printed and read back is the same up to the numbers of its states and accepts the same configurations.", "quantifier": "every PDA with named or numbered states, every document with any entries in any order, every automaton that is printed, every hash order, state and stack", "why_tests_cant": "All documents and automata: numbering, order of the entries, new labels and states interact, and the effect of a wrong number shows only in acceptance.", "anchors": ["src/pdaaal-bin/parsing/PAutomatonJsonParser.h", "src/include/pdaaal/PAutomaton.h", "src/include/pdaaal/utils/SaxHandlerHelpers.h"]}
{"id": "C75", "title": "The report on P-automata in JSON", "statement": "Run with a PDA and two P-automata given as JSON documents, the program reports the engine, whether some configuration of the first document reaches some configuration of the second, and, if a trace is asked for and there is one, a run of the PDA from a configuration of the first to one of the second, with the names of the labels. It fails exactly if a document is not well-formed or the engine does not exist. The labels of the documents are added to the PDA, so that rules for all labels apply to them; the rules and states stay as they are.", "quantifier": "every PDA with named or numbered states, every two documents with any entries in any order, every engine, with and without trace, every hash order", "why_tests_cant": "Reading two automata over a growing set of labels, saturating and searching interact; the claim is about all documents and all runs of the PDA.", "anchors": ["src/pdaaal-bin/parsing/Parsing.h", "src/pdaaal-bin/Verifier.h", "src/pdaaal-bin/main.cpp", "src/pdaaal-bin/parsing/PAutomatonJsonParser.h"]}
{"id": "C76", "title": "The report with weights", "statement": "Run on a PDA with weights and asked for a shortest trace, the program reports, if it says yes, the least weight of a run from an initial to a final configuration, and a run; after post* the run has that weight. Asked for a shortest trace by fixed point or for a longest one, it says yes exactly if there is a run, and then gives the best weight and a run of that weight, or the text for infinity if runs get ever better. Negative weights are refused by the shortest searches of post* and dual*; expressions that cannot be read are an error.", "quantifier": "every PDA with weights of an ordered monoid, every two P-automata given as expressions or as JSON documents, every engine, every hash order, every priority queue that returns a least element, every value of uninitialized memory", "why_tests_cant": "The claim compares the reported weight with all runs of the PDA, of which there are infinitely many, and ties in the priority queue and the order of hash tables decide what is computed.", "anchors": ["src/pdaaal-bin/Verifier.h", "src/pdaaal-bin/main.cpp", "src/include/pdaaal/Solver.h", "src/include/pdaaal/PAutomatonProduct.h"]}
{"id": "C77", "title": "Solver instances in JSON", "statement": "A document with a solver instance is read exactly like four documents, one for each element: the type determines how the PDA is read, the PDA is the one the PDA parser gives, and the two automata are read in order, each adding its labels to the PDA; they need not give initial states. Every JSON object that is accepted as a PDA gives a well-formed one. The program then reports whether some configuration of the first automaton reaches one of the second, with a run as trace, and it fails exactly if an element is not accepted or the engine does not exist.", "quantifier": "every type element, every JSON object as PDA (whatever its text), every two automata objects, every engine, every hash order", "why_tests_cant": "The four handlers take turns on one stream of events, and where one hands over to the next depends on the nesting of arbitrary text; no finite set of documents covers it. The report is about all runs.", "anchors": ["src/pdaaal-bin/parsing/SolverInstanceJsonParser.h", "src/pdaaal-bin/parsing/SaxHandlerDispatch.h", "src/pdaaal-bin/parsing/PdaJsonParser.h", "src/pdaaal-bin/parsing/PAutomatonJsonParser.h", "src/pdaaal-bin/main.cpp"]}
{"id": "C78", "title": "Printing a solver instance and solving its text", "statement": "A solver instance that is printed as JSON is accepted again by the instance parser with the same type, and the program gives the same answer for the text as for the instance itself, with every engine.", "quantifier": "every well-formed instance (any weight type, named or numbered states, any rules and automata), every engine, every hash order", "why_tests_cant": "The text gives other numbers to labels and states, and may lose labels; that no run is lost or gained is about all runs of two different pushdown systems and all documents.", "anchors": ["src/include/pdaaal/PAutomatonProduct.h", "src/include/pdaaal/PDA.h", "src/include/pdaaal/PAutomaton.h", "src/pdaaal-bin/parsing/SolverInstanceJsonParser.h", "src/pdaaal-bin/main.cpp"]}
{"id": "C79", "title": "Regular expressions as text", "statement": "Exactly the texts of the documented syntax are accepted as regular expressions over labels: labels in brackets, the dot, parentheses, *, + and ?, juxtaposition and |, with white space and comments between them, or nothing at all. A text has only one reading, and the automaton that is built for it accepts exactly the words that the expression describes. Every other text is rejected with an error.", "quantifier": "every text (any sequence of characters), every injective label function, every placement of states in memory", "why_tests_cant": "The set of texts is infinite, and so is the language of most expressions. The actions of the parser take effect before the parser knows whether the text is well-formed and are not undone when it backtracks, so that the stacks of the builder fit together is a claim about all texts, also ill-formed ones.", "anchors": ["src/include/pdaaal/parsing/NfaParserGrammar.h", "src/include/pdaaal/parsing/NfaParser.cpp"]}
{"id": "C80", "title": "P-automata as text", "statement": "Exactly the texts of the documented syntax are accepted as P-automata: atoms with a state or a list of states (numbers, identifiers, or names in quotes) and a regular expression, separated by bars, with white space and comments between the parts. A text has only one reading, and the automaton read from it accepts the configurations that the text describes. Every other text is rejected with an error, and so is a text with a state the PDA does not have. The program, given two such texts, reports whether a configuration of the first reaches one of the second.", "quantifier": "every text, every PDA, every lookup of state names, every hash order, every placement of states in memory, every engine", "why_tests_cant": "The claim is about all texts, all configurations of the automaton read, and all runs of the PDA. Labels and states enter the PDA and the builder while the text is still being matched.", "anchors": ["src/pdaaal-bin/parsing/PAutomatonParser.h", "src/include/pdaaal/parsing/NfaParserGrammar.h", "src/pdaaal-bin/parsing/Parsing.h", "src/pdaaal-bin/main.cpp"]}
{"id": "C81", "title": "The program on a PDA file and two P-automaton files", "statement": "The program reads the PDA with the weight type and the kind of states given by its options, whose values may be in upper or lower case, and the two P-automata with this PDA. With named states a name stands for the state with this name; with numbered states a numeral stands for the state with this number, and anything else is an error. Unknown options, a PDA that cannot be read, a text that is no P-automaton, and a state that does not exist are errors. Otherwise it reports whether a configuration that the first text describes reaches one that the second describes, with a run as trace.", "quantifier": "every option text, every JSON object as PDA, every two texts, every engine, every hash order, every placement of states in memory", "why_tests_cant": "The claim ranges over all texts of the three files and all runs of the PDA. Which state a text means depends on a conversion that accepts more than numerals.", "anchors": ["src/pdaaal-bin/parsing/Parsing.cpp", "src/pdaaal-bin/parsing/Parsing.h", "src/pdaaal-bin/parsing/PAutomatonParser.h", "src/include/pdaaal/PDA.h", "src/pdaaal-bin/main.cpp"]}
{"id": "C82", "title": "The program writes one JSON object with the report", "statement": "What is written with a json_stream is, after it is closed, the JSON text of the object described by the calls, with all entries in order; objects that have not been ended are ended. So the standard output of the program is a JSON object with the engine, the weight if there is one, the time, the result and the trace.", "quantifier": "every nesting of objects, every sequence of calls, wherever it stops, every value text, every report", "why_tests_cant": "Commas, braces and indentation depend on a flag and a counter that every call changes; the nesting is unbounded.", "anchors": ["src/pdaaal-bin/utils/json_stream.h", "src/pdaaal-bin/Verifier.h", "src/pdaaal-bin/main.cpp"]}
{"id": "C83", "title": "The program with weights on separate files", "statement": "With --weight uint and a PDA in a JSON file, trace type 4 reports whether a configuration described by the first automaton text reaches one described by the second, with the least weight of all runs and a run of that weight; no condition on the weights is left. Trace type 2 reports the least weight with a run, or says no. Trace type 3 does the same for the greatest weight, and trace type 4 with --weight int for the least, if weights cannot be improved again and again. Trace types 2 to 4 with --weight none, unknown options, texts that are not automata and states that do not exist are errors.", "quantifier": "every option text, every JSON document, every automaton text or document, every engine, every iteration order of hash tables, every implementation of the priority queues", "why_tests_cant": "Documents, texts and runs are unbounded, and the least weight is over infinitely many runs.", "anchors": ["src/pdaaal-bin/main.cpp", "src/pdaaal-bin/Verifier.h", "src/pdaaal-bin/parsing/Parsing.h", "src/pdaaal-bin/parsing/Parsing.cpp"]}
{"id": "C84", "title": "The rules, stacks and paths that get_rule_trace_and_paths<Shortest> returns form a shortest run", "statement": "After post_star_accepts<Shortest>, pre_star_accepts<Shortest> or dual_search_accepts<Shortest> on an instance, get_rule_trace_and_paths<Shortest>(instance) returns a state, a sequence of rules, two stacks, two paths and a weight. If some configuration of the initial automaton can reach one of the final automaton, the rules are rules of the PDA that lead from the state with the first stack to a configuration with the second stack; the first path is an accepting path of the initial automaton for the first configuration and the second an accepting path of the final automaton for the last; the weight is the least over all runs, and it is the sum of the weights of the returned rules. Otherwise the state is the greatest size_t, the sequences are empty and the weight is max().", "quantifier": "all PDAs with non-negative rule weights, all pairs of automata without transitions into control states, all hash orders, heaps and executions of the searches", "why_tests_cant": "Tests compare traces of a few instances; whether the rules are those of a run, carry their own weights and sum up to the reported weight depends on which of several competing derivations the search kept for every transition, over all instances.", "anchors": ["src/include/pdaaal/Solver.h:317-330", "src/include/pdaaal/Solver.h:393-432", "src/include/pdaaal/internal/PdaSaturation.h:1103-1158", "src/include/pdaaal/PAutomatonProduct.h:197-230"]}
{"id": "C85", "title": "The command-line program reads the files its options name, answers for them, writes one JSON object and no other files", "statement": "Run with its options, `pdaaal` reads the instance from the file given with --input, or from the three files given with --pda, --initial and --final (the PDA from standard input for the name -), and its result depends on nothing else. If it can read them and the engine is 1, 2 or 3, it ends with status 0 and writes one JSON object to standard output, whose entries are the duration of parsing (unless --silent) and the report of the chosen engine and trace type; the report is right for the configurations the files describe. It changes no files but those given with --print-pda-json and --print-solver-instance; the latter, given to a second run with --input, has the same answer. If something cannot be read, it does not end with status 0.", "quantifier": "all options, contents of files and standard input, hash orders, addresses and executions of the searches", "why_tests_cant": "No test runs the program; the options interact (which of the sources is used, what is written before an error), and the answer must be right for all files.", "anchors": ["src/pdaaal-bin/main.cpp:40-126", "src/pdaaal-bin/parsing/Parsing.h:56-120", "src/pdaaal-bin/parsing/Parsing.cpp:44-121", "src/pdaaal-bin/Verifier.h:73-337"]}
{"id": "C86", "title": "GraphViz output shows the whole automaton", "statement": "The text that to_dot writes for an NFA or a P-automaton is a graph with one node for each state, a double circle exactly for accepting states, one edge for each edge of the NFA or each two states of the P-automaton that are joined by transitions, and an arrow to each initial state. An edge is labelled with all labels and weights it stands for, with `*` exactly if it stands for all labels, and with epsilon last. With printers that tell states and labels apart and use no separator, two automata with the same output are the same.", "quantifier": "all NFAs; all P-automata with or without weights, all orders of the hash maps, all printers of states, labels and weights", "why_tests_cant": "A test compares one text for one automaton; that no two automata share a text is a statement about all pairs of automata.", "anchors": ["src/include/pdaaal/NFA.h", "src/include/pdaaal/internal/PAutomaton.h", "src/include/pdaaal/PAutomatonProduct.h", "src/include/pdaaal/utils/vector_printer.h"]}
