# Formal model of PDAAAL in Lean 4

This directory holds a machine-checked model of the PDAAAL library (C++ source in `/repo`, read as text, never built)
and proofs of the properties in `properties.jsonl`. `MANIFEST.json` maps every property to its theorems.

## Layout

| Directory | Content |
| --- | --- |
| `lean/Verif/Spec` | Small specifications that do not mention the model: pushdown systems and runs, languages of automata and regular expressions, paths, weighted runs. |
| `lean/Verif/Model` | The code, function by function. Every definition cites the file and lines of `/repo` it models and says where it simplifies. |
| `lean/Verif/Proofs` | Invariants and helper lemmas. |
| `lean/Verif/Props` | The property theorems (`cNN_...`), each with an example that meets its hypotheses. Theorems ending in `_partial` prove only part of the property or need a precondition the code does not check. |
| `seeded/LOG.jsonl` | Wrong programs tried against the theorems: one line per edit of the model. |

To build: `lake build` in `lean`.

## Trusted base

* Lean 4.33.0: the kernel, and the elaborator for the correspondence of the text of a statement with its term. No
  `sorry`, no own axiom, no `native_decide` or `bv_decide`; `decide` is only used on closed examples and witnesses.
* The axioms `propext`, `Classical.choice` and `Quot.sound` of Lean's library. The last section lists, for each
  property theorem, which of them it uses.
* The parts of Mathlib that are imported (checked by the kernel like everything else).
* The faithfulness of the model to the C++ text. It was written by hand from the source; nothing checks it but the
  reader. Each definition gives the lines to compare with. The general decisions are in the next section.
* Not modelled: compilation, memory allocation, exceptions from the standard library, threads, and the libraries
  the code uses (`ptrie`, PEGTL, nlohmann json, boost), except where the table below says how they are represented.

## Modelling decisions

* States, labels and rule numbers are natural numbers. `epsilon` is 2^32-1 and `size_t`'s greatest value is 2^64-1, as
  in the code; theorems that need it carry the hypothesis that there are fewer labels than `epsilon`.
* A PDA is a list of states with their sorted rule tables; a PDA *built by calls* is the fold of `add_rule` and
  `add_state` over an arbitrary list of calls (`Pda.build`). Well-formedness (`Pda.WF`) is proved for all of these, so
  it is never an unreachable hypothesis.
* A P-automaton is the list of its transitions with their annotations, in order of insertion. Iteration over a hash
  map follows an arbitrary order: all theorems are for every `HashOrder`.
* `std::priority_queue` is any function that takes some element with the least key (`Heap`).
* Loops that the code does not bound are functions with fuel, and termination is a theorem: there is an amount of
  fuel with which the loop ends. Where a measure is known in advance the bound is explicit (C05, C06, C14).
* Undefined behaviour is a separate outcome (`none`, or a flag `undef`); theorems either exclude it or show when it happens.
* Weights: in the theory of the scalar weights (C30, C31, C50) they are machine integers of arbitrary width with
  overflow as undefined or wrapping behaviour. In the algorithms they are an arbitrary ordered commutative monoid with
  exact addition, so sums that overflow or reach `max()` are outside these theorems.
* NFA states live at addresses; sets of pointers are sorted by address, and the results are proved independent of
  the addresses.
* Unordered containers whose order does not matter (`unordered_set`, `ptrie` maps) are lists of their elements.

## What is modelled and how each property is proved

| Property | Status | Modelled | How proved |
| --- | --- | --- | --- |
| C01 pre* is sound | proved | `PreStarSaturation` (workset, delta', rel, lazy pop), every callback | semantic invariant over `step`: every transition stands for runs |
| C02 pre* is complete | partial | as C01 | closure of the transitions when the workset is empty; partial because of the rule lookup (C24) |
| C03 post* is sound | proved | `PostStarSaturation` (epsilon transitions, added states, rel1/rel2) | semantic invariant with a meaning for the added states |
| C04 post* is complete | proved | as C03 | closure when the workset is empty |
| C05 pre* saturation terminates | proved | as C01 | measure with an explicit bound |
| C06 post* saturation terminates | proved | as C03 | measure with an explicit bound |
| C07 pre_star_accepts(automaton,state,stack) decides reachability | partial | `Solver::pre_star_accepts(automaton, state, stack)` with early termination | callback invariant over C01, C02 |
| C08 post_star_accepts decides reachability | proved | `post_star_accepts` with the incremental product | C03, C04 and C21 |
| C09 pre_star_accepts(instance) decides reachability | partial | `pre_star_accepts(instance)` with the incremental product | C01, C02 and C21 |
| C10 dual_search_accepts decides reachability | partial | `dual_search_accepts` with two saturations and one product | invariants of both directions, case distinction on how the loop ends |
| C11 The engines agree | partial | the three engines | corollary of C08-C10 |
| C12 pre* traces are real runs | proved | `trace_t`, `TraceBack::next`, `get_trace` | trace labels refer to transitions inserted earlier; rank induction |
| C13 post* traces are real runs | proved | as C12 for post* | as C12 |
| C14 Trace reconstruction terminates | proved | `TraceBack` loop | decreasing rank with an explicit bound |
| C15 Automaton for one configuration | proved | `PAutomaton(pda, state, stack)` | path induction |
| C16 Automaton from an NFA | proved | `PAutomaton(pda, nfa, states)`, `construct` | simulation between NFA runs and paths |
| C17 Union of automata | proved | `or_extend` | renaming of states, path induction both ways |
| C18 Negated edges | proved | `add_edges` | loop invariant over the label list |
| C19 accepts and accept_path | proved | `accepts`, `accept_path` (plain search) | soundness and completeness of the explicit stack search |
| C20 find_path | proved | `find_path` | search invariant |
| C21 Product accepts the intersection | proved | `PAutomatonProduct`: construction, `add_edge_product` | invariant: exactly the reached pairs, edges of both |
| C22 Label sets | proved | `labels_t` | set semantics of every operation |
| C23 add_rule builds the intended transition system | proved | internal and typed PDA, hash and vector container | induction over call sequences |
| C24 pre* rule lookup finds every rule | partial | sorted rule table, `lower_bound` loop | exact characterisation from the order of rules |
| C25 clear_state removes a state | proved | `clear_state` | list lemmas on the read/write loop |
| C26 NFA union, concatenation and plus | proved | `NFA` as a heap of states | language equations for each operation |
| C27 NFA question and star | partial | `question_extend`, `star_extend` | language equations under a condition; witnesses otherwise |
| C28 NFA epsilon closure and successor | proved | `follow_epsilon`, `compile`, `empty_accept`, `successor` | closure invariant of the worklist, run induction |
| C29 intersect_edge_labels | partial | `intersect_edge_labels`, `has_as_successor` | set semantics of the loop |
| C30 Scalar weights form an ordered monoid with absorbing elements | partial | `Weight.h` scalars and arrays, all integer widths | arithmetic with overflow as undefined |
| C31 Vector weights | partial | `Weight.h` vectors | list induction |
| C32 Shortest post* computes minimum weights | proved | `PostStarShortestSaturation` (`ET = false`), `has_negative_weight` | Dijkstra invariant: keys taken are non-decreasing, taken transitions are final; closure; counting measure |
| C33 AutomatonPath | proved | `AutomatonPath` | list induction |
| C34 vector_map and vector_set are finite maps | proved | `vector_map`, `vector_set` | refinement to finite maps over operation sequences |
| C35 fut_set is a map from tuples | proved | `fut_set`, all nestings | refinement to one finite map |
| C36 priority_set never pops an element twice | partial | `priority_set` | invariant over operation sequences under a condition |
| C37 is_disjoint | proved | `is_disjoint` | induction on both lists |
| C38 Flag masks | proved | `flag_mask` | bit lemmas |
| C39 Byte encoding is injective | proved | `to_vector`/`from_vector` byte encodings | round trip, hence injective |
| C40 Reducer keeps reachability | partial | `Reducer` (forward, backward, dual) | invariants of the top-of-stack analysis; runs are preserved |
| C41 Pair refinement separates | proved | `make_pair_refinement` | invariants of the bucket loop |
| C42 Refinement::combine | proved | `Refinement::combine` | set laws |
| C43 RefinementMapping | proved | `AbstractionMapping`, `RefinementMapping` | refinement to a map over call sequences |
| C44 Abstract labels over-approximate negated label sets | partial | `AbstractionPDA::encode_labels` | exact sets; witness that the property fails |
| C45 DFS factory builds the reachable part | proved | `DFS_PDAFactory` | worklist invariant and measure |
| C46 Fixed-point shortest path on automata | proved | `PAutomatonFixedPoint` | Bellman-Ford: rounds bound the length of best paths |
| C48 PDA JSON round trip | partial | `to_json` for numbered and named states, all functions of `PdaSaxHandler`; the JSON text itself (nlohmann) is represented by the SAX events of the document | invariant over the events: the automaton under construction stores exactly the rules read so far, through label and state ids |
| C49 Regular expressions | partial | actions of the regular expression grammar on syntax trees | language of the builder's stacks, by mutual induction |
| C50 Weight functions | partial | `linear_weight_function`, `ordered_weight_function` | list induction with overflow conditions |
| C51 Saturation stays in range | proved | both saturations | invariants |
| C52 Copying an NFA | proved | NFA copy constructor and assignment | isomorphism of the copied states |
| C53 Shortest accepting path of a configuration | partial | `accept_path<Trace_Type::Shortest>` | one Dijkstra invariant for both searches (visited nodes are settled, the queue covers every path not yet settled), linked to an inductive definition of weighted paths; after C32 the weight is compared with runs |
| C54 Shortest accepting path of an automaton | proved | `find_path_shortest` | the same Dijkstra invariant; the minimum over parallel transitions is taken per target state |
| C55 The trace of a solver instance is a witness | proved | `get_trace(instance)`, `get_trace_dual_search`, `find_path` on the product with mapping to the two automata, `split`, `remove_epsilon`; not `Shortest`, not the fixed-point versions | a path of the product projects to an accepting path of the saturated automaton and, without its epsilon edges, to one of the other automaton; then C12 and C13 on every intermediate state of the saturations |
| C56 Rule traces come with the accepting paths of both automata | partial | both `_get_rule_trace_and_paths`, `_get_trace_stack_path` | as C55; partial because the code swaps the paths or reads `trace[0]` when the trace is empty |
| C57 Shortest pre* computes the least weights | partial | `PreStarSaturation` with `SHORTEST`, `Solver::pre_star<Shortest>`, `pre_star_accepts<Shortest>(automaton, state, stack)` | invariant of the saturation (`_minpath` of a processed state is final, keys never drop below the key taken last, settled transitions never change), soundness and closedness as for C47; every transition is justified by a rule and older transitions, as for C07 (for the answer yes on any stack); evaluation on concrete instances for the disagreements |
| C58 Shortest post* search answers correctly with the least weight | partial | `post_star_accepts<Shortest>`, `PostStarShortestSaturation` with `ET`, `add_edge` and `construct_reachable` with `Shortest`, `make_back_edge_shortest`, `get_path_shortest` | invariant of the saturation (the keys in the queue bound every run not yet represented) joined with an invariant of the product (Dijkstra distances over the moves announced so far, back edges never too light); evaluation on concrete instances for the disagreements |
| C59 Shortest pre* search answers correctly with the least weight | partial | `pre_star_accepts<Shortest>(instance)`, the product as for C58, `get_trace<Shortest>(instance)` | invariant of the saturation as for C57 (every run is at least as heavy as the least key, or all its transitions are settled) joined with the invariant of the product as for C58, where back edges may be heavier than a derivable path; evaluation on concrete instances for the disagreements |
| C60 Shortest dual search answers correctly with the least weight | partial | `dual_search_accepts<Shortest>`, `dual_short_search`, the product as for C58 | the invariants of the two saturations (C48, C57) joined with the invariant of the product for both sides: every run is at least as heavy as the least key of either queue, or a path in the product of announced transitions of one side and announced or input transitions of the other is no heavier; evaluation on concrete instances for the disagreements |
| C61 Shortest post* traces are runs of least weight | partial | `getTraceShortestFor` (the entry point), `postStarShortest`, `acceptPathShortest`, `getTrace` with `TraceBack`. | Every transition that post* settles is justified, with its trace and weight, by transitions settled before (`BuiltW`); unwinding keeps the sum of the weights of the remaining path and of the rules (`postTBW_round`). So every accepting path unwinds to a run of its weight, and by C32 and C53 the least path to a least run. `accept_path<Shortest>` may lose the first state of a path that begins with an epsilon transition, in which case the trace is wrong (`c61_trace_elsewhere`): hence the condition on the first state; PDAs without POP rules need none. |
| C62 get_trace<Shortest>(instance) after a post* search returns a run of least weight | partial | `walk`, `pathShortest`, `findFirst`, `findPairs`, `SInstance.getTrace` (Model/ShortestProduct), `getTrace` (Model/TraceBack) | Invariant `BInv` of the product: every state is joined to a control state by a chain of back edges, each a move of the two automata whose weight accounts for the difference of the keys. The chain gives a path of the saturated automaton of at most the reported weight, unwinding it gives a run of the weight of the path (C61), and this is at least the least weight (C58). |
| C64 CEGAR headers stand for the right stacks | partial | `Header`, `checkPath`, `edgeLabels`, `Recon` with `initialHeader`, `popMany`, `updateWildcardPre`, `updateHeader`, `preLabels`, `concretize`, `finalizeHeader` (Model/Cegar) | Each pop removes the top label of every stack the header stands for (case distinction known label/wildcard), induction over the pops; induction over the positions for `finalize_header`. Labels are found by C29; where C29 loses or repeats labels the theorems need that different edges to the next state read different labels, and `c64_final_repeats` shows a repetition. |
| C65 The search for a concrete trace is exhaustive | proved | `Search`, `SearchSt`, `searchStep`, `SearchSt.result`, `search` (Model/Cegar); the functions of the user are arguments, ranges are lists | Invariant: nodes visited followed by nodes pending are the preorder of the search tree, the stack is a chain, and the variables are a fold over the visited nodes. The number of pending nodes decreases. |
| C66 A negative answer of cegar_solve is right | partial | `Cegar.Client.solve` (`cegar_solve` with the user's classes as a record of functions), `absConstruct` (`AbstractionPAutomaton`), `absInstance` | `construct` with `map_edge` is `construct` on the abstracted NFA; runs and words have images under the class map (simulation); the engines answer by C11. Invariant over the iterations. Partial: labels of a negated edge must not share a class with others; `c66_negated_wrong` is a wrong answer otherwise. |
| C67 A trace returned by cegar_solve is real | partial | `Cegar.Client.solve`, `Cegar.buildNfaPath`, `Recon.updateHeader`, `Recon.finalizeHeader`, `Client.search` | The NFA paths read the abstract words (C56 and the edges made by `construct`); invariant of `update_header`: every stack of the new header comes from one of the old header by the rule (C64); the search follows `next` (C65). Invariant over the iterations. Partial: after post* the trace must not be empty; `c67_post_swapped_wrong` is a wrong trace otherwise. For pre* and dual search `c67_solvable` has no such condition. |
| C68 The trace after a shortest pre* or dual search is a run | partial | `SInstance.getTrace`, `SInstance.getTraceDual`, `preStarAccepts`, `dualSearchAccepts` (Model/ShortestProduct) | The pairs reached by a common stack of the two input automata (`Early`) are closed under the moves of the saturations, and contain all states of the product that have no back edge. If no configuration is in common, none of them accepts, so every accepting state has a chain of back edges to a control state (`BInv`). The path is unwound with the weights erased (`getTrace_bare`), where C12 applies. |
| C69 The CEGAR loop makes progress and terminates | partial | cegar_solve (as for C66/C67) with the search of reconstruct_trace, finalize_header, concreterize_wildcards, pre_labels, HeaderRefinement and RefinementMapping::refine; the user's classes are parameters (Client), with an instance in the style of test/ParsingPDAFactory.h | Invariant over the search: the header of every configuration fits the abstract stack at its depth (OnStack). With it every failure to make a header final is a proper split of one class (C64), the splits of one iteration combine to a refinement (C42, C65), and refining separates two labels (C41). Termination by induction on (number of pairs of labels in one class, the user's measure), with the fuel of the search from C65. The instance combines this with C66 and C67. A negated edge of the header automata breaks progress (c69_negated_no_progress) |
| C70 Fixed-point search recognises unbounded weights | partial | `FP.run`, `getWeight`, `notAccepting`, `getPathWithLoop` (Model/FixedPoint, Model/FixedProduct) | Invariants over both phases that hold with negative cycles too: predecessors are edges that explain the weights up to later improvements, every improvable state is queued, and every state changed in round k is reached by a walk of k edges. At the limit everything reachable that is still on an improving cycle is queued, so the second phase drives its successors to bottom(). The predecessor walk either leaves every cycle or closes one, which is then left at its first state. |
| C47 Fixed-point saturation | partial | `PreStarFixedPoint`, `PostStarFixedPoint`, `FixedPointSaturation::run` (Model/FixedSat); `Unpumped` in Spec/Pump | Derivations are runs; closure under relaxation when nothing changes. Without bottom() weights in the result every step of the second phase equals a step of the first, what it queues is paid for by new transitions, and so the queue is empty at the end. If no weight can be improved again and again, the first phase ends with nothing queued even at its round limit: a weight queued in round k has a history of k improvements, more of them than there are transitions, so a transition occurs twice and the part between can be repeated. |
| C63 Fixed-point search on an instance returns the best weight of a run | partial | `findLoop`, `aroundLoop`, `leaveLoop`, `getPathWithLoop`, `Product.wAut`, `findPathFixedPoint`, `postStarFixedPointAccepts`, `preStarFixedPointAccepts`, `interleavingFixedPointAccepts` (Model/FixedProduct) | Product transitions carry the annotations of the first automaton, so the accepting paths of the product have exactly the weights of accepting paths of the saturated automaton whose configuration the other automaton accepts. Bounded weights exclude negative cycles (pump the cycle), so C46 gives the least weight and a path of it, and C47 turns it into the best weight of a run. The same for every result without bottom() weights, whichever way the first phase stopped. If no weight can be improved again and again nothing is assumed about the saturation. |
| C71 The trace after a fixed-point search is a run of the reported weight | partial | `Instance.getTraceFixedPoint` on the instances of C63: the search of `findPathFixedPoint`, then `getTrace` on the last traces of the saturated automaton (`Aut.lastTraces`). Weights, provisos and hash orders as in C63; state numbers at most `2^64 - 1`, which is the mark for a missing state in traces. | Every transition that is not in the input keeps a trace whose transitions have, at the end, exactly the weight used when the trace was written, since nothing waits any more (`Traced`). If no weight can be pumped, going along traces cannot come back to its start, so the transitions can be ordered such that each trace uses earlier ones (`BuiltW`), and the unwinding lemmas of C61 and C62 give a run of the right weight. post* in full (`c71_post`, `c71_post_longest`); pre* and interleaving with the rule lookup proviso of C24. |
| C72 P-automaton expressions | partial | `parsePAut` on syntax trees with label and state names: `insert_label` for each label as it is read, the actions of the regular expression grammar, `compile`, the constructor of the automaton from an NFA, `or_extend`. The state lookup is an arbitrary function that may fail. Matching the text with the grammar is not modelled. | Independent denotation of expressions over label names (`SAlt.Den`). The encoding is the expression with final label numbers, since labels are only added at the end (`LabelsGrow`); numbers are injective, so denotations agree. Then C49, C16 and C17 atom by atom. `c72_known_partial` is the plain union if all labels are known; `c72_language_partial` says exactly what is accepted otherwise. |
| C73 The report of the program | partial | `parseInstance`, `verifyPlain`, `runPlain` (Model/Verifier) on top of the models of the parser (C72), the three engines (C08-C10) and the traces (C55); runs with label names are specified in Spec/Named | moves with numbers and moves with names are shown to be the same (`step_named`, `named_step`), the parsed automata are shown to be legal, without traces and to describe the expressions for the final set of labels (`parseInstance_spec`), and the theorems on the engines are carried over |
| C74 P-automata in JSON | partial | `parseJAut` (the SAX handler, event by event, with exceptions and undefined behaviour as outcomes) and `NAut.toJson` (Model/PAutJson); documents are specified in Spec/AutDoc | for each event list the handler is shown to end in an automaton with the contents read so far or in an error (`Res`, `run_fields`), with an invariant on the state maps (`PMake.Inv`) and on the contents (`PMake.Has`); the round trip follows from the theorem on documents; for documents that use both names and numbers a weaker invariant (`PMake.Safe`) suffices for errors and labels |
| C75 The report on P-automata in JSON | partial | `parseJInstance`, `runJson` (Model/JsonInstance) on top of `parseJAut` (C74) and `verifyPlain` (C73) | C74 gives what the two automata accept by names (`Meets`), also after the second document has added labels (`Meets.more`); `verify_tells` (shared with C73) turns C08, C09, C10 and C55 into statements about names; `c75_illegal` is a computation |
| C76 The report with weights | partial | `verifyShortest`, `verifyFixed`, `runExpr`, `runDocs` (Model/VerifierWeighted) on top of the readers of C73 and C75 and the searches of C58-C63 and C68 | `c76_shortest_*` from C58-C60 and C68, `c76_fixed_*` and `c76_unbounded_*` from C62 and C63, both carried over to names by `Meets`; `c76_longest_partial` is the fixed point for the opposite order; `c76_negative*` from the test for negative weights; `c76_answer_wrong` is a computation |
| C77 Solver instances in JSON | partial | The type handler, the embedded PDA and automaton handlers, the instance handler with its callback and the dispatch, event by event; the program on such a document with trace types none and any. Texts are event lists that close what they open (`IsObject`). | Simulation: on any object the embedded handlers do what the handlers for separate documents do with their stack on top of another one. Well-formedness of the PDA is an invariant of the handler over all texts. The report follows from C75's lemmas. |
| C78 Printing a solver instance and solving its text | partial | `to_json` of a solver instance with the type, the PDA and both automata, and the program on the text (C77). | The printed PDA is read by the C48 invariant with states by name or number; a relation between the states of both PDAs is total and one-to-one, and steps correspond in both directions while the stack has known labels. The automata keep their documents' language (C74), so the two reachability questions are equivalent and the reports agree by C77 and C75's lemmas. |
| C79 Regular expressions as text | partial | `NfaParserGrammar.h` rule by rule on characters, with PEGTL's combinators (`Model/Peg.lean`): a match returns the rest of the text and the actions performed so far, also if it fails or throws; then the actions on the builder (C49). | Grammar of texts as relations (`ExprText`), apart from the parser. Completeness and soundness of every rule by induction on trees and on the length of the text; the list of actions determines the tree (`SAlt.log_inj`), hence one reading. For texts that are rejected, the actions are a prefix of the actions of some tree, for which the builder is defined, unless a bar dangles. |
| C80 P-automata as text | partial | `PAutomatonParser.h` rule by rule on characters, including the change of builder for the regular expression and the escapes of quoted names; actions run in order, up to one that throws (C72). The program on two texts is `runText`. | As C79, with the grammar `AtomsText`. The actions of a text are those of its atoms, so that the outcome is that of C72 on the trees, and C73 for the program. |
| C81 The program on a PDA file and two P-automaton files | partial | `get_format`, `get_weight_type`, `parse_pda`, the two state mappings (`std::stoul` or the name) with `exists_state`, and `run`, on top of C48's parser for the PDA and C80's for the texts. | Decimal notation by induction on digits (`digits_numeral`), words up to case as equality after lower-casing. The rest composes C77's well-formedness, C80 and C73. |
| C82 The program writes one JSON object with the report | partial | `json_stream` with its flag, its counter and all its calls, the calls made by `verify` and `run`. The texts of values (`json::dump`) are parameters. | Induction on the document: the calls for the members at depth n write a fixed layout (`run_members`), which the grammar of RFC 8259 accepts (`layout_text`); closing equals the missing ends (`close_ends`). |
| C83 The program with weights on separate files | partial | `operator>>` for `Trace_Type` and `run` for trace types 2 to 4 (Model/FilesWeighted): options, JSON PDA, automata as text or JSON, weights `uint` (natural numbers) and `int` | composition of C76, C77, C80 and C81; unsigned weights meet the conditions of the fixed-point engines and of the lookup (`fixOK_unsigned`, `lookup_read`) |
| C84 The rules, stacks and paths that get_rule_trace_and_paths<Shortest> returns form a shortest run | partial | `get_rule_trace_and_paths<Shortest>` (Model/ShortestRuleTrace.lean), on top of the models of the three shortest searches and of `TraceBack` | `c84_post_partial`: after post* the rules form a run of the least weight, up to the weights that the rules are returned with; `c84_pre_partial`: after pre* the rules are rules of the PDA and form a run, and the weight is the least. Both by the invariants of the searches and the specification of one round of `TraceBack`. Disagreements: `c84_post_rule_weights`, `c84_post_paths_swapped`, `c84_pre_heavier`, `c84_pre_wrong`, `c84_dual_half` |
| C85 The command-line program reads the files its options name, answers for them, writes one JSON object and no other files | partial | `prog` composes `readInstance` (files, formats, both kinds of automata), `doOutput`, `progVerify` (all trace types) and the JSON stream; the world is a map from file names to contents, standard input and the set of writable files; boost's command line and nlohmann's reader and printer are parameters | Congruence of every stage in what it reads (`c85_input`, `c85_separate`), case analysis of the stages for endings and files, and transfer of C75-C78 and C81-C83 through `readInstance` to the bytes on standard output (`c85_json_partial`, `c85_document_partial`, and for the trace types with weights, on the three kinds of input at once (`Poses`), `c85_least_partial`, `c85_signed_partial`, `c85_greatest_partial`, `c85_priority_partial`; `c85_answer_partial`, `c85_shortest`, `c85_fixed`, `c85_longest`, `c85_again_partial`) |
| C86 GraphViz output shows the whole automaton | partial | `NFA::to_dot`, `PAutomaton::to_dot`, `vector_printer` and the printers of `automaton_to_dot`, as functions to lists of characters | The text is split into statements (`c86_nfa_graph`, `c86_graph`, `c86_labels`, `c86_star`); statements without quotes inside names, and lists of items without commas or without blanks, can be read back (`c86_nfa_read`, `c86_read`). Partial: names that clash or contain separators are excluded (`c86_named_partial`, `c86_names_wrong`, `c86_comma_wrong`, `c86_hidden_wrong`) |

Preconditions and what is missing:

* C01: at every step, any callback, any hash order; input automaton without transitions into control states
* C02: full for unweighted PDAs and for any weights as long as no PUSH rule with operand label 0 has a negative weight; c02_pre_misses is a machine-checked counterexample with such a rule
* C03: at every step, any callback, any hash order
* C04: exact language with epsilon read as nothing; accepts() is exact for nonempty stacks, and c04_post_misses_empty is a machine-checked counterexample for the empty stack
* C05: explicit bound 2*N*L*N
* C06: explicit bound N*(L+1)*N, with a bound on the number of added states
* C07: full for unweighted PDAs and whenever the rule lookup misses nothing (C24)
* C08: For PDAs with labels below epsilon and an initial automaton without transitions into control states. Not the Shortest version, see C32.
* C09: full for unweighted PDAs and whenever the rule lookup misses nothing (C24); c11_engines_differ is a wrong answer otherwise
* C10: full for unweighted PDAs and whenever the rule lookup misses nothing (C24)
* C11: full for unweighted PDAs and whenever the rule lookup misses nothing (C24); c11_engines_differ is an instance where the answers differ
* C12: every accepting path of the automaton at any point of pre*; the input automaton carries no traces; a non-accepted configuration gives undefined behaviour
* C13: fewer than 2^32-1 labels; the weight shown on a PUSH rule may be that of another rule with the same target and pushed label (witness)
* C14: explicit bound on the rounds
* C15: initial state in range
* C16: Control states sorted and in range, listed symbols below number_of_labels; the NFA must be compiled (c16_needs_compile shows why).
* C17: for automata without transitions into control states; c17_into_control is a counterexample without this precondition. c17_or_extend_ok: the union is again a legal input.
* C18: labels strictly sorted and in range; the code's assertion (is_sorted) is too weak: c18_repeated_label
* C19: plain (not shortest) search; epsilon transitions are read literally by the code, c19_misses_epsilon shows the consequence
* C21: For every pair of automata with transitions in range, with epsilon transitions, both modes, with and without early termination, and every sequence of insertions.
* C23: Pre-label lists sorted, as merge requires (c23_unsorted_pre shows the effect of an unsorted list). Includes the typed interface and the hash container used while building.
* C24: exact characterisation for all weights; full for unweighted and unsigned PDAs; for signed weights the code misses PUSH rules with operand label 0 and negative weight (c24_lookup_misses)
* C26: Two NFAs combined must have disjoint states (unique_ptr ownership).
* C27: The code is wrong when a path leads back to an initial state (witnesses proved); the partial theorems give the language when no such path accepts something new.
* C28: The result does not depend on addresses.
* C29: Every label returned is right; labels are missed when three or more edges match because temp is not cleared (c29_missing); exact for at most two matching edges.
* C30: Proved for integer types of every width, both optimisation directions, and arrays. Fails for floating point types: numeric_limits::min() is positive (c30_floating_bounds). 'No overflow' must also exclude sums that hit max() or bottom() exactly (c30_assoc_at_marks). The mathematical weights that the models of the searches use are images of the code's weights, with the same order and sums (c30_unsigned_model, c30_signed_model, c30_maximise_model, c30_array_model).
* C31: less reads past the end of the shorter vector in exactly the cases of c31_less_undefined; minimised unsigned vectors compare lexicographically, so [] < [0] (c31_unsigned_missing). add is proved.
* C32: For every linearly ordered cancellative weight monoid with exact addition (no saturation at max()), every priority queue and hash order; the input weights must be zero, because the saturation ignores them (c32_input_weights_ignored).
* C35: All nestings of hash and vector containers; keys of all levels have one type.
* C36: Fails as stated: an element popped before, inserted into a queue that is not empty with a better weight than the top, is popped twice (c36_pops_twice). Proved under the condition that it does not become the top.
* C39: Scalars are their bytes in the order of ptrie::byte_iterator (external library).
* C40: The property fails in two ways, both proved: a terminal state that is neither state 0 nor the initial state and has no rule to itself is always cut off (c40_terminal_lost, an exact statement), and aggressivity 2 or 4 loses runs that uncover the initial stack (c40_dual_loses). Outside these cases reachability and the runs themselves are preserved for all PDAs and stacks (c40_runs_partial, c40_reachability_partial), and runs above the initial stack for every aggressivity (c40_dual_partial). Precondition asserted by the code: initial rules push; label lists strictly increasing.
* C41: Precondition: X, Y and the wildcards disjoint, as asserted by the code. The hash set of second components is iterated in an arbitrary order.
* C42: The second refinement is a split into two sorted parts, as asserted by the code.
* C43: The ptrie is modelled by the list of its keys.
* C44: False for negated edges: the test in encode_labels is inverted. Proved: exactness for edges that are not negated, the exact set matched by a negated edge and when it over-approximates, and a concrete counterexample.
* C45: The PDA is built in a vector container in the model; c23_hash_container shows that the hash container gives the same PDA.
* C46: For every weighted automaton and every ordered weight monoid with max and bottom: run() terminates; without a negative cycle on an accepting path, not_accepting, get_weight and get_path are exact. is_infinite implies a negative cycle; the converse (every negative cycle on an accepting path is reported) is not proved. get_path_with_loop is not modelled.
* C48: Reading back what was printed gives the same moves for every label that occurs in a printed rule; all moves when every label occurs or no rule is a wildcard. The full statement is false: an unused label is lost to wildcard rules, a label named * becomes a wildcard, the extreme weights of a type are not accepted.
* C49: Holds for expressions in which ? and * are not applied to an expression that loops back to its start; c49_wrong is the counterexample inherited from C27.
* C50: std::accumulate runs in int: 64 bit sums are cut to 32 bits (c50_linear_truncates). Proved when partial sums are values of int, and for unsigned types up to 32 bits without condition.
* C52: Copy construction; copy assignment onto a non-empty NFA appends instead (c52_assign_appends).
* C53: The weight is proved to be the least for every automaton, and after post* to be that of a lightest run. The path is proved to be a genuine path for automata without epsilon transitions. With epsilon transitions, which post* creates, the full statement is false: the returned path may begin in another state (c53_path_starts_elsewhere).
* C54: Every automaton with no negative weight and no transition stored twice, every priority queue and hash order.
* C55: numbers of states are assumed to fit into 64 bits
* C56: complete for pre*; after post* and dual search the code is wrong if an initial configuration is final (paths swapped, first element of an empty trace read) or, for dual search, if there is no trace; weights of PUSH rules as in C13
* C57: The code violates the statement without early termination and with accepting control states; the witnesses are machine-checked. With early termination and without accepting control states the least weights are proved right for every callback that does not stop the saturation, and the answer for a stack of one symbol. For stacks of any length, weights of any sign and accepting control states, the answer yes is proved right, and configurations of the input language are proved to be answered with yes.
* C58: The code violates the statement: the answer can be no although there is a run, and the weight is junk for an empty stack in both languages; machine-checked witnesses. Proved for all instances without such a stack: the search ends, the weight is the least one and max() exactly if there is no run, yes is right, and no excludes runs of weight zero.
* C59: The code violates the statement: the answer can be no although there is a run, weight and path are junk if the automata have a configuration in common, and the trace can be heavier than the weight; machine-checked witnesses. Proved for all instances whose final automaton accepts no empty stack: the search ends, and unless the automata have a configuration in common the weight is the least one and max() exactly if there is no run (the uninitialized members may hold any values that are not negative), yes is right, no excludes runs of weight zero, and a common configuration gives yes.
* C60: The weight returned after the search is the least one, and the answer yes is right, if the uninitialized members are not negative and zero when the automata meet. The answer no can be wrong (c60_dual_answer_wrong), and the weight is arbitrary when the automata have a configuration in common (c60_dual_weight_junk), so the full claim is false of the code.
* C61: Every accepting path unwinds to a run of exactly its weight. For the entry point the condition is that the path found begins in the given state; c61_trace_elsewhere shows a tie in the queue with which it does not, and then the trace is not a run. Without POP rules the claim holds in full.
* C62: Full for instances where no configuration with the empty stack is in both languages; without this it is false (c58_post_empty_stack).
* C64: pre_labels and the second part of a refinement are exact only if different edges to the next state read different labels: intersect_edge_labels (C29) loses or repeats labels otherwise. Everything else is proved in full.
* C65: The functions of the user are arbitrary; ranges of configurations are finite lists.
* C66: Under the condition that no class has both labels of a negated edge and others. c66_negated_wrong: cegar_solve returns std::nullopt although an initial configuration is final, because a negated edge excludes a whole class if it excludes one of its labels (see C44). The NFAs are the compiled ones.
* C67: With post* the claim is proved for non-empty traces; for empty ones the code violates it (c67_post_swapped_wrong). With pre* and dual search it holds without that condition (c67_solvable).
* C68: Proved for automata without a configuration in common and non-negative uninitialized members: the configurations returned are a run from the initial to the final automaton and the weight is the least of all runs. With a configuration in common the trace is wrong (witnesses), the trace may be heavier than the weight (witness), and without a run the dual version returns the weight zero instead of max() (witness).
* C69: Proved for header automata without negated edges other than wildcards and without two edges that read the same label to the same state; with post* and dual search moreover no abstract configuration may be both initial and final. With a negated edge whose labels are a class of their own the iteration repeats itself (c69_negated_no_progress): it adds an empty class for ever. The refinements that the user's class returns are assumed to make progress; for a client in the style of the repository's tests this is proved.
* C70: Proved for automata and for post*; for pre* and the interleaved search with the proviso that the pre* rule lookup meets every rule, which is false in general (C24).
* C47: pre* and post* fixed-point saturation always end. If no weight can be improved again and again, or no weight of the result is bottom() and nothing undefined happened, the best path weight equals the best run weight for every configuration, for minimum and maximum. The post* part is complete; pre* needs the rule lookup to meet every rule (see C24). Found: with a negative cycle the second phase reads a missing transition, so the result is undefined.
* C63: Proved for all inputs whose weights cannot be improved again and again anywhere in the saturation, and for all whose saturated automaton has no weight bottom(). If only the runs between the two automata are bounded the code can read a missing transition (c63_pre_undefined). pre* moreover needs the rule lookup to meet every rule (see C24).
* C71: Proved for post* in both orders of the weights. For pre* and the interleaved search with the proviso that the pre* rule lookup meets every rule (the lookup defect is C24). Weights that can be improved again and again are excluded, because the saturation then reads missing transitions (C47).
* C72: Errors, labels and that the result is a legal input are proved in full. The language is proved for expressions that meet the condition of C49 on * and ?, and as the plain union only if no label is new; wildcards do not match labels that become known later (c72_order, c72_later_label).
* C73: Errors and the labels are proved in full. The report is proved for expressions that meet the condition of C49 (see c49), fewer labels than the epsilon value, and state numbers that fit into 64 bits when a trace is made; with weights the engines pre* and dual* also need the lookup condition of C24, without weights none of them does. Trace options shortest, longest and the fixed-point one are not part of this property.
* C74: Which documents are refused and which labels they add is proved for every document made of states and edges; what the automaton accepts is proved for documents whose new states are all named or all numbered. False beyond: mixing both mixes up states, which adds words or loses words (c74_mixed, c74_mixed_loses); short edges and a bare number are undefined behaviour (c74_undefined); automata without accepting states are printed but refused (c74_no_accepting); a label that is the empty string is read as epsilon (c74_empty_label). The entry initial is checked but has no effect (c74_initial_ignored). Edges into PDA states are not refused (c74_illegal).
* C75: Errors and labels are proved whatever states the documents use. The report is proved for documents whose new states are all named or all numbered (see C74), without empty labels and without edges into states of the PDA. The program accepts such edges but then answers wrongly: c75_illegal. As in C09, pre* and dual* need rules without the lookup defect; with a trace, the number of states must fit.
* C76: With trace type shortest the program may say no although there is a run (c76_answer_wrong, as in C58-C60); proved for the answer no is only that there is no run of weight zero or less. Preconditions as in C58-C63: no configuration both initial and final (post*: none with the empty stack), no final empty stack for pre* and dual*, rules without the lookup defect for pre* and dual*, weights that cannot be improved for ever while an engine saturates, numbers of states that fit.
* C77: Proved for all instances of four elements. Partial: a fifth element may replace the instance (c77_fifth), a vector type with a size is refused (c77_vector_size), a number may follow the type only if it is in two arrays (c77_nested), a number as type is undefined behaviour (c77_number), weights may be ignored (c77_scalar_ignored); the report, unlike errors and labels, needs automata that are pure and legal, see C74 and C75.
* C78: Proved for all instances that meet InstOK. Partial: a last numbered state without rules is lost (c78_last_state), pre* can answer differently with signed weights (c78_signed), and an automaton without accepting states is printed but refused (c78_no_accepting).
* C79: That every other text is an error is false: with a bar behind an expression and before none the builder pops an automaton that is not there (c79_bar); exactly such texts can be undefined (c79_undefined). The language is as in C49, for the uses of * and ? that the builder gets right. Texts are sequences of characters, that is valid UTF-8.
* C80: As C79 for a dangling bar (c80_bar), and as C72 and C73 for what is accepted and reported.
* C81: That anything but a numeral is an error holds without quotes (c81_state, c81_identifier) and fails in quotes: what follows the digits is ignored (c81_quoted, c81_quoted_wrong), and white space and a sign may stand before them (c81_blank, c81_sign, c81_minus_wrong). Texts with a dangling bar are as in C79; the report has the conditions of C72 and C73. Reading files from disk is not modelled.
* C82: Keys are written without escapes, so the theorems are about keys that need none; all keys of the program are such. With --silent and no engine nothing is written, which is not a JSON object (c82_nothing). One end_object too many makes the counter wrap around (c82_end_twice).
* C83: Partial: trace type 2 can say no although there is a run (c76_answer_wrong); expressions must be ok (C36) and numbers must fit; longest and signed least weights need runs that cannot be improved again and again (c83_fixed_signed_partial, c83_longest_partial), or runs without a best weight and a saturated automaton without a transition of weight bottom() (c83_unbounded_partial, c83_unbounded_longest_partial). Sums do not overflow.
* C84: Proved after post* (up to the weights of the returned rules, and with the paths exchanged when there are no rules) and after pre* (automata without a common configuration; the rules may be heavier than the weight). The code violates the rest, with machine-checked witnesses: rules with the weight of another rule, exchanged paths, heavier traces, and half a trace after dual search.
* C85: The program on files. Partial: if only some of the three files are given, they are ignored without an error (c85_ignored, c85_ignored_wrong); if a file cannot be opened for printing, what is on standard output is the beginning of a JSON object (c85_unclosed); the answers are right under the hypotheses of C81 and C83 on texts, of C75 and C76 on P-automata in JSON, and of C77 on instances, and a printed instance has the same answer under those of C78. Trace types shortest, longest and shortest by fixed point are not modelled for vectors as weights.
* C86: Proved for printers that tell states and labels apart, write no quote or backslash, and no comma or no blank, in particular for numbers and weights of all kinds; the printers of automaton_to_dot do not when a state of the PDA is called like a number (c86_names_wrong) or labels contain commas and blanks (c86_comma_wrong), and the node that marks an initial state may be the node of another state (c86_hidden_wrong).

## Disagreements between the properties and the code

Every line names a machine-checked witness.

* **Rule lookup (C24; affects C02, C07, C09-C11, C47).** `lower_bound(pda_rule_t{state})` starts from a key with
  operation PUSH, operand label 0 and weight 0. A PUSH rule with operand label 0 and a negative weight sorts before it,
  so pre* never sees it: `c24_lookup_misses`; `c24_lookup_exact` says exactly which rules are missed. Wrong results
  follow: `c02_pre_misses`, `c11_engines_differ`.
* **accepts and epsilon (C04, C19).** `accepts` reads epsilon transitions as a label. After post* the empty stack is
  therefore not accepted although it is reachable: `c04_post_misses_empty`, `c19_misses_epsilon`.
* **get_trace for a configuration that is not accepted (C12)** reads the front of an empty vector: `c12_get_trace_undefined`.
* **Weights in post* traces (C13).** The rule shown for a PUSH may be another rule with the same target and pushed
  label: `c13_weight_of_other_rule`.
* **NFA must be compiled (C16)** before it is made into a P-automaton: `c16_needs_compile`.
* **or_extend (C17)** is not the union for automata with transitions into control states: `c17_into_control`.
* **Negated edges (C18)** need strictly increasing labels; the assertion only asks for sorted ones: `c18_repeated_label`,
  `c18_unsorted_labels`.
* **add_rule (C23)** with an unsorted list of labels: `c23_unsorted_pre`.
* **question_extend and star_extend (C27, C49)** are wrong if a path leads back to an initial state: `c27_question_wrong`,
  `c27_star_wrong`, `c49_wrong`.
* **intersect_edge_labels (C29)** loses labels when three or more edges match: `c29_missing`. It may repeat labels, also in refinements: `c64_final_repeats`.
* **Floating point weights (C30)**: `bottom()` is `numeric_limits::min()`, a positive number: `c30_floating_bounds`. Addition is
  not associative at the marks: `c30_assoc_at_marks`.
* **Vector weights (C31)**: reads past the end (`c31_reads_past_end`, `c31_less_undefined`), missing components of unsigned
  vectors (`c31_unsigned_missing`), values above `max()` (`c31_above_max`).
* **Shortest post* (C32)** ignores the weights of the given transitions: `c32_input_weights_ignored`.
* **`accept_path<Shortest>` (C53)** may return a path that begins in a state other than the given one: the element queued
  for an epsilon transition has the back pointer of the current element, so the state before the epsilon transition is
  lost, and ties in the priority queue decide whether this path is returned: `c53_path_starts_elsewhere`. The weight is
  right. `get_trace<Shortest>` for a configuration (C61) then returns something that is not a run: `c61_trace_elsewhere`.
* **priority_set (C36)** can pop an element twice: `c36_pops_twice`.
* **Reducer (C40)** cuts off a terminal state that is neither state 0 nor the initial state and has no rule to itself
  (`c40_terminal_lost`, `c40_terminal_lost_witness`); aggressivity 2 and 4 lose runs below the initial stack (`c40_dual_loses`).
* **encode_labels (C44)**: the test for negated edges is inverted: `c44_negated_wrong`.
* **DFS factory (C45)** lists a state twice as accepting if `initial()` gives it twice: `c45_initial_twice`.
* **Fixed-point saturation (C47)** with a negative cycle: when the round limit is reached, the second phase reads the
  weight of a transition that does not exist: `c47_finalize_undefined`. This also happens to searches (C63) between whose
  automata there is no run at all: `c63_pre_undefined`.
* **PDA as JSON (C48)**: labels that occur in no rule are not printed, so wildcard rules lose moves (`c48_false_unused_label`);
  a label named `*` is read as the wildcard (`c48_false_star`); the greatest weight of a type (and the least, if signed) is
  printed but not accepted (`c48_false_max_weight`); an unknown property whose value has two or more members is an error, although
  unknown properties are meant to be allowed (`c48_false_unknown_property`).
* **P-automata as JSON (C74)**: an automaton without accepting states is printed without the entry `accepting`, and then
  refused (`c74_no_accepting`); new states with names and new states with numbers get mixed up, which adds words or loses words (`c74_mixed`, `c74_mixed_loses`); an edge with less
  than three elements, and a document that is a number, are undefined behaviour (`c74_undefined`); a label that is the empty
  string is read back as epsilon (`c74_empty_label`); the entry `initial` is checked but has no effect (`c74_initial_ignored`);
  edges into states of the PDA are not refused (`c74_illegal`), and with them post* reports runs that do not exist (`c75_illegal`).
* **Solver instances as JSON (C77)**: a fifth element that is an array of four is accepted and replaces the instance (`c77_fifth`);
  the type `["uint", n]` is always refused, since the index is advanced twice (`c77_vector_size`), while
  `[["uint"], n]` is accepted (`c77_nested`); a number as first element is
  undefined behaviour (`c77_number`); a number as weight is ignored where vectors are expected (`c77_scalar_ignored`).
* **Printed instances (C78)**: a last numbered state without rules is not there when the text is read, so the answer changes
  (`c78_last_state`); with negative weights `pre*` may find a run in the instance and not in its text, since the defect of C09
  depends on the number of a label (`c78_signed`); an automaton without accepting states is printed and then refused (`c78_no_accepting`).
* **Shortest pre* (C57).** Without early termination, the default, every transition is taken to weigh zero, so new transitions
  of positive weight are discarded as out of date (`c57_no_early_termination`). A control state that accepts and has no
  transitions makes an assertion fail and, without assertions, loses runs (`c57_accepting_control_state`). `_popped` is read
  out of range (`c57_popped_out_of_range`).
* **Searches with `Trace_Type::Shortest` (C58-C60)** answer no although a run exists, because nobody asks again after the
  queue has run empty: `c58_post_answer_wrong`, `c59_pre_answer_wrong`, `c60_dual_answer_wrong`. If the automata have a
  configuration in common, pre* and dual search report a path without edges and an uninitialized weight:
  `c59_pre_weight_junk`, `c60_dual_weight_junk`; post* does so for a common configuration with the empty stack:
  `c58_post_empty_stack`. Shortest pre* keeps the trace of the first derivation when it finds a lighter one, so the trace
  may be heavier than the reported weight: `c59_pre_trace_heavier`.
* **Traces after pre* and dual search with `Trace_Type::Shortest` (C68).** If the automata have a configuration in common,
  the trace returned is a state of the automaton with the empty stack: `c68_pre_trace_wrong`, `c68_dual_trace_wrong`. After
  dual search, too, the trace may be heavier than the weight: `c68_dual_trace_heavier`. Without a run,
  `get_trace_dual_search<Shortest>` returns the weight zero, where `get_trace<Shortest>` returns `max()`:
  `c68_dual_no_path_weight`.
* **Texts of expressions (C79, C80).** PEGTL runs the action of a rule as soon as the rule matches and does not undo it. The list of
  alternatives is a `list` and not a `list_must`, so in `[a]|` the bar is recorded, the list then ends before it, and the builder combines
  the top automaton with one that is not there before the syntax error is noticed: `c79_bar`, `c80_bar`.
* **Rules after searches with `Trace_Type::Shortest` (C84).** After post* a PUSH rule may be returned with the weight of another
  rule, so that the weights do not sum up to the weight that is returned (`c84_post_rule_weights`); without rules the two
  paths are exchanged (`c84_post_paths_swapped`). After pre* the rules may be heavier (`c84_pre_heavier`), and wrong if the
  automata have a configuration in common (`c84_pre_wrong`). After dual search the half found by pre* is missing, since
  `use_dual` is not looked at (`c84_dual_half`).
* **The command-line program (C85).** If one of `--pda`, `--initial` and `--final` is missing, the others are ignored without a
  message and an instance is read from standard input (`c85_ignored_wrong`). If the file of `--print-pda-json` or
  `--print-solver-instance` cannot be opened, the program calls `exit(-1)` while the JSON stream is open, so standard output holds the
  beginning of an object without its end (`c85_unclosed`).
* **State numbers in quotes (C81)** are converted by `std::stoul`, which ignores what follows the digits: `"1 or 2"` is state 1
  (`c81_quoted_wrong`), and accepts white space and a sign before them, where a minus sign counts down from 2^64:
  `"-18446744073709551615"` is state 1 (`c81_minus_wrong`).
* **Output (C82)**: with `--silent` and no engine the output is empty and not a JSON object (`c82_nothing`); a trace without
  configurations is `null` and not `[]`.
* **linear_weight_function (C50)** accumulates in `int`: `c50_linear_truncates`.
* **Copy assignment of an NFA (C52)** appends to the states already there: `c52_assign_appends`.
* **Rule traces (C56).** If an initial configuration is already final, the trace is empty. After post* the function then
  takes the branch for pre* and swaps the two paths (`c56_post_paths_swapped`, and `c56_post_empty_trace` for all inputs);
  after dual search it reads `trace[0]` of the empty trace (`c56_dual_empty_trace`). After dual search with answer no, the
  null path is wrapped into an `optional` that has a value, so the tuple for "no trace" is never returned
  (`c56_dual_no_answer`).
* **cegar_solve (C66)** may return `std::nullopt` for a problem with a solution if the NFAs have negated edges, a consequence
  of C44: `c66_negated_wrong`.
* **cegar_solve (C67)** with post* may return a trace for a problem without a solution: if an abstract initial
  configuration is already final, the two paths are swapped (see C56) and the headers are checked against the wrong
  automata: `c67_post_swapped_wrong`. With dual search the same input has undefined behaviour.
* **cegar_solve (C69)** need not terminate with negated edges, again because of C44: the abstract automaton reads a class
  all of whose labels the negated edge excludes, the refinement then has an empty part, and the only effect of the
  iteration is one more empty class: `c69_negated_no_progress` (in a build without assertions; with them the program aborts).
* **The program with trace type shortest (C76)** says no although there is a run, a consequence of C58: `c76_answer_wrong`.
* **Labels that come later (C72).** `.` and `[^..]` in a P-automaton expression stand for the labels known when their atom has been
  read. A label that is first mentioned further to the right, or in the next expression, is not among them: `<0, .> | <1, [b]>` does not
  contain `(0, b)`, `<1, [b]> | <0, .>` does (`c72_order`), and initial configurations `<0, .>` do not contain `(0, b)` if `b` first
  occurs in the final ones (`c72_later_label`). An unknown state in quotes is ignored, without quotes it is an error (`c72_errors`).
* **GraphViz output and names (C86).** `automaton_to_dot` writes names for the states of the PDA and numbers for the others, so a
  state called `2` and the state 2 are one node (`c86_names_wrong`). Names are not escaped: the labels `a` and `b` together
  look like one label `a, b` (`c86_comma_wrong`). With states called `0` and `I0` the node of the second is the one that marks the
  first as initial, and is invisible (`c86_hidden_wrong`).

Seen while reading, not machine-checked:

* test/ParsingPDAFactory.h: `initial_concrete_rules` takes all concrete states of the abstract state, initial or not, and
  `get_concrete_trace` the first of them, so with abstracted states a trace may start in a state that is not initial.
* `pre_star_accepts_no_ET` (Solver.h:251) cannot be instantiated.
* The base `set` of `fut_set` has an `insert_or_assign` that would not compile.
* `trace_t::operator==` (internal/PAutomaton.h:94) uses `l._label && r._label`.
* main.cpp catches no exceptions, so after an error the standard output may hold the beginning of a JSON object (`c82_open`).
* A round limit given to a fixed-point saturation is overwritten by `initialize()`.
* For unsigned minimising weights `bottom()` is 0, so `is_infinite()` is true for a result of weight 0 (C46).

## Code that is not modelled

* CEGAR: weights other than `weight<void>` in `cegar_solve` (reconstruct_trace does not support them), and the test client `ParsingCegarPda`.
* Texts that are not valid UTF-8, and the position in messages of the PEGTL parsers (the grammars and PEGTL's combinators are modelled
  on characters, C79 and C80); nlohmann's JSON library, which turns text into events (C48, C74) and events into text
  (C85); of the command-line program `pdaaal`, boost's parsing of the command line, the messages on standard error, and the trace types
  shortest, longest and shortest by fixed point with vectors as weights (C73, C75-C77, C81-C83, C85).
* `Stopwatch`, the hash functions in `absl_hash.h`.

## Testing the theorems

`seeded/LOG.jsonl` records edits of the model in a scratch copy. An edit counts as caught if some proof no longer builds;
`theorems_failed` lists the property theorems that depend on a broken proof. Since a broken proof does not always mean
a false statement, a few edits marked as equivalent are listed too: there the proof breaks although the claim stays true.
Edits that no proof noticed carry a note that says why, or which theorem was tightened. One of them is still not noticed and
does change the meaning: letting signed sums of 32 to 63 bits wrap around in `NumT.sint` breaks no theorem, since the theorems
on signed weights assume sums in range.

## Axioms used by each theorem

From `#print axioms`; all names are in `Verif.Props`.

* no axioms: `c18_repeated_label`, `c18_unsorted_labels`, `c27_no_incoming`, `c30_assoc_at_marks`, `c31_above_max`, `c31_reads_past_end`, `c38_width`, `c48_weights_void`, `c50_linear_truncates`
* propext: `c17_into_control`, `c19_misses_epsilon`, `c30_floating_bounds`, `c33_pop_emplace`, `c83_option`
* Quot.sound, propext: `c11_engines_differ`, `c12_get_trace_undefined`, `c13_weight_of_other_rule`, `c19_accept_path`, `c21_automata`, `c22_contains`, `c22_noop_pre_filter`, `c23_typed_empty`, `c23_unsorted_pre`, `c26_of_bool`, `c26_of_set`, `c29_missing`, `c32_input_weights_ignored`, `c32_throws`, `c33_emplace_pop`, `c33_remove_epsilon`, `c33_skip_epsilon`, `c33_split`, `c36_pops_twice`, `c37_is_disjoint`, `c38_fill_eq`, `c39_injective`, `c39_prefix_free`, `c39_round_trip`, `c39_size`, `c40_zero`, `c41_simple_pair_refinement`, `c44_negated_wrong`, `c45_initial_twice`, `c48_false_unknown_property`, `c48_weights_vector`, `c49_empty`, `c49_wrong`, `c50_linear_unsigned`, `c52_assign_appends`, `c52_copy`, `c53_negative_weight`, `c53_path_starts_elsewhere`, `c53_shortest_no_epsilon`, `c53_shortest_partial`, `c53_terminates`, `c56_dual_empty_trace`, `c56_post_paths_swapped`, `c57_accepting_control_state`, `c57_no_early_termination`, `c57_popped_out_of_range`, `c58_post_answer_wrong`, `c58_post_empty_stack`, `c59_pre_answer_wrong`, `c59_pre_trace_heavier`, `c59_pre_weight_junk`, `c60_dual_answer_wrong`, `c60_dual_weight_junk`, `c61_trace_elsewhere`, `c64_final_repeats`, `c64_initial`, `c68_dual_trace_heavier`, `c68_dual_trace_wrong`, `c68_pre_trace_wrong`, `c69_negated_no_progress`, `c74_empty_label`, `c74_illegal`, `c74_initial_ignored`, `c74_mixed_loses`, `c74_undefined`, `c84_dual_half`, `c84_post_paths_swapped`, `c84_post_rule_weights`, `c84_pre_heavier`, `c84_pre_wrong`
* Classical.choice, Quot.sound, propext: `c01_pre_sound`, `c02_pre_complete_partial`, `c02_pre_exact_partial`, `c02_pre_exact_unweighted`, `c02_pre_misses`, `c03_post_sound`, `c03_post_sound_eps`, `c04_post_complete`, `c04_post_complete_eps`, `c04_post_exact`, `c04_post_exact_eps`, `c04_post_misses_empty`, `c05_pre_terminates`, `c05_pre_workset_empty`, `c06_post_states`, `c06_post_terminates`, `c07_pre_star_accepts_partial`, `c07_pre_star_accepts_unweighted`, `c08_post_star_accepts`, `c08_post_star_accepts_no_et`, `c09_pre_star_accepts_partial`, `c09_pre_star_sound`, `c10_dual_search_accepts_partial`, `c10_dual_search_sound`, `c11_engines_agree_partial`, `c11_engines_unweighted`, `c11_nfa_instance_partial`, `c12_pre_get_trace`, `c12_pre_trace_configs`, `c12_pre_trace_rules`, `c13_post_get_trace`, `c13_post_trace_configs`, `c13_post_trace_rules`, `c13_post_trace_rules_unweighted`, `c14_post_terminates`, `c14_pre_terminates`, `c15_single`, `c15_single_ok`, `c16_from_nfa`, `c16_from_nfa_ok`, `c16_needs_compile`, `c17_or_extend`, `c17_or_extend_ok`, `c17_or_extend_paut`, `c18_add_edges`, `c18_add_edges_from`, `c18_add_edges_states`, `c19_accepts`, `c19_no_epsilon`, `c20_find_path`, `c21_incremental`, `c21_incremental_language`, `c21_init`, `c21_language`, `c21_of_nfas`, `c22_empty`, `c22_intersect`, `c22_merge`, `c23_add_rule`, `c23_add_wildcard_rule`, `c23_hash_container`, `c23_moves`, `c23_reverse_index`, `c23_rules`, `c23_typed_add_rule`, `c23_typed_add_wildcard_rule`, `c24_lookup_exact`, `c24_lookup_misses`, `c24_lookup_partial`, `c24_lookup_unsigned`, `c24_lookup_unweighted`, `c25_clear_state`, `c25_clear_state_wf`, `c26_concat`, `c26_or`, `c26_plus`, `c27_question_partial`, `c27_question_wrong`, `c27_star_partial`, `c27_star_wrong`, `c28_compile_lang`, `c28_empty_accept`, `c28_follow_epsilon`, `c28_run`, `c29_exact_partial`, `c29_has_as_successor`, `c29_leads_to`, `c29_sound`, `c30_add_assoc`, `c30_add_comm`, `c30_add_mono`, `c30_add_strict`, `c30_add_value`, `c30_add_zero_max`, `c30_array_add`, `c30_array_less`, `c30_array_model`, `c30_bounds`, `c30_maximise_model`, `c30_signed_model`, `c30_strict_total`, `c30_unsigned_model`, `c31_add`, `c31_firstLess_weak_order`, `c31_less_partial`, `c31_less_undefined`, `c31_unsigned_missing`, `c32_complete`, `c32_minimum`, `c32_minimum_literal`, `c32_sound`, `c32_terminates`, `c32_throws_build`, `c33_round_trip`, `c34_vector_map`, `c34_vector_set`, `c35_fut_set`, `c36_priority_set_partial`, `c38_flag_mask`, `c38_is_single`, `c40_counts`, `c40_dual_loses`, `c40_dual_partial`, `c40_only_removes`, `c40_reachability_partial`, `c40_runs_partial`, `c40_terminal_lost`, `c40_terminal_lost_witness`, `c40_terminates`, `c41_pair_refinement`, `c42_combine`, `c42_header`, `c42_of_pair`, `c43_abstraction_mapping`, `c43_header_refined`, `c43_pair_refined`, `c43_refine_separates`, `c43_refine_splits`, `c44_negated_exact`, `c44_positive_partial`, `c45_reachable_part`, `c45_terminates`, `c46_infinite`, `c46_minimum`, `c46_path`, `c46_scalar_weights`, `c46_terminates`, `c47_finalize_undefined`, `c47_post_bounded`, `c47_post_bounded_longest`, `c47_post_complete`, `c47_post_maximum`, `c47_post_minimum`, `c47_post_minimum_literal`, `c47_post_observed`, `c47_post_observed_longest`, `c47_post_sound`, `c47_post_terminates`, `c47_pre_bounded_longest_partial`, `c47_pre_bounded_partial`, `c47_pre_complete`, `c47_pre_maximum_partial`, `c47_pre_minimum_partial`, `c47_pre_observed_longest_partial`, `c47_pre_observed_partial`, `c47_pre_sound`, `c47_pre_terminates`, `c48_false_max_weight`, `c48_false_star`, `c48_false_unused_label`, `c48_named_all_labels`, `c48_named_partial`, `c48_numbered_all_labels`, `c48_numbered_no_wildcard`, `c48_numbered_partial`, `c48_weights_int`, `c49_regex_partial`, `c50_linear_partial`, `c50_ordered_partial`, `c51_post_range`, `c51_post_stable`, `c51_pre_range`, `c51_pre_stable`, `c53_after_post_star`, `c54_shortest`, `c54_terminates`, `c55_dual_trace`, `c55_post_trace`, `c55_post_trace_no_et`, `c55_pre_trace`, `c56_dual_no_answer`, `c56_dual_rule_trace_partial`, `c56_post_empty_trace`, `c56_post_rule_trace_partial`, `c56_pre_rule_trace`, `c57_complete`, `c57_input_yes`, `c57_minimum_partial`, `c57_one_symbol`, `c57_sound`, `c57_terminates`, `c57_yes_right`, `c58_minimum_partial`, `c58_terminates`, `c59_common`, `c59_minimum_partial`, `c59_terminates`, `c60_common`, `c60_minimum_partial`, `c60_terminates`, `c61_get_trace_no_pop`, `c61_get_trace_partial`, `c61_path_trace`, `c62_find_path_partial`, `c62_get_trace_partial`, `c63_interleaving_bounded_partial`, `c63_interleaving_observed_partial`, `c63_interleaving_partial`, `c63_post`, `c63_post_bounded`, `c63_post_longest`, `c63_post_observed`, `c63_pre_bounded_partial`, `c63_pre_observed_partial`, `c63_pre_partial`, `c63_pre_undefined`, `c64_final_class`, `c64_final_found`, `c64_final_nonempty`, `c64_final_separates_partial`, `c64_final_split_partial`, `c64_final_spurious`, `c64_initial_word`, `c64_pre_labels_partial`, `c64_pre_labels_sound`, `c64_update`, `c64_update_wildcard`, `c65_labels`, `c65_labels_separate`, `c65_stuck`, `c65_terminates`, `c65_trace`, `c66_negated_wrong`, `c66_no_partial`, `c66_round_no_partial`, `c67_post_swapped_wrong`, `c67_round_yes_partial`, `c67_solvable`, `c67_yes_partial`, `c68_dual_no_path_weight`, `c68_dual_trace_partial`, `c68_pre_trace_partial`, `c69_list_decides`, `c69_list_decides_pre`, `c69_round_partial`, `c69_terminates_partial`, `c70_accepting`, `c70_infinite`, `c70_interleaving_partial`, `c70_path`, `c70_post`, `c70_pre_partial`, `c71_interleaving_partial`, `c71_post`, `c71_post_longest`, `c71_pre_partial`, `c72_errors`, `c72_known_partial`, `c72_labels`, `c72_language_partial`, `c72_later_label`, `c72_legal`, `c72_order`, `c73_errors`, `c73_labels`, `c73_report_partial`, `c73_report_unweighted_partial`, `c74_accepts_partial`, `c74_document_partial`, `c74_errors_partial`, `c74_labels_partial`, `c74_legal_partial`, `c74_mixed`, `c74_no_accepting`, `c74_round_trip_partial`, `c75_errors_partial`, `c75_illegal`, `c75_labels_partial`, `c75_report_partial`, `c76_answer_wrong`, `c76_errors`, `c76_fixed_docs_partial`, `c76_fixed_engines`, `c76_fixed_partial`, `c76_longest_partial`, `c76_negative`, `c76_negative_docs`, `c76_shortest_docs_partial`, `c76_shortest_engines`, `c76_shortest_partial`, `c76_unbounded_docs_partial`, `c76_unbounded_partial`, `c77_elements`, `c77_errors_partial`, `c77_fifth`, `c77_labels_partial`, `c77_nested`, `c77_number`, `c77_refused`, `c77_report_partial`, `c77_scalar_ignored`, `c77_type`, `c77_vector_size`, `c77_weights`, `c77_wellformed`, `c78_answer_partial`, `c78_last_state`, `c78_no_accepting`, `c78_signed`, `c79_bar`, `c79_error_partial`, `c79_language_partial`, `c79_only`, `c79_space`, `c79_text`, `c79_undefined`, `c79_unique`, `c80_bar`, `c80_error_partial`, `c80_language_partial`, `c80_only`, `c80_report_partial`, `c80_run`, `c80_run_error_partial`, `c80_text`, `c80_undefined`, `c80_unique`, `c81_blank`, `c81_errors`, `c81_identifier`, `c81_minus_wrong`, `c81_options`, `c81_quoted`, `c81_quoted_wrong`, `c81_refused`, `c81_report_partial`, `c81_run`, `c81_sign`, `c81_state`, `c81_syntax_partial`, `c82_end_twice`, `c82_nothing`, `c82_open`, `c82_output`, `c82_prefix`, `c82_stream`, `c83_fixed_partial`, `c83_fixed_signed_partial`, `c83_longest_partial`, `c83_refused`, `c83_run`, `c83_run_docs`, `c83_shortest_partial`, `c83_states`, `c83_syntax_partial`, `c83_unbounded_longest_partial`, `c83_unbounded_partial`, `c83_unweighted`, `c84_post_partial`, `c84_pre_partial`, `c85_again_partial`, `c85_answer_partial`, `c85_document_malformed`, `c85_document_partial`, `c85_document_refused_partial`, `c85_engine`, `c85_fixed`, `c85_greatest_partial`, `c85_ignored`, `c85_ignored_wrong`, `c85_input`, `c85_json_malformed`, `c85_json_partial`, `c85_json_refused_partial`, `c85_least_partial`, `c85_longest`, `c85_missing`, `c85_missing_final`, `c85_negative`, `c85_others`, `c85_output`, `c85_pda_partial`, `c85_plain`, `c85_printed`, `c85_priority_partial`, `c85_refused`, `c85_separate`, `c85_shortest`, `c85_signed_partial`, `c85_states`, `c85_syntax_partial`, `c85_unbounded_partial`, `c85_unclosed`, `c85_unweighted`, `c86_comma_wrong`, `c86_default`, `c86_graph`, `c86_hidden_wrong`, `c86_labels`, `c86_named_partial`, `c86_names_wrong`, `c86_nfa_graph`, `c86_nfa_label`, `c86_nfa_read`, `c86_read`, `c86_star`, `c86_weights`
