{"id": "C01", "title": "Successor enumeration is exact", "statement": "For every net built from places, transitions, weighted arcs and inhibitor arcs and for every marking, iterating the successor generator from that marking returns exactly the enabled transitions, each exactly once, paired with the marking obtained by firing it; when the iteration says 'no more', none is left.", "quantifier": "every net accepted by the builder, every marking, every enabled set", "why_tests_cant": "The set of nets and markings is infinite; the bucket-per-place layout only misbehaves for particular arc/inhibitor/orphan combinations.", "anchors": ["src/PetriEngine/SuccessorGenerator.cpp: SuccessorGenerator::_next, checkPreset, _fire", "src/PetriEngine/PetriNetBuilder.cpp: makePetriNet"]}
{"id": "C02", "title": "Deadlock test is exact", "statement": "The deadlock proposition is true in a marking exactly when no transition of the net is enabled there.", "quantifier": "every net and every marking", "why_tests_cant": "Needs all markings, including those where only orphan or inhibitor-only transitions are enabled.", "anchors": ["src/PetriEngine/PetriNet.cpp: PetriNet::deadlocked", "src/PetriEngine/PQL/Evaluation.cpp: DeadlockCondition"]}
{"id": "C03", "title": "Net construction preserves the net", "statement": "Compiling the builder's places, transitions and arcs into the internal array layout (with or without place reordering, dropping removed places/transitions) yields a net with the same transitions, the same input, inhibitor and output weights and the same initial marking, up to a renumbering of places and transitions, and every transition is reachable from the place index the enumerator uses.", "quantifier": "every builder content, both reorder settings, any pattern of removed nodes", "why_tests_cant": "Reordering and grouping depend on global arc counts; no finite set of nets covers the interactions.", "anchors": ["src/PetriEngine/PetriNetBuilder.cpp: makePetriNet, nextPlaceId", "src/PetriEngine/PetriNet.cpp: PetriNet::sort"]}
{"id": "C04", "title": "Token counts never wrap silently when firing", "statement": "Firing an enabled transition either yields the exact arithmetic result (old tokens minus consumed plus produced) in every place or aborts with an error; no place ever silently wraps around the 32-bit range.", "quantifier": "every marking of 32-bit counters and every enabled transition", "why_tests_cant": "Overflow needs astronomically large markings that tests do not reach.", "anchors": ["src/PetriEngine/SuccessorGenerator.cpp: consumePreset, producePostset"]}
{"id": "C05", "title": "Marking compression round-trips", "statement": "Decoding a compressed marking returns exactly the marking that was compressed, whichever of the compression formats was selected for it.", "quantifier": "every number of places and every 32-bit marking", "why_tests_cant": "There are eleven formats with thresholds on density, value size and place count; the space of markings is unbounded in dimension.", "anchors": ["src/PetriEngine/Structures/AlignedEncoder.cpp: encode, decode, getType"]}
{"id": "C06", "title": "Compressed markings identify markings and stay in their buffer", "statement": "Two different markings never compress to the same byte string, the length derivable from the byte string itself equals the number of bytes written, and compression never writes outside the scratch buffer it allocates.", "quantifier": "every number of places and every pair of 32-bit markings", "why_tests_cant": "A collision or an overflow is a needle in an infinite haystack.", "anchors": ["src/PetriEngine/Structures/AlignedEncoder.cpp: encode, size, scratchpad", "src/utils/structures/binarywrapper.cpp"]}
{"id": "C07", "title": "The visited set behaves as a set of markings", "statement": "Adding a marking reports 'new' exactly when that marking was not added before (and is within the token bound, when one is set); the identifier returned decodes back to that marking for ever after; a marking over the bound is never stored.", "quantifier": "every sequence of additions and lookups, every token bound", "why_tests_cant": "It is a statement about every history of operations.", "anchors": ["include/PetriEngine/Structures/StateSet.h: _add, _lookup, _decode, markingStats"]}
{"id": "C08", "title": "Search queues lose and duplicate nothing", "statement": "For each search strategy (BFS, DFS, random DFS, heuristic, random potency) the identifiers handed out are, as a multiset, exactly those handed in and not yet handed out, and 'empty' is reported exactly when nothing is left.", "quantifier": "every strategy, every interleaving of pushes and pops, every random shuffle", "why_tests_cant": "Quantifies over all operation sequences and all random outcomes.", "anchors": ["src/PetriEngine/Structures/Queue.cpp", "include/PetriEngine/Structures/Queue.h", "src/PetriEngine/Structures/PotencyQueue.cpp"]}
{"id": "C09", "title": "Reachability answers 'satisfied' only when a witness exists", "statement": "If the explicit search reports that a query's goal is reachable, then some marking reachable from the initial marking satisfies the goal.", "quantifier": "every net, goal, strategy, number of simultaneously checked queries and random choice", "why_tests_cant": "Soundness over all nets and all exploration orders.", "anchors": ["include/PetriEngine/Reachability/ReachabilitySearch.h: tryReach", "src/PetriEngine/Reachability/ReachabilitySearch.cpp: checkQueries"]}
{"id": "C10", "title": "Reachability answers 'not satisfied' only when no witness exists", "statement": "If the explicit search terminates by exhausting its queue and reports a goal as unreachable, then no marking that is reachable (through markings within the token bound, when one is set) satisfies the goal; and on every net with finitely many reachable markings the search does terminate.", "quantifier": "every net, goal, strategy, bound and random choice", "why_tests_cant": "Completeness is a universal statement over the whole (unbounded) state space.", "anchors": ["include/PetriEngine/Reachability/ReachabilitySearch.h: tryReach"]}
{"id": "C11", "title": "The answer does not depend on the strategy or on the other queries", "statement": "Two runs of the explicit search on the same net that both finish give the same answer for the same query, whatever strategies, heuristics, random seeds and companion queries they used.", "quantifier": "every net, pair of strategies, pair of companion query sets", "why_tests_cant": "Two unbounded families of executions are compared.", "anchors": ["include/PetriEngine/Reachability/ReachabilitySearch.h: tryReach", "src/PetriEngine/Reachability/ReachabilitySearch.cpp: checkQueries"]}
{"id": "C12", "title": "Reported traces are real executions", "statement": "The transition sequence printed as a trace is fireable from the initial marking in the order printed and ends in a marking that satisfies the query's goal.", "quantifier": "every net, query, strategy and run that reports a goal as reached with tracing on", "why_tests_cant": "History pointers are written while the search interleaves; correctness must hold for every interleaving.", "anchors": ["include/PetriEngine/Structures/StateSet.h: TracableStateSet", "src/PetriEngine/Reachability/ResultPrinter.cpp: printTrace"]}
{"id": "C13", "title": "Final verdicts have the right polarity", "statement": "For a query of the form EF phi, AG phi or a negation tower over these, the verdict printed (satisfied / not satisfied) equals the truth of the query in the net, given a correct answer to the underlying goal search.", "quantifier": "every query accepted as a reachability query", "why_tests_cant": "Arbitrarily nested negations and the invariant flag interact through three separate components.", "anchors": ["src/PetriEngine/PQL/PrepareForReachability.cpp", "src/PetriEngine/Reachability/ResultPrinter.cpp: handle", "src/PetriEngine/PQL/PredicateCheckers.cpp: isReachability"]}
{"id": "C14", "title": "Random-walk search never invents a witness", "statement": "If the random-walk strategy reports a goal as reached then a reachable marking satisfies it, and its trace is fireable.", "quantifier": "every net, query and every outcome of the random choices", "why_tests_cant": "Quantifies over all random choices.", "anchors": ["include/PetriEngine/Reachability/ReachabilitySearch.h: tryReachRandomWalk", "include/PetriEngine/Structures/StateSet.h: RandomWalkStateSet"]}
{"id": "C15", "title": "State predicates evaluate to their meaning", "statement": "Evaluating a state predicate (comparisons of integer expressions over token counts, boolean connectives, interval conjunctions, deadlock) in a marking returns true exactly when the predicate holds there and false exactly when it does not.", "quantifier": "every predicate, every net and every marking", "why_tests_cant": "Predicates are arbitrarily nested.", "anchors": ["src/PetriEngine/PQL/Evaluation.cpp: EvaluateVisitor, ExprEvalVisitor"]}
{"id": "C16", "title": "Early evaluation of temporal queries is sound", "statement": "When evaluating a temporal (CTL) query directly on a marking yields a definite answer, that answer is the truth of the query in that marking.", "quantifier": "every CTL query, net and marking", "why_tests_cant": "Needs all nestings of temporal operators and all nets.", "anchors": ["src/PetriEngine/PQL/Evaluation.cpp: EvaluateVisitor", "src/PetriEngine/PQL/PushNegation.cpp: initialMarkingRW"]}
{"id": "C17", "title": "CTL query rewriting preserves the query's truth", "statement": "Rewriting a CTL query by pushing negations and applying the temporal simplification rules (EF EF, AF EF, until/deadlock rules, distribution over disjunction ...) gives a query that is true in exactly the same markings of every net, deadlocking paths included.", "quantifier": "every CTL query, net and marking", "why_tests_cant": "The rule set is applied recursively to arbitrary formulas; each rule must be right on every net, including on deadlocks.", "anchors": ["src/PetriEngine/PQL/PushNegation.cpp: PushNegationVisitor"]}
{"id": "C18", "title": "LTL query rewriting preserves the query's truth", "statement": "Rewriting an LTL query (F F, F U, U F, distribution, negation pushing) gives a query satisfied by exactly the same executions.", "quantifier": "every LTL formula and every infinite execution", "why_tests_cant": "Infinite executions cannot be enumerated.", "anchors": ["src/PetriEngine/PQL/PushNegation.cpp: FCondition, UntilCondition, GCondition, XCondition"]}
{"id": "C19", "title": "Merging comparisons into interval constraints preserves meaning", "statement": "Collapsing conjunctions and disjunctions of token-count comparisons into interval-conjunction objects yields a predicate true in exactly the same markings.", "quantifier": "every list of comparisons and every 32-bit marking", "why_tests_cant": "Boundary constants (0, negative, 2^32-1) and negation interact; exhaustive testing is impossible.", "anchors": ["src/PetriEngine/PQL/Expressions.cpp: CompareConjunction::merge, tryMerge, makeLog", "include/PetriEngine/PQL/Expressions.h: cons_t"]}
{"id": "C20", "title": "Shorthand queries mean what they say", "statement": "Fireability, k-safety, quasi-liveness, liveness and stable-marking queries are expanded to formulas that hold exactly when, respectively, the transition is enabled, every reachable marking has at most k tokens per place, every transition is fireable somewhere, every transition is fireable again from everywhere, some place never changes.", "quantifier": "every net and every marking", "why_tests_cant": "Global properties of unbounded state spaces.", "anchors": ["src/PetriEngine/PQL/Analyze.cpp"]}
{"id": "C21", "title": "Binary query files round-trip", "statement": "Writing a query in the binary format and reading it back yields a query with the same meaning.", "quantifier": "every query over a net's places and transitions", "why_tests_cant": "Formulas are unbounded trees.", "anchors": ["src/PetriEngine/PQL/BinaryPrinter.cpp", "src/PetriParse/QueryBinaryParser.cpp"]}
{"id": "C22", "title": "Query simplification preserves the query's truth at the initial marking", "statement": "Replacing a query by its simplified form (using the state equation and linear programming) does not change its truth in the initial marking, provided the LP solver reports infeasibility only for infeasible systems.", "quantifier": "every net, query, timeout pattern and sound LP oracle", "why_tests_cant": "Covers every formula and every point at which a timeout may strike.", "anchors": ["src/PetriEngine/PQL/Simplifier.cpp"]}
{"id": "C23", "title": "Linear abstractions of expressions are sound", "statement": "The linear form computed for an integer expression over token counts gives, for every reachable marking, the value of the expression as a function of how often each transition fired; and the trivial-comparison verdicts derived from it are correct in every reachable marking.", "quantifier": "every expression, net and firing sequence", "why_tests_cant": "Quantifies over all firing sequences.", "anchors": ["src/PetriEngine/Simplification/Member.h", "src/PetriEngine/PQL/Simplifier.cpp: ConstraintVisitor"]}
{"id": "C24", "title": "Partial-order reduction preserves reachability", "statement": "For every net (with inhibitor arcs), reachability goal and marking: exploring only the reduced (stubborn) set of transitions in each marking reaches a goal marking if and only if the full exploration does.", "quantifier": "every net, goal predicate and marking", "why_tests_cant": "Reduction errors show only on particular conflict/concurrency patterns; the claim ranges over all nets.", "anchors": ["include/PetriEngine/Stubborn/StubbornSet.h: closure", "src/PetriEngine/Stubborn/InterestingTransitionVisitor.cpp", "src/PetriEngine/Stubborn/ReachabilityStubbornSet.cpp"]}
{"id": "C25", "title": "Partial-order reduction preserves deadlocks", "statement": "A deadlock is reachable in the reduced exploration exactly when one is reachable in the full one, when the goal mentions deadlock.", "quantifier": "every net and marking", "why_tests_cant": "As for C24.", "anchors": ["src/PetriEngine/Stubborn/InterestingTransitionVisitor.cpp: DeadlockCondition", "src/PetriEngine/Stubborn/StubbornSet.cpp: postPresetOf, leastDependentEnabled"]}
{"id": "C26", "title": "The CTL dependency graph encodes CTL", "statement": "The least (stratified) solution of the dependency graph generated on the fly for a CTL query assigns 'true' to a (marking, subformula) node exactly when the marking satisfies the subformula.", "quantifier": "every net, CTL formula and marking", "why_tests_cant": "The graph is generated from an unbounded state space.", "anchors": ["src/CTL/PetriNets/OnTheFlyDG.cpp: successors"]}
{"id": "C27", "title": "The certain-zero algorithm computes the right answer", "statement": "Whenever the certain-zero fixed-point algorithm terminates, in whatever order the search strategy delivers edges, the value it returns for the root is the root's value in the least stratified solution.", "quantifier": "every dependency graph and every edge order", "why_tests_cant": "Quantifies over all scheduling orders of the work list.", "anchors": ["src/CTL/Algorithm/CertainZeroFPA.cpp"]}
{"id": "C28", "title": "The local algorithm computes the right answer", "statement": "As for the certain-zero algorithm, for the local fixed-point algorithm.", "quantifier": "every dependency graph and every edge order", "why_tests_cant": "Quantifies over all scheduling orders of the work list.", "anchors": ["src/CTL/Algorithm/LocalFPA.cpp"]}
{"id": "C29", "title": "LTL nested depth-first search is exact", "statement": "The nested depth-first search reports a counterexample exactly when the product graph has a reachable accepting cycle, and the cycle it reports exists.", "quantifier": "every finite graph with accepting states and every successor order", "why_tests_cant": "All graphs and all orders.", "anchors": ["src/LTL/Algorithm/NestedDepthFirstSearch.cpp"]}
{"id": "C30", "title": "LTL Tarjan-based search is exact", "statement": "The strongly-connected-component search reports a counterexample exactly when the product graph has a reachable accepting cycle.", "quantifier": "every finite graph with accepting states and every successor order", "why_tests_cant": "All graphs and all orders.", "anchors": ["src/LTL/Algorithm/TarjanModelChecker.cpp"]}
{"id": "C31", "title": "Structural net reductions preserve reachability answers", "statement": "Each structural reduction applied before verification (with its applicability checks) leaves unchanged whether a marking satisfying the query's predicate is reachable.", "quantifier": "every net, every place/transition the rule matches, every predicate over the protected places", "why_tests_cant": "Each rule is claimed sound for all nets.", "anchors": ["src/PetriEngine/Reducer.cpp"]}
{"id": "C32", "title": "Cyclic colour successor and predecessor are inverse and stay in range", "statement": "For every colour type and offset, moving by an offset stays within the type, moving by +k then -k returns the original colour, and offsets equal modulo the size act equally.", "quantifier": "every colour type size, colour and signed offset", "why_tests_cant": "All integers, including negative offsets where C++ remainder is negative.", "anchors": ["include/utils/MathExt.h: signedWrap, addColorOffset", "include/PetriEngine/Colored/Colors.h"]}
{"id": "C33", "title": "Coloured multisets behave as multisets", "statement": "Addition, subtraction, scaling, equality, inclusion, size and lookup on coloured multisets agree with the mathematical multiset operations and keep the representation invariant.", "quantifier": "every sequence of operations", "why_tests_cant": "Quantifies over all operation histories.", "anchors": ["src/PetriEngine/Colored/Multiset.cpp"]}
{"id": "C34", "title": "Unfolding a coloured net preserves its behaviour", "statement": "The unfolded net has, up to the correspondence of places with (place, colour) pairs and of transitions with (transition, legal binding) pairs, exactly the same firings as the coloured net.", "quantifier": "every coloured net, marking and binding", "why_tests_cant": "Infinite family of nets.", "anchors": ["src/PetriEngine/Colored/Unfolder.cpp"]}
{"id": "C35", "title": "Packed colour tuples round-trip", "statement": "Packing a tuple of bounded values into one integer and unpacking returns the same tuple, distinct tuples pack to distinct integers.", "quantifier": "every list of component sizes and every tuple within them", "why_tests_cant": "All size vectors.", "anchors": ["include/PetriEngine/ExplicitColored/SuccessorGenerator/IntegerPackCodec.h"]}
{"id": "C36", "title": "Interval arithmetic used in abstraction refinement is sound", "statement": "Every value related by the concrete operation (add, subtract, intersect, join, inclusion) to values in the argument intervals lies in the result interval; inclusion answers are correct.", "quantifier": "every interval and value", "why_tests_cant": "32-bit boundary behaviour.", "anchors": ["include/PetriEngine/TAR/range.h"]}
{"id": "C37", "title": "Upper-bound queries report the true maximum", "statement": "When a place-bound query finishes by exhausting the state space, the number reported is the maximum, over all reachable markings, of the summed tokens in the queried places.", "quantifier": "every net, place set, strategy", "why_tests_cant": "Maximum over an unbounded state space.", "anchors": ["src/PetriEngine/PQL/Evaluation.cpp: UnfoldedUpperBoundsCondition", "src/PetriEngine/Reachability/ResultPrinter.cpp"]}
{"id": "C38", "title": "Controller synthesis answers are correct", "statement": "Synthesis answers 'satisfied' exactly when the controller has a winning strategy from the initial marking for the safety (AG) or reachability (AF) objective.", "quantifier": "every finite game graph and exploration order", "why_tests_cant": "Quantifies over strategies and exploration orders.", "anchors": ["src/PetriEngine/Synthesis/SimpleSynthesis.cpp"]}
{"id": "C39", "title": "The light-weight deque is a deque", "statement": "Any sequence of push_back, pop_front, pop_back, clear and reads behaves like the same operations on a list, and never accesses memory outside the allocated block.", "quantifier": "every operation sequence", "why_tests_cant": "All histories, including growth at every fill level.", "anchors": ["include/utils/structures/light_deque.h"]}
{"id": "C40", "title": "Trace replay accepts exactly the executable traces", "statement": "Replaying a trace accepts it exactly when each transition is enabled in turn and the listed consumed tokens match.", "quantifier": "every net and trace", "why_tests_cant": "All traces.", "anchors": ["src/PetriEngine/TraceReplay.cpp"]}
{"id": "C41", "title": "CTL verification end to end", "statement": "Whenever the CTL engine's fixed-point search on the dependency graph of a CTL query over a net ends, in whatever order edges are taken, its answer is whether the initial marking satisfies the query; on nets with finitely many reachable markings it ends.", "quantifier": "every net, every CTL query in the engine's normal form, every search order, both algorithms", "why_tests_cant": "Quantifies over all nets, formulas and schedules; the graph is generated from an unbounded state space.", "anchors": ["src/CTL/PetriNets/OnTheFlyDG.cpp", "src/CTL/Algorithm/CertainZeroFPA.cpp", "src/CTL/Algorithm/LocalFPA.cpp", "src/CTL/CTLEngine.cpp"]}
{"id": "C42", "title": "Edge objects of the CTL engine are reference-counted exactly", "statement": "Between any two rounds of the certain-zero algorithm, the reference count of an edge object equals the number of lists and dependency sets that hold it, or the object has been released and nothing holds it; so no released edge is ever popped or notified.", "quantifier": "every layered dependency graph, every edge order, every number of rounds", "why_tests_cant": "Use-after-release depends on rare interleavings of notifications and releases.", "anchors": ["src/CTL/Algorithm/CertainZeroFPA.cpp", "src/CTL/SearchStrategy/SearchStrategy.cpp", "src/CTL/DependencyGraph/Configuration.cpp", "src/CTL/PetriNets/OnTheFlyDG.cpp: release"]}
{"id": "C43", "title": "Product generator enumerates exactly the product successors", "statement": "For a marking and an automaton state, the resuming product generator of the LTL searches ends, returns only states reached by firing a transition (or staying in a deadlock) together with an automaton edge whose guard holds in the new marking, and returns every one whose marking is stored; the infinite runs of the product are exactly the paths of the net that the automaton accepts.", "quantifier": "every net, marking, automaton without parallel edges, token bound", "why_tests_cant": "The generator is resumed from counters across other visits; the interplay of counters, automaton position and unstored successors is too large to enumerate.", "anchors": ["include/LTL/SuccessorGeneration/ProductSuccessorGenerator.h", "include/LTL/SuccessorGeneration/ResumingSuccessorGenerator.h", "include/LTL/SuccessorGeneration/BuchiSuccessorGenerator.h", "include/LTL/Structures/BuchiAutomaton.h"]}
{"id": "C44", "title": "Product state ids are unambiguous", "statement": "Marking id and automaton state can be read back from the 64-bit id of a product state, so different product states have different ids.", "quantifier": "every marking id below 2^44 and automaton state below 2^20", "why_tests_cant": "Collisions need automata or state spaces far beyond what tests reach.", "anchors": ["include/LTL/Structures/BitProductStateSet.h"]}
{"id": "C45", "title": "Translation of LTL queries keeps their meaning", "statement": "The query accepted by the validator is equivalent to 'all paths satisfy f' xor a flag, where f is the formula returned by to_ltl, and the formula handed to spot, read along any path with the atomic propositions evaluated in the markings, holds exactly when f does, for all compression options.", "quantifier": "every net, path, LTL formula and option", "why_tests_cant": "Universal over formulas and infinite paths.", "anchors": ["src/LTL/LTLSearch.cpp: to_ltl", "src/LTL/Algorithm/LTLToBuchi.cpp", "include/LTL/LTLValidator.h"]}
{"id": "C46", "title": "LTL verification end to end", "statement": "Given that spot delivers an automaton for the negated formula, the LTL engine answers 'satisfied' exactly when the query holds in the initial marking, for both search algorithms and all heuristics; it ends on nets with finitely many reachable markings; counterexamples and witnesses found under a token bound are real.", "quantifier": "every net, LTL query, automaton meeting spot's contract, heuristic, search algorithm", "why_tests_cant": "Quantifies over all nets, formulas, orders and infinite paths.", "anchors": ["src/LTL/LTLSearch.cpp", "src/LTL/Algorithm/TarjanModelChecker.cpp", "src/LTL/Algorithm/NestedDepthFirstSearch.cpp"]}
{"id": "C47", "title": "The printed control strategy is winning", "statement": "After a successful synthesis the printed table lists only controllable moves, has an entry wherever the controller can move and the goal is not reached, and every play that follows it stays in markings from which the controller wins (AG: never leaves the goal; AF: reaches it).", "quantifier": "every net, objective, exploration order, play consistent with the table", "why_tests_cant": "Quantifies over all plays and exploration orders.", "anchors": ["src/PetriEngine/Synthesis/SimpleSynthesis.cpp"]}
{"id": "C48", "title": "Siphon-trap analysis: a positive answer excludes deadlocks", "statement": "If STSolver::solve returns true for a net with a transition, no marking reachable from the initial one is a deadlock; when the clock does not run out, it returns true on an ordinary net (no weights, no inhibitor arcs, no transition without inputs) exactly if every siphon contains a marked trap; and it always returns.", "quantifier": "every net, initial marking, sequence of random numbers, clock", "why_tests_cant": "Quantifies over all siphons, all reachable markings and all outcomes of the random choices that prune the search.", "anchors": ["src/PetriEngine/STSolver.cpp", "include/PetriEngine/TAR/AntiChain.h"]}
{"id": "C49", "title": "Multisets of colours behave as multisets", "statement": "Every operation of SequenceMultiSet (getCount, setCount, addCount, +=, -= with fixNegative, shrink, totalCount, getHighestCount, ==, <=, >=) is the operation of the same name on multisets of colours, whatever the history of the object; shrunk sets with the same elements are identical; sums that do not fit an int32_t are refused.", "quantifier": "every multiset, colour, number, sequence of operations", "why_tests_cant": "Quantifies over all sorted vectors, overlaps of two vectors, zero entries left by earlier operations, and numbers up to 2^31.", "anchors": ["include/PetriEngine/ExplicitColored/SequenceMultiSet.h"]}
{"id": "C50", "title": "Stored encodings of coloured markings", "statement": "Decoding the encoding of a coloured marking gives the marking back, and two markings are stored alike by the explicit coloured search exactly when every place has the same tokens.", "quantifier": "every list of colour types, every marking", "why_tests_cant": "Quantifies over all numbers of places, colours and tokens, including encodings longer than the limit.", "anchors": ["include/PetriEngine/ExplicitColored/ColoredEncoder.h"]}
{"id": "C51", "title": "Successors in the explicit coloured engine", "statement": "In every state, each of the two successor generators of the explicit coloured engine, called until it is done, yields exactly the successors of the coloured net: a marking is generated by a transition if and only if some legal, enabled binding of that transition leads to it. Fireability and deadlock of a state are decided accordingly, whatever the cache of variable constraints contains from earlier calls.", "quantifier": "every coloured net the builder accepts, marking, transition, binding, state of the generator and of the cache", "why_tests_cant": "Quantifies over all expressions (tuples, successors, sums, subtractions, constants), guards, products of types, numbers of bindings on both sides of the threshold for constraints, and resumptions of the generator.", "anchors": ["include/PetriEngine/ExplicitColored/SuccessorGenerator/ColoredSuccessorGenerator.h", "src/PetriEngine/ExplicitColored/SuccessorGenerator/ColoredSuccessorGenerator.cpp", "src/PetriEngine/ExplicitColored/ExpressionCompilers/ArcCompiler.cpp", "src/PetriEngine/ExplicitColored/ExpressionCompilers/GuardCompiler.cpp", "src/PetriEngine/ExplicitColored/ExplicitColoredPetriNetBuilder.cpp"]}
{"id": "C52", "title": "Verdicts of the explicit coloured search", "statement": "The explicit coloured search answers EF (AG) queries with satisfied exactly when some (every) reachable marking of the coloured net satisfies the proposition, for every search order and both generators, and ends on nets with finitely many reachable markings.", "quantifier": "every coloured net, query, search order, generator", "why_tests_cant": "Quantifies over all nets, orders of the waiting list and interleavings of partially explored states with the shared cache.", "anchors": ["src/PetriEngine/ExplicitColored/Algorithms/ExplicitWorklist.cpp", "src/PetriEngine/ExplicitColored/ExpressionCompilers/ExplicitQueryPropositionCompiler.cpp", "include/PetriEngine/ExplicitColored/ColoredPetriNetState.h"]}
{"id": "C53", "title": "Traces of the explicit coloured search", "statement": "When the explicit coloured search finds a state, following the predecessors in the state map reaches the initial state, the recorded numbers of bindings are found again, and the trace is a sequence of firings of the coloured net from the initial marking to a marking that decides the query.", "quantifier": "every coloured net, query, search order, generator", "why_tests_cant": "The numbers of bindings are re-interpreted without the cache they were found with, on every path of every net.", "anchors": ["src/PetriEngine/ExplicitColored/Algorithms/ExplicitWorklist.cpp", "src/PetriEngine/ExplicitColored/ExplicitColoredModelChecker.cpp"]}
{"id": "C54", "title": "Antichains of sets", "statement": "After any sequence of insertions AntiChain answers 'subsumed' for an element and a set exactly when a set inserted for that element is included in it, keeps only incomparable sets, and insert reports whether the set was new.", "quantifier": "every sequence of insertions and every query", "why_tests_cant": "Quantifies over all sequences of insertions, with erasures in the middle of the stored vectors.", "anchors": ["include/PetriEngine/TAR/AntiChain.h", "src/PetriEngine/STSolver.cpp", "src/PetriEngine/TAR/TARReachability.cpp"]}
{"id": "C55", "title": "Trace abstraction refinement: satisfied answers", "statement": "When the trace-abstraction-refinement engine answers 'satisfied', the trace it returns can be fired from the initial marking and leads to a marking where the query holds.", "quantifier": "every net without inhibitor arcs, initial marking, query, random numbers and contents of uninitialised fields", "why_tests_cant": "Quantifies over all nets, queries and every number of refinements of the automaton.", "anchors": ["src/PetriEngine/TAR/TARReachability.cpp", "src/PetriEngine/TAR/Solver.cpp", "include/PetriEngine/TAR/TraceSet.h"]}
{"id": "C56", "title": "Trace abstraction refinement: not-satisfied answers", "statement": "When the trace-abstraction-refinement engine answers 'not satisfied', the query holds in no reachable marking.", "quantifier": "every net without inhibitor arcs, initial marking, query, random numbers and contents of uninitialised fields", "why_tests_cant": "The answer abstracts from infinitely many runs; soundness rests on every predicate ever added to the automaton, every cover and every simulation between its states.", "anchors": ["src/PetriEngine/TAR/TARReachability.cpp", "src/PetriEngine/TAR/TraceSet.cpp", "src/PetriEngine/TAR/Solver.cpp", "src/PetriEngine/TAR/RangeContext.cpp", "src/PetriEngine/TAR/RangeEvalContext.cpp"]}
{"id": "C57", "title": "Predicates excluding the goal or a transition", "statement": "The predicate computed at the failing position of a trace excludes the goal (or disables the transition), does not exclude the marking from above and speaks only of places of the query (of the preset).", "quantifier": "every net, query, marking and set of dirty places", "why_tests_cant": "Quantifies over all markings satisfying the predicate and all nestings of the query.", "anchors": ["src/PetriEngine/TAR/RangeContext.cpp", "src/PetriEngine/TAR/RangeEvalContext.cpp", "src/PetriEngine/TAR/Solver.cpp"]}
{"id": "C58", "title": "Predicates along a spurious trace", "statement": "The predicates computed backwards along a trace are preconditions: firing a transition of the trace in a marking satisfying the predicate before it leads to one satisfying the predicate after it; the computation never fails on transitions that can be fired.", "quantifier": "every net, trace, position and predicate", "why_tests_cant": "Quantifies over all markings and all traces; arcs of the preset and postset are merged in one pass with saturating bounds.", "anchors": ["src/PetriEngine/TAR/Solver.cpp", "include/PetriEngine/TAR/range.h"]}
{"id": "C59", "title": "Trace abstraction refinement finds reachable goals", "statement": "If the goal is reachable the trace-abstraction-refinement engine answers after finitely many steps.", "quantifier": "every net without inhibitor arcs, query, sequence of random numbers", "why_tests_cant": "Absence of an answer cannot be observed by running the program.", "anchors": ["src/PetriEngine/TAR/TARReachability.cpp", "src/PetriEngine/TAR/Solver.cpp", "src/PetriEngine/TAR/RangeContext.cpp"]}
{"id": "C60", "title": "XML query files round-trip", "statement": "A file of queries written as XML is read back: the queries come back in order with their names and the same meaning, and only the selected ones are read.", "quantifier": "every list of formulas and games, every table of place names, every selection, every transition system and path", "why_tests_cant": "Quantifies over all formulas and their meaning on all paths; the writer and the parser are separate programs that normalise differently.", "anchors": ["src/PetriEngine/PQL/XMLPrinter.cpp", "src/PetriParse/QueryXMLParser.cpp", "src/VerifyPN.cpp"]}
{"id": "C61", "title": "Recognition and conversion of CTL queries", "statement": "A query is recognised as CTL exactly if every quantifier is directly above one path operator, and every recognised query is converted to a CTL formula with the same meaning.", "quantifier": "every formula, every transition system and path, every initial content of the visitor", "why_tests_cant": "Quantifies over all formulas and all systems; the visitor reads an uninitialised field.", "anchors": ["src/PetriEngine/PQL/CTLVisitor.cpp", "include/PetriEngine/PQL/CTLVisitor.h", "src/VerifyPN.cpp"]}
{"id": "C62", "title": "Interval operations", "statement": "Adding, simplifying, restricting, cutting, bounding, shifting and counting of boxes of colours: no value is lost, the number of boxes is kept, and cutting, differences, shifts and counts are exact.", "quantifier": "every list of boxes, every dimension, size, modifier and bound", "why_tests_cant": "Quantifies over all boxes; a lost value shows only as a missing transition of the unfolded net.", "anchors": ["include/PetriEngine/Colored/Intervals.h", "include/PetriEngine/TAR/range.h"]}
{"id": "C63", "title": "Variable intervals of input arcs", "statement": "The maps from variables to boxes that are computed from the boxes of the input places cover every binding under which all input arcs find their tokens within the boxes.", "quantifier": "every arc expression, list of boxes and binding", "why_tests_cant": "Quantifies over all expressions and all boxes; needs the meaning of arc expressions.", "anchors": ["include/PetriEngine/Colored/VariableVisitor.h", "include/PetriEngine/Colored/ArcIntervalVisitor.h", "src/PetriEngine/Colored/IntervalGenerator.cpp"]}
{"id": "C64", "title": "Restriction by guards keeps satisfying bindings", "statement": "Restricting the maps of a transition by its guard keeps every covered binding that satisfies the guard.", "quantifier": "every guard, map and binding", "why_tests_cant": "Quantifies over all guards, boxes and bindings.", "anchors": ["include/PetriEngine/Colored/RestrictVisitor.h", "src/PetriEngine/Colored/GuardRestrictor.cpp", "src/PetriEngine/Colored/ForwardFixedPoint.cpp"]}
{"id": "C65", "title": "Output intervals cover the tokens produced", "statement": "The boxes of an output arc have every token the arc produces under a binding that some map covers.", "quantifier": "every arc expression, map and binding", "why_tests_cant": "Quantifies over all expressions and bindings.", "anchors": ["include/PetriEngine/Colored/OutputIntervalVisitor.h", "src/PetriEngine/Colored/GuardRestrictor.cpp"]}
{"id": "C66", "title": "The colour fixed point covers the reachable markings", "statement": "The boxes that the forward fixed point leaves for the places contain every token of every reachable marking, and the maps it leaves for the transitions contain every binding enabled in a reachable marking.", "quantifier": "every coloured net, limit on the number of intervals over time, reachable marking and binding", "why_tests_cant": "Quantifies over all nets and all reachable markings, of which there may be infinitely many.", "anchors": ["src/PetriEngine/Colored/ForwardFixedPoint.cpp", "include/PetriEngine/Colored/ForwardFixedPoint.h"]}
{"id": "C67", "title": "The binding generator of the colour fixed point", "statement": "From the maps of intervals of a transition, FixpointBindingGenerator enumerates, in finitely many steps, only bindings that satisfy the guard, and all those of them that lie within one of the maps.", "quantifier": "every colour type, transition, guard and list of interval maps", "why_tests_cant": "Quantifies over all types, maps and guards; includes termination of the iteration.", "anchors": ["src/PetriEngine/Colored/BindingGenerator.cpp", "include/PetriEngine/Colored/Intervals.h"]}
{"id": "C68", "title": "Unfolding with the colour fixed point keeps the behaviour", "statement": "Unfolding a coloured net with the bindings that the generator draws from the maps of the colour fixed point gives a net whose reachable markings stand for exactly the reachable markings of the coloured net, with the same deadlocks.", "quantifier": "every coloured net, limit on the number of intervals over time, reachable marking and firing sequence", "why_tests_cant": "Quantifies over all nets and unbounded runs; a binding lost by the over-approximation changes answers only on runs that need it.", "anchors": ["src/PetriEngine/Colored/Unfolder.cpp", "src/PetriEngine/Colored/ForwardFixedPoint.cpp", "src/PetriEngine/Colored/BindingGenerator.cpp"]}
{"id": "C69", "title": "The net without colours simulates the coloured net", "statement": "The net that ColorIgnorantPetriNetBuilder (and Unfolder::strip_colors) builds compiles, starts with the same numbers of tokens per place, and has, for each reachable coloured marking, a reachable marking with the same numbers of tokens in which every transition that the coloured net can fire is enabled.", "quantifier": "every coloured net, reachable coloured marking, binding and firing sequence; both orders of places", "why_tests_cant": "Quantifies over all nets and unbounded runs; a lost behaviour makes the negative answers of the colour-ignorant check wrong only on nets that need it.", "anchors": ["src/PetriEngine/ExplicitColored/ColorIgnorantPetriNetBuilder.cpp", "src/PetriEngine/Colored/Unfolder.cpp", "src/VerifyPN.cpp"]}
{"id": "C70", "title": "Cardinality verdicts drawn from the net without colours are right", "statement": "If checkCardinalityColorIgnorantLP answers satisfied or not satisfied for EF \u03c6 or \u00ac EF \u03c6, where \u03c6 compares numbers of tokens, then the answer is right about the coloured net.", "quantifier": "every coloured net, formula \u03c6, sound linear-program solver, time limit", "why_tests_cant": "Quantifies over all nets, formulas and solver behaviours; the verdict mixes an over-approximation with the initial marking, and a swapped case shows only on particular queries.", "anchors": ["src/PetriEngine/ExplicitColored/ExplicitColoredModelChecker.cpp", "src/VerifyPN.cpp", "src/PetriEngine/PQL/Simplifier.cpp"]}
{"id": "C71", "title": "Fireability verdicts drawn from the net without colours are right", "statement": "If checkFireabilityColorIgnorantLP answers satisfied or not satisfied for EF \u03c6 or \u00ac EF \u03c6, where \u03c6 is about which transitions can fire, then the answer is right about the coloured net, at whatever point the time runs out.", "quantifier": "every coloured net, formula \u03c6, order of the search and time limit", "why_tests_cant": "Quantifies over all nets and unbounded searches; the evaluation ignores guards and upper bounds and must never decide in the wrong direction.", "anchors": ["src/PetriEngine/ExplicitColored/ExplicitColoredModelChecker.cpp", "src/PetriEngine/ExplicitColored/IgnorantFireabilityVisitor.cpp", "src/PetriEngine/ExplicitColored/Algorithms/FireabilitySearch.cpp"]}
{"id": "C72", "title": "Removing redundant places of a coloured net keeps its behaviour", "statement": "After RedRuleRedundantPlaces the coloured net fires the same transitions as before, with the same tokens on all places that are left, so that every query about them keeps its answer; the rule does not throw.", "quantifier": "every coloured net, set of places used by the query, point in time at which the rule is stopped, reachable marking and firing sequence", "why_tests_cant": "Quantifies over all nets, bindings and unbounded runs; a place that is not redundant changes answers only on runs that empty it.", "anchors": ["src/PetriEngine/Colored/Reduction/RedRuleRedundantPlaces.cpp", "src/PetriEngine/Colored/VarMultiset.cpp", "src/PetriEngine/Colored/ArcVarMultisetVisitor.cpp"]}
{"id": "C73", "title": "Removing dead transitions of a coloured net keeps its behaviour", "statement": "The transitions that RedRuleDeadTransitions removes never fire, and after the rule, which may also remove the place, the coloured net behaves as before and every query about what is left keeps its answer.", "quantifier": "every coloured net, naming of variables and colours, set of places and transitions used by the query, point in time at which the rule is stopped, reachable marking and firing sequence", "why_tests_cant": "Quantifies over all nets and unbounded runs; a place removed too early lets other transitions fire without tokens only on nets that have such transitions.", "anchors": ["src/PetriEngine/Colored/Reduction/RedRuleDeadTransitions.cpp", "src/PetriEngine/Colored/Reduction/ColoredReducer.cpp", "src/PetriEngine/Colored/CExprToString.cpp"]}
{"id": "C74", "title": "Removing parallel transitions of a coloured net keeps the answers", "statement": "Whichever pairs of transitions RedRuleParallelTransitions gets to compare, the net that it leaves has the same reachable markings and the transitions that are left fire where they fired; queries EF φ keep their answers, and queries that count steps see the same graph.", "quantifier": "every coloured net, naming of variables and colours, set of transitions used by the query, query type and flags, list of pairs the rule looks at, reachable marking and firing sequence", "why_tests_cant": "Quantifies over all nets, multiples and unbounded runs; a transition that is not a multiple of the one kept matters only in markings where the latter cannot fire often enough.", "anchors": ["src/PetriEngine/Colored/Reduction/RedRuleParallelTransitions.cpp", "src/PetriEngine/Colored/VarMultiset.cpp", "src/PetriEngine/Colored/Reduction/ColoredReducer.cpp"]}
{"id": "C75", "title": "Removing what the query cannot see keeps its answer", "statement": "After RedRuleRelevance has removed the places and transitions that it does not find relevant to the query, every query EF φ without deadlocks has the answer that it had before; the rule comes to an end.", "quantifier": "every coloured net with inhibitor arcs, set of places and transitions used by the query, reachable marking and firing sequence", "why_tests_cant": "Quantifies over all nets and unbounded runs; a missing dependency shows only when the transition that was removed is the one that a run towards the query needs.", "anchors": ["src/PetriEngine/Colored/Reduction/RedRuleRelevance.cpp", "src/PetriEngine/Colored/Reduction/ColoredReducer.cpp", "src/PetriEngine/Colored/VarMultiset.cpp"]}
{"id": "C76", "title": "Removing parallel places keeps the behaviour", "statement": "After RedRuleParallelPlaces has removed a place that always has enough tokens when another one has, the net is bisimilar to the one before, with the same transitions fired and the same tokens on the places that are left; so queries about these keep their answers.", "quantifier": "every coloured net with inhibitor arcs, list of pairs of places that the loops look at, set of places used by the query, and firing sequence", "why_tests_cant": "Quantifies over all nets, ratios of weights and unbounded runs; a ratio that is off by a fraction shows only when the tokens of the removed place would have run out first.", "anchors": ["src/PetriEngine/Colored/Reduction/RedRuleParallelPlaces.cpp", "src/PetriEngine/Colored/VarMultiset.cpp", "src/PetriEngine/Colored/Multiset.cpp"]}
{"id": "C77", "title": "Firing transitions before the search keeps the answer", "statement": "After RedRulePreemptiveFiring has moved the tokens of a place along the only transition that takes them, and removed both if nothing fills the place, every query EF φ that does not use the places and transitions concerned and negates no deadlock has the answer that it had before.", "quantifier": "every coloured net with inhibitor arcs, set of places and transitions used by the query, list of transitions fired in earlier rounds, time at which the rule is stopped, and firing sequence", "why_tests_cant": "Quantifies over all nets and unbounded runs; a token moved that could not have moved, or one lost, shows only on runs that need it later.", "anchors": ["src/PetriEngine/Colored/Reduction/RedRulePreemptiveFiring.cpp", "include/PetriEngine/Colored/Reduction/RedRulePreemptiveFiring.h", "src/PetriEngine/Colored/Reduction/ColoredReducer.cpp", "src/PetriEngine/Colored/Multiset.cpp"]}
{"id": "C78", "title": "Unfolding with symmetric variables keeps the behaviour", "statement": "When the unfolder leaves out bindings that differ from others only in the order of the values of variables found symmetric by VariableSymmetry, the compiled net still reaches exactly the markings of the coloured net, and is dead in the same ones; the generator of bindings comes to an end and stays within the colour types.", "quantifier": "every coloured net with inhibitor arcs, result of the colour fixed point, number and size of symmetric sets, reachable marking and firing sequence", "why_tests_cant": "Quantifies over all nets, colour types of any size and unbounded runs; a binding left out wrongly shows only in a marking where just that order of values is enabled.", "anchors": ["src/PetriEngine/Colored/VariableSymmetry.cpp", "include/PetriEngine/Colored/SymmetryVisitor.h", "src/PetriEngine/Colored/BindingGenerator.cpp", "src/PetriEngine/Colored/Unfolder.cpp"]}
{"id": "C79", "title": "Queries that are not loop sensitive do not see loops", "statement": "If isLoopSensitive says no, the query has the same truth in a net and in the net without transitions that change nothing (more generally in two transition systems that differ by steps from a marking to itself); so the flag remove_loops computed from all the queries is only set when loops may be removed.", "quantifier": "every query (CTL, LTL and mixtures, any depth and number of operands), transition system, set of loops and path", "why_tests_cant": "Quantifies over all formulas, all transition systems and infinite paths; a wrong answer shows only for a query with a certain order of operands on a net where staying for ever matters.", "anchors": ["src/PetriEngine/PQL/PredicateCheckers.cpp", "include/PetriEngine/PQL/Visitor.h", "src/PetriEngine/PetriNetBuilder.cpp"]}
{"id": "C80", "title": "Queries without next do not count steps", "statement": "If containsNext and hasNestedDeadlock say no, the query has the same truth on transition systems that are the same up to repetition of states agreeing on the places counted for the query (getQueryPlaceCount); containsNext finds exactly the next operators and hasNestedDeadlock exactly the deadlocks below connectives.", "quantifier": "every list of queries, pair of transition systems related by a stuttering bisimulation that preserves infinite repetition, and pair of matching paths", "why_tests_cant": "Quantifies over all formulas, transition systems and infinite paths.", "anchors": ["src/PetriEngine/PQL/PredicateCheckers.cpp", "src/PetriEngine/PQL/Analyze.cpp", "include/PetriEngine/Reducer.h", "src/PetriEngine/PetriNetBuilder.cpp"]}
{"id": "C82", "title": "The automaton-guided reduction keeps accepting runs", "statement": "The product of net and automaton explored with the automaton-guided stubborn sets (the default of the LTL engine) has an accepting run if and only if the whole product has one, whatever results earlier evaluations have left in the conditions.", "quantifier": "every net, automaton, labelling, contents of the condition objects and infinite run", "why_tests_cant": "Quantifies over all nets, automata and infinite runs; a run lost by the reduction shows only on a net where the order of independent transitions matters to the automaton.", "anchors": ["src/LTL/Stubborn/SafeAutStubbornSet.cpp", "include/LTL/Stubborn/SafeAutStubbornSet.h", "include/LTL/SuccessorGeneration/ReachStubProductSuccessorGenerator.h", "src/PetriEngine/Stubborn/InterestingTransitionVisitor.cpp"]}
{"id": "C81", "title": "The classic reduction keeps LTL formulas without next", "statement": "All runs of the net satisfy an LTL formula without next if and only if all runs explored with the classic stubborn sets (--ltl-por classic) do.", "quantifier": "every net without inhibitor arcs, formula without next, initial marking and infinite run", "why_tests_cant": "Quantifies over all nets, formulas and infinite runs; a run lost by the reduction shows only where the order of independent transitions matters to the formula.", "anchors": ["src/LTL/Stubborn/VisibleLTLStubbornSet.cpp", "include/LTL/Stubborn/VisibleLTLStubbornSet.h", "src/LTL/Stubborn/VisibleTransitionVisitor.cpp", "src/LTL/Algorithm/TarjanModelChecker.cpp"]}
{"id": "C83", "title": "Splitting a partition of colours refines it", "statement": "Splitting the partition of a place by the classes an arc or a guard asks for ends, keeps the colours, has no colour in two classes, puts each new class inside an old one, and decides each of the classes asked for: a new class lies inside it or does not meet it.", "quantifier": "every partition and every list of classes", "why_tests_cant": "Quantifies over all partitions and all lists of boxes; a colour in two classes shows only for particular neighbouring boxes, and then as a wrong answer on an unfolded net.", "anchors": ["src/PetriEngine/Colored/PartitionBuilder.cpp", "src/PetriEngine/Colored/EquivalenceClass.cpp", "src/PetriEngine/Colored/EquivalenceVec.cpp", "include/PetriEngine/Colored/Intervals.h"]}
{"id": "C84", "title": "Two colours share an unfolded place if and only if the partition joins them", "statement": "The number under which the unfolded place of a colour is found is the same for two colours exactly if they are in the same class (and agree on the diagonal positions), and the colour that stands for a class has the number of the class.", "quantifier": "every partition, colour type, set of diagonal positions and pair of colours", "why_tests_cant": "Quantifies over all partitions and colours; two sums that happen to be equal join two places without any error.", "anchors": ["src/PetriEngine/Colored/EquivalenceVec.cpp", "src/PetriEngine/Colored/EquivalenceClass.cpp", "src/PetriEngine/Colored/Unfolder.cpp", "src/PetriEngine/Colored/Colors.cpp"]}
{"id": "C85", "title": "The compound generator delivers each combination of steps once", "statement": "For several traces of a HyperLTL query, calling the compound generator until it says that there is no more delivers exactly the combinations in which each trace that is not dead makes one step and each dead trace stays, every combination once; nothing is delivered if all traces are dead.", "quantifier": "every net, number of traces, compound marking (below the 32-bit limit) and earlier contents of the buffer", "why_tests_cant": "The number of combinations is the product of the numbers of enabled transitions; a missing combination shows only as a wrong verdict for a query that needs it.", "anchors": ["src/LTL/SuccessorGeneration/CompoundGenerator.cpp", "include/LTL/SuccessorGeneration/CompoundGenerator.h", "include/LTL/SuccessorGeneration/ProductSuccessorGenerator.h"]}
{"id": "C86", "title": "Propositions are evaluated on the trace that they name", "statement": "A proposition or expression in the scope of a trace of a HyperLTL query is evaluated on the marking of that trace.", "quantifier": "every net, compound marking, proposition and nesting of scopes", "why_tests_cant": "Quantifies over all propositions and compound markings; a proposition read on the wrong trace goes unnoticed as long as the traces agree on it.", "anchors": ["src/PetriEngine/PQL/Evaluation.cpp", "include/PetriEngine/PQL/Evaluation.h", "src/PetriEngine/PQL/Analyze.cpp", "src/LTL/Algorithm/LTLToBuchi.cpp"]}
{"id": "C87", "title": "The bucket allocator gives each id a cell of its own", "statement": "The allocator of the CTL engine gives no id out twice; every id has a cell inside an existing bucket, different ids have different cells, and the cell of an id never changes; with one thread the ids are the numbers below size().", "quantifier": "every bucket size, number of threads and sequence of calls of next (calls do not overlap)", "why_tests_cant": "The buckets hold more than ten thousand (edges) and a million (configurations) cells, and a page of the index as many buckets; the second page is out of reach of tests.", "anchors": ["include/PetriEngine/Structures/linked_bucket.h", "src/CTL/PetriNets/OnTheFlyDG.cpp"]}
{"id": "C88", "title": "The queue of successors neither repeats nor loses transitions when it is extended", "statement": "A queue of successors delivers its list in order; if it is extended after some calls to a list that contains the old one, then the transitions delivered before and after are the new list up to the order, and no write leaves the array. In particular generate_all delivers, over all calls, each old and each stubborn enabled transition once.", "quantifier": "every list of transitions, number of calls before the extension, stubborn set and enabled set", "why_tests_cant": "Depends on the point at which the search closes a cycle, and on which transitions were fired before; all combinations cannot be tried.", "anchors": ["include/PetriEngine/Structures/SuccessorQueue.h", "include/LTL/SuccessorGeneration/SpoolingSuccessorGenerator.h"]}
{"id": "C89", "title": "Simplifying an LTL query with spot keeps its answer", "statement": "LTL::simplify raises no exception on a formula without path quantifiers, returns such a formula, and this holds on exactly the same paths; a quantifier in front stays. Hence simplify_ltl_query, which takes the quantifier off, simplifies twice with the rewriting of C18 and C22 in between and puts the quantifier back, keeps the answer of every LTL query in the initial marking.", "quantifier": "every formula of LTL, transition system, path, setting of the compression and expansion of propositions, and every simplifier that keeps the meaning of formulas and invents no propositions", "why_tests_cant": "Depends on the shape of formulas, on which propositions share a text or are numbered, and on what the library does with them; a few queries do not cover the combinations, and a lost quantifier shows only on models where the two answers differ.", "anchors": ["src/LTL/Simplification/SpotToPQL.cpp", "src/VerifyPN.cpp"]}
{"id": "C90", "title": "Answers to LTL queries that are simplified first are right", "statement": "When an LTL query is simplified (spot, initial marking, negations, linear programs, spot again), answered at once if it became a constant and otherwise given to the LTL engine, any answer obtained is the truth of the original query in the initial marking.", "quantifier": "every net with finitely many reachable markings, initial marking, LTL query, search strategy of the engine, sound solver of linear programs, depth and budget of the simplification, and every automaton and simplifier that meets spot's contract", "why_tests_cant": "The steps hand formulas to each other in particular shapes; an operator that one step produces and the next one mistreats shows only for some queries on some nets, and a run shows an answer without showing that it is right on all paths.", "anchors": ["src/VerifyPN.cpp", "src/main.cpp", "src/LTL/LTLSearch.cpp", "src/LTL/Simplification/SpotToPQL.cpp"]}
{"id": "C91", "title": "The rewriting of LTL formulas ends", "statement": "The visitor that pushes negations, which calls itself on formulas it has just built, ends on every formula of LTL, with a result that depends on nothing but the formula and the context and is not heavier than the formula; hence all the rewriting between the two calls of spot ends.", "quantifier": "every formula of LTL, initial marking, setting of the flags nested, negated and initial rewriting, and every step with linear programs that ends", "why_tests_cant": "A visitor that builds new formulas and visits them again can run for ever on one rare nesting of operators; a test that ends says nothing about other formulas.", "anchors": ["src/PetriEngine/PQL/PushNegation.cpp", "src/VerifyPN.cpp"]}
