# Formal model of TAPAAL/verifypn in Lean 4

The code lives in `/repo` (C++). It is read as text; nothing is built or run.
The model lives in `lean/Verif/`. Each area has up to three kinds of file:

* `Verif/<Area>/Model*.lean` – executable definitions that follow the C++ function by function,
  each with a comment `-- models <file>:<lines>` and a note of every simplification;
* `Verif/<Area>/Spec.lean` – a small independent specification (Petri net semantics, CTL/LTL
  semantics, multisets, ...), which never mentions the model;
* `Verif/<Area>/Lemmas*.lean` – helper lemmas;
* `Verif/Props/*.lean` – the property theorems only, next to `example`s that show that a concrete
  non-trivial case meets the hypotheses.

## Trusted base

* Lean 4.33.0 kernel; axioms `propext`, `Classical.choice`, `Quot.sound` only (checked with
  `#print axioms`); no `sorry`, `native_decide`, `bv_decide`, own axioms.
* The faithfulness of the hand translation from C++ (the code is not run).
* External components that appear as *parameters* of the model: the C++ standard library
  (`std::sort`, `std::priority_queue`, `std::shuffle`, hash maps: assumed to meet their
  documented contract), the `ptrie` library (assumed: a map from byte strings to stable
  consecutive identifiers), the GLPK LP solver (assumed: "infeasible" only if infeasible),
  Spot (LTL to Büchi translation), rapidxml, the OS, clocks, threads.

## Numbers

Unbounded `Nat`/`Int` are used where the code's result does not depend on the machine width;
32-bit behaviour is modelled explicitly (values `< 2^32`, wrap-around as `% 2^32`) wherever a
property is about it (encoder, firing, intervals, comparison merging, ranges).

## Plan per property

| id | modelled | proof |
|----|----------|-------|
| C01 | flat net arrays, `_next` loop with its two counters as a resumable state machine, `checkPreset`, `_fire` | refinement to the textbook enabled/fire relation; permutation of the enabled list |
| C02 | `PetriNet::deadlocked` | equivalence with "no transition enabled" using the layout invariant |
| C03 | `makePetriNet` with `nextPlaceId`, both reorder modes | loop invariant; bijection on unskipped transitions |
| C04 | `consumePreset`, `producePostset` on 32-bit counters with an `error` outcome | case analysis; exactness or error |
| C05, C06 | `AlignedEncoder` byte level: `getType`, `encode`, `decode`, `size`, scratchpad as bounded buffer | round trip per format, length lemma, injectivity as a corollary |
| C07 | `StateSet::_add/_lookup/_decode` over an abstract byte-string trie | invariant over operation histories, refinement to a finite set |
| C08 | queues and potency queue, shuffles and heuristics as arbitrary oracles | multiset invariant over operation sequences |
| C09–C12, C14 | `tryReach`, `checkQueries`, `doCallback`, history pointers, random walk | inductive invariant of the loop; finiteness gives termination |
| C13 | `isReachability`, `prepareForReachability`, `ResultPrinter::handle` | structural induction |
| C15, C16 | `EvaluateVisitor` | structural induction against marking/CTL semantics |
| C17, C18 | `PushNegationVisitor` | structural induction on fuel/size against CTL/LTL semantics |
| C19 | `CompareConjunction::merge`, `tryMerge`, `makeLog` | negation of the full claim with witnesses, partial theorem on the safe fragment |
| C20 | `AnalyzeVisitor` expansions | equivalence with semantic definitions |
| C21 | `BinaryPrinter`/`QueryBinaryParser` on byte lists | round trip by structural induction |
| C22, C23 | `Member`, `ConstraintVisitor`, `Simplifier` with LP and timeout oracles | structural induction, state equation |
| C24, C25 | `StubbornSet::closure`, interesting-transition visitor, reachability stubborn set | classical stubborn set argument: commuting outside transitions |
| C26–C28 | `OnTheFlyDG::successors`, `CertainZeroFPA`, `LocalFPA` | fixpoint theory; loop invariants for arbitrary edge orders |
| C29, C30 | NDFS and Tarjan searches on an abstract product graph | loop invariants |
| C31 | reducer rules with their checks | per-rule simulation argument |
| C32 | `signedWrap`, `addColorOffset` | modular arithmetic |
| C33 | `Multiset` | refinement to functions `Color → Int/Nat` |
| C34 | unfolder (arc/guard evaluation, binding enumeration) | bisimulation |
| C35 | `IntegerPackCodec` | round trip |
| C36 | `range_t`, `prvector_t` | soundness lemmas |
| C37 | upper-bound evaluation in `tryReach` | loop invariant |
| C38 | synthesis dependency propagation | invariant over arbitrary orders against the game fixpoint |
| C39 | `light_deque` with explicit capacity and an out-of-bounds outcome | refinement to lists |
| C40 | `TraceReplay` | equivalence |
| C41 | C26 and C27/C28 together | composition |
| C48 | `STSolver`, `AntiChain` | invariant of the antichain; exactness; termination |
| C49 | `SequenceMultiSet` | refinement to functions colour → number; 32-bit outcomes |
| C50 | `ColoredEncoder` | round trip, injectivity |
| C51 | compiler of arcs and guards, `findNextValidBinding`, both generators, constraint cache | compiled net refines coloured semantics; each generator yields exactly the firings |
| C52 | `ExplicitWorklist` with any order of the waiting list | ghost list of markings, closure invariant, decreasing measure |
| C53 | `_stateMap`, `getTraceTo`, re-computation of bindings | path invariant of the map |
| C54 | `AntiChain` | invariant over insertions: covers, incomparable |
| C55, C56 | `TARReachabilitySearch`, `TraceSet`, `Solver` | replay of the trace; invariant "every edge of the automaton is a valid triple", simulation of runs by the search |
| C57, C58 | `RangeContext`, `RangeEvalContext`, `computeTerminal`, `computeHoare` | ranges as sets of markings; weakest preconditions |
| C59 | the loop of `tryReach` | refuted for all numbers of steps |
| C60 | XML printer and parser as functions on events/trees | round trip of formulas and files up to meaning; refuted for bounds and degenerate terms |
| C61 | `IsCTLVisitor`, `AsCTL` | accepted formulas characterised, conversion keeps the meaning; the check alone is refuted |
| C42 | edge objects with reference counts and release | invariant over all edge orders |

## Findings (places where the code and the property disagree)

Each is a theorem whose name contains `finding` (or is named below), proved with a concrete witness.

- F1 (C01, `C01_no_places_generator_finds_nothing`): on a net with transitions but no places the
  successor generator reports nothing, although every transition is enabled.
- F2 (C03, `C03_finding_orphan_player_lost`): `makePetriNet` does not copy the player of transitions
  without input places, so a game transition becomes controllable (or not) by accident.
- F3 (C07, `C07_finding_bound_wraps`): the token sum used for the k-bound is 32 bits and wraps.
- F4 (C08, `C08_finding_ids_truncated`): BFS, DFS, RDFS and heuristic queues truncate state numbers to
  32 bits.
- F5 (C08, `C08_finding_potency_wrap`): a potency wrapping to 0 makes the random potency queue index out
  of bounds.
- F6 (C08, `C08_finding_potency_no_transitions`): on a net without transitions a second base push to the
  potency queue discards the first (not reachable through `tryReach`).

- F7 (C10, `C10_bound_cuts_states_silently`): with a k-bound the search drops markings over the bound and
  still reports "not reachable"; completeness is claimed for unbounded searches only.
- F8 (C19, `C19_finding_*`, six theorems): comparisons of a place with a constant that are vacuous,
  unsatisfiable, negative or beyond 32 bits change meaning when merged into interval objects
  (`0 <= p or q <= 1` becomes `q <= 1`; `p < 0 and φ` becomes `φ`).
- F9 (C17, `C17_finding_products_cancelled`): the rewriter cancels common places of compared products,
  which is wrong when the place is empty (`p*q < p*r` becomes `q < r`).
- F10 (C13, `C13_finding_shared_deadlock_flag`): the flag that turns an answer around is stored in the
  goal object, and all `deadlock` goals are one shared object.  `EF deadlock` and `AG not deadlock` in one
  run therefore get the same verdict.
- F11 (C13, `C13_finding_null_dereference`): `prepareForReachability` yields null for `A`/`E` in front of
  anything but `G`/`F` and the caller dereferences it; only the earlier check `isReachability` prevents it.
- F12 (C13, `C13_finding_ctl_engine_AG`): `recursiveSolve` of the CTL engine returns the unturned answer for
  `AG φ`; only the earlier rewriting (`AG φ` to `not EF not φ`, `C13_rewritten_query_partial`) hides it.
- F13 (C14, `C14_finding_second_trace_wrong`, `C14_finding_empty_stack`): in the random-walk search, printing
  a trace empties the stack that records the walk.  With several queries the next trace lacks its beginning,
  or `top()`/`pop()` is called on an empty stack.
- F14 (C39, `C39_finding_assign_empty`): `light_deque::operator=` from an empty deque allocates a block of
  size 0, and the next `push_back` writes outside it.  There is also an implicit (shallow) copy constructor,
  and self-assignment loses the elements.
- F15 (C35, `C35_finding_wraps`, `C35_finding_division_by_zero`): colour products with 2^32 or more colours
  wrap in `ColorSequence` (all tuples may be packed to 0); a codec with 2^64 or more values divides by zero.
  `IntegerPackCodec::addToValue` has no caller.
- F16 (C36, `C36_finding_and_repeats`, `C36_finding_size_unbounded`): `prvector_t::operator&=` does not advance
  the other iterator when the places are equal, so the result lists a place twice (no caller uses the
  operator); the size of an unbounded range wraps to 0.
- F17 (C40, `C40_finding_extra_tokens`, `C40_finding_after_deadlock`): trace replay does not check tokens
  listed for places that are not inputs of the transition, and ignores every entry after a deadlock entry.
- F18 (C37, `C37_finding_second_simplification`): simplifying an upper-bound query that already has an offset
  subtracts the old offset twice; not reachable, because `LinearProgram::bounds` returns after the total
  whenever it sets an offset (`C37_lp_only_total`).
- F19 (C33, `C33_finding_wraps`, `C33_finding_distinct_size`): counts of coloured multisets wrap at 2^32;
  `distinctSize` also counts colours whose multiplicity was subtracted to 0, and the coloured reduction rules
  use it to compare supports.
- F20 (C21, `C21_finding_constants_truncated`): the 64-bit constant of a sum or product is written to binary
  query files as 32 bits, which changes the meaning of the query.
- F21 (C20, `C20_finding_stable_large`): the stable-marking query compares with the initial marking converted to
  `int`; 2^31 or more initial tokens make the query false for a stable place.
- F22 (C27, `certainZero_not_stratified`): `Configuration::addDependency` raises the distance of a target but not
  that of configurations explored from it before; on a stratified graph in which a configuration is shared
  between negation levels the certain-zero algorithm can release a negated edge too early and answer wrongly,
  depending on the search order.  Graphs generated from CTL queries are layered (C26), where this cannot happen.
  The local algorithm has the same flaw (C28, `localFPA_not_stratified`).
- F23 (C41, `C41_finding_eval_whole_query`): for a subformula without temporal operators
  `OnTheFlyDG::successors` evaluates the whole query, not the subformula (a debug build asserts).  `CTLMain`
  evaluates queries first and so never meets the case; a direct call answers `not (p = 1)` wrongly.  In the same
  function the `RFALSE` branch for `AF` drops the subquery edge and leaves an empty edge behind (which would mean
  "true"); evaluation of `AF` never returns false, so the branch is dead.
- F24 (C24, `C24_finding_negative_product`): the interesting-transition visitor treats a product of a negative
  constant and one operand as increasing; the stubborn set can be empty although the goal is reachable.
- F25 (C24, `C24_finding_unary_minus`): the same for a unary minus, which the visitors skip.
- F26 (C24, `C24_finding_truncated_value`): `setEval(int)` cuts 64-bit values to 32 bits, and the visitor decides
  with the cut values what to add.
- F27 (C24, `C24_finding_token_bound`): with a token bound the reduced search misses goals that the full search
  finds within the bound.

Notes on the stubborn set model (`Verif/Stubborn`): results stored in query objects are a memory `Mem` addressed by
position (sharing of condition objects is harmless, because equal objects store equal results in one
evaluation); `_places`/`_arcs` are computed rather than flattened; the sentinel `INT32_MAX`
for "no candidate" is an `Option`; the visitor of upper-bound queries is left out.

## LTL searches (`Verif/LTL`, C29, C30)

`PGraph` is the interface between the searches and the product generator: successor lists (in an order that may change
from visit to visit), acceptance, "invariant self loop", whether the state set stores a state, and the hash function.
`Tarjan.lean` and `Ndfs.lean` model the two searches as step functions on their stacks; product states stand for their
ids in the state set.  Left out of the Tarjan model: `_dstack` and the calls of `generate_all`, `push` and `pop` guarded by
`if constexpr (std::is_same<SuccGen, SpoolingSuccessorGenerator>)`.  `SuccGen` is always an instance of
`ProductSuccessorGenerator`, so that code is never instantiated.  (Consequence: the cycle proviso of the partial-order
reduction is not in the program.)

- F28 (C29, `C29_finding_trace_without_loop`): `NestedDepthFirstSearch::build_trace` drops the last entry of the nested
  stack, i.e. the transition that closes the cycle, and puts the loop mark at the state of that entry.  Unless that
  state is also on the outer stack, the printed trace has neither the closing transition nor a loop mark.

## LTL product, translation and engine (`Verif/LTL`, C43-C46)

- `Product.lean`: automaton as spot hands it over (edges in order, guards as decision diagrams), `guard_valid`, the resuming
  product generator (`prepare`/`next` with the counters, the last stored marking and the position in the automaton's
  edge list recovered from the last destination), initial states, product ids.
- `Formula.lean`: `to_ltl`, the validator, the translation to spot's formulas including the table of propositions and the
  compression options.  HyperLTL is not modelled apart from `Hyper.lean` (C85, C86); `LTL::simplify` is in
  `SpotBack.lean` (C89).
- `Engine.lean`: constructor and `solve` of `LTLSearch`, without partial-order reduction.
- Trusted: the contract `SpotOK` (automaton accepts exactly the words satisfying the formula; different propositions
  get different variables), that the printer gives different texts to propositions that differ in meaning
  (`PrintFor`), that spot merges parallel edges (`Buchi.Simple`).
- F29 (C43, `C43_finding_parallel_edges`): with two edges between the same automaton states the generator returns
  the same successor for ever.
- F30 (C43, `C43_finding_no_places`): for a net without places a finished generator looks fresh, and enumeration never
  ends.
- F31 (C44, `C44_finding_collision`): NDFS does not check that the automaton has at most 2^20 states; ids collide beyond.
- F32 (C45, `C45_finding_until`): the validator does not visit the second operand of an until; `A(true U EF q)` passes,
  `EF` is translated to `F`, and the answer is wrong.
- F33 (C46, `C46_finding_token_bound`): under a token bound "satisfied" is printed although successors were cut off.

## Synthesis (`Verif/Synthesis`, C38, C47)

`Model.lean` is `SimpleSynthesis::run` on an abstract game (successor lists of environment and controller, token bound, goal)
with an arbitrary exploration order; `Spec/Game.lean` is the specification (strategies with memory, plays);
`Strategy.lean` relates the two; `Net.lean` instantiates the game with a net and a query; `Print.lean` is
`print_strategy`.  Stubborn sets for games (`use_stubborn`) are not modelled.

- F34 (C38, `C38_finding_idle_transition`): if a controllable transition has no effect and the environment has a move, the
  non-permissive mode (the only one `main.cpp` uses) settles the marking as not winning: `AG true` is answered
  "not satisfied".
- F35 (C47, `C47_finding_printed_strategy_cycles`): for `AF` all winning moves are printed, so a controller that follows the
  printed strategy can go round in circles; the entry of the initial marking can be printed twice.
- F36 (C47, `C47_finding_unsafe_move_printed`): for `AG` moves to markings that were not explored are printed beside the
  winning ones, and they can be losing.

## Structural reductions (`Verif/Reduce`, C31)

- `Model.lean`, `Model2.lean`, `ModelH.lean`, `ModelR.lean`, `ModelP.lean`: the rules A-J, L-S of `Reducer.cpp` with their applicability checks, their order
  (`Reduce`, modes 1, 2, 3) and the clock as an oracle.  Rule K is only applied when asked for by number and not modelled
  (the model of mode 3 returns `none`).  The reducer's trace information (`_initfire`, `_postfire`, `_extraconsume`) is not
  modelled.
- `RNet.bad` is a ghost flag: a rule sets it when it is applied outside of the conditions under which it is sound.  It
  has no influence on the reduction.
- `Rules*.lean`: `Good Q N N'`, one theorem per rule.  `Pipeline.lean`: any run composes them.  `Keep.lean`: the places of
  the query survive.  `Quiet.lean`: which rules never set `bad` (A, E, F, G, H, L, M, N, O, Q on any net; C, D, I, R on nets
  without inhibitor arcs).  `Bridge.lean`, `Compile.lean`: the builder before and after, and the compiled net.
- `Check.lean`: a small checker (a path in one net, a closed set of markings in the other), used by the findings.

Findings, all in `Verif/Props/ReduceBugs.lean`:

- F37 (`C31_ruleB_initial_tokens_lost`): rule B moves the initial tokens of the removed place by integer division, per
  producer; with several producers the rest is lost (default reductions, no inhibitor arcs).
- F38 (`C31_ruleB_all_or_nothing`): rule B's weighted variant makes the consumer fire for all tokens of the producer at
  once although another input of the consumer may only suffice for some of them (default reductions).
- F39 (`C31_ruleB_inhibitor`, `C31_ruleC_inhibitor`, `C31_ruleD_inhibitor`, `C31_ruleI_inhibitor`): rules B, C, D and I do
  not look at all the inhibitor arcs they should; C and I under the default reductions.
- F40 (`C31_ruleEP_revives_dead_transitions`): rules E and P of mode 3 remove an empty place instead of its consumers, so
  dead transitions become fireable.
- F41 (`C31_ruleJ_sentinel`): rule J uses the largest 32-bit number as "no arc seen", which collides with a weight.
- F42 (`C31_ruleS_all_or_nothing`): rule S removes the transitions that stand for "the consumer does not fire as often
  as it could" (default reductions, no inhibitor arcs).
- Observations (not modelled): rules A and B record wrong firing counts for the trace; rule S keeps a reference into a
  vector across `emplace_back` and calls `lower_bound` on an unsorted `vector<bool>`; the filter of mode 3 for queries
  with a next operator differs from that of mode 1.

## Query simplification by linear programs (`Verif/Simp`, C22, C23)

- `Member.lean`: the linear form of an expression (`Member.h`, `ConstraintVisitor`), with the conversions to `int`.
- `LP.lean`: rows, equations, single programs and the collections (`MergeCollection`, `UnionCollection`,
  `SingleProgram`) with their enumeration (`merge`, `reset`, `size`).  `none` is "more fuel needed" or undefined behaviour.
- `Model.lean`: `Simplifier.cpp` (all connectives, comparisons, conjunctions of bounds, quantifiers).  The clock, the
  solver's answers, and the addresses of cached rows are an `Oracle`; every question has its own place, so answers never
  repeat by force.  The statements hold for all oracles whose `impossible` answers are right and whose addresses are
  injective.
- `CollLemmas.lean`, `SatC.lean`, `Sound*.lean`, `Main.lean`: `simplify_good`.
- Not modelled: upper-bound queries, `ControlCondition`, path quantifiers of hyper queries, `KSafe` and similar
  shorthands (expanded before, C20), the branch-and-bound details of GLPK (oracle).

Findings:

- F43 (`C22_finding_bound_truncated`): bounds of a conjunction of bounds above `INT_MAX` are converted to `int`; e.g. what
  stands for `p > 2147483647` is simplified to true.
- F44 (`C22_finding_literal_truncated`): the comparison that replaces a single bound above `INT_MAX` has a negative
  literal.
- F45 (`C23_finding_literal_truncated`): linear forms truncate constants to `int`.
- Observations (not modelled): `UnionCollection` may become empty while `possible` was answered, and a later `lps[0]` is
  then undefined (outcome `none` of the model); the negation of a `ControlCondition` is flipped twice.

## Unfolding of coloured nets (`Verif/CPN`, C34)

Specification (`Verif/Spec/Coloured.lean`): a colour is a list of digits, a marking gives each place a multiset of
colours, an assignment gives every variable a colour of its type; a transition fires under an assignment that satisfies
its guard.  The evaluation of expressions in the specification is over values (lists of digits), not over the colour
numbers that the code uses.

Model: `Syntax` (types, expressions, nets), `Eval` (`EvaluationVisitor` on colour numbers), `Unfold` (the naive
binding generator, `unfoldTransition`, `unfoldArc`, `unfoldPlace`, `unfoldInhibitorArc`, `handleOrphanPlace` as a list of
calls of the `PetriNetBuilder` of `Verif/Builder`).  The result is a list of builder operations, so that the theorems on
the builder (C03) carry on to the net compiled.  Not modelled: the colour partition, the colour fixed point, and the
`FixpointBindingGenerator` that go with them; the simulation lemmas (`CPN/Sim.lean`) hold for every generator that yields
each legal binding once (`GenOK`).

Lemmas: `Values` (colour numbers are mixed-radix digits), `EvalLemmas`, `BindingLemmas` (the counter visits each
binding once), `Names` (names of places and transitions differ), `Grow` (the operations each call contributes),
`Shares` (weights are the specified ones), `Sim`, `Count`, `Compile`.

Findings:
- F46 (`C34_finding_sum_place_counted`): the `Sum` place of an inhibited place is registered under the coloured name when
  the inhibitor arc is met first, so a query may count it, or drop a proper place.
- F47 (`C34_finding_inhibited_input_throws`): an inhibitor arc from a place that is also an input of the transition makes
  the builder throw, because the same (sum) place is input and inhibitor.
- F48 (`C34_finding_twin_products_lose_tokens`): with two product types of the same constituents the initial tokens of a
  place of the second one are not found.
- F49 (`C34_finding_heavy_arc_no_sum`): the weight to the `Sum` place is an `int`; at 2^31 the arc is not made.

## Siphon-trap analysis (`Verif/ST`, C48)

`Model` follows `STSolver.cpp`: growing a siphon place by place, `computeTrap`, and the antichain that remembers sets
already dealt with.  `std::rand()` and the clock are arbitrary functions of the number of calls so far, so the theorems hold
for all outcomes.  `Good C l` in `Lemmas` is the invariant of the antichain: every siphon that includes `l` contains a trap
with a token.  `LemmasNet` adds dead markings, termination (needs the ascending presets that the builder makes) and the
converse (`Bad`).

Findings:
- F50 (`C48_finding_no_transitions`): on a net without transitions whose places are all marked the analysis reports that
  there is no deadlock, but the initial marking is one.
- F51 (not modelled): `printResult` passes query number 0 to the printer for every query (STSolver.cpp:208), so with several
  queries the name printed is that of the first.

## Explicit coloured engine (`Verif/XCol`, C49-)

`XCol/MultiSet.lean` is `SequenceMultiSet`: a list of (colour, number) pairs and the cached cardinality, with exact integers; the
functions with suffix `M` add the 32-bit checks of the code and distinguish the exception from a signed overflow.
`XCol/Encoder.lean` is `ColoredEncoder`: the bytes written for a marking, what the search stores of them, and `decode`.

- F52 (`C49_finding_le_negative`): `operator<=` answers no when entries of the left operand are left at the end and one is
  negative, though 0 would be enough on the right.  Minimal markings of arc expressions with subtractions have such entries.
- F53 (`C49_finding_plus_overflow`, `C49_finding_set_overflow`): `operator+=` checks for too many tokens only at colours present in
  both sets, and `setCount` checks in unsigned arithmetic; otherwise `int32_t` overflows.
- F54 (`C50_finding_truncated`): encodings are cut after 65535 bytes; different markings are then stored alike and the second is
  not explored.  (`_size == UINT16_MAX` in `_writeToPad` is never true: the sizes are 512, 1024, ….)

`XCol/Arc.lean`, `Net.lean` are the compilers (arc expressions to sequences of parameterised colours with constants folded, guards to
pairs with offsets, minimal markings, constraints on variables) and `ExplicitColoredPetriNetBuilder`; `Gen.lean` is
`findNextValidBinding` with constraint data; `Search.lean` the two ways of enumerating (`_nextFixed`, `_nextEven`), compiled
propositions, the search, verdicts and traces.  The specification is that of C34 (`Spec/Coloured.lean`) with `Spec/ColQuery.lean`.
`ArcComp`, `GuardComp`, `MarkLemmas` prove that compiled arcs, guards and markings mean what the net says; `GenLemmas`, `FindLemmas`
that the bindings found are exactly the firings; `NextLemmas` adds the cache and the resumable generators; `SearchLemmas` the search.
The order of the waiting list and the state whose cache entries are dropped are arbitrary functions (`pick`), so that the theorems
cover DFS, BFS, random DFS and best first.  Hypotheses: `XFit` (see the findings for each of its fields), `Tidy` (arcs go to existing
places; the initial marking lists no colour with 0 tokens, which would be stored differently), `Small` (numbers of tokens below 2^32),
`XQ.fine` (no negative literals), fewer than 2^48 rounds (identities of states have 48 bits in the keys of the cache).

Findings:
- F55 (`C51_finding_constant`): `replaceConstants` evaluates the components of a constant tuple with the size of the first component
  of the type (`getColorMaxes()[i]` with the index of the tuple): the constant (a0, b4) of A(2) × B(5) becomes (a0, b0).
- F56 (`C52_finding_unknown`): when encodings were cut the result is `Unknown`, which `_getResult` turns into false, reported as
  not satisfied for EF and for AG.
- F57 (`C51_finding_subtraction`): the minimal marking of `2'a - 1'b` with b after a has a negative entry at the end, for which `<=`
  answers no (F52): an enabled transition is never fired.  A subtraction on the right of a subtraction requires too much:
  `1'a - (1'b - 1'a)` requires two a.
- F58 (`C51_finding_two_arcs`): two input arcs from one place to one transition are checked one by one, and consuming clips at 0.
- F59 (`C51_finding_product_variable`): with more than 30 bindings, a variable of a product type gets only the values of component 0
  of the tokens; enabled transitions are missed.
- F60 (`C51_finding_keys`): 16 bits of the transition in the keys of the cache: transitions 0 and 65536 of a state share an entry.
- F61 (`C52_finding_negative`): negative literals are converted to `uint32_t`.
- F62 (not modelled): `_nextEven` reads `_transitions[n]` past the end in each round; `shrinkState(next.id)` reads a state after
  `waiting.remove()` destroyed it; a range-for over a vector that grows in `replaceConstants` and `preCalculate`; the best-first queue
  takes the greatest distance first; the size of a product type wraps at 2^32 in `addColorType`.

## Trace abstraction refinement (`Verif/TAR`, C54-C59)

`Range.lean`, `Automata.lean` are `range_t`, `prvector_t`, `AutomataState`, `TraceSet` (an automaton whose states carry predicates: vectors
of token ranges sorted by place; `rmax`, the largest 32-bit number, stands for "no bound").  `RangeCtx.lean` is `RangeContext` (a
range around a marking where the query is false) and `RangeEvalContext` (ranges sufficient for the query to be false);
`Solver.lean` is `findFree`, `findFailure`, `computeTerminal`, `computeHoare`, `check`; `Search.lean` is `runTAR`, `tryReach` and
`reachable`.  `AntiChain.lean` is the container shared with the siphon-trap solver.

*Arbitrary*: `std::rand()`, and the contents of `_bool_result` and `_literal` of `RangeEvalContext`, which its constructor leaves
uninitialised.  *Outcomes*: `unsupported` (inhibitor arcs, quantified queries), `overflow` (a bound or a number of tokens that reaches
`rmax`: the code asserts, saturates or wraps), `timeout` (the steps given to the model are used up).  *Not modelled*: upper-bound queries,
statistics, printing of the trace.

The answer "satisfied" is right for every query (C55).  The answer "not satisfied" rests on the invariant that every edge of the
automaton is a valid triple (markings satisfying the source predicate go to markings satisfying the target one), shown for
queries where the visitors do not go wrong (`rcSafe`, `reSafe`), C56.  Triples are claimed for markings with a token somewhere: the engine
takes the predicate "every place is empty" for the one that is satisfied by no marking (`is_false`), hence the
hypothesis on the empty marking; a random search did not find a net where it matters.

Findings:

- F63 (`C56_wrong`, `C57_overwritten`): `RangeContext` replaces, instead of intersects, the range of a place in a
  `CompareConjunction`: in a disjunction the bounds found for an earlier disjunct are lost, the predicate no longer excludes the goal, and
  the engine answers "not satisfied" for a reachable goal.
- F64 (`C57_lowerCheck`): `RangeEvalContext` compares the lower bound already found with the lower instead of the upper bound of the
  constraint (`_sufficient.lower(...) > c._lower`).
- F65 (`C59_noAnswer`): `EqualCondition` and `NotEqualCondition` are never excluded (`_is_dirty = true`): the same trace is
  found and checked for ever, although the goal is reachable.
- F66 (model only): `_bool_result` and `_literal` are read uninitialised; the thresholds for a number on the left of a comparison are off by
  one; `inter.erase(begin, begin)` erases nothing; `mx` in `computeTerminal` is never updated; every false condition of a conjunction is
  visited twice by `RangeEvalContext`.
- F67 (model only): `range_t::operator+=` saturates the upper bound, which then reads as "no bound".

## XML queries and CTL recognition (`Verif/PQL/Xml*.lean`, `Verif/PQL/Ctl*.lean`, C60, C61)

`Xml.lean` models `XMLPrinter.cpp` as a function from queries to events (open, close, text) and `QueryXMLParser.cpp` as a
function on the tree that `build` makes of the events.  rapidxml itself (characters to nodes) is trusted; white space
between elements and escaping of characters is not modelled (the printer does not escape `<` and `&`).  A null result, an
exception and undefined behaviour are three different failures.  The nesting depth is bounded by a fuel, which is the
number of events; the theorems show it suffices.  Named traces (`ExistPath`, `AllPaths`, `path-scope`) and `control` below
the top are not modelled.  `Ctl.lean` models `CTLVisitor.cpp`; the uninitialised field `_cur_type` is a parameter.

Printed CTL operators (`EX`, ...) are read back as two operators (`E X`), which mean the same except for `next` in
deadlocks (a path stays for ever, but there is no next state); the conversion of `AsCTL` restores the CTL operators, and
the theorem for CTL formulas is about the converted formula.  The upper bound 2^32-1 of a constraint is not printed, so
the same meaning is claimed for paths of 32-bit markings only.

- F68 (`C60_finding_bounds_not_read`): an upper-bounds query is printed as `exists-path`/`finally`/`place-bound`, and the
  parser accepts `place-bound` at the top only: no such query can be read back.
- F69 (`C60_finding_trivial_constraints`): a `CompareConjunction` with one constraint 0 to 2^32-1 is printed as nothing,
  with several of them as an empty `conjunction`, for which the parser throws.
- F70 (`C60_finding_large_constants`): bounds and constants from 2^31 on are printed, and read by `sscanf("%d")`, which
  is undefined for them.
- F71 (`C60_finding_empty_sum`, `C60_finding_single_difference`): a sum 0 or product 1 without operands is printed as
  nothing; a difference with one operand `e` is read back as `0 - e`.
- F72 (`C60_finding_white_space`, `C60_finding_reachability_tag`): white space in place names is dropped; a query with the
  tag `is-reachability` = `true` is refused.  Not modelled: the bound of `k-safe` is parsed from the first child for every
  child.
- F73 (`C61_finding_path_formula_accepted`): the type of the whole query is not checked: `F p` is accepted as CTL and
  `AsCTL` returns a null pointer for it.
- F74 (`C61_finding_until_operand_not_checked`): the second operand of `EU` and `AU` is never visited.
- F75 (`C61_finding_type_not_initialised`): the type is not initialised; an empty conjunction leaves it so.
- F76 (`C61_finding_quantifier_dropped`): `AsCTL` turns `A (EF p)` into `AF p` (the check rejects that formula).

## Colour fixed point (`Verif/CFP`, C62-)

Before unfolding, `ForwardFixedPoint` over-approximates the colours each place can hold by boxes (`Intervals.h`), and for each
transition the colours of its variables.  The unfolder enumerates only the bindings within them, so a colour lost here is
behaviour lost.

- `CFP/Intervals.lean`: ranges, boxes, lists of boxes and all their operations.
- `CFP/Visitors.lean`: the visitors over arc expressions (variables with modifiers, constants, intervals found on an input arc,
  intervals produced by an output arc) and `IntervalGenerator` (maps from variables to boxes).
- `CFP/Guard.lean`: `RestrictVisitor`/`GuardRestrictor`, for plain types.
- `CFP/Fixpoint.lean`: `ForwardFixedPoint::compute`, without a partition; the limit on the number of intervals is a function of
  the round, as it depends on the time.
- `CFP/Gen.lean`: `FixpointBindingGenerator`, without symmetric variables: the bindings of a transition from its maps.
- `CFP/Symmetry.lean`: `VariableSymmetry`, `SymmetryVisitor` and `FixpointBindingGenerator` with symmetric variables, without a
  partition.  A set of variables is a list in the order of the variables of the transition.
- Lemma files: `IntervalLemmas`, `IntervalOps`, `IntervalCount`, `TermLemmas`, `GenLemmas`, `Align`, `OutLemmas`,
  `GuardLemmas`, `GuardMain`, `Classes`, `FixLemmas`, `FixMain`, `WalkLemmas`, `GenMain`, `SymLemmas`, `SymMain`, `SymNet`.

C78 says that leaving out symmetric bindings keeps the behaviour of the net, if the check `even` holds: at most one set of symmetric
variables at each transition, all of one type, and on each arc either none of them or each once with the same number.  (If the
transition has other variables, also: in maps after the first, the colour 0 comes first if it is there.  This is needed because the
first binding of a later map takes the place of the first sequence; no net is known in which it fails.)

A box means the set of values in it.  C62 is about the operations; C63, C64, C65 say for one transition that the input arcs,
the guard and the output arcs lose nothing.  All of C63-C65 quantify over an assignment of values and use the meaning of
expressions of `Spec/Coloured.lean`.  The visitors are wrong for some expressions; the theorems then have a decidable condition
on the expression (`aligned`, `guardOk`), and separate theorems (`C63_sums_aligned`, `C64_plain_guards`) say which usual
expressions satisfy it.

C66 is about the whole computation: at its end the boxes contain the tokens of all reachable markings (`Spec/Coloured.lean`) and the
maps contain the enabled bindings.  The invariant (`Good`): each transition waits for a visit, or is closed under the present boxes.
The code decides by counting colours whether a place has grown; `tidy` says that along the run no growth is missed by this.

C67 is about the generator: it goes through the colours of a variable from the lower corner of a box upwards, looking at each step
whether the colour is the upper corner of some box.  It works if no upper corner of another box is met on the way (`tame`); for plain
types this holds whenever the boxes have no common colours.

C68 puts C66, C67 and C34 together: the net unfolded with the bindings of the fixed point has the reachable markings of the coloured
net.  `CPN/Covering.lean` has the general fact: the unfolder is right with any generator that gives legal bindings and all those enabled
in reachable markings.

Simplifications: unordered maps are lists; boxes have the right dimension (asserted in the code); in guards, variables and
constants of product types (`expandIdVec`, `expandIntervalVec`) and diagonal positions are left out.

Findings:

- F77 (`C62_finding_join_adds`): joining boxes of several dimensions adds values (harmless: an over-approximation).
- F78 (`C62_finding_simplify_leaves_overlaps`): `simplify` makes one pass; boxes that overlap remain and are counted twice.
- F79 (`C62_finding_shift_far`): a modifier below minus the size of the type is taken modulo 2^32, then modulo the size.
- F80 (`C62_finding_count_wraps`): colours are counted in 32 bits.
- F81 (`C62_finding_no_ids`, `C64_finding_order_of_variables`): `getLowerIds`/`getUpperIds` with a modifier loop over the empty
  list they should fill, so `x < y` restricts nothing.
- F82 (`C63_finding_constant_first`, `C63_finding_two_constants_first`): in `1'c ++ 1'x` the entry of `x` is put at the leaf of
  the constant, so `x` is bound to `c`; with two constants first a vector is read beyond its end.
- F83 (`C63_finding_subtracted_variable`): a variable that occurs only in the subtracted part makes the transition dead.
- F84 (`C63_finding_several_terms`): several terms in one multiple are all looked for in the same box.
- F85 (`C64_finding_different_variables`): `x != y` with several colours each returns early from `handleInequalityVars` and
  leaves the maps restricted by `x = y`: bindings that satisfy the guard are lost.
- F86 (`C64_finding_successor_bound`): a constant bounds the variable as if it had no successor.
- F87 (`C64_finding_same_variable`): `x++ = x++` moves the colours of `x` (both names alias one entry).
- F88 (`C64_finding_tuple_successor`): `ConstantVisitor` applies a successor to constants of earlier components.
- F89 (`C64_finding_tuple_different`): inequality of tuples is required in each component.
- F90 (`C65_finding_product_constant`): a constant of a product type is a box of one dimension.
- F91 (`C66_finding_considered`): a transition whose output arcs have no variables is marked `_considered` after its first activation;
  colours that reach its input places later never get into its maps, and the bindings with them are lost in the unfolding.
- F92 (`C66_finding_restrict`): restricting the number of boxes adds colours to a place without queueing it; after the limit is
  lowered (by the timer), a token that comes later goes unnoticed by transitions visited before.
- F93 (`C66_finding_subtraction`): only a subtraction at the top of an arc expression makes the place have all colours.
- F94 (`C67_finding_product_boxes`): with several boxes of a product type, the generator counts through the colours between the
  corners and leaves a box early at the upper corner of another one; the rest of the box gets no bindings.
- F95 (`C67_finding_common_colour`): with boxes that share the colour at the end of one of them, the generator never ends.  (F94 and
  F95 are about maps given to the generator; that the fixed point can produce such maps is not shown.)
- F91 again (`C68_finding_lost_transition`): the unfolded net is dead in a marking in which the coloured net can go on.

## The net without colours (`Verif/XCol/Ignorant*.lean`, C69-)

`XCol/Ignorant.lean` models `ColorIgnorantPetriNetBuilder` and `Unfolder::strip_colors` as the list of calls to the builder of the plain
net.  Without subtraction each transition is taken over with exact weights; with one, `copies` counts through all weights between the
bounds of the arcs (`IgnorantLemmas.lean`: the loop ends and passes through every choice, `copies_all`, `allR_has`).
`IgnorantNet.lean` reads the arcs off the calls; `IgnorantCover.lean` shows that every firing of the coloured net is that of a copy.
C69 lifts this to the compiled net through C03.

Left out: transitions that the coloured reduction skipped (declared without arcs), coordinates, partitions (`std::map` order of the
copies: only their numbers in the net depend on it).

Findings:

- F96 (`C69_finding_inhibitor_throws`): the copies are called `t`, `t___2`, `t___3`, ..., but inhibitor arcs go to `t___0`, `t___1`, ...:
  every net with a subtraction and an inhibitor arc makes the builder throw "Could not find transition".
- F97 (`C69_finding_name_of_copy`): a transition that has the name of a copy gets the arcs of the copy on top of its own, and the net
  no longer simulates the coloured one.

`XCol/IgnorantCheck.lean` models what the explicit engine concludes from that net (`checkFireabilityColorIgnorantLP`,
`checkCardinalityColorIgnorantLP`): the three-valued evaluation `fe` that looks at lower bounds only, the search with its time limit, the
two queries `AG φ` and `EF φ`, and the verdicts.  `IgnorantCheckLemmas.lean` shows that the rewriting keeps the formulas such that `fe`
is right when it decides (`Snd`, `Src`).  C71 lifts this to the coloured net through C69; C70 does the same for cardinality with
C16, C17 and C22.  The first call of `pushNegation` (before the name resolution) and the flattening of connectives are not modelled:
the query is given after them, with binary connectives.

- F98 (`C71_finding_no_arcs`, `C71_finding_inhibitors_only`): a transition without input arcs is compiled to "true", although its guard,
  which the net without colours has lost, may never hold: the engine says that it can fire.  With inhibitor arcs only, merging two
  negated comparisons turns the upper bound into a lower one and the answer is wrong in the same way.

## Coloured reductions (C72-)

`CRed/VarMs.lean` models the texts and weights of arc expressions and the variable multisets that the coloured reductions compare;
`CRed/Model.lean` the state of `ColoredReducer` (net, skipped places and transitions; the lists `_pre`, `_post` and the counters of
inhibitor arcs are read off the arcs) and the rules.  A rule returns `none` if the code throws.  Time-outs are an arbitrary function.
`Spec/ColRed.lean` gives the semantics of nets with parts left out and the notions of correctness: `Same` (bisimilar, firing the same
transitions, with equal tokens on the places that are left) and `Keeps` (EF φ keeps its answer).  `CRed/Base.lean` shows that leaving
out a place that never keeps a transition from firing, or a transition that never fires, gives `Same`; `CRed/VarLemmas.lean` that
variable multisets mean the tokens of the expressions.  Hypotheses: `CNet.WF`, arcs sorted by place with one arc for each place
(`Sorted`; the builder and the reducer keep it so), and `Readable` (texts that are equal stand for equal expressions).
`CRed/Dots.lean` reduces nets without colours to counters, for examples and counterexamples.

- F99 (`C72_finding_throws`): the comparison of two variable multisets throws "Cannot compare multisets of different types" when one arc
  uses a variable of a product type and the other a tuple of variables, both of which are of the type of the place.  No one catches it.
- F100 (`C73_finding_producers`): `skipplace` compares the number of dead transitions with `_pre.size()` instead of `_post.size()`.  A
  place is removed while a consumer is alive, and this consumer may then fire for ever.
- F101 (`C73_finding_names`): expressions are compared by their texts, in which a variable and a colour of the same name look alike.

`CRed/ParTrans.lean` models the rule for parallel transitions: the removal of transitions without arcs, the multiplier of two
expressions (`multOf`, in 32 bits as in the code) and the comparison of two transitions; the driver is given the list of pairs that it
gets to compare, in any order.  C74 holds for nets with weights below 2^16, no empty products and readable texts (`Tidy`).

- F102 (`C74_finding_guard`): of the transitions without arcs the first is kept, whatever its guard; if it can never fire, and one that
  always can is removed, a net without deadlock gets one.
- F103 (`C74_finding_wrap`): `isMultiple` multiplies in 32 bits: 65536 · 65537 passes for 65536.
- F104 (`C74_finding_zero`): a transition whose arcs carry no tokens is 0 times any other; it is removed although it keeps the net from
  deadlock.

`CRed/Relevance.lean` models the rule for relevance with its flags and its stack; `RelLemmas.lean` shows what the flags say when the
stack is empty (`Flagged`), that the stack gets empty, and that leaving out the rest keeps queries: the reduced net has at least the
tokens on input places of flagged transitions, and on inhibiting places at most the tokens, or both inhibit.  `CRed/Weights.lean` shows
that the weight of an expression without subtractions is the number of its tokens.

- F105 (`C75_finding_flagged`): the input places of a transition in the query are treated as places of the query only if the transition
  is not flagged yet; EF(fireable a and not fireable b) becomes wrong.
- F106 (`C75_finding_inhibited`): transitions that add to a place that inhibits a transition of the query are removed; EF(not fireable t)
  becomes wrong.
- F107 (`C75_finding_subtraction`): `weight()` of `2'x - 1'y` is 1; a transition that takes two tokens away passes for a loop that
  returns as many.

`CRed/ParPlaces.lean` models the rule for parallel places.  The ratio, a `double` in the code, is the pair of the numbers that are divided;
comparing crosswise agrees with `double`, infinities and not-a-numbers included, for numbers below 2^26.  The driver is given the pairs.
C76 holds if the tokens at the start are in the ratio that the rule has found (`Fair`); this is so if the ratio is a whole number and the
product fits 32 bits (`C76_whole`), and always if a transition takes as many tokens of a tuple from one place as from another (`Even`).

- F108 (`C76_finding_cut`): the ratio is cut to a `uint32_t` before the tokens are multiplied by it; with 1/2, a place with one token passes
  for as good as one with four.
- F109 (`C76_finding_wrap`): the product is taken in 32 bits; 65536 times 65536 tokens pass for none.

`CRed/Preempt.lean` models preemptive firing.  `PreemptLemmas.lean` shows that a marking and the one where some tokens have already been moved
by their only consumer reach the same queries (`mover_keeps`); `PreemptPour.lean` that the rule does this (`fireAll_ok`).  C77 holds if the arcs
of the transitions that are fired carry tokens of single variables, no tokens are put back, the sums fit, and no deadlock is negated.

- F110 (`C77_finding_constant`): only the weight of the arc is looked at; with a constant on the arc, tokens of other colours are moved although
  the transition can never fire.
- F111 (`C77_finding_loop`): tokens that the transition puts back on the same place are lost; a net without deadlock becomes dead.
- F112 (`C77_finding_wrap`): the tokens are added in 32 bits.
- F113 (`C77_finding_notDead`): a deadlock counts as nested only under conjunctions and disjunctions, so the rule is used for EF ¬deadlock, which
  it changes.
- F114 (`C77_finding_stale`): `place._post[0]` is read after `skipPlace` has cleared the vector; the model has a flag that says whether the old
  element is still there.
- F115 (`C77_finding_zero`): the tokens are divided by the weight of the arc, which may be 0.

### Findings on symmetric variables

- F116 (`C78_finding_repeated`): a variable that occurs twice on an input arc is taken for symmetric with one that occurs once, as
  `SymmetryVisitor` compares numbers and not terms; the only enabled binding is left out and the unfolded net is dead.
- F117 (`C78_finding_two_sets`): with two sets of symmetric variables the sequences of one set follow those of the other; the pairs are not
  gone through, and the unfolded net is dead.
- F118 (`C78_finding_output`): on the output arc only the presence of the variables is checked; with different numbers, a reachable dead
  marking is lost.
- F119 (`C78_finding_types`): the types of the variables are not compared; the generator asks a smaller type for a colour that it does not
  have (undefined behaviour).

### Findings on the checkers of queries

`PQL/Checkers.lean` models the visitors of `PredicateCheckers.cpp` that decide which reductions are used, and the places counted by
`analyze`; `Reduce/QueryFlags.lean` the flags that `PetriNetBuilder::reduce` computes from them.  `PQL/Stutter.lean` proves that queries
without next have the same truth on paths that are the same up to repetition (`Stair`), `PQL/Loops.lean` that queries that pass
`isLoopSensitive` have the same truth with and without steps that change nothing, if the flag of the visitor tells the truth (`aligned`;
always so for CTL, and for LTL without inner negations).

- F120 (`C79_finding_flag`): `_negated` is turned by a negation and not turned back when the negation is left.  In
  `A(not p ∧ (true U q))` the until passes for harmless, although a loop makes the query false.  (Negations are still there when
  `reduceColored` asks.)
- F121 (`C79_finding_negated`): below a negation the path quantifier `A` turns the flag off; `not A(true U q)` passes.
- F122 (`C80_finding_late`): `_nested_in_logical_condition` is off after an inner conjunction or disjunction, so that the deadlock in
  `EF((p ∨ q) ∧ deadlock)` does not count as nested.

### Classic reduction of the LTL engine (C81)

`LTL/Visible.lean` models the visitor that finds the places of a formula, the visible transitions, the key transition and
`VisibleLTLStubbornSet::prepare` with rule V'.  `VisibleMain.lean` builds, for every run of the net, a run of the reduced system that
is the same on the places of the formula up to repetition (`stair_of_path`).  C81 holds for formulas without deadlock proposition if
no visible transition is ignored for ever along an infinite run (`Proviso`, a specification: it is what `generate_all` was written for).
Only the constructor for one query is modelled.  The one for several queries clears `numberOfPlaces` bytes of an array with one byte for
each transition, and then uses flags of places as flags of transitions; the engine does not call it.

- F123 (`C81_finding_ignoring`): `generate_all`, which should see to the proviso, is guarded by a comparison of types that is never true
  (TarjanModelChecker.cpp:164, 172 compare the product generator with `SpoolingSuccessorGenerator`).  With a transition that changes nothing,
  `A G (p2 = 0)` passes for satisfied although another transition violates it.
- F124 (`C81_finding_deadlock`): the visitor ignores deadlock propositions.  `A G (p1 = 0 ∨ deadlock)` passes for satisfied on two
  independent transitions.

### Automaton-guided reduction of the LTL engine (C82)

`LTL/SafeAut.lean` models the default reduction of the LTL engine: the choice of the product generator between all transitions and the
stubborn set, the visitor for unsafe transitions, and `SafeAutStubbornSet::prepare`.  The conditions made from decision diagrams by spot
are given (`Conds`), with the contract `CondsOK` that they evaluate like the guards.  `SafeAutMain.lean` moves a transition of the set to
the front of an infinite run, step by step (`advance`), keeping the states of the automaton.  C82 holds for nets without reachable
deadlock and conditions for staying that are steady: their negation has no conjunctions and no equations (`steadyC`).

- F125 (`C82_finding_deadlock`): the reduction does not keep deadlocks, whose markings the product repeats for ever.  For `A F (1 ≤ p3)` on a
  net with three transitions the deadlock without a token on `p3` is missed and the query passes for satisfied.
- F126 (`C82_finding_conjunction`): of a conjunction that must stay false only the first false operand is looked at.  For
  `A F (1 ≤ p2 ∧ 1 ≤ p3)` on a net with four transitions (and no deadlock) the query passes for satisfied.

### Partitions of colours (C83, C84)

`CFP/Partition.lean` models intersection and subtraction of classes, `splitPartition`, `mergeEqClasses`, `applyPartition` of a colour and
`getUniqueIdForColor`.  `CFP/PartitionLemmas.lean` proves that the split ends and refines, for types with one component and classes
whose boxes do not touch (`Sep`; `simplify` joins only boxes that overlap, so the program does make others).  The numbers of classes are
separate from the split, and diagonal positions occur only in `uniqueId`.  `uniqueId` is `none` for a colour in no class, where the code
dereferences the end of a map.

- F127 (`C83_finding_subtract`): `EquivalenceClass::subtract` takes an empty intermediate result for the first round.  A box that is
  covered by two boxes together comes back whole if a third box follows, and its colours are then in two classes.
- F128 (`C83_finding_flag`): `splitPartition` returns true whenever a new class meets an old one, also if the partition stays the same.
  A place on a cycle is put into the queue again and again; the partition is then given up when its time limit is reached.
- F129 (`C84_finding_collision`): with diagonal positions the number of a place is the sum of the number of the class and the number of the
  colour; the sums of colours from different classes may be equal, so that two places are joined.

### Several traces (HyperLTL; C85, C86)

`LTL/Hyper.lean` models the compound generator of the nested depth-first search on arrays that hold the markings of all traces
(`seg`/`setSeg` are the pointers into them), and the evaluation of propositions with scopes.  The counters of the generator are a number
in mixed base (`num`), which `next` increases by one.  Expressions have no products here; the other parts of `Expr` and `Cond` are as
before.  The parser, which makes scopes from `path-scope`, and the check of the quantifiers are not modelled.

- F130 (`C86_finding_scope`, `C86_finding_scope_net`, `C86_finding_never_apart`): a scope around a proposition has no effect.
  `PathSelectCondition` sets `_offset` of the evaluation visitor, which nothing reads: `compare` makes an expression visitor with offset 0,
  and bounds and deadlocks are read from the beginning of the array.  Such propositions are always evaluated on the first trace.
- F131 (`C86_finding_sum`): under a scope around an expression the places of a sum (also `tokens-count` of several places) are still read
  on the first trace; only single places use the offset.

### Bucket allocator and queue of successors (C87, C88)

`Util/Buckets.lean` models `linked_bucket_t` with addresses as positions in the list of all buckets.  Threads are modelled, but their calls
do not overlap, so that the loops around compare-and-exchange run through at once; the engine uses one thread.  `Util/Buckets.lean`
justifies that the model of the dependency graph treats configurations and edges as numbered objects that never move.

- F132 (`C87_finding_pop`): `pop_back` cannot go back past the beginning of a bucket (its assertion fails, or the counter wraps).
  Nothing calls it.

`LTL/SucQueue.lean` models `SuccessorQueue` and its use by `next` and `generate_all` without heuristic.  The program never calls
`generate_all` (see the note on `SpoolingSuccessorGenerator` above); C88 says that it would work.  What the spooler delivers is a
parameter.  `append` is not modelled (not used).

### Simplification of LTL queries with spot (C89)

`LTL/SpotBack.lean` models `LTL::simplify` with the conversion `toPQL` of spot's formulas back to queries (conjunctions and disjunctions are
made with the merging of `AndCondition` and `OrCondition`), and `simplify_ltl_query`.  Trusted: `SimpOK`, the contract of spot's simplifier
with `unabbreviate` (it keeps the meaning, invents no propositions, and the result has no operators but those of `SpotF`), and again that the
printer is not ambiguous (`PrintOK`).  In `Props/SpotBack.lean` the steps between the two calls of spot are parameters that keep the
meaning on paths from the initial marking (`MidOK`).  `LTL/SpotChain.lean` puts the model of `pushNegation` and `initialMarkingRW` there
(`chainMid`, `chainLast`) and proves that they introduce no quantifiers, and `LTL/SpotLps.lean` does so for the simplifier with linear
programs, so that `C89_program_partial` has all steps of the program (with the restrictions of C17 and C22 on numbers).  Named paths (HyperLTL) are left out.

`C89_chain_shape` and `C89_program_shape`: what comes out is a constant or again a quantifier with a formula of LTL.  `LTL/Answer.lean` puts the
simplification in front of the LTL engine of C46, and `C90_answer_partial` proves that the answers are right.  The net is not structurally
reduced in between, there is no partial-order reduction, and `EF`, `EG` and `EU` are left out because of F133.

C91 (`LTL/PushEnds.lean`, `PQL/PushFuel.lean`): the visitor of `PushNegation.cpp` calls itself on formulas it has just built, so its model runs on fuel.
For formulas of LTL a weight that no visit increases (negations weigh nothing, `F` and `G` double) shows that it ends; that more fuel does not
change a result is shown for all formulas.  For CTL formulas the end is not proved: merging `EF a ∨ EF b` to `EF (a ∨ b)` undoes the distribution,
and the weight does not decrease.

- F133 (`C89_finding_quantifier`, `C89_full_fails`): `simplify_ltl_query` knows only the quantifiers `A` and `E`.  For `EF`, `EG` and `EU`, which
  the validator accepts and which come from the element `possibility` and from files of queries in binary form, it takes the query to be
  about all paths: the translation to spot drops the quantifier, and `A` is put in front of the result.  `EF (p0 = 1)` becomes
  `A F (p0 = 1)`, which is false for a net that may idle.
