# Formal model of MasWag/LearnTA in Lean 4 — design

## 1. Approach

LearnTA is an active learner for deterministic timed automata (TA), written as a header-heavy
C++ library (`/repo/include/*.hh`, `/repo/src/*.cc`).  The model is a set of total, computable
Lean functions, one per modelled C++ function, each citing the file and lines it models, and a set
of *specification* definitions (timed words, clock valuations, set of valuations of a zone, runs of
an automaton, ...) that do not mention the algorithms.  Property theorems live in
`Verif/Props/*.lean`; models in `Verif/Model/*.lean`; specifications in `Verif/Spec/*.lean`; helper
lemmas in `Verif/Lemmas/*.lean`.

Common modelling decisions (the trusted reading of the code):

* `double` is modelled by exact rationals `ℚ` (except in `Model/Double.lean`, which models rounding and is related to the exact
  model by C83 within a stated range); NaN and the sign of zero are not modelled.
  `std::numeric_limits<double>::max()` and `infinity()` when used as bounds are the absorbing top
  bound `inf` (adding any bound to it stays `inf`).
* `int` constants are unbounded `ℤ`; `std::numeric_limits<int>::max()` used as the default upper
  bound is kept as the literal 2147483647 where it matters (guard satisfiability).
* `ClockVariables` (`uint8_t`) is `ℕ`; fewer than 255 clocks are assumed.  The idiom `-1` for the
  constant-zero variable (`tighten(-1, x, ..)`, wrapping to index 0 after `x++`) is modelled by
  passing the internal index.
* Eigen matrices are functions `ℕ → ℕ → Bound` with an explicit dimension; Eigen's expression
  evaluation order inside one row assignment is coefficient-wise.
* `std::shared_ptr` graphs (automata) are modelled by state indices into a list; iteration order of
  hash containers is modelled as *any* list with the same elements when it matters.
* `assert` is not executed; C++ undefined behaviour (empty `min_element`, out-of-range index) is an
  explicit outcome (`none`) or an explicit precondition, said at each definition.

## 2. Trusted base

* Lean 4.33.0 kernel; the axioms `propext`, `Classical.choice`, `Quot.sound` (checked with
  `#print axioms`; no other axiom is used).
* Mathlib (as a library of definitions and kernel-checked lemmas).
* The faithfulness of our reading of `/repo` (the code is not compiled or run here).
* Not modelled at all: logging, printing (except that of automata, C81), JSON output, hashing, the main functions
  of the example programs (their target automata, their shared `ExperimentRunner` and `OtaJsonParser` after the JSON syntax
  are modelled; `learn_accel.cc` is not: it assigns `std::nullopt` to a reset and does not compile),
  floating-point rounding except in C83, memory management, performance, Boost/Eigen internals.
* `conjunctive_constraint.hh` is disabled in the shipped build (`NO_EIGEN_CONSTRAINT`, `constraint.hh:18`); it is modelled
  all the same (C79), Eigen arrays being read as lists of bounds.
* Not modelled because compiled out or never called: `intersectionSignalTA`, `updateInitAccepting`, `handleInactiveClocks` (marked "still wrong"),
  `BackwardRegionalElementaryLanguage::immediateSuffix`.
* Not modelled, used only by tests or not at all: `ObservationTable::optimizeTarget`, `ObservationTable::renameConsistent`.
* Everything else under `/repo/include` and `/repo/src` that computes is modelled, each definition with the cited lines.

## 3. Plan per property

(see `properties.jsonl` for the statements, `MANIFEST.json` for the theorem names)

| id | model | proof idea |
|----|-------|-----------|
| C01 | `Constraint` | case split |
| C02, C03 | `toBounds`, `satisfiable`, `simplify` | loop invariant: bounds are the meet of the constraints per clock |
| C04 | `isWeaker` | monotonicity of bounds |
| C05 | `negate` on DNF incl. pruning loop | invariant over the CNF→DNF loop; pruning keeps a weaker element |
| C06 | `unionHull` (map as association list) | fold invariant |
| C07 | `deterministic` | reduces to C02 |
| C08 | `composition`, `applyReset` | update lists as maps |
| C09–C15 | `Zone` (DBM) | shortest-path closure, Fourier–Motzkin extension lemma over ℚ |
| C16 | `extrapolate`, `abstractize` | entries only grow |
| C17 | `sample` | expected FALSE in general (strict difference bounds); witness plus partial theorem |
| C18 | `Zone.applyResets` vs `applyReset` | expected FALSE for swapping renamings; witness plus theorem for non-conflicting updates; `C18_exact`: exactly for which update lists the two agree; `C18_one_by_one`: the effect for every list |
| C19, C20 | `TimedWord` | list algebra |
| C21, C28 | `TimedCondition`, `ElementaryLanguage` (`contains`, `convexHull`) | a condition is the zone of the accumulated delays; zone library |
| C22 | `sample` | greedy choice of delays extends in a canonical zone |
| C23 | `append` (glue of the last and first delays) | projection: the glue value can be chosen (Fourier–Motzkin, as in C11) |
| C24 | `fromTimedWord`, `contains` of regional languages | a region is determined by the integer parts and the order of the fractional parts |
| C25, C56 | `successor`, `immediatePrefix`, `prefixes` of forward regions | a region is *of* a valuation `v`; each operation moves `v` by an explicit shift |
| C26 | `FractionalOrder` | partition invariant over all sequences of operations |
| C27 | `enumerate` | loop over integer/open unit intervals per difference; each step refines a partition |
| C41 | `SymbolicMembershipOracle::query`, `TimedConditionSet::reduce` | counting: disjoint regions inside equally many disjoint regions cover them; cache invariant |
| C60 | run semantics only | simulation with points on the time axis; new points can be inserted (density) |
| C57 | `BackwardRegional` (`predecessor`, `fromTimedWord`) | as C25 for the negated accumulated delays; expected FALSE for `fromTimedWord`: exact condition on the word (`C57_exact`), from the bounds of two variables with different fractional parts |
| C29, C30 | `TimedAutomatonRunner` | state machine; run semantics |
| C31–C35, C39 | passes of `TimedAutomaton` | simulation between runners |
| C36 | `intersectionTA` | product simulation |
| C37, C38 | `ta2za`, `ZoneAutomaton` | simulation of runs by zones; graph closure |
| C40, C42, C43 | oracles, learner loop | state machines parametrised by arbitrary oracles |
| C49, C50, C55 | `lowerBoundDurationToSatisfy`, `widen`, `addUpperBound` | per-clock case split |
| C51 | `makeMaxConstants` | fold invariant |
| C52 | runner with unobservable transitions; urgent runs in `Spec/Urgent.lean` | FALSE in general; sound for guards `x ≥ c`, exact for urgent runs with one unobservable transition per state; theorems on what happens otherwise, and witnesses |
| C53 | `ta2za` with an arbitrary visiting order | the extrapolated entries come from a finite set; measure on the set of created zones |
| C54 | `simplifyWithZones` | from C37, C38 and the dead-state pass |
| C44 | complement-based oracle | composition of C31, C36, C37 |
| C67 | `push_back`, `reconstructWord`, `validate`, `Zone::sample`, `revertResets`, the oracle | a sample satisfies all bounds of its zone up to strictness (`C17_up_to_strictness`), even if the zone is empty; a further step back that succeeds certifies that the point is in its zone; the zone sampled is cut out by a guard, i.e. by bounds on single clocks, and a sample that is right before the cut is right after it; expected FALSE for updates that read an overwritten clock |
| C68 | `ta2za` and `sample` together | both are breadth-first searches: the log of `ta2za` (each node is made by the first edge into it, in the order of the queue) is shown to be the order in which `sample` keeps its runs, so the run kept for a node is the one whose zone was extrapolated to make the node; its concrete zone and the zone of the node agree up to the maximal constants, so each edge of the zone automaton can be taken; expected FALSE in general (C44 witnesses) |
| C45 | `JuxtaposedZone` | zone library |
| C62 | `equivalence`, `JuxtaposedZoneSet` | per suffix, both sides are unions of zones; the set differences vanish exactly if the unions agree |
| C46 | `ObservationTable` (all public operations), state monad with failures, hash orders as parameters | one invariant (exact cells, tree of regions, sound renamings) kept by every operation; each check characterised by Hoare-style lemmas; `C46_abort` and `C46_time_unresolved` say when `consistent` gives up (a second invariant: the cached columns are right) |
| C47 | `SingleMorphism`, `RecognizableLanguage`, `analyzeCEX`, `toRecognizable`, `handleCEX` | every word of the domain has a related word (region geometry), sampling stays in a relatively open zone, the reduction chain of `contains` and of `analyzeCEX` is the same, verdicts at its two ends differ; the reduction ends (`Lemmas/CexTerm.lean`): a step past an action leaves fewer letters, a step without action is by a saturated time successor, steps of this kind in a row are by the same one, map to a word fixed by the sampling, and use up the same positive delay each |
| C64, C65 | `generateHypothesis`, `InternalTransitionMaker`, `ExternalTransitionMaker`, `mergeNondeterministicBranching` up to the merge itself | the states are the roots of the chains of time successors in `P`; a position on a chain is a valuation, a run of the automaton tracks the position of the read word; recorded renamings are the updates of the edges |
| C69 | `Model/Merge.lean`: the merging loops on a heap of states | one induction for all variants (`mergeState_relates`), parametrised by what the combination of two transitions keeps; `C69_sameTarget_updates`: the updates of the combination come from the strongest guard |
| C70 | `preciseClocksAfterReset` | case split on the entry of the clock; two valuations that differ in one clock |
| C71 | `Model/Neighbor.lean` (`NeighborConditions`) | the neighbours are the regions of the valuations that an observer of the precise clocks may confuse with the original |
| C72 | `Model/Neighbor.lean` (`TimedCondition::applyResets`, both) | invariant of the loop over the target clocks: bounds read so far = images of the condition |
| C73 | `Model/Imprecise.lean` (`ImpreciseClockHandler`) | invariant of the queue: handled pairs are closed under the pushes; coverage of the values after a relaxed transition by C71 and C72 |
| C74 | `Model/FindRenaming.lean` (`findEquivalentRenaming`) | soundness by C62; the candidates seen are closed under insertion of edges; termination by the number of edges not in place |
| C75 | `Model/Split.lean` (`splitStates`) | invariant of the search: what is a copy of which state, and where its transitions come from; termination by the pairs of a state and a set of clocks; bisimulation for deterministic automata |
| C66 | `Learner::run` with the table, the hypothesis and the simplification | composition of C46, C47, C64, C65, C34, C54; the suffix list only grows, so regularity of the final table gives that of the earlier ones; number of rounds: the pairs (two prefixes, relation of their clocks) refuted by the suffix added are distinct, and there are finitely many |
| C76 | `Model/Experiment.lean` (`ExperimentRunner`) | invariant of the oracle (memo around the chain of test words and comparison) over the run; C42, C44 for the last query; C66 for the shape of the result |
| C77 | `Model/OtaJson.lean` (`OtaJsonParser`) | decimal notation and `atoi` are inverse; the transitions added are those of the edges; simulation both ways; invariant of the loop for arbitrary documents; blanks before the numbers are skipped (`C77_blank`) |
| C78 | `Model/TimedCondition.lean` (editing operations and tests), `constrain` | every entry of the canonical matrix is attained or approached by a word; the added event has equal rows |
| C79 | `Model/ConjunctiveConstraint.lean` | bounds of one clock at a time; the CNF-to-DNF loop as in C05 |
| C80 | `Model/Fixtures.lean` (targets of the example programs), described again without state numbers in `Spec/Protocols.lean` | the edge lists are checked once at scale 1 by a boolean check that scales; runs of the loop automaton by induction on the word; a simulation between the numbered states and the configurations of the protocols (Fischer, FDDI), by induction on the word for Light, CAS and PC |
| C81 | `Model/Print.lean` (`operator<<` for automata, as bytes; floating-point numbers as `%g`) | each line is read back: tokens end at the first byte outside their alphabet; a reader of the printed numbers inverts the printer; rounding error by the bounds of half-even rounding |
| C82 | `ObservationTable` constructor, `moveToP`, `close`, `exteriorConsistent`, `timeSaturate`, with the recursion bounded by fuel | `Spec/Termination.lean`: guards up to K, words after which waiting makes no difference; each successor of a region moves one clock value past an integer or onto one, so after (n+1)(2K+1)+1 successors all values are beyond K; the rows of two such neighbours are equal, and `findDeterministic` finds the empty renaming |
| C83 | `Model/Double.lean`: the operations of zones, `sample` and the execution of automata once more, with every result rounded by a function `rnd` and `(DBL_MAX, false)` for no bound; `ieee` is rounding to nearest, ties to even | the matrix of the code stores the exact zone (`Stores`); every sum of bounds is a multiple of 2^-k below 2^53, hence kept by rounding, or absorbed by DBL_MAX; sampled delays are halved at most once per delay; the limit by kernel computation of a language of 55 delays |
| C84 | `Model/MergeAdjacent.lean`: `mergeAdjacentTransitions`, with `adjacent`, `mergeable`, `merge` of `Model/Hypothesis.lean` | a point of the hull outside of both guards lies above the one and below the other for the clock for which they differ, and the test of `adjacent` leaves no such gap; simulation in both directions; expected FALSE for guards that differ for two clocks (witness) |
| C85 | `Model/Inactive.lean`: `inactiveClockVariables` | with C78_isPoint; the upper bound of a canonical condition is approached by its words |
| C86 | `Model/Suffix.lean`: `suffix` | a cut inserted between the events of one word can be inserted in the same position into every word of the region; the delay that `sample` chooses is the middle of the possible ones, hence the same for `p` and the constrained language if the cut is in the last delay of `p` |
| C87 | `Model/ZonePower.lean`: `Zone::operator^` | expected FALSE (the matrix is one clock too small); witness plus the part about the left zone |
| C48 | `RenamingRelation` | loop invariant of `toValuation`: the chosen clock values extend to a word of the region; update lists as maps |
| C63 | `toGraph`, `generateDeterministicCandidates`, `findDeterministicEquivalentRenaming` | invariant of the two-pointer loop; simple intervals are equal or disjoint |

Nothing in the list is considered inexpressible; what could not be proved in full is marked
`partial` in `MANIFEST.json` with the missing part.

## 4. Disagreements between code and property

Each line is a fact about the code as read; where a theorem proves it, the theorem is named.

* Guards: `satisfiable` is wrong for constants at `INT_MAX` (`C02_intMax_witness`); `negate` of an empty
  list is the empty list and empty disjuncts are skipped (`C05_degenerate_witness`); `unionHull` is not the
  least hull of redundant guards (`C06_redundant_witness`); the delay computed to satisfy a guard ignores that
  an upper bound may expire meanwhile (`C49_upper_witness`); `addUpperBound` shrinks the language
  (`C55_shrinks_witness`), so the complement oracle may wrongly say "equivalent" with unobservable transitions.
* Rows: `equivalence` compares the conditions of two cells one by one, so it refuses rows whose cells are split differently
  although nothing is told apart (`C62_split_witness`).
* Updates: `clean` keeps the wrong one of two assignments to the same clock (`C08_clean_duplicate_witness`);
  `Zone::applyResets` performs renamings one after the other, the runner at once (`C18_swap_witness`);
  `revertResets` loses a clock on `x := x`.
* Zones: `includes` may answer no because of the diagonal (`C14_diagonal_witness`); `Zone::sample` may return a
  point outside the zone (`C17_outside_witness`), hence the complement oracle can miss a counterexample
  (`C44_misses_witness`); the same happens with one clock if the hash map of a state lists its actions in descending order, because `ta2za` and `sample`
  then explore in different orders (`C44_order_witness`), and with two clocks and one letter if a clock is copied, because `makeMaxConstants` (called
  again by `removeTriviallyUnreachableStates`) ignores what the copy is compared with (`C44_constants_witness`, `C37_constants_witness`);
  `revertResets` loses a copy `x1 := x0` listed after an assignment to `x0`, and the oracle then returns
  a word accepted by neither automaton (`C67_spurious_witness`); `extrapolate` tests `-value(0,i+1) > max` after overwriting it, so the branch never
  fires; `Zone::operator^` allocates `top(N+O)` of the wrong size (unused).
* Automata: `makeComplete` treats states with overlapping guards or unobservable transitions wrongly
  (`C32_overlap_witness`, `C32_eps_witness`); simplification changes answers of nondeterministic automata
  (`C34_nondet_witness`); `removeTriviallyDeadStates` drops a dead initial state, after which the runner's
  `initialStates.at(0)` throws; the merging of adjacent transitions over-approximates with `unionHull`.
* Runner with unobservable transitions: `min_element` over negated delays chooses the largest delay; an upper
  bound may be violated (`C52_upper_witness`), several unobservable transitions compete
  (`C52_two_eps_witness`, `C52_several`), one that can no longer be taken blocks the others (`C52_blocked`); an unobservable transition with the guard `true` reads an empty range.
* Zone automata: actions ≥ 127 are out of the range of the transition array; `maxConstraints` are not
  propagated through renamings (`C37_constants_witness`) nor updated after `addUpperBound`.
* Regions: `BackwardRegionalElementaryLanguage::predecessor` assumes the order of the fractional parts of
  `-T_{0,i}`, `fromTimedWord` and `suffix` build the order of `T_{0,i}` (`C57_fromTimedWord_witness`; `C57_exact`: the predecessors
  are right exactly if the non-integral `T_{0,i}` share one fractional part);
  `immediateSuffix` has an unfinished branch (marked TODO, unused); `enumerate` loops forever on an infinite
  upper bound; `hash_value` of a condition includes the diagonal that `==` ignores.
* Observation table: `distinguishedPrefix` is never invalidated and is looked up symmetrically although the search it
  records is asymmetric, so a renaming confirmed by `close` may be dropped by `toRecognizable`; the prefix then has no
  morphism (`C47_covered`) and `split` returns `nullopt`, which `maps` dereferences.  `resolveDiscreteInconsistency` ends in
  `abort()` if no suffix is found.  `C46_abort` proves that it can happen only for two prefixes
  and an action whose inconsistency no suffix resolves; that such a table exists is not a theorem.  A search
  outside Lean (a C++ re-implementation of the table and the learner, run on random small deterministic automata with random
  counterexamples) did find runs that reach this `abort()`, for example for the one-clock automaton with locations 0, 1, 2 (accepting: 2) and
  the transitions 0 -x<1,x:=0-> 1, 0 -x≥1-> 2, 1 -x≤1-> 0, 1 -x>1-> 2, 2 -x≤2,x:=0-> 0, after three counterexamples.  The reasons are the
  asymmetric memory of distinguished prefixes named above, and that each suffix `a·s` is tested on its own, so that
  different renamings may justify different suffixes although no renaming justifies all of them.  These runs (45 prefixes, 6 suffixes) are too
  large to be evaluated by the kernel, so they are recorded as an observation only.  `handleCEX` adds `fromTimedWord(suffix)`, whose order of fractional
  parts `predecessor` misreads (see Regions), so `consistent` is claimed for tables with regular suffixes only.
* `handleCEX`: the branch that adds the prefixes of the counterexample, and the error "Learning has got stuck", are unreachable
  (`C47_handleCEX`): a genuine counterexample always yields a new suffix.
* `RenamingRelation::apply` (unused) resizes to `target` and then uses `at(target)`, which throws for `target ≥ size`
  (`C48_apply_throws_witness`).
* `NeighborConditions`: `successor()` loops forever if no clock is precise (`C71_diverges`); a neighbour may contain no timed word
  at all (`C71_negative_witness`); `applyResets` keeps one region per neighbour (a sample), so it loses neighbours (unused).
* `TimedCondition::applyResets(resets)` loses the order of assigned constants (`C72_constants_witness`).
* `splitStates` merges the transitions of the original state instead of those of its copy, so the initial state stays
  nondeterministic (`C75_initial_witness`); it dereferences the end of a hash table if the guards of the initial state do not
  mention exactly the clock 0 (`C75_undefined`).
* `ImpreciseClockHandler::run` loops forever on a state without transitions (`C73_diverges`); it does not relax a bounded guard
  that leaves a clock unbounded (`C73_unconstrained`).
* `generateHypothesis`: on a finished table the calls of `ImpreciseClockHandler::run`, `splitStates` and `mergeTransitions` are
  unreachable or have nothing to do (their models in `Model/Merge.lean`, `Model/Imprecise.lean`, `Model/Split.lean` are used by
  `generateHypothesis`, whatever hash orders they get).  `mergeNondeterministicBranching` does not make a state deterministic
  (`C69_nondeterministic_witness`) and does not choose the transition its comment promises (`C69_choice_witness`).  It calls `abort()` for systems in which
  acceptance changes by time alone (`C64_fails_only`).
* `Zone::operator^` (called by no other function) loses the last clock of its right operand (`C87_right_witness`).
* `OtaJsonParser`: a space in `[0, +)` makes the edge impossible without an error (`C77_space_witness`); labels outside the
  alphabet are accepted (`C77_label_witness`).
* Precision: a word sampled from a language of 55 delays that are together less than 1 has a delay 0 in double precision and is not in
  the language (`C83_precision_witness`).
* Printing: constants are printed with six significant digits, so automata that assign 100000 and 100000.5 look the same
  (`C81_precision_witness`).
* Example programs: `maxConstraints` of the unbalanced loop are `length * scale` although its guards compare with `2 * length * scale`
  (`C80_loop_max_witness`); in the Fischer target every process writes the same value, so two processes can be in their critical
  section (`C80_fischer_exclusion_witness`); `learn_accel.cc` (not compilable) overwrites a transition of its hand-written complement.
* Learner: the updates of a hypothesis can read a clock after writing it (`x1 := x0, x2 := x1`; `C63_order_witness` gives two regions
  and a language for which this is the renaming that the search returns), which `Zone::applyResets` executes one after the other (see Updates), so `simplifyWithZones` can remove live parts;
  the search outside Lean (see Observation table) found learning runs whose tables contain such renamings, the smallest with 31 prefixes
  and 4 suffixes: for instance the language with `a` accepted iff T0 < 1, `aa` iff T1 >= 1 and T0 <= 1, `aaa` iff T0 >= 1 (T_i is the
  time from the i-th letter, from the start for i = 0, to the last letter; longer words are rejected), after the counterexample `a` with
  delays 1 and 0.5, rows of P visited in descending order.  Evaluating this run in the kernel needs more than 16 GB, so it is an observation, not a theorem;
  C66 then claims only that the returned automaton accepts no more than the hypothesis.  `generateHypothesis` takes the first
  recorded renaming of a row, `toRecognizable` the first one that it can still confirm; if these differ, a counterexample to the
  hypothesis need not be one to the language read off the table, and `handleCEX` throws `std::logic_error`
  (`C47_handleCEX`).
