{"id": "C01", "title": "Negating an atomic clock constraint is exact", "statement": "For an atomic constraint c (x<k, x<=k, x>=k, x>k), c.negate().satisfy(v) is true exactly when c.satisfy(v) is false, and negating twice gives the same constraint back.", "quantifier": "every clock, comparison, integer constant and real clock value", "why_tests_cant": "Clock values are a continuum; a test checks a handful of values around one constant.", "anchors": ["include/constraint.hh: Constraint::negate, Constraint::satisfy"]}
{"id": "C02", "title": "Guard satisfiability check is exact", "statement": "satisfiable(g) returns true exactly when some assignment of non-negative reals to the clocks satisfies every constraint of the guard g.", "quantifier": "every conjunctive guard (any number of clocks, constraints, duplicates, order) with constants below INT_MAX", "why_tests_cant": "The claim quantifies over all guards and, on the false side, over all real clock valuations.", "anchors": ["include/constraint.hh: satisfiable, toBounds"]}
{"id": "C03", "title": "Guard simplification preserves meaning", "statement": "simplify(g) accepts exactly the same non-negative clock valuations as g.", "quantifier": "every guard with constants below INT_MAX and every non-negative valuation", "why_tests_cant": "A simplification that drops one rare constraint changes the language of a learned automaton only at specific valuations.", "anchors": ["include/constraint.hh: simplify, toBounds"]}
{"id": "C04", "title": "The weaker-guard test is sound, and complete for single constraints", "statement": "If isWeaker(left,right) answers true then every valuation satisfying right satisfies left; for two atomic constraints that are both upper (or both lower) bounds of one clock, it answers true whenever the implication holds for all valuations.", "quantifier": "every pair of guards and every valuation", "why_tests_cant": "isWeaker decides which transitions are thrown away; a wrong true removes behaviour for some valuation only.", "anchors": ["include/constraint.hh: Constraint::isWeaker, isWeaker"]}
{"id": "C05", "title": "Negating a guard in disjunctive normal form is exact", "statement": "For a list of guards read as a disjunction, negate(list) satisfies a non-negative valuation exactly when no guard of the list does.", "quantifier": "every non-empty list of non-empty guards with constants below INT_MAX and every non-negative valuation", "why_tests_cant": "The complement automaton is built from this; both directions quantify over all valuations and all guard lists.", "anchors": ["include/constraint.hh: negate(std::vector<std::vector<Constraint>>), negateAll"]}
{"id": "C06", "title": "The union hull of guards contains every guard", "statement": "Every valuation satisfying any of the guards satisfies unionHull(guards); and, for satisfiable guards with at most one upper and one lower bound per clock, every single-clock bound that all the guards imply is implied by the hull (it is the least conjunction of per-clock bounds that is weaker than each guard).", "quantifier": "every non-empty list of guards and every valuation", "why_tests_cant": "Transition merging relies on the hull being weaker than each merged guard for all valuations.", "anchors": ["include/constraint.hh: unionHull"]}
{"id": "C07", "title": "The determinism check is exact", "statement": "deterministic() answers true exactly when no state has two distinct transitions on the same action that some non-negative valuation enables together.", "quantifier": "every timed automaton with guard constants below INT_MAX and every non-negative valuation", "why_tests_cant": "Determinism is a statement about all pairs of transitions and all valuations.", "anchors": ["include/timed_automaton.hh: TimedAutomaton::deterministic"]}
{"id": "C08", "title": "Composing clock updates is sequential application", "statement": "Executing composition(left,right) on a valuation gives the same valuation as executing right first and then left.", "quantifier": "every pair of update lists with one entry per clock and every valuation", "why_tests_cant": "Updates mix constants and copies; the aliasing cases multiply with the number of clocks.", "anchors": ["include/timed_automaton.hh: TATransition::composition", "include/timed_automaton_runner.hh: applyReset"]}
{"id": "C09", "title": "Zone emptiness test is exact", "statement": "After canonisation, the zone satisfiability test answers true exactly when some clock valuation satisfies all the difference bounds of the zone.", "quantifier": "every number of clocks and every matrix of bounds", "why_tests_cant": "Emptiness is a claim about all valuations; negative cycles can be arbitrarily long.", "anchors": ["include/zone.hh: Zone::isSatisfiable, Zone::isSatisfiableNoCanonize, Zone::canonize"]}
{"id": "C10", "title": "Canonising a zone keeps its set of valuations and yields tight bounds", "statement": "canonize does not change the set of valuations; afterwards, for a non-empty zone, no bound can be tightened without losing a valuation, and canonising again changes nothing.", "quantifier": "every matrix of bounds of every size", "why_tests_cant": "Shortest-path closure must be right for every graph, including zero-length strict cycles.", "anchors": ["include/zone.hh: Zone::canonize, Zone::close1"]}
{"id": "C11", "title": "Tightening a zone is intersection with the added bound", "statement": "tighten(x,y,c) on a canonical zone leaves exactly the valuations that also satisfy x - y bounded by c, and the result is canonical again without a full re-canonisation. Tightening by guard constraints leaves exactly the valuations that satisfy the guard.", "quantifier": "every canonical zone, pair of clocks, bound and guard", "why_tests_cant": "The incremental closure (two row passes) must agree with full closure on every matrix.", "anchors": ["include/zone.hh: Zone::tighten, Zone::close1"]}
{"id": "C12", "title": "Time elapse and its reverse on zones are exact", "statement": "After elapse, a valuation belongs to the zone exactly when it is reached from a valuation of the original (canonical, non-empty) zone by letting some non-negative time pass; reverseElapse contains exactly the non-negative valuations from which the original zone is reached by waiting.", "quantifier": "every canonical zone, every valuation and every delay", "why_tests_cant": "The claim has a hidden existential delay for each of infinitely many valuations.", "anchors": ["include/zone.hh: Zone::elapse, Zone::reverseElapse"]}
{"id": "C13", "title": "Clock reset on zones is exact", "statement": "After reset(x) the zone contains exactly the valuations obtained from the zone by setting x to 0 and keeping the other clocks; unconstrain(x) then canonise contains exactly the valuations obtained by changing x arbitrarily.", "quantifier": "every canonical satisfiable zone, clock and valuation", "why_tests_cant": "Projection correctness is an exists-forall statement over reals.", "anchors": ["include/zone.hh: Zone::reset, Zone::unconstrain"]}
{"id": "C14", "title": "Zone inclusion test is exact", "statement": "For canonical non-empty zones of the same dimension, z1.includes(z2) answers true exactly when every valuation of z2 belongs to z1.", "quantifier": "every pair of canonical zones", "why_tests_cant": "The false direction needs a witness valuation for every failing bound; the true direction ranges over all valuations.", "anchors": ["include/zone.hh: Zone::includes, Zone::operator==, Zone::strictEqual"]}
{"id": "C15", "title": "Zone intersection is exact", "statement": "z1 && z2 contains exactly the valuations in both zones.", "quantifier": "every pair of zones of equal dimension", "why_tests_cant": "Set equality over all real valuations.", "anchors": ["include/zone.hh: Zone::operator&&"]}
{"id": "C16", "title": "Extrapolation and abstraction only enlarge a zone", "statement": "extrapolate and abstractize never lose a valuation, so a reachability search using them never misses a reachable state; they leave zones alone whose bounds are within the maximal constants.", "quantifier": "every zone and every vector of maximal constants", "why_tests_cant": "A missed valuation would make the equivalence check answer 'equivalent' wrongly on some automaton only.", "anchors": ["include/zone.hh: Zone::extrapolate, Zone::abstractize"]}
{"id": "C17", "title": "A valuation sampled from a zone belongs to the zone", "statement": "sample() of a satisfiable zone returns a valuation of that zone.", "quantifier": "every satisfiable zone", "why_tests_cant": "Depends on interplay of strict and non-strict bounds of all clocks.", "anchors": ["include/zone.hh: Zone::sample"]}
{"id": "C18", "title": "Symbolic clock updates agree with concrete ones", "statement": "The zone after applyResets(updates) contains exactly the valuations obtained by concretely executing the updates of a transition on valuations of the zone.", "quantifier": "every zone, every transition update list", "why_tests_cant": "Aliasing between copied clocks makes the set of relevant cases unbounded.", "anchors": ["include/zone.hh: Zone::applyResets", "include/timed_automaton_runner.hh: applyReset"]}
{"id": "C19", "title": "Timed-word concatenation is associative, has a unit, and is additive", "statement": "Concatenation of timed words merges the touching delays; it is associative, the empty word with zero delay is its unit, its total duration is the sum, and its action sequence is the concatenation.", "quantifier": "all timed words of all lengths", "why_tests_cant": "Boundary delays are merged, so off-by-one errors show only at particular shapes.", "anchors": ["include/timed_word.hh: TimedWord::operator+"]}
{"id": "C20", "title": "Suffix extraction inverts concatenation", "statement": "(u+v).getSuffix(u) = v; and u + w.getSuffix(u) = w whenever u is a prefix of w. Building a timed word from a raw sequence with unobservable actions removes exactly these actions and keeps the time stamp of every other action.", "quantifier": "all timed words u, v and all raw sequences", "why_tests_cant": "Unbounded lengths and arbitrary real delays.", "anchors": ["include/timed_word.hh: TimedWord::getSuffix, TimedWord::TimedWord"]}
{"id": "C21", "title": "Membership in an elementary language is decided exactly", "statement": "contains(w) answers true exactly when the action sequence equals the word of the language and the sums of consecutive delays of w satisfy every bound of its timed condition.", "quantifier": "every elementary language and every timed word", "why_tests_cant": "contains is implemented by intersecting with a point and testing emptiness; equality with the direct definition is over all reals.", "anchors": ["include/elementary_language.hh: ElementaryLanguage::contains", "include/timed_condition.hh: restrictLowerBound, restrictUpperBound"]}
{"id": "C22", "title": "A word sampled from an elementary language belongs to it", "statement": "sample() of a satisfiable elementary language returns a timed word contained in it.", "quantifier": "every elementary language over observable actions with a satisfiable canonical condition that bounds every single delay", "why_tests_cant": "Greedy choice of delays must never get stuck, for any combination of bounds.", "anchors": ["include/elementary_language.hh: ElementaryLanguage::sample"]}
{"id": "C23", "title": "Concatenating timed conditions is exact", "statement": "A timed word belongs to the concatenation of two elementary languages exactly when it splits into a word of the first followed by a word of the second.", "quantifier": "every pair of satisfiable timed conditions and every timed word", "why_tests_cant": "The existential split of the touching delay ranges over the reals.", "anchors": ["include/timed_condition.hh: TimedCondition::operator+"]}
{"id": "C24", "title": "Every timed word lies in its region", "statement": "ForwardRegionalElementaryLanguage::fromTimedWord(w) contains w, and its condition is simple (each sum of consecutive delays is fixed to an integer or to an open unit interval).", "quantifier": "every timed word", "why_tests_cant": "Regions partition an infinite set; the coverage claim is about all of it.", "anchors": ["include/forward_regional_elementary_language.hh: fromTimedWord", "include/timed_condition.hh: TimedCondition(accumulatedDurations), isSimple", "include/fractional_order.hh"]}
{"id": "C25", "title": "The continuous successor of a region is the next region in time", "statement": "The continuous successor of a region has a satisfiable simple condition and it is the region entered immediately after leaving the region by letting time pass; no other region is visited in between.", "quantifier": "every region reachable from the empty word by discrete and continuous successors", "why_tests_cant": "'No region in between' quantifies over all delays.", "anchors": ["include/timed_condition.hh: TimedCondition::successor", "include/fractional_order.hh: FractionalOrder::successor", "include/forward_regional_elementary_language.hh: successor"]}
{"id": "C26", "title": "Fractional order bookkeeping is a partition and its successor is invertible", "statement": "After any sequence of successor/extendN/extendZero/removeN operations, each clock appears in exactly one group; predecessor undoes successor and removeN undoes extendN.", "quantifier": "every operation sequence", "why_tests_cant": "Histories are unbounded.", "anchors": ["include/fractional_order.hh: FractionalOrder"]}
{"id": "C27", "title": "Enumerating a timed condition partitions it", "statement": "enumerate() of a bounded timed condition returns simple conditions that are all included in it, pairwise disjoint and together cover it.", "quantifier": "every canonical satisfiable timed condition with finite integer bounds", "why_tests_cant": "Coverage quantifies over all real delay sequences.", "anchors": ["include/timed_condition.hh: TimedCondition::enumerate, isSimple"]}
{"id": "C28", "title": "The convex hull of timed conditions contains both and is the least zone doing so", "statement": "convexHull(a,b) includes a and b, and any zone that includes both includes the hull.", "quantifier": "every pair of canonical timed conditions", "why_tests_cant": "Quantifies over all other zones.", "anchors": ["include/timed_condition.hh: TimedCondition::convexHull", "include/elementary_language.hh: convexHull"]}
{"id": "C29", "title": "Answers of the simulated system do not depend on earlier queries", "statement": "After pre(), the observations of a run depend only on the steps made after it, whatever was executed before; count() is exactly the number of pre() calls; once no transition is enabled every later step observes false until the next pre().", "quantifier": "every automaton and every interleaving of pre/post/step calls", "why_tests_cant": "Histories are unbounded; state leaks appear only after particular histories.", "anchors": ["include/timed_automaton_runner.hh: TimedAutomatonRunner", "include/sul.hh"]}
{"id": "C30", "title": "Running a deterministic automaton decides its timed language", "statement": "For a deterministic automaton without unobservable transitions the runner accepts a timed word exactly when the automaton has an accepting run on that word in the standard transition-system semantics.", "quantifier": "every such automaton and timed word", "why_tests_cant": "Quantifies over all runs of all automata.", "anchors": ["include/timed_automaton_runner.hh: step", "include/membership_oracle.hh: SULMembershipOracle::answerQuery"]}
{"id": "C31", "title": "Complementation flips acceptance of every timed word", "statement": "For every deterministic automaton without unobservable transitions, with at most one initial state, complement() accepts exactly the timed words over the given alphabet that the automaton rejects.", "quantifier": "every such automaton and every timed word over the alphabet", "why_tests_cant": "Two quantifiers over infinite sets.", "anchors": ["include/timed_automaton.hh: TimedAutomaton::complement, makeComplete", "src/timed_automaton.cc"]}
{"id": "C32", "title": "Completion makes every action enabled and keeps the language", "statement": "After makeComplete, in every state, at every non-negative valuation, some transition of each alphabet action is enabled, all the enabled ones have the same effect (for a deterministic automaton without unobservable transitions), and the set of accepted timed words is unchanged.", "quantifier": "every deterministic automaton without unobservable transitions", "why_tests_cant": "Quantifies over valuations and automata.", "anchors": ["include/timed_automaton.hh: makeComplete"]}
{"id": "C33", "title": "Dropping transitions covered by an earlier weaker one keeps the language", "statement": "simplifyTransitions does not change the set of accepted timed words of any automaton; for automata without unobservable transitions it also does not change the observations of any run of the simulated system.", "quantifier": "every automaton and every timed word", "why_tests_cant": "The pruning loop's interplay with order is only visible on specific valuations.", "anchors": ["include/timed_automaton.hh: simplifyTransitions"]}
{"id": "C34", "title": "Removing unreachable and dead states keeps the language", "statement": "removeTriviallyUnreachableStates, removeTriviallyDeadStates and removeDeadLoop do not change which timed words are accepted.", "quantifier": "every automaton (deterministic without unobservable transitions for the dead-state passes) and every timed word", "why_tests_cant": "Graph fixpoints over arbitrary automata.", "anchors": ["include/timed_automaton.hh: removeTriviallyUnreachableStates, removeTriviallyDeadStates, removeDeadLoop"]}
{"id": "C35", "title": "Removing unused clocks keeps the language", "statement": "removeUnusedClockVariables renumbers clocks without changing which timed words are accepted.", "quantifier": "every automaton and every timed word", "why_tests_cant": "Renumbering bugs appear only when a removed clock lies below a kept one.", "anchors": ["include/timed_automaton.hh: removeUnusedClockVariables"]}
{"id": "C36", "title": "The product automaton accepts the intersection", "statement": "intersectionTA(a,b) has an accepting run on a timed word exactly when both a and b have one.", "quantifier": "every pair of automata, also with unobservable transitions, and every timed word", "why_tests_cant": "All pairs of automata and all runs.", "anchors": ["src/intersection.cc: intersectionTA", "include/intersection.hh"]}
{"id": "C37", "title": "The zone automaton over-approximates nothing it should not and misses no run", "statement": "Every timed run of the automaton is simulated by a path of the zone automaton with the same transitions (unless the exploration was stopped by a sample), every edge carries a transition of the automaton, and no state is spurious: whatever clock values its zone allows, some reachable configuration agrees up to clocks beyond their maximal constant. In particular the zone automaton has an accepting state exactly when the automaton accepts some timed word.", "quantifier": "every automaton whose update lists do not read a clock after writing it (for the converse also: whose maximal constants bound copied clocks), every run, every iteration order of the hash containers, both variants of the construction", "why_tests_cant": "Reachability over an infinite state space.", "anchors": ["src/ta2za.cc: ta2za", "include/zone_automaton.hh", "include/zone_automaton_state.hh"]}
{"id": "C38", "title": "Removing dead zone-automaton states keeps the accepted paths", "statement": "ZoneAutomaton::removeDeadStates keeps exactly the states from which an accepting state is reachable and does not change the set of accepted paths; the search of sample() ends, and a word it returns is spelled by a path to an accepting state.", "quantifier": "every zone automaton graph", "why_tests_cant": "Graph fixpoint over arbitrary graphs.", "anchors": ["include/zone_automaton.hh: removeDeadStates, sample"]}
{"id": "C39", "title": "deepCopy is an independent, isomorphic copy", "statement": "deepCopy produces an automaton with the same observations on every run, and none of its states are shared with the original.", "quantifier": "every automaton", "why_tests_cant": "Sharing shows only through later mutation.", "anchors": ["include/timed_automaton.hh: deepCopy"]}
{"id": "C40", "title": "The membership cache is transparent and never repeats a query", "statement": "A cached membership oracle returns for every query of every query sequence what the underlying oracle returns, and asks the underlying oracle at most once per distinct timed word.", "quantifier": "every sequence of queries and every deterministic underlying oracle", "why_tests_cant": "Histories are unbounded.", "anchors": ["include/membership_oracle.hh: MembershipOracleCache"]}
{"id": "C41", "title": "A symbolic membership query is exact on regions", "statement": "The symbolic query returns conditions which together contain exactly the timed words of the queried elementary language that the system accepts, provided acceptance is constant on each simple sub-condition; cached answers equal fresh ones, and the printed statistics count the queries and those not found in the cache.", "quantifier": "every elementary language and every region-respecting membership function", "why_tests_cant": "Quantifies over the real delays inside the language.", "anchors": ["include/symbolic_membership_oracle.hh: SymbolicMembershipOracle::query"]}
{"id": "C42", "title": "Counterexamples returned by testing, remembering or chained oracles are genuine, and 'none' is honest", "statement": "A counterexample returned by the test-based, memoising or chained equivalence oracle is a timed word on which hypothesis and system differ; if the test-based oracle returns none, they agree on all its test words; the chain returns none exactly when all of its members do.", "quantifier": "every hypothesis, test set and oracle list", "why_tests_cant": "Quantifies over hypotheses and histories of earlier counterexamples.", "anchors": ["include/equivalence_oracle_by_test.hh", "include/equivalence_oracle_memo.hh", "include/equivalance_oracle_chain.hh"]}
{"id": "C43", "title": "The learner only returns a hypothesis accepted by the equivalence oracle", "statement": "If the learner terminates, the equivalence oracle returned no counterexample for the automaton that it returns, and the number of equivalence queries equals one plus the number of counterexamples.", "quantifier": "every oracle behaviour (including inconsistent ones)", "why_tests_cant": "Quantifies over all possible interaction histories.", "anchors": ["include/learner.hh: Learner::run"]}
{"id": "C44", "title": "'Equivalent' from the complement-based oracle means equal languages", "statement": "If the oracle built from the target and its complement finds no counterexample then hypothesis and target accept the same timed words; a returned counterexample is classified differently by the two.", "quantifier": "every pair of deterministic automata", "why_tests_cant": "Language equality over infinitely many timed words.", "anchors": ["include/timed_automata_equivalence_oracle.hh", "src/intersection.cc", "src/ta2za.cc"]}
{"id": "C45", "title": "Juxtaposed zones are products with the requested clocks identified", "statement": "Juxtaposing two zones contains exactly the pairs of valuations of the two; adding a renaming keeps exactly the pairs that satisfy the equalities; projecting to the right side gives exactly the right components.", "quantifier": "every pair of zones and every renaming", "why_tests_cant": "Set equality over real valuations with an existential projection.", "anchors": ["include/juxtaposed_zone.hh: JuxtaposedZone, addRenaming, getRight"]}
{"id": "C46", "title": "The timed observation table stays exact and prefix-closed, and its four checks establish what they say", "statement": "At all times, after any sequence of close, consistent, exteriorConsistent, timeSaturate, toRecognizable and handleCEX: each cell describes exactly the words of prefix and suffix that the system accepts, isMatch tells the verdict for all words of a prefix, prefixes are pairwise different regions forming a tree whose inner nodes are P. A check that answers false has enlarged P or the suffixes; nothing is ever lost. close() answering true means every prefix is in P or merged, by a renaming that is right for all its words, into one of P; consistent() that merged prefixes have merged successors; exteriorConsistent() that a prefix without fixed clocks has its time successor in P; timeSaturate() that the time successor is in P or merged into the prefix. No vector or map access is out of range.", "quantifier": "every target language that is a union of regions (in particular of every simulated deterministic automaton), every alphabet, every order of iteration of the hash containers, every history of operations", "why_tests_cant": "Quantifies over histories of an interactive process, over hash orders and over the continuum of words.", "anchors": ["include/observation_table.hh: ObservationTable, moveToP, close, consistent, exteriorConsistent, timeSaturate, isMatch, refreshTable", "include/learner.hh: Learner::run"]}
{"id": "C47", "title": "Counterexample analysis adds a suffix of the counterexample that splits", "statement": "The recognizable language read off the observation table answers for a word of P what the system answers, and for any other word what the system answers for a word of P reached by replacing beginnings by words related by a morphism: split gives a beginning in the domain of a morphism and the rest, maps gives a related word of the codomain. handleCEX throws for a word on which this language agrees with the system; for every other word it adds exactly one suffix of the word, at which two words related by a morphism of the table get different verdicts and that is in no suffix of the table; it never aborts with 'Learning has got stuck' and never falls back to adding prefixes. On a table that the loop of the learner has made closed, consistent, exterior-consistent and time-saturated the reduction ends for every word.", "quantifier": "every history of the table, every target language that is a union of regions, every counterexample and every bound on the iterations", "why_tests_cant": "The search is over histories of arbitrary length and over the continuum of words.", "anchors": ["include/counterexample_analyzer.hh: analyzeCEX", "include/recognizable_languages.hh: RecognizableLanguage::split, maps, contains", "include/single_morphism.hh: SingleMorphism::maps", "include/observation_table.hh: toRecognizable, handleCEX"]}
{"id": "C48", "title": "Resetting by a renaming relation maps the clocks as the relation says", "statement": "toReset of a right-unique renaming relation to a region gives each clock that is fixed in the region its value there, each other related clock the value of its related left clock, and the remaining clocks values of one word of the region; the clocks reported imprecise are exactly those that may be wrong, and without imprecise clocks every word of the source region is led to a related word of the target region; adding implicit constraints keeps the related pairs of words; containsAllTrivial tells whether every target clock that always equals a source clock is related.", "quantifier": "every right-unique relation and every valuation", "why_tests_cant": "Aliasing cases grow with the number of clocks.", "anchors": ["include/renaming_relation.hh: RenamingRelation"]}
{"id": "C49", "title": "The computed delay to satisfy a guard is a true lower bound", "statement": "lowerBoundDurationToSatisfy(valuation) never excludes a delay after which the guard holds; for guards with lower bounds only it is exactly the least (or infimum) such delay.", "quantifier": "every non-empty guard, every valuation and every non-negative delay", "why_tests_cant": "Delays are a continuum.", "anchors": ["include/constraint.hh: Constraint::lowerBoundDurationToSatisfy, ConstraintMaker"]}
{"id": "C50", "title": "Widening a guard drops exactly its lower bounds", "statement": "widen(guard) holds exactly where all the upper-bound constraints of the guard hold; in particular it holds at every valuation from which the guard is reached by waiting.", "quantifier": "every guard, valuation and delay", "why_tests_cant": "Delays and valuations are a continuum.", "anchors": ["include/constraint.hh: widen"]}
{"id": "C51", "title": "The maximal constants computed for an automaton are exact", "statement": "makeMaxConstants returns, for each clock, the largest constant that a guard of a state of the automaton compares the clock with (and 0 if there is none): no constant of a guard exceeds it, and it is attained.", "quantifier": "every automaton", "why_tests_cant": "Quantifies over automata; too small a constant only shows in zones beyond it.", "anchors": ["include/timed_automaton.hh: makeMaxConstants"]}
{"id": "C52", "title": "Executing an automaton with unobservable transitions gives only justified observations", "statement": "If the simulated system reports acceptance of a timed word, some run of the automaton, with unobservable transitions taken at allowed moments, accepts the timed word; and the reports are exact for the runs that take an unobservable transition as soon as it is enabled.", "quantifier": "every automaton with unobservable transitions and every timed word", "why_tests_cant": "Quantifies over automata, real delays and interleavings of unobservable transitions.", "anchors": ["include/timed_automaton_runner.hh: TimedAutomatonRunner::step"]}
{"id": "C53", "title": "The zone construction terminates", "statement": "ta2za returns for every automaton with non-negative update constants and maximal constants: only finitely many zone-automaton states are created, with and without the early return.", "quantifier": "every automaton, every iteration order of the hash containers", "why_tests_cant": "Termination over an unbounded set of zones; a test can only show that some inputs end.", "anchors": ["src/ta2za.cc: ta2za", "include/zone.hh: extrapolate, includes"]}
{"id": "C54", "title": "Simplification by zones keeps the language and only removes what is useless", "statement": "simplifyWithZones keeps the set of accepted timed words, adds no state or transition, and every state it keeps is reached by some run and can reach an accepting state in the transition graph; the result of an automaton with at most one initial state has one initial state, or no states at all; a deterministic automaton answers every query as before.", "quantifier": "every automaton whose update lists do not read a clock after writing it, over actions below 127 (for the reachability of states also: whose maximal constants bound copied clocks), every timed word and iteration order of the hash containers", "why_tests_cant": "Language equality over infinitely many timed words; the zone graph is explored in an unspecified order.", "anchors": ["src/timed_automaton.cc: simplifyWithZones"]}
{"id": "C55", "title": "Added upper bounds only restrict unobservable transitions", "statement": "addUpperBound(guard) holds exactly where the guard holds and every clock that the guard constrains only by one lower bound c is below c+1; adding such bounds to the unobservable transitions never makes an automaton accept more and does nothing to an automaton without unobservable transitions.", "quantifier": "every guard, valuation and automaton", "why_tests_cant": "Valuations are a continuum.", "anchors": ["include/constraint.hh: addUpperBound", "src/timed_automaton.cc: addUpperBoundForUnobservableTransitions"]}
{"id": "C56", "title": "Immediate prefixes invert successors and peel every region back to the start", "statement": "immediatePrefix of a continuous or discrete successor gives back an elementary language equal (==) to the one the successor was taken of; the initial region has no prefix; for the region of any timed word, prefixes() ends, starts from the initial region, contains the region itself, and each listed region is a continuous or discrete successor of the previous one.", "quantifier": "every region reachable by successors, every action and every timed word", "why_tests_cant": "Regions of timed words are unboundedly many and the peeling loop has no static bound.", "anchors": ["include/forward_regional_elementary_language.hh: immediatePrefix, prefixes, successor, fromTimedWord"]}
{"id": "C57", "title": "The backward predecessor is the next region met when more time passes before a word", "statement": "For a backward regional elementary language, predecessor() is the language of the words met next when a delay is added in front: delaying a word of the region in front by any amount leads into the region, into its predecessor or beyond the predecessor after passing it.", "quantifier": "every backward region built from the initial one by predecessors or from a timed word, every word of it and every delay", "why_tests_cant": "Delays and words are a continuum.", "anchors": ["include/backward_regional_elementary_language.hh: predecessor, fromTimedWord"]}
{"id": "C60", "title": "Timed automata do not distinguish timed words in the same region", "statement": "Two timed words with the same actions, whose sums of consecutive delays have the same integer parts and are integral at the same places, are both accepted or both rejected; so one query decides a whole simple elementary language.", "quantifier": "every timed automaton that sets clocks to integers or copies them (nondeterministic, with unobservable transitions), every pair of such timed words", "why_tests_cant": "Quantifies over automata and over the continuum of words of a region.", "anchors": ["include/timed_automaton.hh: TimedAutomaton", "include/symbolic_membership_oracle.hh: included", "include/forward_regional_elementary_language.hh"]}
{"id": "C62", "title": "The equivalence test of two observation table rows decides equality of verdicts", "statement": "Given rows that describe the answers exactly, equivalence(left,right,rows,suffixes,renaming) answers yes only if some words of the two regions are related and no word of the left region and word of the right region whose related clocks agree are told apart by a continuation in one of the suffixes; it does answer yes then if every cell of the rows has at most one condition; the variant with precomputed juxtaposed zones gives the same answer, and the rows built from membership queries describe the answers exactly.", "quantifier": "every pair of regions, every suffix list, every renaming in range and every target language that is a union of regions", "why_tests_cant": "Quantifies over the continuum of words of the regions and of the suffixes.", "anchors": ["include/equivalence.hh: equivalence", "include/juxtaposed_zone_set.hh: JuxtaposedZoneSet", "include/renaming_relation.hh: RenamingRelation"]}
{"id": "C63", "title": "A renaming found by the search justifies merging two regions", "statement": "The search for a deterministic renaming between two regions of the table never has undefined behaviour, its graph relates exactly the clocks that can be equal, and a renaming it returns makes merging correct: from the clocks of every word of the left region the updates made of it lead to the clocks of a word of the right region that the target language does not distinguish from it by any continuation in a suffix of the table. The candidates are tried in increasing lexicographic order without repetition, and the clocks considered are those that are part of a sum of delays that a cell of the row restricts.", "quantifier": "every pair of regions, every suffix list, exact rows and every target language that is a union of regions", "why_tests_cant": "Quantifies over the continuum of words of the regions and over unboundedly many clocks.", "anchors": ["include/equivalence.hh: toGraph, generateDeterministicCandidates, findDeterministicEquivalentRenaming", "include/renaming_relation.hh: toReset, hasImpreciseClocks, addImplicitConstraints"]}
{"id": "C64", "title": "Construction of a hypothesis does not crash on a finished table and is right on the table", "statement": "On a table for which close(), consistent(), exteriorConsistent() and timeSaturate() hold, generateHypothesis() returns or calls abort(), and the latter only if acceptance changes by the passing of time alone between a prefix of P and its time successor. The automaton it returns is well formed, deterministic, without unobservable transitions, with one initial state; it accepts a timed word of a prefix of the table, in P or not, exactly if the system does, and no timed word with an action outside the alphabet.", "quantifier": "every system whose language is a union of regions, every history of table operations, every iteration order of the hash containers, every timed word of every prefix", "why_tests_cant": "Quantifies over systems, tables and the continuum of words of the prefixes.", "anchors": ["include/observation_table.hh: generateHypothesis", "include/internal_transition_maker.hh", "include/external_transition_maker.hh", "src/timed_automaton.cc: simplify"]}
{"id": "C65", "title": "The hypothesis errs only on words that show a wrong merge", "statement": "On a finished table, every timed word over the alphabet is accepted by the automaton of generateHypothesis() exactly if the system accepts it, unless some end of the word, put behind two words that a recorded renaming relates, is accepted after one and rejected after the other. If no recorded merge is wrong, hypothesis and system accept the same timed words.", "quantifier": "every system whose language is a union of regions, every history of table operations, every iteration order of the hash containers, every timed word", "why_tests_cant": "Quantifies over all timed words, systems and tables.", "anchors": ["include/observation_table.hh: generateHypothesis"]}
{"id": "C66", "title": "The automaton returned by the learner", "statement": "When Learner::run() returns an automaton, the equivalence oracle has found no counterexample for it, so with an exact oracle it accepts the same timed words as the system. Whatever the oracle, the automaton is well formed, deterministic, without unobservable transitions and has one initial state or is empty, has only actions of the alphabet, accepts only words over the alphabet, accepts a timed word of a prefix of the final table exactly if the system does, and errs only on words that show a wrong merge recorded in the table. Each counterexample adds a new suffix that is an end of it, so there are at most as many hypotheses as suffixes in the final table; and it refutes a merge of two prefixes under a relation of their clocks that no earlier counterexample refuted, so the number of hypotheses is also bounded by a function of the number and the length of the prefixes of the final table.", "quantifier": "every run that returns, for the claims about an arbitrary oracle with a regular final table and guard constants below INT_MAX, and without updates that read a clock after writing it; every system whose language is a union of regions, every equivalence oracle with any state, every iteration order of the hash containers, every timed word", "why_tests_cant": "Quantifies over systems, oracles, whole learning runs and the continuum of timed words.", "anchors": ["include/learner.hh: Learner::run", "include/observation_table.hh: handleCEX, generateHypothesis", "src/timed_automaton.cc: simplifyStrong, simplifyWithZones"]}
{"id": "C67", "title": "Genuineness of sampled words and of the counterexamples of the complement-based oracle", "statement": "A timed word sampled from the zone automaton of a timed automaton is accepted by that timed automaton. Hence a word that the equivalence oracle based on the complement returns as a counterexample is over the alphabet, has non-negative delays, and is accepted by exactly one of the target and the hypothesis. The check `validate` of a reconstructed list of delays answers true exactly if the timed automaton has a run that takes the transitions of the symbolic run with these delays.", "quantifier": "every timed automaton whose updates read no clock that the same or an earlier update of the transition writes (for validate: every timed automaton), every number of clocks, every guard, every order of the hash tables, every fuel, every path of the zone automaton, every list of non-negative delays", "why_tests_cant": "Sampling and backward reconstruction run over difference bound matrices of unbounded constants and over paths of any length; a test sees a few automata.", "anchors": ["include/symbolic_run.hh: reconstructWord, validate, push_back", "include/zone.hh: sample, revertResets, applyResets, tighten, elapse, reverseElapse", "include/zone_automaton.hh: sample, sampleWithMemo", "include/timed_automata_equivalence_oracle.hh: findCounterExample"]}
{"id": "C68", "title": "Completeness of the search for a word of a zone automaton", "statement": "If a timed automaton accepts some timed word, the search for a word in its zone automaton (with or without the early return of the construction) returns one; if it returns none, the language is empty.", "quantifier": "every timed automaton, every guard and clock update, every order in which the hash tables are iterated, every size of the zone automaton", "why_tests_cant": "The search visits each node of the zone automaton once, along one run; whether the run it keeps can be continued depends on the order of exploration and on the extrapolation of zones with unbounded constants, so tests on a few automata say nothing about the others.", "anchors": ["include/zone_automaton.hh: sample, sampleWithMemo", "include/symbolic_run.hh: push_back, reconstructWord", "src/ta2za.cc: ta2za", "include/zone.hh: extrapolate, sample", "include/timed_automaton.hh: makeMaxConstants"]}
{"id": "C69", "title": "Merging of overlapping transitions keeps every move and invents none", "statement": "mergeNondeterministicBranching() of a state keeps every move: each valuation that enabled a transition for an action enables one afterwards; each transition of the result has the target and the updates of a transition of the state and is enabled whenever that one was; other states and acceptance do not change; a deterministic state is left as it is; transitions enabled by a common valuation are merged into one. When two transitions are merged, the one is kept whose clocks left imprecise come first in the lexicographic order, so one that leaves no clock imprecise wins. The variant for equal targets also keeps the reachable targets; the variant with precise clocks and removeTransitionsWithWeakerGuards only keep transitions of the state (the latter keeps, for every move, one to the same target).", "quantifier": "every state, every list of transitions, every guard and valuation, every order of the hash maps", "why_tests_cant": "The loops modify the list they iterate over; valuations are a continuum and lists are unbounded.", "anchors": ["src/timed_automaton.cc: mergeNondeterministicBranching, mergeNondeterministicBranchingWithSameTarget, mergeTransitions, removeTransitionsWithWeakerGuards"]}
{"id": "C70", "title": "The precise clocks after a transition are those whose value is known", "statement": "preciseClocksAfterReset(target clocks, precise clocks, updates) contains a clock of the target exactly if its value after the update is determined by the values of the precise clocks and it is not set to a non-integral constant.", "quantifier": "every set of precise clocks, every update list that sets each clock at most once, every clock", "why_tests_cant": "Determinacy quantifies over all pairs of valuations.", "anchors": ["include/neighbor_conditions.hh: preciseClocksAfterReset"]}
{"id": "C71", "title": "The neighbours of a region are what an observer of the precise clocks may confuse with it", "statement": "NeighborConditions(region, precise clocks) holds, besides the region, exactly the regions that cannot be told apart from it by the precise clocks: those whose clocks are in the same intervals and whose differences of precise clocks, and of imprecise clocks, are in the same intervals, followed in time while the precise clocks stay in their intervals. successor() yields exactly the regions that the neighbours reach while the precise clocks are in the intervals of the next region, successor(action) adds a precise clock with the value 0. So the neighbours follow every execution that differs only in the imprecise clocks. The original guard holds exactly in the box of the original; the relaxed guard holds exactly between the extreme intervals of the neighbours, in particular on all neighbours; precise() says that there is no other region than the original, and impreciseClocks() lists the other clocks in order.", "quantifier": "every region built by the public operations, every set of precise clocks, every sequence of successors, every valuation, every hash function", "why_tests_cant": "Valuations are a continuum, the sequences of successors are unbounded, and what is confusable is a statement about all pairs of valuations.", "anchors": ["include/neighbor_conditions.hh: NeighborConditions, updateNeighborsWithContinuousSuccessors, makeNeighbors, addImplicitPreciseClocks, successor, toOriginalGuard, toRelaxedGuard, match, precise"]}
{"id": "C72", "title": "Conditions after clock updates contain exactly the values after the updates", "statement": "applyResets(updates, number of clocks) of a satisfiable timed condition returns a condition that holds exactly for the valuations that come from one of the condition: copied and kept clocks have the value of their source, assigned clocks are in the intervals of their constants, also relative to each other; in particular the values after the updates satisfy it, and nothing else does if the constants are integers. On a regional language it yields the region of such a valuation. applyResets(updates) with constants only keeps the other clocks and the intervals of the constants.", "quantifier": "every satisfiable timed condition, every list of updates that sets each clock at most once, every number of target clocks, every valuation", "why_tests_cant": "Conditions denote continuous sets of valuations of unbounded dimension.", "anchors": ["include/timed_condition.hh: applyResets", "include/forward_regional_elementary_language.hh: applyResets"]}
{"id": "C73", "title": "Relaxing guards for imprecise clocks keeps the automaton and follows the confused executions", "statement": "ImpreciseClockHandler::run() keeps the acceptance and all transitions of all states; every added transition has the source, the action and the target of an existing one, a weaker guard, and updates every clock as it does, or sets it to a constant, or leaves it. When it returns, every state has been handled with all neighbours given to push(): each matching transition is enabled in all neighbours, directly or by an added transition, and the values after it are covered by neighbours with which the target has been handled (or which are precise).", "quantifier": "every automaton, every pair given to push, every order and hash of the containers, every valuation covered by the neighbours, every fuel", "why_tests_cant": "The loop works until a queue is empty and extends the automaton while it reads it; the valuations are a continuum.", "anchors": ["include/imprecise_clock_handler.hh: push, run", "include/neighbor_conditions.hh: makeAfterTransition, toOriginalValuation, toRelaxedGuard, match"]}
{"id": "C74", "title": "The general search for a renaming is sound, terminates, and fails only if there is none", "statement": "A renaming that findEquivalentRenaming returns relates clocks of the two languages, some words of the two languages are related by it, and the target language agrees on all continuations, by the suffixes, of related words. The search terminates. If it returns nothing and the rows have the same empty cells, no renaming of constrained clocks of the left language makes the target language agree on all comparable words.", "quantifier": "every target language, every pair of simple elementary languages and their rows, every list of suffixes, every renaming", "why_tests_cant": "The search enumerates all sets of pairs of clocks; words range over a continuum.", "anchors": ["include/equivalence.hh: findEquivalentRenaming, equivalence, toGraph"]}
{"id": "C75", "title": "Splitting states by their precise clocks makes copies and terminates", "statement": "splitStates(states, initial state, states that need it) terminates. Every state of the result is a new copy of a given state, with its acceptance; the initial state is a copy of the given one; every transition leads to a state of the result, a copy of the target of a transition of the original state, with its updates and a weaker guard over the same clocks. The transitions of the initial state are only redirected to copies. The states reached from the initial one correspond one to one to pairs of a given state and a set of precise clocks: initially the clock 0, and after a transition the clocks whose values come from precise clocks or integers; all of them but the initial one have the transitions of the given state merged for their precise clocks. If the given automaton is deterministic, the result accepts the same timed words. The call is defined only if the guards of the initial state mention exactly the clock 0 and the target of each transition is not the only state.", "quantifier": "every automaton, every order of the hash tables, every timed word", "why_tests_cant": "The loop works until a queue is empty and copies transitions of states that it may have changed already; the language is an infinite set of words with real delays.", "anchors": ["src/observation_table.cc: splitStates, InternalSplitStates", "src/timed_automaton.cc: mergeNondeterministicBranching"]}
{"id": "C76", "title": "What the automaton returned by an experiment has been checked against", "statement": "When ExperimentRunner::run() ends, the learned automaton gives the same answer as the target on every test word given to pushTestWord, on all their prefixes that the test considers, and on every counterexample found in the run. If it is a well-formed deterministic automaton -- which it is whenever the final table is regular -- it accepts these words exactly if the target does, and over the alphabet it accepts the language of the target, unless the sampling from one of the two products of hypothesis and target missed an accepting state; with up to two clocks and constant updates its language is exactly that of the target.", "quantifier": "every deterministic target with one initial state, every alphabet of distinct characters below 127, every list of test words, every iteration order of the hash containers, every run that ends, every timed word over the alphabet", "why_tests_cant": "Quantifies over targets, whole learning runs with a chained and memoised oracle, and infinitely many timed words.", "anchors": ["examples/experiment_runner.hh: ExperimentRunner::run, pushTestWord", "include/equivalance_oracle_chain.hh", "include/equivalence_oracle_memo.hh", "include/equivalence_oracle_by_test.hh"]}
{"id": "C77", "title": "A one-clock automaton read from a JSON document accepts what the document describes", "statement": "OtaJsonParser accepts a document (declared names, labels of one character other than NUL, intervals such as [1,23) or (4,+) with decimal constants below INT_MAX) exactly if no two edges with the same source and label share a clock value; otherwise it throws. The automaton that it gives accepts exactly the timed words for which the document has a run. Every automaton that it gives, for whatever document, is deterministic with one initial state and one clock that is only set to 0, and its recorded constant bounds the constants of the guards. With an alphabet of distinct characters below 127 that contains the labels, learn_ota_json learns an automaton for the described language, with the limits of C76.", "quantifier": "every document given by its fields, every iteration order of the map of states, every timed word", "why_tests_cant": "Documents, constants and timed words are unbounded; the language is an infinite set of words with real delays.", "anchors": ["examples/ota_json_parser.hh: OtaJsonParser", "examples/learn_ota_json.cc", "src/timed_automaton.cc: deterministic"]}
{"id": "C78", "title": "Editing and testing the bounds of timed conditions is exact", "statement": "Appending or prepending an action to a timed condition (extendN, extendZero) keeps exactly the words of the condition with a delay 0 added; removeN takes an appended action back. removeUpperBound gives exactly the words after which any time has passed at the end; removeEqualityUpperBound drops exactly the attained upper bounds up to the end. hasPrefix and hasSuffix tell whether time can pass after the last or before the first action, hasEqualityN whether the time since some event has a maximum, isPoint whether it is constant; isSimple for a pair of bounds tells whether they describe one point or an open unit interval. toGuard holds for exactly those valuations each of whose clock values is possible in the condition. ElementaryLanguage::constrain(prefix) keeps exactly the words that begin with the delays of the prefix.", "quantifier": "every timed condition (canonical where its tightest bounds are asked for), every word, every valuation", "why_tests_cant": "Conditions denote continuous sets of valuations of unbounded dimension.", "anchors": ["include/timed_condition.hh: extendN, extendZero, removeN, removeUpperBoundAssign, removeEqualityUpperBoundAssign, hasPrefix, hasSuffix, hasEqualityN, isPoint, toGuard", "include/elementary_language.hh: constrain", "include/bounds.hh: isSimple"]}
{"id": "C79", "title": "Conjunctions of inequalities kept as vectors are exact", "statement": "ConjunctiveInequalities, built from the trivial conjunction with addConstraint and intersected with &&, means exactly the conjunction of the constraints, also after asConstraints; isSatisfiable is true exactly if some non-negative valuation satisfies them; includes, for a satisfiable argument, tells exactly whether it implies this conjunction; == tells whether satisfiable conjunctions mean the same. The negate built on it is the exact complement of a disjunction of non-empty guards, as the one of constraint.hh.", "quantifier": "every dimension, every list of constraints with constants below INT_MAX/2, every non-negative valuation", "why_tests_cant": "Quantifies over constraint lists of any length and real valuations.", "anchors": ["include/conjunctive_constraint.hh: ConjunctiveInequalities, addConstraint, isSatisfiable, asConstraints, includes, negate"]}
{"id": "C80", "title": "The targets of the example programs are well-formed, deterministic and what they are described as", "statement": "For every scale (and every number of states and clocks of the loop benchmark) with constants below INT_MAX, the target automata of the example programs (unbalanced, unbalanced_loop, fischer, FDDI, light, CAS, PC, simple DTA) are deterministic automata over their alphabet with one initial state, right maxConstraints (except unbalanced_loop) and resets to constants only; simplifying them as the fixtures do keeps their language and this form, so the experiment run on them meets the hypotheses of C76. The language of unbalanced is exactly the words a b c with delays d0+d1 = d1+d2 = scale; that of unbalanced_loop exactly the words of a's in which every check of a clock of the group L comes more than L*scale and less than 2*L*scale after its previous one; the complement of the simple DTA written by hand is its complement. The language of fischer is exactly that of three processes that request, write, retry, enter and leave with their timing; that of FDDI that of two stations sharing a token; that of light the beginnings of sequences of short presses, touches and holds; CAS and PC accept a word exactly if it respects their timing rules and its events are accepted when spread out, and in CAS the paired events (lock/unlock, close/open, arm/disarm, flash and sound on/off) alternate.", "quantifier": "every scale, number of states and number of clocks; every timed word; every hash order used by the simplification", "why_tests_cant": "Families of automata with integer parameters, and their languages over real-timed words of any length.", "anchors": ["examples/unbalanced_fixture.hh", "examples/unbalanced_loop_fixture.hh", "examples/fischer_fixture.hh", "examples/fddi_fixture.hh", "examples/learn_light.cc", "examples/learn_CAS.cc", "examples/learn_PC.cc", "examples/learn_simple_dta.cc"]}
{"id": "C81", "title": "The printed automaton determines the automaton", "statement": "operator<< prints every automaton without dangling pointers, and two automata with the same text (whatever the orders in which their hash maps list the actions) have the same number of states, and their i-th states agree on being initial and accepting and on their transitions (action, guard, updates, number of the target); hence they accept the same timed words. This needs that assigned constants have at most six significant digits, as all k and k + 1/2 below 10^5 have: the stream rounds others, to within half a unit of the sixth digit, and then two automata with different languages can have the same text. Printing throws exactly if a transition goes to a state that is not in the automaton.", "quantifier": "every automaton with distinct states and no dangling pointers, every order of the hash maps, all guards and updates; every timed word", "why_tests_cant": "Injectivity of a text format over automata of any size.", "anchors": ["include/timed_automaton.hh: operator<<", "include/constraint.hh: operator<<"]}
{"id": "C82", "title": "The operations of the observation table return", "statement": "For the language of every well-formed automaton without unobservable actions whose clocks are set to integers or copied and whose guard constants are at most K: waiting makes no difference once every clock value that can be tested is beyond K; hence the recursion by which the table adds continuous successors ends, at a depth bounded by (n+1)(2K+1)+2 for prefixes of at most n events; the constructor, close, exteriorConsistent and timeSaturate return; a round of the refinement loop fails only by the abort() of the code; and every round of the loop but the last one enlarges the prefixes or the suffixes, so the number of rounds is at most what is added, plus one.", "quantifier": "every such automaton, every bound K, every reachable table, every hash order", "why_tests_cant": "Termination over all tables and automata; the recursion has no syntactic bound.", "anchors": ["include/observation_table.hh: ObservationTable, moveToP, close, exteriorConsistent, timeSaturate, refreshTable", "include/symbolic_membership_oracle.hh: query", "include/forward_regional_elementary_language.hh: successor"]}
{"id": "C83", "title": "Double precision does not change the results within a stated range", "statement": "The code computes with double. For bounds that are multiples of 2^-k up to B (DBL_MAX standing for no bound), canonize, isSatisfiable, &&, tighten, elapse, applyResets, extrapolate, includes, ==, strictEqual and sample of zones give exactly the results of exact arithmetic if the stated product of B, 2^k and a power of 3 (9 per constraint) is below 2^53; the word sampled from a canonical language with integer bounds up to B and n delays is the exact one if 2 B 2^n < 2^53; a membership query whose delays are multiples of 2^-k and whose total time plus update constants is below 2^(53-k) has the exact answer; together, a membership query for a simple language is answered correctly for all its words. IEEE 754 rounding to nearest, ties to even, has all that is assumed. Beyond the range this fails: for 55 delays that are together less than 1 the sampled word has a delay 0 and is outside of the language.", "quantifier": "every rounding function with the stated properties (IEEE 754 in particular), every zone, language, automaton and word within the range", "why_tests_cant": "Rounding errors depend on all inputs; tests use few delays and small constants.", "anchors": ["include/zone.hh: canonize, isSatisfiable, tighten, applyResets, extrapolate, sample", "include/bounds.hh: operator+", "include/elementary_language.hh: sample", "include/timed_automaton_runner.hh: step", "include/membership_oracle.hh: answerQuery"]}
{"id": "C84", "title": "Merging adjacent transitions keeps every word, and adds none for one clock", "statement": "mergeAdjacentTransitions() never loses an accepted timed word. If the guards of the transitions of one state for one action differ for one clock only (so for automata with one clock), and each has at most one upper and one lower bound per clock and can be satisfied, the language stays the same: the hull of two adjacent guards is then exactly their union. The result is well-formed, and for one clock still deterministic. With guards that differ for two clocks words can be added, and the result can be nondeterministic.", "quantifier": "every well-formed automaton, every pair of guards with constants below INT_MAX, every timed word and non-negative valuation", "why_tests_cant": "Sets of real valuations, transition lists of any length and timed words.", "anchors": ["include/timed_automaton.hh: mergeAdjacentTransitions, mergeable, merge", "include/constraint.hh: adjacent, unionHull"]}
{"id": "C85", "title": "Inactive clocks after a transition", "statement": "ExternalTransitionMaker::inactiveClockVariables() reports a clock exactly if it is a clock of the target condition, no clock is renamed to it, and two words of the target condition give it different values. It reports no clock twice, and the number it reports with a clock is the least upper bound of the values of the clock in the words of the condition.", "quantifier": "every renaming, every satisfiable canonical target condition of any size (with integer bounds and nonnegative values for the number)", "why_tests_cant": "Quantifies over conditions of every size and the continuum of their words.", "anchors": ["include/external_transition_maker.hh: ExternalTransitionMaker::inactiveClockVariables", "include/timed_condition.hh: getUpperBound, getLowerBound"]}
{"id": "C86", "title": "The suffix of a region covers it", "statement": "For a simple language and a simple language p of beginnings of its words, ForwardRegionalElementaryLanguage::suffix(p) returns a language S such that every timed word of the language is a word of p followed by a word of S (as its comment promises); cutting does not make delays negative. S is the backward region of the rest of one word of the language after a beginning in p: the point in which the sampled word is cut, which the function does not check, is never after the next event.", "quantifier": "every simple satisfiable language, every simple language p that contains a beginning of one of its words, every word; observable actions", "why_tests_cant": "Regions are continua of timed words; the function works on one sampled word.", "anchors": ["include/forward_regional_elementary_language.hh: ForwardRegionalElementaryLanguage::suffix", "include/elementary_language.hh: constrain, sample", "include/backward_regional_elementary_language.hh: fromTimedWord"]}
{"id": "C87", "title": "The juxtaposition operator of zones is the product", "statement": "For zones z and z' with at least one clock each, z ^ z' is a zone over the clocks of both: a valuation is in it exactly if its first clocks are in z and its other clocks are in z'.", "quantifier": "every two zones with at least one clock, every valuation", "why_tests_cant": "Zones are continua of valuations of unbounded dimension.", "anchors": ["include/zone.hh: operator^, top"]}
