{
 "claims": [
  {
   "property": "C01",
   "status": "proved",
   "theorems": [
    "LearnTA.Props.C01_negate_exact",
    "LearnTA.Props.C01_satisfy_iff"
   ],
   "note": ""
  },
  {
   "property": "C02",
   "status": "proved",
   "theorems": [
    "LearnTA.Props.C02_satisfiable_exact",
    "LearnTA.Props.C02_intMax_witness"
   ],
   "note": "Hypothesis: constants below INT_MAX; C02_intMax_witness shows it is needed."
  },
  {
   "property": "C03",
   "status": "proved",
   "theorems": [
    "LearnTA.Props.C03_simplify_meaning"
   ],
   "note": ""
  },
  {
   "property": "C04",
   "status": "proved",
   "theorems": [
    "LearnTA.Props.C04_isWeaker_sound",
    "LearnTA.Props.C04_isWeaker_atomic_complete",
    "LearnTA.Props.C04_isWeaker_complete_tidy"
   ],
   "note": ""
  },
  {
   "property": "C05",
   "status": "proved",
   "theorems": [
    "LearnTA.Props.C05_negate_dnf_exact",
    "LearnTA.Props.C05_degenerate_witness"
   ],
   "note": "For non-empty disjunctions of non-empty guards; C05_degenerate_witness shows the degenerate cases fail."
  },
  {
   "property": "C06",
   "status": "proved",
   "theorems": [
    "LearnTA.Props.C06_unionHull_contains",
    "LearnTA.Props.C06_unionHull_strongest",
    "LearnTA.Props.C06_redundant_witness"
   ],
   "note": "Containment for all guards; least for tidy guards; C06_redundant_witness shows tidiness is needed."
  },
  {
   "property": "C07",
   "status": "proved",
   "theorems": [
    "LearnTA.Props.C07_deterministic_exact"
   ],
   "note": ""
  },
  {
   "property": "C08",
   "status": "proved",
   "theorems": [
    "LearnTA.Props.C08_composition_sequential",
    "LearnTA.Props.C08_addDefault",
    "LearnTA.Props.C08_clean",
    "LearnTA.Props.C08_clean_duplicate_witness"
   ],
   "note": ""
  },
  {
   "property": "C09",
   "status": "proved",
   "theorems": [
    "LearnTA.Props.C09_isSatisfiable_exact",
    "LearnTA.Props.C09_noCanonize_exact"
   ],
   "note": ""
  },
  {
   "property": "C10",
   "status": "proved",
   "theorems": [
    "LearnTA.Props.C10_canonize_mem",
    "LearnTA.Props.C10_canonize_closed",
    "LearnTA.Props.C10_canonize_tight",
    "LearnTA.Props.C10_canonize_idempotent"
   ],
   "note": ""
  },
  {
   "property": "C11",
   "status": "proved",
   "theorems": [
    "LearnTA.Props.C11_tighten_exact",
    "LearnTA.Props.C11_tighten_canonical",
    "LearnTA.Props.C11_tighten_test",
    "LearnTA.Props.C11_tighten_guard"
   ],
   "note": ""
  },
  {
   "property": "C12",
   "status": "proved",
   "theorems": [
    "LearnTA.Props.C12_elapse_exact",
    "LearnTA.Props.C12_elapse_sound",
    "LearnTA.Props.C12_reverseElapse_exact"
   ],
   "note": ""
  },
  {
   "property": "C13",
   "status": "proved",
   "theorems": [
    "LearnTA.Props.C13_reset_exact",
    "LearnTA.Props.C13_unconstrain_exact"
   ],
   "note": ""
  },
  {
   "property": "C14",
   "status": "partial",
   "theorems": [
    "LearnTA.Props.C14_includes_sound",
    "LearnTA.Props.C14_includes_exact",
    "LearnTA.Props.C14_includes_iff",
    "LearnTA.Props.C14_eq_iff",
    "LearnTA.Props.C14_diagonal_witness",
    "LearnTA.Props.C14_strictEqual_exact"
   ],
   "note": "Soundness unconditional; exactness for the (0,<=) diagonal of the included zone; C14_diagonal_witness shows the condition is needed. C14_includes_iff and C14_eq_iff say what includes and == mean for all canonical non-empty zones."
  },
  {
   "property": "C15",
   "status": "proved",
   "theorems": [
    "LearnTA.Props.C15_inter_exact"
   ],
   "note": ""
  },
  {
   "property": "C16",
   "status": "proved",
   "theorems": [
    "LearnTA.Props.C16_extrapolate_superset",
    "LearnTA.Props.C16_abstractize_superset",
    "LearnTA.Props.C16_extrapolate_keeps",
    "LearnTA.Props.C16_abstractize_keeps"
   ],
   "note": ""
  },
  {
   "property": "C17",
   "status": "partial",
   "theorems": [
    "LearnTA.Props.C17_nonstrict",
    "LearnTA.Props.C17_two_clocks",
    "LearnTA.Props.C17_up_to_strictness",
    "LearnTA.Props.C17_sample_mem_partial",
    "LearnTA.Props.C17_outside_witness"
   ],
   "note": "The claim is false of the code in general (C17_outside_witness); proved for all zones up to strictness (C17_up_to_strictness: a strict bound may be met with equality), and in full under the stated condition on strictness, for all zones without strict bounds and for all zones with at most two clocks and integer bounds."
  },
  {
   "property": "C18",
   "status": "partial",
   "theorems": [
    "LearnTA.Props.C18_applyResets_exact_partial",
    "LearnTA.Props.C18_swap_witness",
    "LearnTA.Props.C18_one_by_one",
    "LearnTA.Props.C18_exact"
   ],
   "note": "The claim is false of the code for overlapping renamings (C18_swap_witness); proved for update lists without read-after-write, and C18_exact shows that for lists with one entry per clock these are the only ones for which it holds. C18_one_by_one says what applyResets does for every update list."
  },
  {
   "property": "C19",
   "status": "proved",
   "theorems": [
    "LearnTA.Props.C19_append_monoid",
    "LearnTA.Props.C19_append_single",
    "LearnTA.Props.C19_append_stamps"
   ],
   "note": ""
  },
  {
   "property": "C20",
   "status": "proved",
   "theorems": [
    "LearnTA.Props.C20_getSuffix_append",
    "LearnTA.Props.C20_append_getSuffix",
    "LearnTA.Props.C20_make_reading",
    "LearnTA.Props.C20_accumulated"
   ],
   "note": ""
  },
  {
   "property": "C21",
   "status": "proved",
   "theorems": [
    "LearnTA.Props.C21_contains_exact"
   ],
   "note": ""
  },
  {
   "property": "C22",
   "status": "proved",
   "theorems": [
    "LearnTA.Props.C22_sample_mem"
   ],
   "note": "Condition canonical with finite bounds on the single delays and on the differences the code reads; actions observable (the constructor of TimedWord drops the unobservable ones)."
  },
  {
   "property": "C23",
   "status": "proved",
   "theorems": [
    "LearnTA.Props.C23_append_exact",
    "LearnTA.Props.C23_append_canonical"
   ],
   "note": ""
  },
  {
   "property": "C24",
   "status": "proved",
   "theorems": [
    "LearnTA.Props.C24_region_of_word",
    "LearnTA.Props.C24_regions_partition",
    "LearnTA.Props.C24_same_region_iff"
   ],
   "note": ""
  },
  {
   "property": "C25",
   "status": "proved",
   "theorems": [
    "LearnTA.Props.C25_successor_next",
    "LearnTA.Props.C25_successor_from",
    "LearnTA.Props.C25_successor_disjoint",
    "LearnTA.Props.C25_action_exact",
    "LearnTA.Props.C25_reachable"
   ],
   "note": ""
  },
  {
   "property": "C26",
   "status": "proved",
   "theorems": [
    "LearnTA.Props.C26_partition",
    "LearnTA.Props.C26_unique_group",
    "LearnTA.Props.C26_successor_invertible",
    "LearnTA.Props.C26_extend_invertible"
   ],
   "note": ""
  },
  {
   "property": "C27",
   "status": "proved",
   "theorems": [
    "LearnTA.Props.C27_enumerate_partition",
    "LearnTA.Props.C27_enumerate_language"
   ],
   "note": "Canonical conditions with finite integer bounds; on an infinite upper bound the loop of the code diverges (the model returns none)."
  },
  {
   "property": "C28",
   "status": "proved",
   "theorems": [
    "LearnTA.Props.C28_hull_upper",
    "LearnTA.Props.C28_hull_least",
    "LearnTA.Props.C28_hull_list"
   ],
   "note": ""
  },
  {
   "property": "C29",
   "status": "proved",
   "theorems": [
    "LearnTA.Props.C29_history_independent",
    "LearnTA.Props.C29_count",
    "LearnTA.Props.C29_stuck"
   ],
   "note": ""
  },
  {
   "property": "C30",
   "status": "proved",
   "theorems": [
    "LearnTA.Props.C30_membership_exact"
   ],
   "note": ""
  },
  {
   "property": "C31",
   "status": "proved",
   "theorems": [
    "LearnTA.Props.C31_complement_language",
    "LearnTA.Props.C31_complement_answers"
   ],
   "note": ""
  },
  {
   "property": "C32",
   "status": "proved",
   "theorems": [
    "LearnTA.Props.C32_complete_enabled",
    "LearnTA.Props.C32_complete_language",
    "LearnTA.Props.C32_overlap_witness",
    "LearnTA.Props.C32_eps_witness"
   ],
   "note": ""
  },
  {
   "property": "C33",
   "status": "proved",
   "theorems": [
    "LearnTA.Props.C33_simplifyTransitions_language",
    "LearnTA.Props.C33_simplifyTransitions_observations"
   ],
   "note": ""
  },
  {
   "property": "C34",
   "status": "proved",
   "theorems": [
    "LearnTA.Props.C34_removeUnreachable",
    "LearnTA.Props.C34_removeDead",
    "LearnTA.Props.C34_removeLoops",
    "LearnTA.Props.C34_simplify_language",
    "LearnTA.Props.C34_removeDead_answers",
    "LearnTA.Props.C34_nondet_witness"
   ],
   "note": ""
  },
  {
   "property": "C35",
   "status": "proved",
   "theorems": [
    "LearnTA.Props.C35_removeUnused_language",
    "LearnTA.Props.C35_removeUnused_observations"
   ],
   "note": ""
  },
  {
   "property": "C36",
   "status": "proved",
   "theorems": [
    "LearnTA.Props.C36_product_language",
    "LearnTA.Props.C36_product_wf",
    "LearnTA.Props.C36_product_pairs",
    "LearnTA.Props.C36_product_epsFree"
   ],
   "note": ""
  },
  {
   "property": "C37",
   "status": "proved",
   "theorems": [
    "LearnTA.Props.C37_constants_witness",
    "LearnTA.Props.C37_shape",
    "LearnTA.Props.C37_runs_simulated",
    "LearnTA.Props.C37_words_simulated",
    "LearnTA.Props.C37_states_realised",
    "LearnTA.Props.C37_accepting_realised",
    "LearnTA.Props.C37_emptiness"
   ],
   "note": "Hypotheses: update lists without read-after-write (C18_swap_witness shows it is needed) and, for the converse, maximal constants that also bound a clock copied to another one; C37_constants_witness shows that this is needed and that makeMaxConstants does not provide it."
  },
  {
   "property": "C38",
   "status": "proved",
   "theorems": [
    "LearnTA.Props.C38_states",
    "LearnTA.Props.C38_paths",
    "LearnTA.Props.C38_sample_path",
    "LearnTA.Props.C38_sample_rounds"
   ],
   "note": ""
  },
  {
   "property": "C39",
   "status": "proved",
   "theorems": [
    "LearnTA.Props.C39_deepCopy_observations",
    "LearnTA.Props.C39_deepCopy_independent"
   ],
   "note": ""
  },
  {
   "property": "C40",
   "status": "proved",
   "theorems": [
    "LearnTA.Props.C40_transparent",
    "LearnTA.Props.C40_once",
    "LearnTA.Props.C40_consistent",
    "LearnTA.Props.C40_count",
    "LearnTA.Props.C40_simulated"
   ],
   "note": "Covers the membership cache and its combination with C30."
  },
  {
   "property": "C41",
   "status": "proved",
   "theorems": [
    "LearnTA.Props.C41_query_exact",
    "LearnTA.Props.C41_query_again",
    "LearnTA.Props.C41_statistics",
    "LearnTA.Props.C41_reduce_exact",
    "LearnTA.Props.C41_simulated"
   ],
   "note": "For every history of queries and every behaviour of the hash lookup; C41_simulated composes it with C30 and C60 for simulated deterministic automata."
  },
  {
   "property": "C42",
   "status": "proved",
   "theorems": [
    "LearnTA.Props.C42_byTest",
    "LearnTA.Props.C42_byTest_language",
    "LearnTA.Props.C42_randomTest",
    "LearnTA.Props.C42_chain",
    "LearnTA.Props.C42_chain_sound",
    "LearnTA.Props.C42_memo_sound",
    "LearnTA.Props.C42_memo_remembers"
   ],
   "note": "Test-based oracles, chain and memo; the runners use fuel for unobservable moves, the statements speak about runs that do not diverge."
  },
  {
   "property": "C43",
   "status": "proved",
   "theorems": [
    "LearnTA.Props.C43_returned",
    "LearnTA.Props.C43_recorded",
    "LearnTA.Props.C43_simplified"
   ],
   "note": "The observation table is an arbitrary object with the six operations; the simplification between table and oracle is the one of C34 and C54."
  },
  {
   "property": "C44",
   "status": "partial",
   "theorems": [
    "LearnTA.Props.C44_equivalent_partial",
    "LearnTA.Props.C44_misses_witness",
    "LearnTA.Props.C44_equivalent_computed_partial",
    "LearnTA.Props.C44_exact",
    "LearnTA.Props.C44_two_clocks",
    "LearnTA.Props.C44_order_witness",
    "LearnTA.Props.C44_constants_witness"
   ],
   "note": "Proved exact (says \"equivalent\" iff the languages are equal) for deterministic automata with at most two clocks in the products, set to integers only, and hash maps iterated in ascending order of the actions (or one letter): C44_two_clocks, C44_exact. In general: proved unless sampling misses an accepting state of a zone automaton. Three witnesses prove that the claim is false of the code beyond that: C44_misses_witness (three clocks, Zone::sample), C44_order_witness (one clock, descending hash order), C44_constants_witness (two clocks, one letter, a copied clock: makeMaxConstants ignores copies)."
  },
  {
   "property": "C45",
   "status": "proved",
   "theorems": [
    "LearnTA.Props.C45_product",
    "LearnTA.Props.C45_product_common",
    "LearnTA.Props.C45_renaming_exact",
    "LearnTA.Props.C45_renaming_exact_common",
    "LearnTA.Props.C45_renaming_canonical",
    "LearnTA.Props.C45_implied_equalities",
    "LearnTA.Props.C45_getRight_projection"
   ],
   "note": ""
  },
  {
   "property": "C46",
   "status": "proved",
   "theorems": [
    "LearnTA.Props.C46_beginnings",
    "LearnTA.Props.C46_create",
    "LearnTA.Props.C46_cells_exact",
    "LearnTA.Props.C46_prefix_closed",
    "LearnTA.Props.C46_match",
    "LearnTA.Props.C46_close",
    "LearnTA.Props.C46_consistent",
    "LearnTA.Props.C46_abort",
    "LearnTA.Props.C46_time_unresolved",
    "LearnTA.Props.C46_exterior",
    "LearnTA.Props.C46_timeSaturate",
    "LearnTA.Props.C46_ready",
    "LearnTA.Props.C46_create_regular",
    "LearnTA.Props.C46_simulated"
   ],
   "note": "The recursion of moveToP is bounded by the fuel of the model (C82: it ends for the languages of automata); consistent() is claimed for tables with regular suffixes, which the constructor gives and consistent() keeps. C46_abort and C46_time_unresolved say when consistent() gives up: only if each candidate suffix, taken alone, admits some renaming (so its cache of such answers is right)."
  },
  {
   "property": "C47",
   "status": "proved",
   "theorems": [
    "LearnTA.Props.C47_read_off",
    "LearnTA.Props.C47_covered",
    "LearnTA.Props.C47_maps",
    "LearnTA.Props.C47_split",
    "LearnTA.Props.C47_split_exists",
    "LearnTA.Props.C47_contains",
    "LearnTA.Props.C47_correct",
    "LearnTA.Props.C47_contains_defined",
    "LearnTA.Props.C47_handleCEX",
    "LearnTA.Props.C47_progress",
    "LearnTA.Props.C47_terminates",
    "LearnTA.Props.C47_handleCEX_terminates"
   ],
   "note": "C47_terminates and C47_handleCEX_terminates are about tables the loop of the learner (refine) has made ready and regular tables at its start. A prefix outside of P may lack a morphism (see DESIGN), then contains has undefined behaviour and so has handleCEX."
  },
  {
   "property": "C48",
   "status": "proved",
   "theorems": [
    "LearnTA.Props.C48_toValuation",
    "LearnTA.Props.C48_toReset",
    "LearnTA.Props.C48_impreciseClocks",
    "LearnTA.Props.C48_containsAllTrivial",
    "LearnTA.Props.C48_precise_clocks",
    "LearnTA.Props.C48_precise",
    "LearnTA.Props.C48_addImplicitConstraints",
    "LearnTA.Props.C48_isRightUnique",
    "LearnTA.Props.C48_apply",
    "LearnTA.Props.C48_apply_throws_witness"
   ],
   "note": "Targets are simple (regions), as all callers ensure; the unused function apply throws for a target beyond the vector (C48_apply_throws_witness); C48_apply says what it does otherwise."
  },
  {
   "property": "C49",
   "status": "proved",
   "theorems": [
    "LearnTA.Props.C49_delay_bound_necessary",
    "LearnTA.Props.C49_delay_bound_exact_lower",
    "LearnTA.Props.C49_upper_witness"
   ],
   "note": "Non-empty guards (the code dereferences the maximum of an empty range otherwise). Limit: upper bounds are checked only at the current valuation (C49_upper_witness)."
  },
  {
   "property": "C50",
   "status": "proved",
   "theorems": [
    "LearnTA.Props.C50_widen_downward",
    "LearnTA.Props.C50_widen_exact"
   ],
   "note": ""
  },
  {
   "property": "C51",
   "status": "proved",
   "theorems": [
    "LearnTA.Props.C51_maxConstants_exact"
   ],
   "note": ""
  },
  {
   "property": "C52",
   "status": "partial",
   "theorems": [
    "LearnTA.Props.C52_eps_sound_partial",
    "LearnTA.Props.C52_upper_witness",
    "LearnTA.Props.C52_two_eps_witness",
    "LearnTA.Props.C52_urgent",
    "LearnTA.Props.C52_urgent_returns",
    "LearnTA.Props.C52_several",
    "LearnTA.Props.C52_blocked"
   ],
   "note": "Soundness for guards of unobservable transitions made of x >= c, exactness (C52_urgent, C52_urgent_returns) for at most one such transition per state; the claim is false of the code otherwise: with several ones it waits until all are enabled (C52_several, C52_two_eps_witness), an expired one blocks the others (C52_blocked), upper bounds are ignored (C52_upper_witness)."
  },
  {
   "property": "C53",
   "status": "proved",
   "theorems": [
    "LearnTA.Props.C53_terminates"
   ],
   "note": "Maximal constants non-negative; true of every result of makeMaxConstants."
  },
  {
   "property": "C54",
   "status": "proved",
   "theorems": [
    "LearnTA.Props.C54_language",
    "LearnTA.Props.C54_part",
    "LearnTA.Props.C54_live",
    "LearnTA.Props.C54_startable",
    "LearnTA.Props.C54_answers"
   ],
   "note": "Hypotheses: update lists without read-after-write; actions below 127 (the array size of zone automata)."
  },
  {
   "property": "C55",
   "status": "proved",
   "theorems": [
    "LearnTA.Props.C55_guard",
    "LearnTA.Props.C55_automaton",
    "LearnTA.Props.C55_shrinks_witness"
   ],
   "note": "C55_shrinks_witness shows that the language can shrink, as the comment \"quick fix\" in the code suggests."
  },
  {
   "property": "C56",
   "status": "proved",
   "theorems": [
    "LearnTA.Props.C56_prefix_of_successor",
    "LearnTA.Props.C56_prefix_of_action",
    "LearnTA.Props.C56_no_prefix",
    "LearnTA.Props.C56_prefixes_chain"
   ],
   "note": ""
  },
  {
   "property": "C57",
   "status": "partial",
   "theorems": [
    "LearnTA.Props.C57_oneFraction",
    "LearnTA.Props.C57_two_fractions",
    "LearnTA.Props.C57_exact",
    "LearnTA.Props.C57_predecessor_next",
    "LearnTA.Props.C57_reachable",
    "LearnTA.Props.C57_fromTimedWord_witness"
   ],
   "note": "Proved for the regions built by predecessors from the initial one, or from the region of a word whose non-integral sums of first delays share one fractional part (C57_oneFraction); C57_two_fractions proves that it fails for the regions of all other words, so C57_exact is the exact condition for regions made by fromTimedWord, which the observation table uses as suffixes (observation_table.hh 454, 721)."
  },
  {
   "property": "C60",
   "status": "proved",
   "theorems": [
    "LearnTA.Props.C60_region_invariant",
    "LearnTA.Props.C60_regional_language",
    "LearnTA.Props.C60_fraction_witness"
   ],
   "note": "Clocks are set to integers or copied; C60_fraction_witness shows that this is needed."
  },
  {
   "property": "C62",
   "status": "proved",
   "theorems": [
    "LearnTA.Props.C62_equivalence_sound",
    "LearnTA.Props.C62_equivalence_continuations",
    "LearnTA.Props.C62_equivalence_complete",
    "LearnTA.Props.C62_precomputed",
    "LearnTA.Props.C62_query_cell",
    "LearnTA.Props.C62_rows_queryable",
    "LearnTA.Props.C62_split_witness"
   ],
   "note": "With several conditions per cell the test may refuse although nothing is told apart (C62_split_witness). Rows are exact by C62_query_cell (for a target that is a union of regions, which C60 proves of automata)."
  },
  {
   "property": "C63",
   "status": "proved",
   "theorems": [
    "LearnTA.Props.C63_candidates",
    "LearnTA.Props.C63_constrained",
    "LearnTA.Props.C63_graph",
    "LearnTA.Props.C63_search",
    "LearnTA.Props.C63_status",
    "LearnTA.Props.C63_regions",
    "LearnTA.Props.C63_order_witness"
   ],
   "note": "Soundness of the search and absence of undefined behaviour; that a renaming is found whenever one exists is not claimed (the code prunes heuristically). C63_order_witness: the updates made of a renaming may have to be made at once (x1 := x0, x2 := x1), which Zone::applyResets does not do."
  },
  {
   "property": "C64",
   "status": "proved",
   "theorems": [
    "LearnTA.Props.C64_fails_only",
    "LearnTA.Props.C64_hypothesis"
   ],
   "note": "The number of prefixes bounds the loops (proved sufficient); constants of guards of P below INT_MAX; the treatment of imprecise clocks, the splitting of states and the merging of transitions are modelled and proved to be unreachable or without effect on finished tables."
  },
  {
   "property": "C65",
   "status": "proved",
   "theorems": [
    "LearnTA.Props.C65_hypothesis_language",
    "LearnTA.Props.C65_exact"
   ],
   "note": "As for C64."
  },
  {
   "property": "C66",
   "status": "proved",
   "theorems": [
    "LearnTA.Props.C66_exact",
    "LearnTA.Props.C66_returned",
    "LearnTA.Props.C66_regular",
    "LearnTA.Props.C66_progress",
    "LearnTA.Props.C66_rounds",
    "LearnTA.Props.C66_logged"
   ],
   "note": "C66_exact holds for every run that returns; the other theorems for runs whose final table is regular (C66_regular: so if all delays but the first one of each counterexample are integers; needed because of the misread order of fractional parts, see C57). That simplifyWithZones loses no word needs updates that do not read a clock after writing it (see C18); without this the returned automaton accepts at most what the hypothesis accepts. Termination of the run is not claimed."
  },
  {
   "property": "C67",
   "status": "proved",
   "theorems": [
    "LearnTA.Props.C67_sampled",
    "LearnTA.Props.C67_counterexample",
    "LearnTA.Props.C67_counterexample_computed",
    "LearnTA.Props.C67_validate",
    "LearnTA.Props.C67_validated_accepted",
    "LearnTA.Props.C67_spurious_witness"
   ],
   "note": "Proved for any number of clocks, strict guards and reset constants, when no update reads a clock written by the same or an earlier update of its list (C67_sampled, C67_counterexample). validate is proved exact without that assumption. C67_spurious_witness proves that the assumption is needed: the code returns a spurious word otherwise."
  },
  {
   "property": "C68",
   "status": "partial",
   "theorems": [
    "LearnTA.Props.C68_two_clocks",
    "LearnTA.Props.C68_nonstrict",
    "LearnTA.Props.C68_one_clock"
   ],
   "note": "Proved when updates read no overwritten clock, maximal constants bound copied clocks, actions are tried in ascending order by the construction, and (no strict guards, or at most two clocks set to integers, or one clock). False in general: C44_misses_witness, C44_order_witness and C44_constants_witness are runs of the search that miss."
  },
  {
   "property": "C69",
   "status": "proved",
   "theorems": [
    "LearnTA.Props.C69_covered",
    "LearnTA.Props.C69_origin",
    "LearnTA.Props.C69_frame",
    "LearnTA.Props.C69_deterministic",
    "LearnTA.Props.C69_common",
    "LearnTA.Props.C69_nondeterministic_witness",
    "LearnTA.Props.C69_choice_witness",
    "LearnTA.Props.C69_choice",
    "LearnTA.Props.C69_removeWeaker",
    "LearnTA.Props.C69_updates_witness",
    "LearnTA.Props.C69_precise",
    "LearnTA.Props.C69_precise_witness",
    "LearnTA.Props.C69_sameTarget",
    "LearnTA.Props.C69_sameTarget_updates"
   ],
   "note": "C69_sameTarget_updates: which updates a merged transition gets. Limits, with witnesses: one pass does not make a state deterministic (C69_nondeterministic_witness); the choice of the kept transition is not the documented one (C69_choice_witness); removeTransitionsWithWeakerGuards ignores the updates (C69_updates_witness); the variant with precise clocks may drop moves (C69_precise_witness)."
  },
  {
   "property": "C70",
   "status": "proved",
   "theorems": [
    "LearnTA.Props.C70_exact",
    "LearnTA.Props.C70_twice_witness"
   ],
   "note": "C70_twice_witness: the code is wrong for a list that sets a clock twice."
  },
  {
   "property": "C71",
   "status": "proved",
   "theorems": [
    "LearnTA.Props.C71_make",
    "LearnTA.Props.C71_make_returns",
    "LearnTA.Props.C71_reconstruct",
    "LearnTA.Props.C71_impreciseClocks",
    "LearnTA.Props.C71_original",
    "LearnTA.Props.C71_agree",
    "LearnTA.Props.C71_successor",
    "LearnTA.Props.C71_successor_returns",
    "LearnTA.Props.C71_diverges",
    "LearnTA.Props.C71_action",
    "LearnTA.Props.C71_differences",
    "LearnTA.Props.C71_sound",
    "LearnTA.Props.C71_precise",
    "LearnTA.Props.C71_originalGuard",
    "LearnTA.Props.C71_relaxedGuard",
    "LearnTA.Props.C71_relaxed",
    "LearnTA.Props.C71_match",
    "LearnTA.Props.C71_negative_witness"
   ],
   "note": "successor() never returns without a precise clock (C71_diverges); a neighbour need not contain a timed word (C71_negative_witness)."
  },
  {
   "property": "C72",
   "status": "proved",
   "theorems": [
    "LearnTA.Props.C72_applyResets",
    "LearnTA.Props.C72_images",
    "LearnTA.Props.C72_region",
    "LearnTA.Props.C72_after_transition",
    "LearnTA.Props.C72_constants",
    "LearnTA.Props.C72_neighbors",
    "LearnTA.Props.C72_constants_witness"
   ],
   "note": "C72_neighbors: the update of a language with its neighbours. C72_constants_witness: applyResets(updates) loses the order of the assigned constants, applyResets(updates, size) keeps it."
  },
  {
   "property": "C73",
   "status": "proved",
   "theorems": [
    "LearnTA.Props.C73_extends",
    "LearnTA.Props.C73_embed",
    "LearnTA.Props.C73_handled",
    "LearnTA.Props.C73_covered",
    "LearnTA.Props.C73_diverges",
    "LearnTA.Props.C73_unconstrained",
    "LearnTA.Props.C73_after",
    "LearnTA.Props.C73_simulates",
    "LearnTA.Props.C73_relax"
   ],
   "note": "Updates set each clock at most once, to non-negative constants or copies. Pairs are compared by hash (a pair counts as handled if one with the same hash was). Limits: run() never returns when a state without transitions is pushed (C73_diverges); a matching transition without an upper bound for some clock is not relaxed (C73_unconstrained); for internal transitions C73_after assumes that the target has at most one clock more."
  },
  {
   "property": "C74",
   "status": "proved",
   "theorems": [
    "LearnTA.Props.C74_sound",
    "LearnTA.Props.C74_complete",
    "LearnTA.Props.C74_terminates"
   ],
   "note": "Completeness for cells with at most one condition. The function calls std::lower_bound on candidates; the model reports undefined behaviour if a candidate is not partitioned, and the termination theorem allows this outcome."
  },
  {
   "property": "C75",
   "status": "proved",
   "theorems": [
    "LearnTA.Props.C75_copies",
    "LearnTA.Props.C75_precise",
    "LearnTA.Props.C75_deterministic",
    "LearnTA.Props.C75_undefined",
    "LearnTA.Props.C75_initial_witness"
   ],
   "note": ""
  },
  {
   "property": "C76",
   "status": "proved",
   "theorems": [
    "LearnTA.Props.C76_logged",
    "LearnTA.Props.C76_agrees",
    "LearnTA.Props.C76_pushed",
    "LearnTA.Props.C76_equivalent",
    "LearnTA.Props.C76_learned",
    "LearnTA.Props.C76_two_clocks"
   ],
   "note": "The sampling clause is the limit of C68 (C44_misses_witness). Proved for runs that return; the regularity of the final table and that the hypothesis does not read a clock after writing it are hypotheses, as in C66. Logging and the printed statistics are not modelled."
  },
  {
   "property": "C77",
   "status": "proved",
   "theorems": [
    "LearnTA.Props.C77_accepted",
    "LearnTA.Props.C77_language",
    "LearnTA.Props.C77_total",
    "LearnTA.Props.C77_rejected",
    "LearnTA.Props.C77_learn",
    "LearnTA.Props.C77_blank",
    "LearnTA.Props.C77_space_witness",
    "LearnTA.Props.C77_label_witness"
   ],
   "note": "The JSON syntax (Boost) is not modelled: the model starts from the fields as strings. Limits shown: a space before + is read as the bound 0 (C77_space_witness), although blanks before numbers are harmless (C77_blank); a label outside the alphabet is accepted (C77_label_witness)."
  },
  {
   "property": "C78",
   "status": "proved",
   "theorems": [
    "LearnTA.Props.C78_append_action",
    "LearnTA.Props.C78_prepend_action",
    "LearnTA.Props.C78_take_back",
    "LearnTA.Props.C78_remove_upper_bounds",
    "LearnTA.Props.C78_remove_equality_bounds",
    "LearnTA.Props.C78_hasPrefix",
    "LearnTA.Props.C78_hasSuffix",
    "LearnTA.Props.C78_hasEqualityN",
    "LearnTA.Props.C78_isPoint",
    "LearnTA.Props.C78_toGuard",
    "LearnTA.Props.C78_constrain",
    "LearnTA.Props.C78_isSimple"
   ],
   "note": ""
  },
  {
   "property": "C79",
   "status": "proved",
   "theorems": [
    "LearnTA.Props.C79_listed",
    "LearnTA.Props.C79_satisfiable",
    "LearnTA.Props.C79_includes",
    "LearnTA.Props.C79_intersection",
    "LearnTA.Props.C79_equal",
    "LearnTA.Props.C79_negate",
    "LearnTA.Props.C79_limits_witness"
   ],
   "note": "The file is compiled only without NO_EIGEN_CONSTRAINT, which constraint.hh defines. Limits of the code (C79_limits_witness): the constructor from several constraints keeps the last bound of each kind only; constants from INT_MAX/2 on are lost; negate ignores an empty guard."
  },
  {
   "property": "C80",
   "status": "proved",
   "theorems": [
    "LearnTA.Props.C80_alphabets",
    "LearnTA.Props.C80_unbalanced",
    "LearnTA.Props.C80_fischer",
    "LearnTA.Props.C80_fddi",
    "LearnTA.Props.C80_light",
    "LearnTA.Props.C80_simple",
    "LearnTA.Props.C80_fixed",
    "LearnTA.Props.C80_loop",
    "LearnTA.Props.C80_loop_structure",
    "LearnTA.Props.C80_loop_max_witness",
    "LearnTA.Props.C80_prepared",
    "LearnTA.Props.C80_direct",
    "LearnTA.Props.C80_unbalanced_language",
    "LearnTA.Props.C80_loop_language",
    "LearnTA.Props.C80_unbalanced_learned",
    "LearnTA.Props.C80_experiments",
    "LearnTA.Props.C80_simple_complement",
    "LearnTA.Props.C80_fischer_exclusion_witness",
    "LearnTA.Props.C80_fischer_language",
    "LearnTA.Props.C80_fddi_language",
    "LearnTA.Props.C80_light_language",
    "LearnTA.Props.C80_cas_timing",
    "LearnTA.Props.C80_cas_alternate",
    "LearnTA.Props.C80_pc_timing"
   ],
   "note": "The example learn_accel.cc is not modelled (it does not compile). Limits of the code: the maxConstraints of unbalanced_loop are half of what its guards compare with (C80_loop_max_witness); the Fischer target does not ensure mutual exclusion (C80_fischer_exclusion_witness)."
  },
  {
   "property": "C81",
   "status": "proved",
   "theorems": [
    "LearnTA.Props.C81_prints",
    "LearnTA.Props.C81_dangling",
    "LearnTA.Props.C81_rounding",
    "LearnTA.Props.C81_faithful",
    "LearnTA.Props.C81_language",
    "LearnTA.Props.C81_halves",
    "LearnTA.Props.C81_precision_witness"
   ],
   "note": "Constants are rationals instead of doubles (no negative zero). Limit of the code: C81_precision_witness."
  },
  {
   "property": "C82",
   "status": "proved",
   "theorems": [
    "LearnTA.Props.C82_forgetful",
    "LearnTA.Props.C82_create_returns",
    "LearnTA.Props.C82_operations_return",
    "LearnTA.Props.C82_round_returns",
    "LearnTA.Props.C82_rounds"
   ],
   "note": "That the learner as a whole returns is not claimed: the test of equivalent rows is incomplete (C62_split_witness), so the number of classes is not bounded by the automaton. Only the fuel of the model can run out in the recursion; the theorems give the fuel that is enough."
  },
  {
   "property": "C83",
   "status": "proved",
   "theorems": [
    "LearnTA.Props.C83_ieee",
    "LearnTA.Props.C83_canonize",
    "LearnTA.Props.C83_satisfiable",
    "LearnTA.Props.C83_inter",
    "LearnTA.Props.C83_guard",
    "LearnTA.Props.C83_elapse",
    "LearnTA.Props.C83_resets",
    "LearnTA.Props.C83_extrapolate",
    "LearnTA.Props.C83_compare",
    "LearnTA.Props.C83_zone_sample",
    "LearnTA.Props.C83_sample",
    "LearnTA.Props.C83_precision_witness",
    "LearnTA.Props.C83_run",
    "LearnTA.Props.C83_membership"
   ],
   "note": "Covers the operations of zones, sampling, and execution without unobservable transitions, one operation at a time and sampling followed by execution; not the whole learner in double precision. NaN and the sign of zero are not modelled. C83_precision_witness shows that a limit on the number of delays is needed."
  },
  {
   "property": "C84",
   "status": "proved",
   "theorems": [
    "LearnTA.Props.C84_adjacent",
    "LearnTA.Props.C84_keeps",
    "LearnTA.Props.C84_language",
    "LearnTA.Props.C84_one_clock",
    "LearnTA.Props.C84_two_clocks_witness",
    "LearnTA.Props.C84_deterministic",
    "LearnTA.Props.C84_nondeterministic_witness"
   ],
   "note": "The method is public but not called by the learner, which uses the same loop on its own transitions (C64, C65)."
  },
  {
   "property": "C85",
   "status": "proved",
   "theorems": [
    "LearnTA.Props.C85_inactive",
    "LearnTA.Props.C85_bound"
   ],
   "note": "The method is public and tested but not called by the learner. With an infinite upper bound the conversion to an integer is undefined; the model returns none there, exactly if the values are unbounded."
  },
  {
   "property": "C86",
   "status": "proved",
   "theorems": [
    "LearnTA.Props.C86_suffix_covers",
    "LearnTA.Props.C86_suffix_region"
   ],
   "note": "The method is used by tests only. The stored order of fractional parts is that of fromTimedWord of backward regions, with the limits of C57 for predecessor()."
  },
  {
   "property": "C87",
   "status": "partial",
   "theorems": [
    "LearnTA.Props.C87_left_partial",
    "LearnTA.Props.C87_exact",
    "LearnTA.Props.C87_right_witness"
   ],
   "note": "False of the code (C87_right_witness): the matrix is one clock too small and the entries of the right zone land one index too low, so the bound of its last clock is lost. Proved: the result is within the left zone, and C87_exact gives exactly what is computed. No other function of the repository calls the operator (juxtapositions are made by JuxtaposedZone, C45)."
  }
 ]
}