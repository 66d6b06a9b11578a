import Verif.Props.Experiment
import Verif.Props.Hypothesis
import Verif.Lemmas.FixtureLoop
import Mathlib.Tactic.IntervalCases

/-!
# Properties of the example programs: C80
-/

namespace LearnTA.Props
open Fixture ObsTable

/-- The alphabets of the example programs. -/
def exampleAlphabets : List (List Action) := [abc, onlyA, abcde, lightAlphabet, casAlphabet, pcAlphabet]

/-- C80: the alphabets have distinct characters below 127 and do not contain the unobservable action. -/
theorem C80_alphabets : ∀ l ∈ exampleAlphabets, l.Nodup ∧ unobservable ∉ l ∧ ∀ a ∈ l, a.val < 127 := by decide +kernel

theorem abc_ok : unobservable ∉ abc := by decide
theorem abcde_ok : unobservable ∉ abcde := by decide
theorem onlyA_ok : unobservable ∉ onlyA := by decide

/-- C80: the target of "Unbalanced" is a well-formed deterministic automaton with one initial state over its alphabet and right
`maxConstraints`, for every scale. -/
theorem C80_unbalanced (scale : ℤ) (h0 : 0 < scale) (h1 : scale < intMax) :
    (unbalanced scale).Learnable abc ∧ (unbalanced scale).MaxOK := by
  constructor
  · refine build_learnable (by norm_num) abc_ok ?_ (build_clocks (k := 2) rfl ?_)
    · rw [unbalancedEdges_scale]
      exact checkEdges_ok (m := 1) (by decide +kernel) h0 (by simpa using h1)
    · rw [unbalancedEdges_scale]
      exact clocksBelow_scale (by unfold ClocksBelow; decide +kernel)
  · refine build_maxOK (by simp [h0.le]) ?_
    intro e he
    simp only [unbalancedEdges, List.mem_cons, List.not_mem_nil, or_false] at he
    rcases he with rfl | rfl | rfl | rfl | rfl | rfl | rfl | rfl | rfl | rfl | rfl | rfl | rfl | rfl | rfl | rfl | rfl | rfl | rfl <;>
      simp

/-- C80: the same for "Fischer". -/
theorem C80_fischer (scale : ℤ) (h0 : 0 < scale) (h1 : scale < intMax) :
    (fischer scale).Learnable abc ∧ (fischer scale).MaxOK := by
  constructor
  · refine build_learnable (by norm_num) abc_ok ?_ build_clocks_max
    rw [fischerEdges_scale]
    exact checkEdges_ok fischer_check h0 (by simpa using h1)
  · exact build_maxOK_max

/-- C80: the same for "FDDI", whose largest constant is six times the scale. -/
theorem C80_fddi (scale : ℤ) (h0 : 0 < scale) (h1 : scale * 6 < intMax) :
    (fddi scale).Learnable abcde ∧ (fddi scale).MaxOK := by
  constructor
  · refine build_learnable (by norm_num) abcde_ok ?_ build_clocks_max
    rw [fddiEdges_scale]
    exact checkEdges_ok fddi_check h0 h1
  · exact build_maxOK_max

/-- C80: the same for "Light". -/
theorem C80_light (scale : ℤ) (h0 : 0 < scale) (h1 : 2 * scale < intMax) :
    (light scale).Learnable lightAlphabet ∧ (light scale).MaxOK := by
  constructor
  · refine build_learnable (by norm_num) (by decide) ?_ (build_clocks (k := 1) rfl ?_)
    · rw [lightEdges_scale]
      exact checkEdges_ok (m := 2) (by decide +kernel) h0 (by linarith)
    · rw [lightEdges_scale]
      exact clocksBelow_scale (by unfold ClocksBelow; decide +kernel)
  · refine build_maxOK (by simp [h0.le]) ?_
    intro e he
    simp only [lightEdges, List.mem_cons, List.not_mem_nil, or_false] at he
    rcases he with rfl | rfl | rfl | rfl | rfl | rfl | rfl | rfl <;> simp <;> omega

/-- C80: the same for the simple DTA and for the complement written by hand. -/
theorem C80_simple (scale : ℤ) (h0 : 0 < scale) (h1 : scale < intMax) :
    ((simple scale).Learnable onlyA ∧ (simple scale).MaxOK) ∧
      ((simpleComplement scale).Learnable onlyA ∧ (simpleComplement scale).MaxOK) := by
  have hL : ∀ acc, (build 2 acc (simpleEdges scale) [scale]).Learnable onlyA ∧ (build 2 acc (simpleEdges scale) [scale]).MaxOK := by
    intro acc
    constructor
    · refine build_learnable (by norm_num) (by decide) ?_ (build_clocks (k := 1) rfl ?_)
      · rw [simpleEdges_scale]
        exact checkEdges_ok (m := 1) (by decide +kernel) h0 (by linarith)
      · rw [simpleEdges_scale]
        exact clocksBelow_scale (by unfold ClocksBelow; decide +kernel)
    · refine build_maxOK (by simp [h0.le]) ?_
      intro e he
      simp only [simpleEdges, List.mem_cons, List.not_mem_nil, or_false] at he
      rcases he with rfl | rfl | rfl | rfl <;> simp
  exact ⟨hL _, hL _⟩

theorem edges_one {edges : List Edge} (h : edges.map (Edge.scaleBy 1) = edges) {n : ℕ} {al : List Action} {m : ℤ}
    (hc : checkEdges n al m edges = true) (hm : m < intMax) : EdgesOk n al edges := by
  have := checkEdges_ok (s := 1) hc (by norm_num) (by simpa using hm)
  rwa [h] at this

/-- C80: the same for "CAS" and "PC". -/
theorem C80_fixed : (cas.Learnable casAlphabet ∧ cas.MaxOK) ∧ (pc.Learnable pcAlphabet ∧ pc.MaxOK) := by
  refine ⟨⟨?_, ?_⟩, ⟨?_, ?_⟩⟩
  · exact build_learnable (by norm_num) (by decide) (edges_one (m := 27) (by decide +kernel) (by decide +kernel) (by decide))
      (build_clocks (k := 1) rfl (by unfold ClocksBelow; decide +kernel))
  · exact build_maxOK (by simp) (by decide +kernel)
  · exact build_learnable (by norm_num) (by decide) (edges_one (m := 10) (by decide +kernel) (by decide +kernel) (by decide))
      (build_clocks (k := 1) rfl (by unfold ClocksBelow; decide +kernel))
  · exact build_maxOK (by simp) (by decide +kernel)

/-- C80: "Unbalanced loop" is learnable for all numbers of states and clocks and every scale, as long as its constants are below
`INT_MAX`. -/
theorem C80_loop (states clocks : ℕ) (scale : ℤ) (hs : 0 < states) (h0 : 0 < scale)
    (h1 : ∀ c < clocks, 2 * loopLength c * scale < intMax) : (unbalancedLoop states clocks scale).Learnable onlyA :=
  build_learnable hs onlyA_ok (loop_ok states clocks scale hs fun c hc =>
    ⟨h1 c hc, mul_nonneg (Int.natCast_nonneg _) h0.le⟩) (loop_clocks states clocks scale)

/-- C80: what the loops of "Unbalanced loop" compute.  The clocks are grouped: the group `L` has the `L` clocks from `(L-1)L/2` on,
the place of a clock in its group is `init`.  The only transition of state `i` goes to the next state, in a circle; it checks and
resets exactly the clocks for which `i + 1` is `init + L`, `init + 2L`, …, each with the interval between `L * scale` and
`2 * L * scale`, bounds excluded. -/
theorem C80_loop_structure (states clocks : ℕ) (scale : ℤ) :
    (∀ c, let L := loopLength c
      1 ≤ L ∧ (L - 1) * L / 2 ≤ c ∧ c < (L + 1) * L / 2 ∧ loopInit c = c - (L - 1) * L / 2) ∧
    ∀ i < states, ∀ t, t ∈ ((unbalancedLoop states clocks scale).loc i).next (act 'a') ↔
      ∃ cs : List ℕ, cs.Pairwise (· < ·) ∧
        (∀ c, c ∈ cs ↔ c < clocks ∧ ∃ k, 1 ≤ k ∧ i + 1 = loopInit c + k * loopLength c) ∧
        t = ⟨(i + 1) % states, cs.map fun c => (c, .const 0),
          cs.flatMap fun c => [⟨c, .gt, loopLength c * scale⟩, ⟨c, .lt, 2 * loopLength c * scale⟩]⟩ := by
  refine ⟨fun c => ⟨(loopLength_spec c).1, (loopLength_spec c).2.1, (loopLength_spec c).2.2, rfl⟩, fun i hi t => ?_⟩
  have hmem : ∀ c, c ∈ (List.range clocks).filter (fun c => decide (Checks states c i)) ↔
      c < clocks ∧ ∃ k, 1 ≤ k ∧ i + 1 = loopInit c + k * loopLength c := by
    intro c
    rw [List.mem_filter, List.mem_range, decide_eq_true_iff]
    refine and_congr_right fun _ => ?_
    unfold Checks
    have hL := (loopLength_spec c).1
    constructor
    · rintro ⟨-, h2, k, hk⟩
      refine ⟨k, ?_, ?_⟩
      · rcases Nat.eq_zero_or_pos k with rfl | h
        · rw [mul_zero] at hk; omega
        · exact h
      · rw [mul_comm]; omega
    · rintro ⟨k, h1, h2⟩
      have : loopLength c ≤ k * loopLength c := Nat.le_mul_of_pos_left _ h1
      exact ⟨hi, by omega, ⟨k, by rw [mul_comm]; omega⟩⟩
  constructor
  · intro ht
    obtain ⟨e, h1, h2, -, rfl⟩ := (mem_locs (acc := fun _ => true)).1 ht
    obtain ⟨j, hj, rfl⟩ := List.mem_map.1 h1
    rw [loopEdges_eq] at h2 ⊢
    obtain rfl : j = i := h2
    exact ⟨_, List.pairwise_lt_range.filter _, hmem, rfl⟩
  · rintro ⟨cs, h1, h2, rfl⟩
    have hcs : cs = (List.range clocks).filter (fun c => decide (Checks states c i)) :=
      List.Perm.eq_of_pairwise (fun a b _ _ hab hba => absurd hab (not_lt.2 hba.le)) h1 (List.pairwise_lt_range.filter _)
        ((List.perm_ext_iff_of_nodup (h1.imp fun h => ne_of_lt h) (List.nodup_range.filter _)).2 fun c => by rw [h2, hmem])
    refine (mem_locs (acc := fun _ => true)).2 ⟨_, List.mem_map.2 ⟨i, List.mem_range.2 hi, rfl⟩, ?_⟩
    rw [loopEdges_eq, ← hcs]
    exact ⟨rfl, rfl, rfl⟩

/-- C80: a limit.  The recorded `maxConstraints` of "Unbalanced loop" are `length * scale` although the guards compare with
`2 * length * scale`; hence they are too small for every choice of the parameters. -/
theorem C80_loop_max_witness (states clocks : ℕ) (scale : ℤ) (hs : 0 < states) (hc : 0 < clocks) (h0 : 0 < scale) :
    ¬ (unbalancedLoop states clocks scale).MaxOK := by
  intro h
  have hL : loopLength 0 = 1 := by decide
  have hI : loopInit 0 = 0 := by decide
  obtain ⟨cs, h1⟩ : ∃ cs, cs = (List.range clocks).filter (fun c => decide (Checks states c 0)) := ⟨_, rfl⟩
  have hm : (0 : ℕ) ∈ cs := by
    rw [h1, List.mem_filter, List.mem_range, decide_eq_true_iff]
    exact ⟨hc, hs, by rw [hL, hI], by rw [hL]; exact one_dvd _⟩
  have ht : (loopEdges states clocks scale 0).trans ∈ ((unbalancedLoop states clocks scale).loc 0).next (act 'a') := by
    refine (mem_locs (acc := fun _ => true)).2 ⟨_, List.mem_map.2 ⟨0, List.mem_range.2 hs, rfl⟩, ?_⟩
    rw [loopEdges_eq]
    exact ⟨rfl, rfl, rfl⟩
  have h2 := (h.2 0 (List.mem_range.2 hs) _ _ ht).1 ⟨0, .lt, 2 * loopLength 0 * scale⟩ (by
    rw [loopEdges_eq, ← h1]
    exact List.mem_flatMap.2 ⟨0, hm, by simp [loopGuard]⟩)
  have h3 : (unbalancedLoop states clocks scale).maxC.getD 0 0 = scale * loopLength 0 := by
    obtain ⟨n, rfl⟩ := Nat.exists_eq_succ_of_ne_zero hc.ne'
    simp [unbalancedLoop, build, List.range_succ_eq_map]
  rw [h3, hL] at h2
  simp only [Nat.cast_one, mul_one] at h2
  omega

/-- C80: the preparation of the targets.  If a learnable target with a non-empty language is simplified as the fixtures do it
(`simplifyStrong`, then `simplifyWithZones`), then the result has the same language and is again learnable, with right
`maxConstraints` if they were right before: the experiment on it meets the hypotheses of C76. -/
theorem C80_prepared {alphabet : List Action} {A B : TA} (hA : A.Learnable alphabet) (hal : alphabet ∈ exampleAlphabets)
    (hne : ∃ w : TimedWord, w.WF ∧ A.Accepts w) (zones : HashOrder) (rounds : ℕ)
    (h : A.simplifyStrong.simplifyWithZones zones rounds = some B) :
    (∀ w : TimedWord, w.WF → (B.Accepts w ↔ A.Accepts w)) ∧ B.Learnable alphabet ∧ (A.MaxOK → B.MaxOK) ∧
      Experiment.Config.Ok ⟨alphabet, B, []⟩ ∧ B.IntResets := by
  obtain ⟨al1, al2, al3⟩ := C80_alphabets alphabet hal
  have hso : A.simplifyStrong.Over alphabet := (TA.simplifyStrong_search A hA.wf).2.2 hA.over
  have hlang : ∀ w : TimedWord, w.WF → (B.Accepts w ↔ A.Accepts w) ∧ B.WF := fun w hw =>
    C43_simplified A hA.wf hA.inOrder.ordered (fun p hp a ha => al3 a (hso p hp a ha)) zones rounds B h w hw
  have hsw := (C34_simplify_language A hA.wf ⟨[], [0]⟩).2.2.2
  obtain ⟨p1, p2, p3, p4⟩ := C54_part _ hsw zones rounds B h
  have hsub : TA.Sub B A.simplifyStrong := ⟨p1, p2, fun p hp => (p4 p hp).2⟩
  have hBw : B.WF := (hlang ⟨[], [0]⟩ (by unfold TimedWord.WF; rfl)).2
  have hL : B.Learnable alphabet := by
    refine ⟨hBw, hsub.epsFree ((TA.simplifyStrong_keeps A hA.wf).1 hA.eps),
      hsub.deterministic (simplifyStrong_deterministic A hA.wf hA.det), ?_, ?_,
      hsub.constResets ((TA.simplifyStrong_search (alphabet := alphabet) A hA.wf).1 hA.consts), ?_⟩
    · rcases C54_startable _ hsw ((TA.simplifyStrong_init_length A).trans hA.init.le) zones rounds B h with h1 | h1
      · exact h1
      · exfalso
        obtain ⟨w, hw, hacc⟩ := hne
        obtain ⟨q, hq, -⟩ := ((hlang w hw).1).2 hacc
        have := hBw.closed.1 q hq
        rw [h1] at this
        cases this
    · intro p hp a t ht
      exact (TA.simplifyStrong_reconstruct A hA.wf).1 hA.inOrder p (p1.subset hp) a t (((p4 p hp).2 a).subset ht)
    · intro p hp a ha
      refine hso p (p1.subset hp) a fun h0 => ha ?_
      have := (p4 p hp).2 a
      rw [h0] at this
      exact List.sublist_nil.1 this
  refine ⟨fun w hw => (hlang w hw).1, hL, fun hm => ?_, ?_, ?_⟩
  · exact hsub.maxOK p3 ((TA.simplifyStrong_search (alphabet := alphabet) A hA.wf).2.1 hA.consts hm)
  · exact ⟨hL.wf, hL.eps, (TA.deterministic_iff B hBw.small).2 hL.det, hL.init, hL.inOrder.ordered, hL.over, al1, al2, al3,
      fun w hw => by cases hw⟩
  · intro p hp a t ht r hr q hq
    obtain ⟨k, hk⟩ := hL.consts p hp a t ht r hr
    rw [hk] at hq
    cases hq
    exact ⟨k, rfl⟩

/-- C80: the targets that are not simplified ("Light", "CAS", "PC") meet the hypotheses of C76 directly. -/
theorem C80_direct {alphabet : List Action} {A : TA} (hA : A.Learnable alphabet) (hal : alphabet ∈ exampleAlphabets) :
    Experiment.Config.Ok ⟨alphabet, A, []⟩ ∧ A.IntResets := by
  obtain ⟨al1, al2, al3⟩ := C80_alphabets alphabet hal
  refine ⟨⟨hA.wf, hA.eps, (TA.deterministic_iff A hA.wf.small).2 hA.det, hA.init, hA.inOrder.ordered, hA.over, al1, al2, al3,
      fun w hw => by cases hw⟩, ?_⟩
  intro p hp a t ht r hr q hq
  obtain ⟨k, hk⟩ := hA.consts p hp a t ht r hr
  rw [hk] at hq
  cases hq
  exact ⟨k, rfl⟩

/-! ### Languages -/

theorem plain_act {n : ℕ} {acc : ℕ → Bool} {edges : List Edge} {maxC : List ℤ} {p : ℕ} {v : Valuation} {d : ℚ} {a : Action}
    {es : List Event} {c' : Config} (h : (build n acc edges maxC).Plain ⟨p, v⟩ (.delay d :: .act a :: es) c') :
    0 ≤ d ∧ ∃ e ∈ edges, e.src = p ∧ e.act = a ∧ e.guard.Holds (v.shift d) ∧
      (build n acc edges maxC).Plain ⟨e.tgt, e.trans.resets.apply (v.shift d)⟩ es c' := by
  cases h with
  | delay d hd h =>
    cases h with
    | act a ha t ht hg h =>
      obtain ⟨e, h1, h2, h3, rfl⟩ := mem_locs.1 ht
      exact ⟨hd, e, h1, h2, h3, hg, h⟩

theorem plain_end {A : TA} {p : ℕ} {v : Valuation} {d : ℚ} {c' : Config} (h : A.Plain ⟨p, v⟩ [.delay d] c') :
    0 ≤ d ∧ c'.loc = p := by
  cases h with
  | delay d hd h =>
    cases h with
    | nil c => exact ⟨hd, rfl⟩

theorem plain_stays {n : ℕ} {acc : ℕ → Bool} {edges : List Edge} {maxC : List ℤ} (P : ℕ → Prop)
    (hP : ∀ e ∈ edges, P e.src → P e.tgt) {c c' : Config} {es : List Event} (h : (build n acc edges maxC).Plain c es c')
    (h0 : P c.loc) : P c'.loc := by
  induction h with
  | nil c => exact h0
  | delay d hd h ih => exact ih h0
  | act a ha t ht hg h ih =>
    obtain ⟨e, h1, h2, -, rfl⟩ := mem_locs.1 ht
    exact ih (hP e h1 (h2 ▸ h0))

theorem run_step {n : ℕ} {acc : ℕ → Bool} {edges : List Edge} {maxC : List ℤ} {v : Valuation} {d : ℚ} {es : List Event} {q : ℕ}
    (hd : 0 ≤ d) (e : Edge) (he : e ∈ edges) (ha : e.act ≠ unobservable) (hg : e.guard.Holds (v.shift d))
    (h : ∃ v', (build n acc edges maxC).Steps ⟨e.tgt, e.trans.resets.apply (v.shift d)⟩ es ⟨q, v'⟩) :
    ∃ v', (build n acc edges maxC).Steps ⟨e.src, v⟩ (.delay d :: .act e.act :: es) ⟨q, v'⟩ := by
  obtain ⟨v', h⟩ := h
  exact ⟨v', .delay d hd (.act e.act ha e.trans (mem_locs.2 ⟨e, he, rfl, rfl, rfl⟩) hg h)⟩

theorem run_end {A : TA} {p : ℕ} {v : Valuation} {d : ℚ} (hd : 0 ≤ d) : ∃ v', A.Steps ⟨p, v⟩ [.delay d] ⟨p, v'⟩ :=
  ⟨_, .delay d hd (.nil _)⟩

/-- C80: the language of the target of "Unbalanced": the timed words `a b c` whose first two delays sum up to the scale, and so do
the second and the third. -/
theorem C80_unbalanced_language (scale : ℤ) (h0 : 0 < scale) (h1 : scale < intMax) (w : TimedWord) (hw : w.WF) :
    (unbalanced scale).Accepts w ↔ IsUnbalanced scale w := by
  obtain ⟨hL, -⟩ := C80_unbalanced scale h0 h1
  have sink : ∀ {v es c'}, (unbalanced scale).Plain ⟨4, v⟩ es c' → ((unbalanced scale).loc c'.loc).isMatch = true → False := by
    intro v es c' h hm
    have : c'.loc = 4 := plain_stays (fun p => p = 4) (by
      intro e he hs
      simp only [unbalancedEdges, List.mem_cons, List.not_mem_nil, or_false] at he
      rcases he with rfl | rfl | rfl | rfl | rfl | rfl | rfl | rfl | rfl | rfl | rfl | rfl | rfl | rfl | rfl | rfl | rfl | rfl | rfl <;>
        simp_all) h rfl
    rw [this] at hm
    simp [unbalanced, build, locs] at hm
  have stop : ∀ {p v d c'}, (unbalanced scale).Plain ⟨p, v⟩ [.delay d] c' → ((unbalanced scale).loc c'.loc).isMatch = true →
      p = 3 ∧ 0 ≤ d := by
    intro p v d c' h hm
    obtain ⟨hd, e⟩ := plain_end h
    rw [e] at hm
    exact ⟨by simpa [unbalanced, build, locs] using hm, hd⟩
  obtain ⟨word, durations⟩ := w
  simp only [TimedWord.WF] at hw
  constructor
  · rintro ⟨q, hq, c', hs, hm⟩
    obtain rfl : q = 0 := List.mem_singleton.1 hq
    have hp := hs.plain hL.wf.closed hL.eps (List.mem_range.2 (by norm_num))
    clear hs
    rcases word with _ | ⟨a1, word⟩ <;> rcases durations with _ | ⟨d0, durations⟩ <;> simp at hw
    · subst hw
      exact absurd (stop hp hm).1 (by norm_num)
    obtain ⟨k0, e, e1, e2, e3, -, hp⟩ := plain_act hp
    simp only [unbalancedEdges, List.mem_cons, List.not_mem_nil, or_false] at e1
    rcases e1 with rfl | rfl | rfl | rfl | rfl | rfl | rfl | rfl | rfl | rfl | rfl | rfl | rfl | rfl | rfl | rfl | rfl | rfl | rfl <;>
      first | (exfalso; simp at e2; done) | (exfalso; exact sink hp hm) | skip
    have f1 : a1 = act 'a' := e3.symm
    rcases word with _ | ⟨a2, word⟩ <;> rcases durations with _ | ⟨d1, durations⟩ <;> simp at hw
    · subst hw
      exact absurd (stop hp hm).1 (by norm_num)
    obtain ⟨k1, e, e1, e2, e3, g1, hp⟩ := plain_act hp
    simp only [unbalancedEdges, List.mem_cons, List.not_mem_nil, or_false] at e1
    rcases e1 with rfl | rfl | rfl | rfl | rfl | rfl | rfl | rfl | rfl | rfl | rfl | rfl | rfl | rfl | rfl | rfl | rfl | rfl | rfl <;>
      first | (exfalso; simp at e2; done) | (exfalso; exact sink hp hm) | skip
    have f2 : a2 = act 'b' := e3.symm
    rcases word with _ | ⟨a3, word⟩ <;> rcases durations with _ | ⟨d2, durations⟩ <;> simp at hw
    · subst hw
      exact absurd (stop hp hm).1 (by norm_num)
    obtain ⟨k2, e, e1, e2, e3, g2, hp⟩ := plain_act hp
    simp only [unbalancedEdges, List.mem_cons, List.not_mem_nil, or_false] at e1
    rcases e1 with rfl | rfl | rfl | rfl | rfl | rfl | rfl | rfl | rfl | rfl | rfl | rfl | rfl | rfl | rfl | rfl | rfl | rfl | rfl <;>
      first | (exfalso; simp at e2; done) | (exfalso; exact sink hp hm) | skip
    have f3 : a3 = act 'c' := e3.symm
    rcases word with _ | ⟨a4, word⟩ <;> rcases durations with _ | ⟨d3, durations⟩ <;> simp at hw
    · subst hw
      obtain ⟨-, k3⟩ := stop hp hm
      refine ⟨d0, d1, d2, d3, by rw [f1, f2, f3], rfl, k0, k1, k2, k3, ?_, ?_⟩
      · have m1 := g1 _ List.mem_cons_self
        have m2 := g1 _ (List.mem_cons_of_mem _ List.mem_cons_self)
        have m3 : (0 : ℚ) + d0 + d1 = scale := le_antisymm m2 m1
        linarith
      · have m1 := g2 _ List.mem_cons_self
        have m2 := g2 _ (List.mem_cons_of_mem _ List.mem_cons_self)
        have m3 : (0 : ℚ) + d1 + d2 = scale := le_antisymm m2 m1
        linarith
    · exfalso
      obtain ⟨k2, e, e1, e2, e3, g2, hp⟩ := plain_act hp
      simp only [unbalancedEdges, List.mem_cons, List.not_mem_nil, or_false] at e1
      rcases e1 with rfl | rfl | rfl | rfl | rfl | rfl | rfl | rfl | rfl | rfl | rfl | rfl | rfl | rfl | rfl | rfl | rfl | rfl | rfl <;>
        first | (exfalso; simp at e2; done) | exact sink hp hm
  · rintro ⟨d0, d1, d2, d3, rfl, rfl, k0, k1, k2, k3, s1, s2⟩
    suffices h : ∃ v, (unbalanced scale).Steps ⟨0, Valuation.zero⟩
        (TimedWord.events ⟨[act 'a', act 'b', act 'c'], [d0, d1, d2, d3]⟩) ⟨3, v⟩ by
      obtain ⟨v, h⟩ := h
      exact ⟨0, List.mem_singleton.2 rfl, ⟨3, v⟩, h, by simp [unbalanced, build, locs]⟩
    refine run_step k0 ⟨0, act 'a', 1, [1], []⟩ (by simp [unbalancedEdges]) (by show act 'a' ≠ _; decide) (by intro c hc; cases hc) ?_
    refine run_step k1 ⟨1, act 'b', 2, [], [⟨0, .ge, scale⟩, ⟨0, .le, scale⟩]⟩ (by simp [unbalancedEdges])
      (by show act 'b' ≠ _; decide) ?_ ?_
    · intro c hc
      have e : (0 : ℚ) + d0 + d1 = scale := by linarith
      simp only [List.mem_cons, List.not_mem_nil, or_false] at hc
      rcases hc with rfl | rfl
      · exact e.ge
      · exact e.le
    refine run_step k2 ⟨2, act 'c', 3, [], [⟨1, .ge, scale⟩, ⟨1, .le, scale⟩]⟩ (by simp [unbalancedEdges])
      (by show act 'c' ≠ _; decide) ?_ ?_
    · intro c hc
      have e : (0 : ℚ) + d1 + d2 = scale := by linarith
      simp only [List.mem_cons, List.not_mem_nil, or_false] at hc
      rcases hc with rfl | rfl
      · exact e.ge
      · exact e.le
    exact run_end k3

theorem checksAt_iff {states c j : ℕ} (hs : 0 < states) : ChecksAt states c j ↔ Checks states c (j % states) := by
  have hL := (loopLength_spec c).1
  unfold ChecksAt Checks
  constructor
  · rintro ⟨k, h1, h2⟩
    have : loopLength c ≤ k * loopLength c := Nat.le_mul_of_pos_left _ h1
    exact ⟨Nat.mod_lt _ hs, by omega, ⟨k, by rw [mul_comm]; omega⟩⟩
  · rintro ⟨-, h2, k, hk⟩
    refine ⟨k, ?_, ?_⟩
    · rcases Nat.eq_zero_or_pos k with rfl | h
      · rw [mul_zero] at hk; omega
      · exact h
    · rw [mul_comm]; omega

theorem reset_apply (cs : List ℕ) (v : Valuation) (c : ℕ) :
    Resets.apply (cs.map fun x => (x, Upd.const 0)) v c = if c ∈ cs then 0 else v c := by
  have gen : ∀ (cs : List ℕ) (u : Valuation), (cs.map fun x => ((x, Upd.const 0) : ℕ × Upd)).foldl
      (fun v' p => Function.update v' p.1 (p.2.eval v)) u c = if c ∈ cs then 0 else u c := by
    intro cs
    induction cs with
    | nil => intro u; simp
    | cons x cs ih =>
      intro u
      rw [List.map_cons, List.foldl_cons, ih]
      by_cases h1 : c ∈ cs
      · rw [if_pos h1, if_pos (List.mem_cons_of_mem _ h1)]
      · rw [if_neg h1]
        by_cases h2 : c = x
        · subst h2
          rw [Function.update_self, if_pos List.mem_cons_self]
          rfl
        · rw [Function.update_of_ne h2, if_neg (by simp [h1, h2])]
  exact gen cs v

theorem loop_run (states clocks : ℕ) (scale : ℤ) (hs : 0 < states) (ds : List ℚ) : ∀ (as : List Action) (j : ℕ) (v : Valuation),
    ds.length = j + as.length + 1 → (∀ c < clocks, v c = age states ds c j) →
    ((∃ c', (unbalancedLoop states clocks scale).Plain ⟨j % states, v⟩ (eventsOf as (ds.drop j)) c') ↔
      (∀ a ∈ as, a = act 'a') ∧ (∀ d ∈ ds.drop j, 0 ≤ d) ∧ ∀ i, j ≤ i → i < j + as.length → ∀ c < clocks, ChecksAt states c i →
        (loopLength c * scale : ℚ) < age states ds c i + ds.getD i 0 ∧
          age states ds c i + ds.getD i 0 < (2 * loopLength c * scale : ℚ)) := by
  intro as
  induction as with
  | nil =>
    intro j v hl hv
    obtain ⟨d, hd⟩ : ∃ d, ds.drop j = [d] := List.length_eq_one_iff.1 (by rw [List.length_drop, hl]; simp)
    rw [hd]
    constructor
    · rintro ⟨c', h⟩
      exact ⟨by simp, by simpa using (plain_end h).1, fun i h1 h2 => by simp at h2; omega⟩
    · rintro ⟨-, h, -⟩
      exact ⟨_, .delay d (h d (by simp)) (.nil _)⟩
  | cons a as ih =>
    intro j v hl hv
    have hlt : j < ds.length := by rw [hl]; simp; omega
    have hdrop : ds.drop j = ds[j] :: ds.drop (j + 1) := List.drop_eq_getElem_cons hlt
    have hget : ds.getD j 0 = ds[j] := by simp [List.getD_eq_getElem?_getD, hlt]
    obtain ⟨cs, hcs⟩ : ∃ cs, cs = (List.range clocks).filter (fun c => decide (Checks states c (j % states))) := ⟨_, rfl⟩
    have hmem : ∀ c, c ∈ cs ↔ c < clocks ∧ ChecksAt states c j := by
      intro c
      rw [hcs, List.mem_filter, List.mem_range, decide_eq_true_iff, checksAt_iff hs]
    have hedge : loopEdges states clocks scale (j % states) =
        ⟨j % states, act 'a', (j + 1) % states, cs, cs.flatMap (loopGuard scale)⟩ := by
      rw [loopEdges_eq, ← hcs]
      congr 1
      rw [Nat.mod_add_mod]
    have hguard : Guard.Holds (cs.flatMap (loopGuard scale)) (v.shift ds[j]) ↔ ∀ c < clocks, ChecksAt states c j →
        (loopLength c * scale : ℚ) < age states ds c j + ds.getD j 0 ∧
          age states ds c j + ds.getD j 0 < (2 * loopLength c * scale : ℚ) := by
      constructor
      · intro h c hc hch
        have m1 := h ⟨c, .gt, loopLength c * scale⟩ (List.mem_flatMap.2 ⟨c, (hmem c).2 ⟨hc, hch⟩, by simp [loopGuard]⟩)
        have m2 := h ⟨c, .lt, 2 * loopLength c * scale⟩ (List.mem_flatMap.2 ⟨c, (hmem c).2 ⟨hc, hch⟩, by simp [loopGuard]⟩)
        simp only [Constraint.Holds, Valuation.shift, hv c hc] at m1 m2
        push_cast at m1 m2
        rw [hget]
        exact ⟨m1, m2⟩
      · intro h x hx
        obtain ⟨c, hc, hx⟩ := List.mem_flatMap.1 hx
        obtain ⟨hc, hch⟩ := (hmem c).1 hc
        have := h c hc hch
        rw [hget, ← hv c hc] at this
        simp only [loopGuard, List.mem_cons, List.not_mem_nil, or_false] at hx
        rcases hx with rfl | rfl <;> simp only [Constraint.Holds, Valuation.shift] <;> push_cast
        · exact this.1
        · exact this.2
    have hv' : ∀ c < clocks, Resets.apply (cs.map fun x => (x, Upd.const 0)) (v.shift ds[j]) c = age states ds c (j + 1) := by
      intro c hc
      rw [reset_apply, age, hget, ← hv c hc]
      by_cases h : ChecksAt states c j
      · rw [if_pos ((hmem c).2 ⟨hc, h⟩), if_pos h]
      · rw [if_neg (fun k => h ((hmem c).1 k).2), if_neg h]
        rfl
    have hih := ih (j + 1) _ (by rw [hl]; simp; omega) hv'
    rw [hdrop]
    constructor
    · rintro ⟨c', h⟩
      obtain ⟨hd, e, he, hsrc, hact, hg, hp⟩ := plain_act h
      obtain ⟨i, hi, rfl⟩ := List.mem_map.1 he
      have hij : i = j % states := by rw [loopEdges_eq] at hsrc; exact hsrc
      subst hij
      rw [hedge] at hact hg hp
      obtain ⟨q1, q2, q3⟩ := hih.1 ⟨c', hp⟩
      refine ⟨fun x hx => ?_, fun x hx => ?_, fun i h1 h2 => ?_⟩
      · rcases List.mem_cons.1 hx with rfl | hx
        · exact hact.symm
        · exact q1 x hx
      · rcases List.mem_cons.1 hx with rfl | hx
        · exact hd
        · exact q2 x hx
      · rcases Nat.eq_or_lt_of_le h1 with rfl | h1
        · exact hguard.1 hg
        · exact q3 i h1 (by rw [List.length_cons] at h2; omega)
    · rintro ⟨q1, q2, q3⟩
      obtain ⟨c', hp⟩ := hih.2 ⟨fun x hx => q1 x (List.mem_cons_of_mem _ hx), fun x hx => q2 x (List.mem_cons_of_mem _ hx),
        fun i h1 h2 => q3 i (by omega) (by rw [List.length_cons]; omega)⟩
      obtain rfl := q1 a List.mem_cons_self
      refine ⟨c', .delay _ (q2 _ List.mem_cons_self) (.act (act 'a') (by decide) (loopEdges states clocks scale (j % states)).trans
        ?_ ?_ ?_)⟩
      · refine (mem_locs (acc := fun _ => true)).2 ⟨_, List.mem_map.2 ⟨j % states, List.mem_range.2 (Nat.mod_lt _ hs), rfl⟩, ?_⟩
        rw [hedge]
        exact ⟨rfl, rfl, rfl⟩
      · rw [hedge]
        exact hguard.2 (q3 j le_rfl (by rw [List.length_cons]; omega))
      · rw [hedge]
        exact hp

/-- C80: the language of the target of "Unbalanced loop", for all numbers of states and clocks and every scale. -/
theorem C80_loop_language (states clocks : ℕ) (scale : ℤ) (hs : 0 < states) (h0 : 0 < scale)
    (h1 : ∀ c < clocks, 2 * loopLength c * scale < intMax) (w : TimedWord) (hw : w.WF) :
    (unbalancedLoop states clocks scale).Accepts w ↔ IsUnbalancedLoop states clocks scale w := by
  have hL := C80_loop states clocks scale hs h0 h1
  have hrun := loop_run states clocks scale hs w.durations w.word 0 Valuation.zero (by rw [hw]; omega) (fun c _ => rfl)
  rw [Nat.zero_mod, List.drop_zero] at hrun
  have : (unbalancedLoop states clocks scale).Accepts w ↔
      ∃ c', (unbalancedLoop states clocks scale).Plain ⟨0, Valuation.zero⟩ (eventsOf w.word w.durations) c' := by
    constructor
    · rintro ⟨q, hq, c', h, -⟩
      obtain rfl : q = 0 := List.mem_singleton.1 hq
      exact ⟨c', h.plain hL.wf.closed hL.eps (List.mem_range.2 hs)⟩
    · rintro ⟨c', h⟩
      exact ⟨0, List.mem_singleton.2 rfl, c', h.steps, rfl⟩
  rw [this, hrun]
  unfold IsUnbalancedLoop TimedWord.Nonneg
  simp only [Nat.zero_le, forall_const, Nat.zero_add]

/-- The empty word is accepted by a target whose initial state accepts. -/
theorem accepts_empty {n : ℕ} {acc : ℕ → Bool} {edges : List Edge} {maxC : List ℤ} (h : acc 0 = true) :
    ∃ w : TimedWord, w.WF ∧ (build n acc edges maxC).Accepts w :=
  ⟨⟨[], [0]⟩, by unfold TimedWord.WF; rfl, 0, List.mem_singleton.2 rfl, _, .delay 0 le_rfl (.nil _), h⟩

/-- C80: a finished run of the program for "Unbalanced" with any scale.  If the environment of the learner is lawful and simulates
the target, then the learned automaton accepts exactly the words of the benchmark, or the search for a counterexample in the
last query missed one (C44 and C76 say when this is excluded). -/
theorem C80_unbalanced_learned (scale : ℤ) (h0 : 0 < scale) (h1 : scale < intMax) (zones : HashOrder) (rounds : ℕ) (B : TA)
    (hB : (unbalanced scale).simplifyStrong.simplifyWithZones zones rounds = some B)
    {env : Env Runner} {henv : ObsTable.HypEnv} {fuel n : ℕ} (hs : Simulates env B) (hl : env.Lawful) (hh : henv.Lawful)
    {H : TA} {o : List Experiment.Member × ByTest} {log : List (TA × Option TimedWord)} {T : ObsTable Runner}
    (h : Experiment.loggedRun ⟨abc, B, []⟩ env henv zones rounds (fuel + 1) n = .ok ((H, (o, log)), T))
    (hn : ∀ x ∈ log, ∀ w, x.2 = some w → w.Nonneg) (hreg : T.Regular) (hsm : SmallPrefixes T) (hord : H.ResetsOrdered) :
    (∀ w : TimedWord, w.WF → w.Nonneg → (∀ a ∈ w.word, a ∈ abc) → (H.Accepts w ↔ IsUnbalanced scale w)) ∨
      ∃ Cm, Experiment.complement ⟨abc, B, []⟩ zones rounds = some Cm ∧
        (SampleMisses (ComplementOracle.subsetTA Cm H) zones rounds ∨
          SampleMisses (ComplementOracle.supersetTA B H abc) zones rounds) := by
  have hlang := C80_unbalanced_language scale h0 h1
  have hs0 : (0 : ℚ) ≤ scale := by exact_mod_cast h0.le
  obtain ⟨p1, -, -, p4, p5⟩ := C80_prepared (C80_unbalanced scale h0 h1).1 (by simp [exampleAlphabets])
    ⟨⟨[act 'a', act 'b', act 'c'], [0, scale, 0, 0]⟩, by unfold TimedWord.WF; rfl, (hlang _ (by unfold TimedWord.WF; rfl)).2
      ⟨0, scale, 0, 0, rfl, rfl, le_rfl, hs0, le_rfl, le_rfl, by simp, by simp⟩⟩ zones rounds hB
  refine ((C76_learned p4 p5 hs hl hh h hn hreg hsm).2.2.2.2.2.2.2 hord).imp (fun k w w1 w2 w3 => ?_) id
  exact (k w w1 w2 w3).trans ((p1 w w1).trans (hlang w w1))

/-- C80: the experiments of all the other programs meet the hypotheses of C76 too, for all parameters in range. -/
theorem C80_experiments (scale : ℤ) (h0 : 0 < scale) (h6 : scale * 6 < intMax) :
    (∀ zones rounds B, (fischer scale).simplifyStrong.simplifyWithZones zones rounds = some B →
      Experiment.Config.Ok ⟨abc, B, []⟩ ∧ B.MaxOK ∧ ∀ w : TimedWord, w.WF → (B.Accepts w ↔ (fischer scale).Accepts w)) ∧
    (∀ zones rounds B, (fddi scale).simplifyStrong.simplifyWithZones zones rounds = some B →
      Experiment.Config.Ok ⟨abcde, B, []⟩ ∧ B.MaxOK ∧ ∀ w : TimedWord, w.WF → (B.Accepts w ↔ (fddi scale).Accepts w)) ∧
    (∀ zones rounds B, (simple scale).simplifyStrong.simplifyWithZones zones rounds = some B →
      Experiment.Config.Ok ⟨onlyA, B, []⟩ ∧ B.MaxOK ∧ ∀ w : TimedWord, w.WF → (B.Accepts w ↔ (simple scale).Accepts w)) ∧
    (∀ states clocks, 0 < states → (∀ c < clocks, 2 * loopLength c * scale < intMax) → ∀ zones rounds B,
      (unbalancedLoop states clocks scale).simplifyStrong.simplifyWithZones zones rounds = some B →
      Experiment.Config.Ok ⟨onlyA, B, []⟩ ∧
        ∀ w : TimedWord, w.WF → (B.Accepts w ↔ (unbalancedLoop states clocks scale).Accepts w)) ∧
    Experiment.Config.Ok ⟨lightAlphabet, light scale, []⟩ ∧ Experiment.Config.Ok ⟨casAlphabet, cas, []⟩ ∧
    Experiment.Config.Ok ⟨pcAlphabet, pc, []⟩ := by
  refine ⟨fun zones rounds B h => ?_, fun zones rounds B h => ?_, fun zones rounds B h => ?_,
    fun states clocks hs hc zones rounds B h => ?_, ?_, ?_, ?_⟩
  · obtain ⟨k1, k2⟩ := C80_fischer scale h0 (by omega)
    obtain ⟨p1, -, p3, p4, -⟩ := C80_prepared k1 (by simp [exampleAlphabets]) (accepts_empty rfl) zones rounds h
    exact ⟨p4, p3 k2, p1⟩
  · obtain ⟨k1, k2⟩ := C80_fddi scale h0 h6
    obtain ⟨p1, -, p3, p4, -⟩ := C80_prepared k1 (by simp [exampleAlphabets]) (accepts_empty rfl) zones rounds h
    exact ⟨p4, p3 k2, p1⟩
  · obtain ⟨⟨k1, k2⟩, -⟩ := C80_simple scale h0 (by omega)
    obtain ⟨p1, -, p3, p4, -⟩ := C80_prepared k1 (by simp [exampleAlphabets]) (accepts_empty rfl) zones rounds h
    exact ⟨p4, p3 k2, p1⟩
  · obtain ⟨p1, -, -, p4, -⟩ := C80_prepared (C80_loop states clocks scale hs h0 hc) (by simp [exampleAlphabets])
      (accepts_empty rfl) zones rounds h
    exact ⟨p4, p1⟩
  · exact (C80_direct (C80_light scale h0 (by omega)).1 (by simp [exampleAlphabets])).1
  · exact (C80_direct C80_fixed.1.1 (by simp [exampleAlphabets])).1
  · exact (C80_direct C80_fixed.2.1 (by simp [exampleAlphabets])).1

/-- C80: the complement of the simple DTA written by hand in the program accepts exactly the words over its alphabet that the DTA
rejects. -/
theorem C80_simple_complement (scale : ℤ) (h0 : 0 < scale) (h1 : scale < intMax) (w : TimedWord) (hw : w.WF) (hn : w.Nonneg)
    (ha : ∀ a ∈ w.word, a ∈ onlyA) : (simpleComplement scale).Accepts w ↔ ¬ (simple scale).Accepts w := by
  obtain ⟨⟨hL, -⟩, ⟨hL', -⟩⟩ := C80_simple scale h0 h1
  -- the runs do not depend on the accepting states
  have same : ∀ {acc acc' : ℕ → Bool} {c c' : Config} {es : List Event},
      (build 2 acc (simpleEdges scale) [scale]).Plain c es c' → (build 2 acc' (simpleEdges scale) [scale]).Plain c es c' := by
    intro acc acc' c c' es h
    induction h with
    | nil c => exact .nil c
    | delay d hd _ ih => exact .delay d hd ih
    | act a ha t ht hg _ ih => exact .act a ha t ht hg ih
  have run : ∀ (as : List Action) (ds : List ℚ) (p : ℕ) (v : Valuation), ds.length = as.length + 1 → (∀ d ∈ ds, 0 ≤ d) →
      (∀ a ∈ as, a = act 'a') → p < 2 → ∃ c', (simple scale).Plain ⟨p, v⟩ (eventsOf as ds) c' ∧ c'.loc < 2 := by
    intro as
    induction as with
    | nil =>
      intro ds p v hl hd _ hp
      obtain ⟨d, rfl⟩ := List.length_eq_one_iff.1 hl
      exact ⟨_, .delay d (hd d (by simp)) (.nil _), hp⟩
    | cons a as ih =>
      intro ds p v hl hd has hp
      obtain ⟨d, ds, rfl⟩ := List.exists_cons_of_length_eq_add_one hl
      obtain rfl := has a (by simp)
      have hd0 := hd d (by simp)
      obtain ⟨e, he, hsrc, hact, hg, htgt⟩ : ∃ e ∈ simpleEdges scale, e.src = p ∧ e.act = act 'a' ∧
          e.guard.Holds (v.shift d) ∧ e.tgt < 2 := by
        interval_cases p
        · rcases lt_or_ge (v 0 + d) scale with h | h
          · exact ⟨⟨0, act 'a', 0, [], [⟨0, .lt, scale⟩]⟩, by simp [simpleEdges], rfl, rfl,
              fun c hc => by rw [List.mem_singleton.1 hc]; exact h, by norm_num⟩
          · exact ⟨⟨0, act 'a', 1, [0], [⟨0, .ge, scale⟩]⟩, by simp [simpleEdges], rfl, rfl,
              fun c hc => by rw [List.mem_singleton.1 hc]; exact h, by norm_num⟩
        · rcases le_or_gt (v 0 + d) scale with h | h
          · exact ⟨⟨1, act 'a', 0, [], [⟨0, .le, scale⟩]⟩, by simp [simpleEdges], rfl, rfl,
              fun c hc => by rw [List.mem_singleton.1 hc]; exact h, by norm_num⟩
          · exact ⟨⟨1, act 'a', 1, [], [⟨0, .gt, scale⟩]⟩, by simp [simpleEdges], rfl, rfl,
              fun c hc => by rw [List.mem_singleton.1 hc]; exact h, by norm_num⟩
      obtain ⟨c', hc', hl'⟩ := ih ds e.tgt (e.trans.resets.apply (v.shift d)) (by simpa using hl)
        (fun x hx => hd x (by simp [hx])) (fun x hx => has x (by simp [hx])) htgt
      refine ⟨c', .delay d hd0 (.act (act 'a') (by decide) e.trans ?_ hg hc'), hl'⟩
      exact (mem_locs (acc := fun p => p == 0)).2 ⟨e, he, hsrc, hact, rfl⟩
  obtain ⟨c, hc, hcl⟩ := run w.word w.durations 0 Valuation.zero hw hn (fun a h => List.mem_singleton.1 (ha a h)) (by norm_num)
  have hacc : ∀ {acc : ℕ → Bool}, (build 2 acc (simpleEdges scale) [scale]).Learnable onlyA →
      ((build 2 acc (simpleEdges scale) [scale]).Accepts w ↔ acc c.loc = true) := by
    intro acc hL
    constructor
    · rintro ⟨q, hq, c', hs, hm⟩
      obtain rfl : q = 0 := List.mem_singleton.1 hq
      have := plain_unique hL.wf hL.det (hs.plain hL.wf.closed hL.eps (List.mem_range.2 (by norm_num))) (same hc)
        (List.mem_range.2 (by norm_num)) (fun _ => le_rfl)
      rw [← this]
      exact hm
    · intro h
      exact ⟨0, List.mem_singleton.2 rfl, c, (same hc).steps, h⟩
  rw [show (simple scale).Accepts w ↔ _ from hacc hL, show (simpleComplement scale).Accepts w ↔ _ from hacc hL']
  obtain ⟨p, v⟩ := c
  simp only at hcl ⊢
  interval_cases p <;> simp

theorem fischer_mem {scale : ℤ} {p pA pB : ℕ} (hp : p < 3) (hA : pA < 4) (hB : pB < 4) {e : Edge}
    (h : e ∈ fischerStep scale p pA pB) : e ∈ fischerEdges scale := by
  refine List.mem_flatMap.2 ⟨p, ?_, List.mem_flatMap.2 ⟨pA, ?_, List.mem_flatMap.2 ⟨pB, ?_, h⟩⟩⟩
  · interval_cases p <;> simp
  · interval_cases pA <;> simp
  · interval_cases pB <;> simp

/-- C80: a limit.  The target of "Fischer" does not ensure mutual exclusion: the value of the shared variable is 1 whoever writes it,
hence for every scale a run with the actions `a b a b a b` leads to a state in which both the first and the second process are
in their critical section. -/
theorem C80_fischer_exclusion_witness (scale : ℤ) (h0 : 0 < scale) :
    ∃ v, (fischer scale).Steps ⟨0, Valuation.zero⟩
      (TimedWord.events ⟨[act 'a', act 'b', act 'a', act 'b', act 'a', act 'b'], [0, 0, 0, 0, scale + 1, 0, 0]⟩)
      ⟨fischerState 3 3 0 1, v⟩ := by
  have hs : (0 : ℚ) < scale := by exact_mod_cast h0
  refine run_step (by linarith) ⟨0, act 'a', 64, [0], []⟩ (fischer_mem (p := 0) (pA := 0) (pB := 0) (by norm_num)
    (by norm_num) (by norm_num) (by simp [fischerStep, fischerAt, fischerState]; decide)) (by show act 'a' ≠ _; decide) ?_ ?_
  · intro c hc; cases hc
  refine run_step (by linarith) ⟨64, act 'b', 80, [1], []⟩ (fischer_mem (p := 1) (pA := 0) (pB := 1) (by norm_num)
    (by norm_num) (by norm_num) (by simp [fischerStep, fischerAt, fischerState]; decide)) (by show act 'b' ≠ _; decide) ?_ ?_
  · intro c hc; cases hc
  refine run_step (by linarith) ⟨80, act 'a', 145, [0], [⟨0, .le, scale⟩]⟩ (fischer_mem (p := 0) (pA := 1) (pB := 0) (by norm_num)
    (by norm_num) (by norm_num) (by simp [fischerStep, fischerAt, fischerState]; decide)) (by show act 'a' ≠ _; decide) ?_ ?_
  · intro c hc
    rw [List.mem_singleton.1 hc]
    show (0 : ℚ) + 0 + 0 ≤ scale
    linarith
  refine run_step (by linarith) ⟨145, act 'b', 161, [1], [⟨1, .le, scale⟩]⟩ (fischer_mem (p := 1) (pA := 0) (pB := 2) (by norm_num)
    (by norm_num) (by norm_num) (by simp [fischerStep, fischerAt, fischerState]; decide)) (by show act 'b' ≠ _; decide) ?_ ?_
  · intro c hc
    rw [List.mem_singleton.1 hc]
    show (0 : ℚ) + 0 + 0 ≤ scale
    linarith
  refine run_step (by linarith) ⟨161, act 'a', 225, [], [⟨0, .gt, scale⟩]⟩ (fischer_mem (p := 0) (pA := 2) (pB := 0) (by norm_num)
    (by norm_num) (by norm_num) (by simp [fischerStep, fischerAt, fischerState]; decide)) (by show act 'a' ≠ _; decide) ?_ ?_
  · intro c hc
    rw [List.mem_singleton.1 hc]
    show (scale : ℚ) < _
    simp [Edge.trans, Resets.apply, Valuation.shift, Valuation.zero, Upd.eval, Function.update]
  refine run_step (by linarith) ⟨225, act 'b', 241, [], [⟨1, .gt, scale⟩]⟩ (fischer_mem (p := 1) (pA := 0) (pB := 3) (by norm_num)
    (by norm_num) (by norm_num) (by simp [fischerStep, fischerAt, fischerState]; decide)) (by show act 'b' ≠ _; decide) ?_ ?_
  · intro c hc
    rw [List.mem_singleton.1 hc]
    show (scale : ℚ) < _
    simp [Edge.trans, Resets.apply, Valuation.shift, Valuation.zero, Upd.eval, Function.update]
  exact run_end le_rfl

/-! ### Concrete cases -/

/-- The hypotheses hold, e.g., with scale 20 and ten states and five clocks. -/
example : (unbalanced 20).Learnable abc ∧ (fddi 20).Learnable abcde ∧ (unbalancedLoop 10 5 20).Learnable onlyA :=
  ⟨(C80_unbalanced 20 (by decide) (by decide)).1, (C80_fddi 20 (by decide) (by decide)).1,
    C80_loop 10 5 20 (by decide) (by decide) (by decide)⟩

/-- `a b c` with the delays 0.5, 0.5, 0.5, 0 is a word of "Unbalanced" with scale 1; with the delays 0.5, 0.5, 1, 0 it is not. -/
example : (unbalanced 1).Accepts ⟨[act 'a', act 'b', act 'c'], [1/2, 1/2, 1/2, 0]⟩ ∧
    ¬ (unbalanced 1).Accepts ⟨[act 'a', act 'b', act 'c'], [1/2, 1/2, 1, 0]⟩ := by
  rw [C80_unbalanced_language 1 (by decide) (by decide) _ (by unfold TimedWord.WF; rfl),
    C80_unbalanced_language 1 (by decide) (by decide) _ (by unfold TimedWord.WF; rfl)]
  constructor
  · exact ⟨1/2, 1/2, 1/2, 0, rfl, rfl, by norm_num, by norm_num, by norm_num, le_rfl, by norm_num, by norm_num⟩
  · rintro ⟨d₀, d₁, d₂, d₃, -, h, -, -, -, -, -, h2⟩
    simp only [List.cons.injEq] at h
    obtain ⟨-, rfl, rfl, -⟩ := h
    norm_num at h2

/-- With one state and one clock, the `a`s are more than 1 and less than 2 apart. -/
example : (unbalancedLoop 1 1 1).Accepts ⟨[act 'a', act 'a'], [3/2, 3/2, 7]⟩ ∧
    ¬ (unbalancedLoop 1 1 1).Accepts ⟨[act 'a', act 'a'], [3/2, 1, 7]⟩ := by
  have hL : loopLength 0 = 1 := by decide
  have hI : loopInit 0 = 0 := by decide
  have hch : ∀ j, ChecksAt 1 0 j := fun j => ⟨1, le_rfl, by rw [hL, hI, Nat.mod_one]⟩
  have hage : ∀ ds j, age 1 ds 0 j = 0 := by
    intro ds j
    cases j with
    | zero => rfl
    | succ j => rw [age, if_pos (hch j)]
  rw [C80_loop_language 1 1 1 (by decide) (by decide) (by decide) _ (by unfold TimedWord.WF; rfl),
    C80_loop_language 1 1 1 (by decide) (by decide) (by decide) _ (by unfold TimedWord.WF; rfl)]
  constructor
  · refine ⟨by simp, ?_, ?_⟩
    · intro d hd
      simp only [List.mem_cons, List.not_mem_nil, or_false] at hd
      rcases hd with rfl | rfl | rfl <;> norm_num
    · intro j hj c hc _
      obtain rfl : c = 0 := by omega
      rw [hage, hL]
      have : j < 2 := hj
      have : j = 0 ∨ j = 1 := by omega
      rcases this with rfl | rfl <;> norm_num
  · rintro ⟨-, -, h⟩
    have h1 := h 1 (by show 1 < 2; omega) 0 (by omega) (hch 1)
    rw [hage, hL] at h1
    norm_num at h1

end LearnTA.Props
