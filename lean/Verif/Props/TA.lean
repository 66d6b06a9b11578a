import Verif.Lemmas.RunnerMore

/-!
# Properties of timed automata, their simplification passes and their execution
(C07, C08, C29–C35, C39, C51, C52)
-/

namespace LearnTA.Props

open LearnTA

/-! ## Concrete automata for the examples -/

/-- A check for well-formedness, used to show that concrete automata meet the hypotheses. -/
def wfCheck (A : TA) : Bool :=
  decide A.states.Nodup && A.init.all (· ∈ A.states) &&
  A.states.all fun p => allActions.all fun a => ((A.loc p).next a).all fun t =>
    decide (t.target ∈ A.states) &&
    t.guard.all (fun c => decide (c.x < A.clockSize) && decide (c.c < intMax)) &&
    t.resets.all fun r => decide (r.1 < A.clockSize) && match r.2 with
      | .clock y => decide (y < A.clockSize)
      | .const q => decide (0 ≤ q)

theorem wf_of_check {A : TA} (h : wfCheck A = true) : A.WF := by
  simp only [wfCheck, Bool.and_eq_true, decide_eq_true_eq, List.all_eq_true] at h
  obtain ⟨⟨h1, h2⟩, h3⟩ := h
  have h3' := fun p hp a t ht => h3 p hp a (mem_allActions a) t ht
  refine ⟨h1, ⟨h2, fun p hp a t ht => (h3' p hp a t ht).1.1⟩, ?_, ?_, ?_⟩
  · intro p hp a t ht
    refine ⟨fun c hc => ((h3' p hp a t ht).1.2 c hc).1, fun r hr => ?_⟩
    have := (h3' p hp a t ht).2 r hr
    refine ⟨this.1, ?_⟩
    intro y hy
    have := this.2
    rw [hy] at this
    simpa using this
  · intro p hp a t ht r hr q hq
    have := ((h3' p hp a t ht).2 r hr).2
    rw [hq] at this
    simpa using this
  · intro p hp a t ht c hc
    exact ((h3' p hp a t ht).1.2 c hc).2

/-- The action `a` of the examples. -/
def actA : Action := 97
/-- The action `b` of the examples. -/
def actB : Action := 98

/-- A deterministic automaton with two clocks, an unreachable state 3, a dead state 4 and an unused
clock 1. -/
def exA : TA where
  loc
    | 1 => ⟨false, fun a => if a = actA then
        [⟨2, [(0, .const 0)], [⟨0, .le, 1⟩]⟩, ⟨1, [(1, .const 0)], [⟨0, .gt, 1⟩, ⟨0, .lt, 3⟩]⟩,
         ⟨4, [], [⟨0, .ge, 3⟩]⟩] else []⟩
    | 2 => ⟨true, fun a => if a = actA then [⟨2, [], [⟨0, .ge, 2⟩]⟩]
        else if a = actB then [⟨1, [(0, .clock 0), (1, .clock 0)], []⟩] else []⟩
    | 3 => ⟨true, fun a => if a = actB then [⟨1, [], [⟨0, .ge, 7⟩]⟩] else []⟩
    | _ => ⟨false, fun a => if a = actA then [⟨4, [], []⟩] else []⟩
  states := [1, 2, 3, 4]
  init := [1]
  maxC := [7, 0]

theorem exA_wf : exA.WF := wf_of_check (by decide +kernel)
theorem exA_eps : exA.EpsFree := by unfold TA.EpsFree; decide +kernel
theorem exA_check : exA.deterministic = true := by decide +kernel
theorem exA_det : exA.Deterministic := (TA.deterministic_iff exA exA_wf.small).1 exA_check

/-- A word of the examples: wait 1, `a`, wait 1/2, `b`, wait 0, `a`, wait 1. -/
def exW : TimedWord := ⟨[actA, actB, actA], [1, 1 / 2, 0, 1]⟩

/-! ## C07 -/

/-- C07: the determinism check answers `true` exactly when no two entries of a transition list are
enabled together by a valuation of non-negative clock values. -/
theorem C07_deterministic_exact (A : TA) (hs : A.SmallGuards) :
    A.deterministic = true ↔ A.Deterministic :=
  TA.deterministic_iff A hs

example : exA.SmallGuards ∧ exA.deterministic = true ∧
    TA.deterministic { exA with loc := fun _ => ⟨true, fun _ => [⟨1, [], [⟨0, .le, 2⟩]⟩,
      ⟨2, [], [⟨1, .le, 2⟩]⟩]⟩ } = false :=
  ⟨exA_wf.small, exA_check, by decide +kernel⟩

/-! ## C08 -/

/-- C08: executing the composition of two update lists, in whatever order its entries are listed
(the code takes them from a hash map), is executing the right one and then the left one. -/
theorem C08_composition_sequential (left right : Resets) (v : Valuation) (l : Resets)
    (hl : (Resets.composition left right).Perm l) :
    l.apply v = left.apply (right.apply v) := by
  rw [Resets.apply_perm hl (Resets.keys_composition left right), Resets.composition_apply]

/-- C08: `addDefault` uses the default exactly for the clocks that are not updated otherwise. -/
theorem C08_addDefault (original default : Resets) (v : Valuation) (x : ℕ) :
    (Resets.addDefault original default).apply v x =
      if ∃ p ∈ original, p.1 = x then original.apply v x else default.apply v x :=
  Resets.addDefault_apply original default v x

/-- C08: removing updates `x := x` changes nothing if each clock is updated at most once. -/
theorem C08_clean (r : Resets) (hn : (r.map Prod.fst).Nodup) (v : Valuation) :
    (Resets.clean r).apply v = r.apply v :=
  Resets.clean_apply r hn v

/-- The hypothesis of `C08_clean` is necessary: with two updates of one clock `clean` changes the
effect. -/
theorem C08_clean_duplicate_witness :
    Resets.apply [(0, .const 1), (0, .clock 0)] (fun _ => 5) 0 = 5 ∧
    Resets.apply (Resets.clean [(0, .const 1), (0, .clock 0)]) (fun _ => 5) 0 = 1 := by
  decide +kernel

example : Resets.composition [(0, .clock 1), (2, .const 3)] [(1, .clock 0), (0, .const 7)] =
    [(0, .clock 0), (2, .const 3), (1, .clock 0)] ∧
    (([(0, .const 1), (1, .clock 1)] : Resets).map Prod.fst).Nodup := by decide +kernel

/-! ## C29 -/

/-- C29: after a call of `pre`, what the following calls return does not depend on the history: for
every automaton and any two histories (two sequences of calls, made on fresh runners), the same
continuation gives the same answers. -/
theorem C29_history_independent (A : TA) (fuel : ℕ) (h1 h2 cs : List Runner.Call)
    (r1 r2 : Runner) (o1 o2 : List (Option Bool)) (hne : A.states ≠ [])
    (e1 : Runner.calls A fuel (Runner.start A) h1 = some (r1, o1))
    (e2 : Runner.calls A fuel (Runner.start A) h2 = some (r2, o2)) :
    (Runner.calls A fuel r1 (.pre :: cs)).map (·.2) =
      (Runner.calls A fuel r2 (.pre :: cs)).map (·.2) := by
  have hne' : A.states.isEmpty = false := by simpa using hne
  have hc := Runner.calls_congr A fuel cs (Runner.pre A r1) (Runner.pre A r2)
    (by simp [Runner.pre, hne']) (by simp [Runner.pre, hne'])
  simp only [Runner.calls, Runner.call, Option.map_map]
  cases ha : Runner.calls A fuel (Runner.pre A r1) cs <;>
    cases hb : Runner.calls A fuel (Runner.pre A r2) cs <;>
    rw [ha, hb] at hc <;> simp at hc ⊢
  exact hc

/-- C29: `count()` is the number of calls of `pre`. -/
theorem C29_count (A : TA) (fuel : ℕ) (cs : List Runner.Call) (r : Runner)
    (o : List (Option Bool)) (h : Runner.calls A fuel (Runner.start A) cs = some (r, o)) :
    r.numQueries = Runner.countPre cs := by
  have := Runner.calls_numQueries A fuel cs (Runner.start A) _ h
  simpa [Runner.start] using this

/-- C29: when an action finds no enabled transition, it and every later step observe `false` until
the next `pre`. -/
theorem C29_stuck (A : TA) (fuel : ℕ) (r : Runner) (p : ℕ) (a : Action) (hl : r.loc = some p)
    (hne : A.states ≠ []) (hno : ∀ t ∈ (A.loc p).next a, ¬ t.guard.Holds r.val)
    (cs : List Runner.Call) (hcs : ∀ c ∈ cs, c ≠ .pre) (r' : Runner) (o : List (Option Bool))
    (h : Runner.calls A (fuel + 1) r (.act a :: cs) = some (r', o)) :
    ∀ x ∈ o, x ≠ some true := by
  have hne' : A.states.isEmpty = false := by simpa using hne
  have hf : ((A.loc p).next a).find? (fun t => t.guard.satisfy r.val) = none := by
    rw [List.find?_eq_none]
    intro t ht; rw [Guard.satisfy_iff]; exact hno t ht
  have hs : Runner.stepAct A r a = ({ r with loc := none }, false) := by
    simp [Runner.stepAct, hne', hl, hf]
  simp only [Runner.calls, Runner.call, hs, Option.map_eq_some_iff] at h
  obtain ⟨q, hq, e⟩ := h
  simp only [Prod.mk.injEq] at e
  obtain ⟨-, rfl⟩ := e
  intro x hx
  simp only [List.mem_cons] at hx
  rcases hx with rfl | hx
  · simp
  · exact (Runner.calls_dead A fuel cs hcs _ rfl q hq).2 x hx

example : (Runner.calls exA 1 (Runner.start exA) [.pre, .delay 1, .act actA, .post, .delay (1 / 2),
      .pre, .act actB, .delay 1]).map (fun p => (p.2, p.1.numQueries, p.1.loc)) =
    some ([none, some false, some true, none, some true, none, some false, some false], 2, none) := by
  decide +kernel

example : exA.states ≠ [] ∧ (∀ t ∈ (exA.loc 1).next actB, ¬ t.guard.Holds (Runner.start exA).val) ∧
    (Runner.start exA).loc = some 1 := by
  refine ⟨by decide, ?_, by decide⟩
  intro t ht; simp [exA, actA, actB] at ht

/-! ## C30 -/

/-- C30: for a deterministic automaton without unobservable transitions, a membership query is
answered, and the answer is `true` exactly for the timed words of its language; whatever the runner
did before. -/
theorem C30_membership_exact (A : TA) (hw : A.WF) (he : A.EpsFree) (hdet : A.deterministic = true)
    (hi : A.Startable) (fuel : ℕ) (r : Runner) (w : TimedWord) (hwf : w.WF)
    (hobs : w.Observable) (hnn : w.Nonneg) :
    ∃ r' b, Runner.answerQuery A (fuel + 1) r w = some (r', b) ∧ (b = true ↔ A.Accepts w) := by
  rcases hi with hi | hi
  · obtain ⟨q, hq⟩ := List.length_eq_one_iff.1 hi
    exact Runner.answerQuery_correct A hw he ((TA.deterministic_iff A hw.small).1 hdet).confluent q hq
      fuel r w hwf hobs hnn
  · obtain ⟨r', h⟩ := Runner.answerQuery_empty A hi fuel r w
    refine ⟨r', false, h, iff_of_false (by simp) ?_⟩
    rintro ⟨q, hq, -⟩
    have := hw.closed.1 q hq
    rw [hi] at this; cases this

example : exA.WF ∧ exA.EpsFree ∧ exA.deterministic = true ∧ exA.init.length = 1 ∧ exW.WF ∧
    exW.Observable ∧ exW.Nonneg ∧
    (Runner.answerQuery exA 1 (Runner.start exA) exW).map (·.2) = some true ∧
    (Runner.answerQuery exA 1 (Runner.start exA) ⟨[actA], [2, 0]⟩).map (·.2) = some false := by
  refine ⟨exA_wf, exA_eps, exA_check, rfl, rfl, ?_, ?_, by decide +kernel, by decide +kernel⟩
  · unfold TimedWord.Observable; decide +kernel
  · unfold TimedWord.Nonneg; decide +kernel

theorem exW_accepted : exA.Accepts exW := by
  obtain ⟨r, b, h1, h2⟩ := C30_membership_exact exA exA_wf exA_eps exA_check (.inl rfl) 0 (Runner.start exA)
    exW rfl (by unfold TimedWord.Observable; decide +kernel) (by unfold TimedWord.Nonneg; decide +kernel)
  have : (Runner.answerQuery exA 1 (Runner.start exA) exW).map (·.2) = some true := by decide +kernel
  rw [h1] at this
  exact h2.1 (by simpa using this)

/-! ## C52: execution with unobservable transitions -/

/-- C52: if the guards of all unobservable transitions consist of constraints `x ≥ c`, an accepting
answer is justified by a run of the automaton. (Partial: other guards are excluded, see the
witness; nothing is said about rejecting answers.) -/
theorem C52_eps_sound_partial (A : TA) (hw : A.WF) (he : Runner.EpsLower A) (hne : A.states ≠ [])
    (fuel : ℕ) (r r' : Runner) (w : TimedWord) (hwf : w.WF) (hobs : w.Observable) (hnn : w.Nonneg)
    (h : Runner.answerQuery A fuel r w = some (r', true)) : A.Accepts w :=
  Runner.answerQuery_sound A hw he fuel r w hwf hobs hnn hne _ h rfl

/-- An automaton with one unobservable transition with the given guard, to an accepting state. -/
def epsA (g : Guard) : TA where
  loc
    | 1 => ⟨false, fun a => if a = unobservable then [⟨2, [], g⟩] else []⟩
    | _ => ⟨true, fun _ => []⟩
  states := [1, 2]
  init := [1]
  maxC := [5, 5]

example : (epsA [⟨0, .ge, 1⟩]).WF ∧ Runner.EpsLower (epsA [⟨0, .ge, 1⟩]) ∧
    (Runner.answerQuery (epsA [⟨0, .ge, 1⟩]) 2 (Runner.start (epsA [⟨0, .ge, 1⟩])) ⟨[], [3]⟩).map
      (·.2) = some true := by
  refine ⟨wf_of_check (by decide +kernel), ?_, by decide +kernel⟩
  unfold Runner.EpsLower; decide +kernel

/-- C52 fails when the guard of an unobservable transition has an upper bound: after 3 time units
the runner has taken the transition guarded by `x ≥ 1 ∧ y ≤ 0`, although `x = y` all the time and no
run does so. -/
theorem C52_upper_witness :
    (Runner.answerQuery (epsA [⟨0, .ge, 1⟩, ⟨1, .le, 0⟩]) 2
      (Runner.start (epsA [⟨0, .ge, 1⟩, ⟨1, .le, 0⟩])) ⟨[], [3]⟩).map (·.2) = some true ∧
    ¬ (epsA [⟨0, .ge, 1⟩, ⟨1, .le, 0⟩]).Accepts ⟨[], [3]⟩ := by
  refine ⟨by decide +kernel, ?_⟩
  rintro ⟨q, hq, c, hs, hm⟩
  have key : ∀ {c c' : Config} {es : List Event},
      (epsA [⟨0, .ge, 1⟩, ⟨1, .le, 0⟩]).Steps c es c' → c.loc = 1 → c.val 0 = c.val 1 →
      c'.loc = 1 := by
    intro c c' es h
    induction h with
    | nil c => intro h _; exact h
    | @eps c es c' t ht hg h ih =>
      intro hl hv
      rw [hl] at ht
      simp [epsA, unobservable] at ht
      subst ht
      have h1 := hg ⟨0, .ge, 1⟩ (by simp)
      have h2 := hg ⟨1, .le, 0⟩ (by simp)
      simp only [Constraint.Holds] at h1 h2
      rw [hv] at h1
      norm_num at h1 h2
      linarith
    | delay d hd h ih =>
      intro hl hv; exact ih hl (by simp [Valuation.shift, hv])
    | split d1 d2 _ _ h ih => exact ih
    | @act c es c' a ha t ht hg h ih =>
      intro hl hv
      rw [hl] at ht
      simp [epsA, ha] at ht
  simp only [epsA, List.mem_singleton] at hq
  subst hq
  rw [key hs rfl rfl] at hm
  simp [epsA] at hm

/-- C52: with two unobservable transitions the runner chooses the one that becomes enabled last
(it takes the minimum of negated delays), so a run it could follow is missed: after 3 time units the
transition guarded by `x ≥ 1` has not been taken because another one is guarded by `x ≥ 5`. -/
theorem C52_two_eps_witness :
    let A : TA := { epsA [⟨0, .ge, 1⟩] with loc := fun
      | 1 => ⟨false, fun a => if a = unobservable then [⟨2, [], [⟨0, .ge, 1⟩]⟩,
          ⟨2, [], [⟨0, .ge, 5⟩]⟩] else []⟩
      | _ => ⟨true, fun _ => []⟩ }
    (Runner.answerQuery A 2 (Runner.start A) ⟨[], [3]⟩).map (·.2) = some false ∧
    (Runner.answerQuery A.simplifyTransitions 2 (Runner.start A) ⟨[], [3]⟩).map (·.2) =
      some true ∧ A.Accepts ⟨[], [3]⟩ := by
  refine ⟨by decide +kernel, by decide +kernel, 1, by simp [epsA],
    ⟨2, (Valuation.zero.shift 1).shift 2⟩, ?_, rfl⟩
  have h : (3 : ℚ) = 1 + 2 := by norm_num
  rw [show (⟨[], [3]⟩ : TimedWord).events = [.delay 3] from rfl, h]
  refine .split 1 2 (by norm_num) (by norm_num) (.delay 1 (by norm_num) ?_)
  refine .eps ⟨2, [], [⟨0, .ge, 1⟩]⟩ (by simp [unobservable]) ?_ (.delay 2 (by norm_num) (.nil _))
  intro c hc
  simp only [List.mem_singleton] at hc
  subst hc
  simp [Constraint.Holds, Valuation.shift, Valuation.zero]

/-! ## C31, C32: complement and completion -/

/-- C31: the complement of a deterministic automaton without unobservable transitions accepts
exactly the timed words over the alphabet that the automaton does not accept. -/
theorem C31_complement_language (A : TA) (alphabet : List Action) (hw : A.WF) (he : A.EpsFree)
    (hdet : A.deterministic = true) (hu : unobservable ∉ alphabet) (hi : A.init.length ≤ 1)
    (w : TimedWord) (hwf : w.WF) (hwd : ∀ a ∈ w.word, a ∈ alphabet) (hnn : w.Nonneg) :
    (A.complement alphabet).Accepts w ↔ ¬ A.Accepts w :=
  TA.complement_accepts A alphabet hw he ((TA.deterministic_iff A hw.small).1 hdet).confluent hu hi w
    hwf hwd hnn

/-- C31: what the simulated system answers is flipped by the complement for every automaton without
unobservable transitions, also a nondeterministic one (the runner takes the first enabled
transition in both). -/
theorem C31_complement_answers (A : TA) (alphabet : List Action) (hw : A.WF) (he : A.EpsFree)
    (hu : unobservable ∉ alphabet) (hi : A.init ≠ []) (fuel : ℕ) (r s : Runner) (w : TimedWord)
    (hwd : ∀ a ∈ w.word, a ∈ alphabet) (hnn : w.Nonneg) :
    ∃ r' s' b, Runner.answerQuery A (fuel + 1) r w = some (r', b) ∧
      Runner.answerQuery (A.complement alphabet) (fuel + 1) s w = some (s', !b) :=
  TA.complement_answerQuery A alphabet hw he hu hi fuel r s w hwd hnn

example : unobservable ∉ [actA, actB] ∧ (∀ a ∈ exW.word, a ∈ [actA, actB]) ∧
    (Runner.answerQuery (exA.complement [actA, actB]) 1 (Runner.start exA) exW).map (·.2) =
      some false ∧
    (Runner.answerQuery (exA.complement [actA, actB]) 1 (Runner.start exA) ⟨[actB], [2, 0]⟩).map
      (·.2) = some true := by
  refine ⟨by decide +kernel, by decide +kernel, by decide +kernel, by decide +kernel⟩

/-- C32: after completion, in every state and at every valuation of non-negative clock values some
transition is enabled for each action of the alphabet; if the automaton was deterministic, all the
enabled ones have the same target and the same updates. -/
theorem C32_complete_enabled (A : TA) (alphabet : List Action) (hw : A.WF) (he : A.EpsFree)
    (p : ℕ) (hp : p ∈ (A.makeComplete alphabet).states) (a : Action) (ha : a ∈ alphabet)
    (v : Valuation) (hv : v.Nonneg) :
    (∃ t ∈ ((A.makeComplete alphabet).loc p).next a, t.guard.Holds v) ∧
    (A.deterministic = true → ∀ t ∈ ((A.makeComplete alphabet).loc p).next a,
      ∀ u ∈ ((A.makeComplete alphabet).loc p).next a, t.guard.Holds v → u.guard.Holds v →
        t.target = u.target ∧ t.resets = u.resets) :=
  ⟨TA.makeComplete_enabled A alphabet hw he hp ha v hv, fun hd t ht u hu h1 h2 =>
    TA.makeComplete_confluent A alphabet hw he ((TA.deterministic_iff A hw.small).1 hd).confluent
      p hp a t ht u hu v hv h1 h2⟩

/-- C32: completion keeps the language (also of nondeterministic automata), the old states and the
initial state. -/
theorem C32_complete_language (A : TA) (alphabet : List Action) (hw : A.WF) (he : A.EpsFree)
    (w : TimedWord) :
    ((A.makeComplete alphabet).Accepts w ↔ A.Accepts w) ∧
    (∀ p ∈ A.states, p ∈ (A.makeComplete alphabet).states) ∧
    (A.init ≠ [] → (A.makeComplete alphabet).init = A.init) ∧ (A.makeComplete alphabet).WF := by
  refine ⟨TA.makeComplete_accepts A alphabet hw he w, ?_, ?_, TA.makeComplete_wf A alphabet hw he⟩
  · intro p hp; rw [TA.makeComplete_states A alphabet hw.nodup]; simp [hp]
  · intro hi; rw [TA.makeComplete_eq A alphabet hw.nodup]; simp [hi]

/-- C32: the added transitions can overlap, so the completed automaton is in general not
deterministic in the sense of the check: completing `x ≤ 1 ∧ y ≤ 1` adds `x > 1` and `y > 1`. -/
theorem C32_overlap_witness :
    let A : TA := ⟨fun _ => ⟨true, fun a => if a = actA then [⟨0, [], [⟨0, .le, 1⟩, ⟨1, .le, 1⟩]⟩]
      else []⟩, [0], [0], [1, 1]⟩
    A.deterministic = true ∧ (A.makeComplete [actA]).deterministic = false := by
  decide +kernel

/-- C32 fails with unobservable transitions: a state with a guarded unobservable transition and no
transition for an action gets none for it. -/
theorem C32_eps_witness :
    ((epsA [⟨0, .ge, 1⟩]).makeComplete [actA]).states = [1, 2, 3] ∧
    (((epsA [⟨0, .ge, 1⟩]).makeComplete [actA]).loc 1).next actA = [] := by
  decide +kernel

example : (exA.makeComplete [actA, actB]).states = [1, 2, 3, 4, 5] ∧
    ((exA.makeComplete [actA, actB]).loc 2).next actA =
      [⟨2, [], [⟨0, .ge, 2⟩]⟩, ⟨5, [], [⟨0, .lt, 2⟩]⟩] := by decide +kernel

/-! ## C33 -/

/-- C33: dropping covered transitions keeps the language of every automaton. -/
theorem C33_simplifyTransitions_language (A : TA) (hn : A.states.Nodup) (w : TimedWord) :
    A.simplifyTransitions.Accepts w ↔ A.Accepts w :=
  TA.simplifyTransitions_accepts A hn w

/-- C33: without unobservable transitions all observations of all call sequences stay the same, also
for nondeterministic automata. -/
theorem C33_simplifyTransitions_observations (A : TA) (hw : A.WF) (he : A.EpsFree) (fuel : ℕ)
    (cs : List Runner.Call) :
    Runner.calls A.simplifyTransitions (fuel + 1) (Runner.start A.simplifyTransitions) cs =
      Runner.calls A (fuel + 1) (Runner.start A) cs := by
  have hs := Runner.simplifyTransitions_sameRuns A hw.nodup
  rw [Runner.start_congr hs.states hs.init]
  exact Runner.sameRuns_calls hs hw.closed he
    ((TA.simplifyTransitions_sub A hw.nodup).epsFree he) fuel cs _ (Runner.start_inside A hw.closed)

example : TA.reduceTrans [⟨1, [], [⟨0, .ge, 1⟩]⟩, ⟨1, [], [⟨0, .ge, 5⟩]⟩, ⟨2, [], [⟨0, .ge, 5⟩]⟩] =
    [⟨1, [], [⟨0, .ge, 1⟩]⟩, ⟨2, [], [⟨0, .ge, 5⟩]⟩] := by decide +kernel

/-! ## C34 -/

/-- C34: removing unreachable states keeps the language of every automaton; exactly the states
reachable by transitions from an initial state remain, and the result is well-formed. -/
theorem C34_removeUnreachable (A : TA) (hw : A.WF) (w : TimedWord) :
    (A.removeTriviallyUnreachableStates.Accepts w ↔ A.Accepts w) ∧
    (∀ p, p ∈ A.removeTriviallyUnreachableStates.states ↔
      ∃ q ∈ A.init, Relation.ReflTransGen A.Edge q p) ∧
    A.removeTriviallyUnreachableStates.WF :=
  ⟨TA.removeUnreachable_accepts A w, TA.removeUnreachable_states A hw.nodup hw.closed,
    TA.removeUnreachable_wf A hw⟩

/-- C34: removing dead states keeps the language of every automaton; exactly the states from which
an accepting state can be reached remain, and the result is well-formed. -/
theorem C34_removeDead (A : TA) (hw : A.WF) (w : TimedWord) :
    (A.removeTriviallyDeadStates.Accepts w ↔ A.Accepts w) ∧
    (∀ p, p ∈ A.removeTriviallyDeadStates.states ↔ p ∈ A.states ∧
      ∃ q, Relation.ReflTransGen A.Edge p q ∧ (A.loc q).isMatch = true) ∧
    A.removeTriviallyDeadStates.WF :=
  ⟨TA.removeDead_accepts A hw w, TA.removeDead_states A hw, TA.removeDead_wf A hw⟩

/-- C34: `removeDeadLoop` and `removeUselessTransitions` keep the language of every automaton and
well-formedness. -/
theorem C34_removeLoops (A : TA) (hw : A.WF) (w : TimedWord) :
    (A.removeDeadLoop.Accepts w ↔ A.Accepts w) ∧ A.removeDeadLoop.WF ∧
    (A.removeUselessTransitions.Accepts w ↔ A.Accepts w) ∧ A.removeUselessTransitions.WF :=
  ⟨(TA.removeDeadLoop_spec A).1 w, TA.removeDeadLoop_wf A hw, (TA.removeUseless_spec A hw).1 w,
    (TA.removeUseless_spec A hw).2.2.1⟩

/-- C34, C35: `simplify` and `simplifyStrong` keep the language of every automaton. -/
theorem C34_simplify_language (A : TA) (hw : A.WF) (w : TimedWord) :
    (A.simplify.Accepts w ↔ A.Accepts w) ∧ A.simplify.WF ∧
    (A.simplifyStrong.Accepts w ↔ A.Accepts w) ∧ A.simplifyStrong.WF := by
  have w1 := TA.simplifyTransitions_wf A hw
  have w2 := TA.removeUnreachable_wf _ w1
  have w3 := TA.removeDead_wf _ w2
  have w4 := TA.removeDeadLoop_wf _ w3
  have w5 := (TA.removeUseless_spec _ w4).2.2.1
  refine ⟨?_, TA.removeUnused_wf _ w2, ?_, TA.removeUnused_wf _ w5⟩
  · unfold TA.simplify
    rw [TA.removeUnused_accepts _ w2, TA.removeUnreachable_accepts,
      TA.simplifyTransitions_accepts A hw.nodup]
  · unfold TA.simplifyStrong
    rw [TA.removeUnused_accepts _ w5, (TA.removeUseless_spec _ w4).1,
      (TA.removeDeadLoop_spec _).1, TA.removeDead_accepts _ w2, TA.removeUnreachable_accepts,
      TA.simplifyTransitions_accepts A hw.nodup]

/-- C34: for a deterministic automaton without unobservable transitions that accepts something, the
answers of the simulated system are unchanged by the dead-state pass. -/
theorem C34_removeDead_answers (A : TA) (hw : A.WF) (he : A.EpsFree)
    (hdet : A.deterministic = true) (hi : A.init.length = 1) (hw0 : ∃ w0, A.Accepts w0)
    (fuel : ℕ) (r s : Runner)
    (w : TimedWord) (hwf : w.WF) (hobs : w.Observable) (hnn : w.Nonneg) :
    (Runner.answerQuery A.removeTriviallyDeadStates (fuel + 1) s w).map (·.2) =
      (Runner.answerQuery A (fuel + 1) r w).map (·.2) := by
  obtain ⟨q, hq⟩ := List.length_eq_one_iff.1 hi
  have hd := (TA.deterministic_iff A hw.small).1 hdet
  have hsub := TA.removeDead_sub A hw.nodup
  have hi' : A.removeTriviallyDeadStates.init = [q] := by
    obtain ⟨w0, hacc⟩ := hw0
    obtain ⟨q', hq', c, hs, hm⟩ := hacc
    rw [hq, List.mem_singleton] at hq'
    subst hq'
    have hqs := hw.closed.1 q' (by simp [hq])
    unfold TA.removeTriviallyDeadStates
    simp only
    split
    · rw [TA.keepStates_eq _ _ hw.nodup]
      simp only [hq]
      rw [List.filter_cons_of_pos]
      · rfl
      · simpa using (TA.mem_liveStates A q' hqs hw.closed).2 ⟨_, hs.edge, hm⟩
    · exact hq
  obtain ⟨r1, b1, e1, f1⟩ := Runner.answerQuery_correct A hw he hd.confluent q hq fuel r w hwf hobs
    hnn
  obtain ⟨r2, b2, e2, f2⟩ := Runner.answerQuery_correct _ (TA.removeDead_wf A hw)
    (hsub.epsFree he) (hsub.deterministic hd).confluent q hi' fuel s w hwf hobs hnn
  rw [e1, e2]
  simp only [Option.map_some, Option.some.injEq]
  rw [TA.removeDead_accepts A hw, ← f1] at f2
  cases b1 <;> cases b2 <;> simp_all

example : exA.removeTriviallyUnreachableStates.states = [1, 2, 4] ∧
    exA.removeTriviallyDeadStates.states = [1, 2, 3] ∧
    exA.removeUselessTransitions.states = [1, 2, 3] ∧
    exA.simplifyStrong.states = [1, 2] ∧ exA.simplifyStrong.maxC = [3] := by decide +kernel

/-- With nondeterminism the dead-state pass changes what the simulated system answers (not the
language): the first enabled transition led to a dead state. -/
theorem C34_nondet_witness :
    let A : TA := { exA with loc := fun
      | 1 => ⟨false, fun a => if a = actA then [⟨4, [], []⟩, ⟨2, [], []⟩] else []⟩
      | 2 => ⟨true, fun _ => []⟩
      | _ => ⟨false, fun _ => []⟩ }
    (Runner.answerQuery A 1 (Runner.start A) ⟨[actA], [0, 0]⟩).map (·.2) = some false ∧
    (Runner.answerQuery A.removeTriviallyDeadStates 1 (Runner.start A) ⟨[actA], [0, 0]⟩).map (·.2)
      = some true := by decide +kernel

/-! ## C35 -/

/-- C35: removing unused clocks keeps the language of every automaton. -/
theorem C35_removeUnused_language (A : TA) (hw : A.WF) (w : TimedWord) :
    (A.removeUnusedClockVariables.Accepts w ↔ A.Accepts w) ∧ A.removeUnusedClockVariables.WF :=
  ⟨TA.removeUnused_accepts A hw w, TA.removeUnused_wf A hw⟩

/-- C35: all observations of all call sequences stay the same, for every automaton (also with
unobservable transitions and nondeterminism). -/
theorem C35_removeUnused_observations (A : TA) (hw : A.WF) (fuel : ℕ) (cs : List Runner.Call) :
    (Runner.calls A.removeUnusedClockVariables fuel (Runner.start A.removeUnusedClockVariables)
      cs).map (fun p => (p.2, p.1.numQueries)) =
    (Runner.calls A fuel (Runner.start A) cs).map (fun p => (p.2, p.1.numQueries)) :=
  ((TA.removeUnused_sim A hw).calls fuel cs (TA.removeUnused_sim A hw).start).symm

example : let B : TA := { exA with loc := fun p => ⟨true, fun a => if a = actA then
      [⟨p, [(0, .const 0), (1, .clock 1)], [⟨1, .ge, 2⟩]⟩] else []⟩ }
    B.removeUnusedClockVariables.maxC = [0] ∧
    (B.removeUnusedClockVariables.loc 1).next actA = [⟨1, [(0, .clock 0)], [⟨0, .ge, 2⟩]⟩] := by
  decide +kernel

/-! ## C39 -/

/-- C39: `deepCopy` gives an automaton with the same observations on all call sequences. -/
theorem C39_deepCopy_observations (A : TA) (hw : A.WF) (fuel : ℕ) (cs : List Runner.Call) :
    (Runner.calls A.deepCopy fuel (Runner.start A.deepCopy) cs).map
      (fun p => (p.2, p.1.numQueries)) =
    (Runner.calls A fuel (Runner.start A) cs).map (fun p => (p.2, p.1.numQueries)) :=
  ((TA.deepCopy_sim A hw.closed).calls fuel cs (TA.deepCopy_sim A hw.closed).start).symm

/-- C39: the copy has the same language and is independent: no state of the copy is a state of the
original, no transition of the copy leads to one, the original is untouched, and writing to the
states of the copy does not change the original. -/
theorem C39_deepCopy_independent (A : TA) (hw : A.WF) (w : TimedWord) :
    (A.deepCopy.Accepts w ↔ A.Accepts w) ∧
    (∀ p ∈ A.deepCopy.states, p ∉ A.states) ∧
    (∀ p ∈ A.deepCopy.states, ∀ a, ∀ t ∈ (A.deepCopy.loc p).next a, t.target ∉ A.states) ∧
    (∀ p ∈ A.states, A.deepCopy.loc p = A.loc p) ∧
    (∀ q ∈ A.deepCopy.states, ∀ s, ∀ p ∈ A.states, (A.deepCopy.setLoc q s).loc p = A.loc p) ∧
    A.deepCopy.states.length = A.states.length := by
  have hdis : ∀ p ∈ A.deepCopy.states, p ∉ A.states := by
    intro p hp hps
    obtain ⟨q, hq, rfl⟩ := (TA.mem_deepCopy_states A hw.nodup).1 hp
    have := TA.lt_fresh A hps
    simp only [TA.old2new] at this
    omega
  have hold : ∀ p ∈ A.states, A.deepCopy.loc p = A.loc p := by
    intro p hp
    simp only [TA.deepCopy]
    rw [if_neg (by have := TA.lt_fresh A hp; omega)]
  refine ⟨TA.deepCopy_accepts A hw.closed w, hdis, ?_, hold, ?_, by simp [TA.deepCopy]⟩
  · intro p hp a t ht
    exact hdis _ ((TA.deepCopy_wf A hw).closed.2 p hp a t ht)
  · intro q hq s p hp
    have : p ≠ q := by rintro rfl; exact hdis p hq hp
    simp only [TA.setLoc, Function.update_of_ne this]
    exact hold p hp

example : exA.deepCopy.states = [5, 6, 7, 8] ∧ exA.deepCopy.init = [5] ∧
    ((exA.deepCopy.loc 6).next actB).map Trans.target = [5] := by decide +kernel

/-! ## C51: maximal constants -/

/-- C51: `makeMaxConstants` has an entry for each clock that occurs, and the entry of a clock is
the largest constant it is compared with (0 if there is none or all are negative). -/
theorem C51_maxConstants_exact (loc : ℕ → TAState) (states : List ℕ) :
    let m := TA.makeMaxConstants loc states
    (∀ p ∈ states, ∀ a, ∀ t ∈ (loc p).next a,
      (∀ c ∈ t.guard, c.x < m.length ∧ c.c ≤ m.getD c.x 0) ∧
      ∀ r ∈ t.resets, r.1 < m.length ∧ ∀ y, r.2 = .clock y → y < m.length) ∧
    ∀ x, 0 ≤ m.getD x 0 ∧ (m.getD x 0 = 0 ∨ ∃ p ∈ states, ∃ a, ∃ t ∈ (loc p).next a,
      ∃ c ∈ t.guard, c.x = x ∧ c.c = m.getD x 0) :=
  ⟨TA.makeMaxConstants_covers loc states, fun x =>
    ⟨TA.makeMaxConstants_nonneg loc states x, TA.makeMaxConstants_exact loc states x⟩⟩

example : TA.makeMaxConstants exA.loc [1, 2] = [3, 0] ∧
    TA.makeMaxConstants exA.loc exA.states = [7, 0] := by decide +kernel

end LearnTA.Props
