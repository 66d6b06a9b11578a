import Verif.Lemmas.TAComplement
import Verif.Lemmas.Resets

namespace LearnTA
namespace Runner

/-! ### Two automata with the same first enabled transitions -/

/-- Same states, and from each state the same transition is taken at each valuation. -/
structure SameRuns (A B : TA) : Prop where
  states : B.states = A.states
  init : B.init = A.init
  isMatch : ∀ p ∈ A.states, (B.loc p).isMatch = (A.loc p).isMatch
  find : ∀ p ∈ A.states, ∀ a v, ((B.loc p).next a).find? (fun t => t.guard.satisfy v) =
    ((A.loc p).next a).find? (fun t => t.guard.satisfy v)

/-- The runner is in a state of the automaton, or dead. -/
def Inside (A : TA) (r : Runner) : Prop := ∀ p, r.loc = some p → p ∈ A.states

theorem sameRuns_call {A B : TA} (h : SameRuns A B) (hc : A.Closed) (heA : A.EpsFree)
    (heB : B.EpsFree) (fuel : ℕ) (r : Runner) (hr : Inside A r) (c : Call) :
    call B (fuel + 1) r c = call A (fuel + 1) r c ∧
      ∀ p, call A (fuel + 1) r c = some p → Inside A p.1 := by
  have hst : B.states.isEmpty = A.states.isEmpty := by rw [h.states]
  cases c with
  | pre =>
    simp only [call, pre, h.init, hst, Option.some.injEq]
    refine ⟨trivial, ?_⟩
    rintro p rfl
    split
    · exact hr
    · intro q hq
      exact hc.1 q (List.mem_of_mem_head? hq)
  | post => exact ⟨rfl, by rintro p ⟨⟩; exact hr⟩
  | act a =>
    cases hl : r.loc with
    | none =>
      simp only [call, stepAct_none _ r hl, Option.some.injEq]
      exact ⟨trivial, by rintro p rfl; exact hr⟩
    | some p =>
      have hp := hr p hl
      have hf := h.find p hp a r.val
      simp only [call, stepAct, hst, hl, Option.some.injEq]
      rw [hf]
      cases hff : ((A.loc p).next a).find? (fun t => t.guard.satisfy r.val) with
      | none =>
        simp only
        refine ⟨trivial, ?_⟩
        rintro q rfl
        split
        · exact hr
        · intro x hx; simp at hx
      | some t =>
        have ht := hc.2 p hp a t (List.mem_of_find?_eq_some hff)
        simp only [h.isMatch _ ht]
        refine ⟨trivial, ?_⟩
        rintro q rfl
        split
        · exact hr
        · intro x hx; simp at hx; subst hx; exact ht
  | delay d =>
    cases hl : r.loc with
    | none =>
      simp only [call, stepDelay_none _ fuel r hl]
      exact ⟨trivial, by rintro p hp; simp at hp; subst hp; exact hr⟩
    | some p =>
      have hp := hr p hl
      simp only [call]
      rw [stepDelay_plain A heA fuel r p hp hl, stepDelay_plain B heB fuel r p (h.states ▸ hp) hl,
        h.isMatch p hp]
      refine ⟨rfl, ?_⟩
      intro q hq
      simp at hq
      subst hq
      exact hr

theorem sameRuns_calls {A B : TA} (h : SameRuns A B) (hc : A.Closed) (heA : A.EpsFree)
    (heB : B.EpsFree) (fuel : ℕ) (cs : List Call) (r : Runner) (hr : Inside A r) :
    calls B (fuel + 1) r cs = calls A (fuel + 1) r cs := by
  induction cs generalizing r with
  | nil => rfl
  | cons c cs ih =>
    obtain ⟨h1, h2⟩ := sameRuns_call h hc heA heB fuel r hr c
    unfold calls
    rw [h1]
    cases hca : call A (fuel + 1) r c with
    | none => rfl
    | some p =>
      simp only
      rw [ih p.1 (h2 p hca)]

theorem start_inside (A : TA) (hc : A.Closed) : Inside A (start A) := by
  intro p hp
  simp only [start] at hp
  split at hp
  · simp at hp
  · exact hc.1 p (List.mem_of_mem_head? hp)

theorem simplifyTransitions_sameRuns (A : TA) (hn : A.states.Nodup) :
    SameRuns A A.simplifyTransitions := by
  rw [TA.simplifyTransitions_eq A hn]
  refine ⟨rfl, rfl, ?_, ?_⟩
  · intro p hp; simp [hp]
  · intro p hp a v
    simp only [hp, if_true]
    exact TA.reduceTrans_find v _

theorem start_congr {A B : TA} (h1 : B.states = A.states) (h2 : B.init = A.init) :
    start B = start A := by simp [start, h1, h2]

/-! ### Runs with silent transitions -/

/-- The silent transitions have non-empty guards made of `≥` constraints. -/
def EpsLower (A : TA) : Prop :=
  ∀ p ∈ A.states, ∀ t ∈ (A.loc p).next unobservable, ∀ c ∈ t.guard, c.odr = .ge

theorem lower_ge (g : Guard) (v : Valuation) (hg : ∀ c ∈ g, c.odr = .ge) (b : Option Bound)
    (hb : g.lowerBoundDurationToSatisfy v = some b) :
    ∃ m, b = some (.fin m true) ∧ m ≤ 0 ∧ g.Holds (v.shift (-m)) := by
  have one : ∀ c : Constraint, c.odr = .ge → ∃ m, c.lowerBoundDurationToSatisfy v =
      some (.fin m true) ∧ m ≤ 0 ∧ ∀ m' ≤ m, c.Holds (v.shift (-m')) := by
    intro c hc
    rcases c with ⟨x, o, c⟩
    simp only at hc; subst hc
    simp only [Constraint.lowerBoundDurationToSatisfy]
    by_cases h : (0 : ℚ) ≤ -c + v x
    · refine ⟨0, ?_, le_refl _, ?_⟩
      · rw [min_eq_left]
        rw [Bound.fin_le_fin]
        rcases h.lt_or_eq with h | h
        · exact Or.inl h
        · exact Or.inr ⟨h, le_refl _⟩
      · intro m' hm'
        simp only [Constraint.Holds, Valuation.shift]; linarith
    · push Not at h
      refine ⟨-c + v x, ?_, h.le, ?_⟩
      · rw [min_eq_right]
        rw [Bound.fin_le_fin]; exact Or.inl h
      · intro m' hm'
        simp only [Constraint.Holds, Valuation.shift]; linarith
  cases g with
  | nil => simp [Guard.lowerBoundDurationToSatisfy] at hb
  | cons c cs =>
    simp only [Guard.lowerBoundDurationToSatisfy, Option.some.injEq] at hb
    subst hb
    obtain ⟨m0, e0, l0, h0⟩ := one c (hg c (by simp))
    rw [e0]
    have key : ∀ (cs : List Constraint), (∀ c ∈ cs, c.odr = .ge) → ∀ m0 : ℚ, m0 ≤ 0 →
        ∃ m, cs.foldl (fun acc c' => do
            let a ← acc
            let b ← c'.lowerBoundDurationToSatisfy v
            pure (min a b)) (some (.fin m0 true)) = some (Bound.fin m true) ∧ m ≤ 0 ∧ m ≤ m0 ∧
          ∀ c ∈ cs, ∀ m' ≤ m, c.Holds (v.shift (-m')) := by
      intro cs
      induction cs with
      | nil => intro _ m0 hm0; exact ⟨m0, rfl, hm0, le_refl _, by simp⟩
      | cons c' cs ih =>
        intro hcs m0 hm0
        obtain ⟨m1, e1, l1, h1⟩ := one c' (hcs c' (by simp))
        have hmin : min (Bound.fin m0 true) (Bound.fin m1 true) = Bound.fin (min m0 m1) true := by
          rcases le_total m0 m1 with h | h
          · rw [min_eq_left h, min_eq_left]
            rw [Bound.fin_le_fin]
            rcases h.lt_or_eq with h | h
            · exact Or.inl h
            · exact Or.inr ⟨h, le_refl _⟩
          · rw [min_eq_right h, min_eq_right]
            rw [Bound.fin_le_fin]
            rcases h.lt_or_eq with h | h
            · exact Or.inl h
            · exact Or.inr ⟨h, le_refl _⟩
        obtain ⟨m, e, l, l', hh⟩ := ih (fun c hc => hcs c (by simp [hc])) (min m0 m1)
          (min_le_of_left_le hm0)
        refine ⟨m, ?_, l, l'.trans (min_le_left _ _), ?_⟩
        · rw [List.foldl_cons, e1]
          simp only [Option.bind_eq_bind, Option.bind_some, Option.pure_def, hmin]
          exact e
        · intro c hc m' hm'
          simp only [List.mem_cons] at hc
          rcases hc with rfl | hc
          · exact h1 m' (hm'.trans (l'.trans (min_le_right _ _)))
          · exact hh c hc m' hm'
    obtain ⟨m, e, l, l', hh⟩ := key cs (fun c hc => hg c (by simp [hc])) m0 l0
    refine ⟨m, e, l, ?_⟩
    intro c' hc'
    simp only [List.mem_cons] at hc'
    rcases hc' with rfl | hc'
    · exact h0 m l'
    · exact hh c' hc' m (le_refl _)

/-- What the runner does during a delay is a possible run. -/
theorem stepDelay_sound (A : TA) (hc : A.Closed) (hres : A.NonnegResets) (he : EpsLower A)
    (fuel : ℕ) (r : Runner) (hr : Inside A r) (hv : r.val.Nonneg) (d : ℚ) (hd : 0 ≤ d)
    (q : Runner × Bool) (h : stepDelay A fuel r d = some q) :
    Inside A q.1 ∧ q.1.val.Nonneg ∧
    (q.2 = true → ∃ p, q.1.loc = some p ∧ (A.loc p).isMatch = true) ∧
    ∀ p', q.1.loc = some p' → ∃ p, r.loc = some p ∧ ∀ es c',
      A.Steps ⟨p', q.1.val⟩ es c' → A.Steps ⟨p, r.val⟩ (.delay d :: es) c' := by
  induction fuel generalizing r d with
  | zero => simp [stepDelay] at h
  | succ fuel ih =>
    unfold stepDelay at h
    cases hl : r.loc with
    | none =>
      rw [hl] at h
      have : q = (r, false) := by
        split at h <;> simpa using h.symm
      subst this
      exact ⟨hr, hv, by simp, fun p' hp' => by simp [hl] at hp'⟩
    | some p =>
      have hp := hr p hl
      have hne : A.states.isEmpty = false := by
        cases hs : A.states with
        | nil => rw [hs] at hp; simp at hp
        | cons => rfl
      rw [hne, hl] at h
      simp only [Bool.false_eq_true, if_false] at h
      have plain : ∀ q : Runner × Bool,
          q = ({ loc := some p, val := r.val.shift d, numQueries := r.numQueries },
            (A.loc p).isMatch) →
          Inside A q.1 ∧ q.1.val.Nonneg ∧
          (q.2 = true → ∃ p, q.1.loc = some p ∧ (A.loc p).isMatch = true) ∧
          ∀ p', q.1.loc = some p' → ∃ p0, some p = some p0 ∧ ∀ es c',
            A.Steps ⟨p', q.1.val⟩ es c' → A.Steps ⟨p0, r.val⟩ (.delay d :: es) c' := by
        rintro q rfl
        refine ⟨fun x hx => by simp at hx; subst hx; exact hp, hv.shift hd,
          fun h => ⟨p, rfl, h⟩, ?_⟩
        intro p' hp'
        simp at hp'; subst hp'
        exact ⟨p, rfl, fun es c' h => .delay d hd h⟩
      split at h
      · rename_i hd0
        simp only [Option.some.injEq] at h
        refine plain q ?_
        rw [← h, hd0, Valuation.shift_zero]
        rcases r with ⟨rl, rv, rn⟩
        simp only at hl; subst hl; rfl
      · split at h
        · simp at h
        · rename_i t m s hcand
          obtain ⟨htm, hlow⟩ := epsCandidate_mem _ _ _ _ hcand
          obtain ⟨m', e, hm', hg⟩ := lower_ge t.guard r.val (he p hp t htm) _ hlow
          simp only [Option.some.injEq, Bound.fin.injEq] at e
          obtain ⟨rfl, rfl⟩ := e
          split at h
          · rename_i hcond
            have hle : 0 ≤ d + m := by
              have := hcond.2
              rw [Bound.fin_le_fin] at this
              rcases this with h | h <;> linarith
            have hvs := hv.shift (d := -m) (by linarith)
            have htr : (t.resets.apply (r.val.shift (-m))).Nonneg :=
              Resets.apply_nonneg _ _ hvs (hres p hp _ t htm)
            obtain ⟨i1, i2, i3, i4⟩ := ih
              { loc := some t.target, val := t.resets.apply (r.val.shift (-m)),
                numQueries := r.numQueries }
              (fun x hx => by simp at hx; subst hx; exact hc.2 p hp _ t htm) htr (d + m) hle
              (by simpa using h)
            refine ⟨i1, i2, i3, ?_⟩
            intro p' hp'
            obtain ⟨p1, e1, hs⟩ := i4 p' hp'
            simp at e1; subst e1
            refine ⟨p, rfl, fun es c' hst => ?_⟩
            have h1 := hs es c' hst
            have h2 : A.Steps ⟨p, r.val⟩ (.delay (-m) :: .delay (d + m) :: es) c' :=
              .delay (-m) (by linarith) (.eps t htm hg h1)
            have h3 := TA.Steps.split (-m) (d + m) (by linarith) hle h2
            have : -m + (d + m) = d := by ring
            rw [this] at h3; exact h3
          · simp only [Option.some.injEq] at h
            exact plain q h.symm
        · simp only [Option.some.injEq] at h
          exact plain q h.symm

theorem stepAct_sound (A : TA) (hc : A.Closed) (hres : A.NonnegResets) (r : Runner)
    (hr : Inside A r) (hv : r.val.Nonneg) (a : Action) (ha : a ≠ unobservable) :
    Inside A (stepAct A r a).1 ∧ (stepAct A r a).1.val.Nonneg ∧
    ∀ p', (stepAct A r a).1.loc = some p' → ∃ p, r.loc = some p ∧ ∀ es c',
      A.Steps ⟨p', (stepAct A r a).1.val⟩ es c' → A.Steps ⟨p, r.val⟩ (.act a :: es) c' := by
  cases hl : r.loc with
  | none =>
    rw [stepAct_none A r hl]
    exact ⟨hr, hv, fun p' hp' => by simp [hl] at hp'⟩
  | some p =>
    have hp := hr p hl
    have hne : A.states.isEmpty = false := by
      cases hs : A.states with
      | nil => rw [hs] at hp; simp at hp
      | cons => rfl
    simp only [stepAct, hne, hl, Bool.false_eq_true, if_false]
    cases hf : ((A.loc p).next a).find? (fun t => t.guard.satisfy r.val) with
    | none => exact ⟨fun x hx => by simp at hx, hv, fun p' hp' => by simp at hp'⟩
    | some t =>
      have htm := List.mem_of_find?_eq_some hf
      have hg : t.guard.Holds r.val := (Guard.satisfy_iff _ _).1
        (List.find?_some (p := fun t : Trans => t.guard.satisfy r.val) hf)
      refine ⟨fun x hx => by simp at hx; subst hx; exact hc.2 p hp _ t htm,
        Resets.apply_nonneg _ _ hv (hres p hp _ t htm), ?_⟩
      intro p' hp'
      simp at hp'; subst hp'
      exact ⟨p, rfl, fun es c' hst => .act a ha t htm hg hst⟩

theorem runFrom_sound (A : TA) (hc : A.Closed) (hres : A.NonnegResets) (he : EpsLower A)
    (fuel : ℕ) (as : List Action) (ds : List ℚ) (hobs : ∀ a ∈ as, a ≠ unobservable)
    (hnn : ∀ d ∈ ds, 0 ≤ d) (r : Runner) (b : Bool) (hr : Inside A r) (hv : r.val.Nonneg)
    (hb : b = true → ∃ p, r.loc = some p ∧ (A.loc p).isMatch = true)
    (q : Runner × Bool) (h : runFrom A fuel r b as ds = some q) (hq : q.2 = true) :
    ∃ p c, r.loc = some p ∧ A.Steps ⟨p, r.val⟩ (tailEvents as ds) c ∧
      (A.loc c.loc).isMatch = true := by
  induction as generalizing ds r b with
  | nil =>
    have : q = (r, b) := by
      cases ds <;> · simp [runFrom] at h; exact h.symm
    subst this
    obtain ⟨p, h1, h2⟩ := hb hq
    refine ⟨p, ⟨p, r.val⟩, h1, ?_, h2⟩
    cases ds <;> exact .nil _
  | cons a as ih =>
    cases ds with
    | nil =>
      have : q = (r, b) := by simp [runFrom] at h; exact h.symm
      subst this
      obtain ⟨p, h1, h2⟩ := hb hq
      exact ⟨p, ⟨p, r.val⟩, h1, .nil _, h2⟩
    | cons d ds =>
      simp only [runFrom] at h
      obtain ⟨a1, a2, a3⟩ := stepAct_sound A hc hres r hr hv a (hobs a (by simp))
      cases hsd : stepDelay A fuel (stepAct A r a).1 d with
      | none => rw [hsd] at h; simp at h
      | some q1 =>
        rw [hsd] at h
        obtain ⟨b1, b2, b3, b4⟩ := stepDelay_sound A hc hres he fuel _ a1 a2 d (hnn d (by simp)) q1 hsd
        obtain ⟨p1, c, e1, hs, hm⟩ := ih ds (fun a ha => hobs a (by simp [ha]))
          (fun d hd => hnn d (by simp [hd])) q1.1 q1.2 b1 b2 b3 h
        obtain ⟨p2, e2, hs2⟩ := b4 p1 e1
        obtain ⟨p3, e3, hs3⟩ := a3 p2 e2
        exact ⟨p3, c, e3, hs3 _ _ (hs2 _ _ hs), hm⟩

/-- An accepting answer of the runner is justified by a run. -/
theorem answerQuery_sound (A : TA) (hw : A.WF) (he : EpsLower A) (fuel : ℕ) (r : Runner)
    (w : TimedWord) (hwf : w.WF) (hobs : w.Observable) (hnn : w.Nonneg) (hne : A.states ≠ [])
    (q : Runner × Bool) (h : answerQuery A fuel r w = some q) (hq : q.2 = true) : A.Accepts w := by
  rcases w with ⟨as, _ | ⟨d, ds⟩⟩
  · simp [TimedWord.WF] at hwf
  have hlen : as.length = ds.length := by simpa [TimedWord.WF] using hwf.symm
  have hne' : A.states.isEmpty = false := by simpa using hne
  simp only [answerQuery, List.headD_cons, List.tail_cons] at h
  have hpre : pre A r = ⟨A.init.head?, Valuation.zero, r.numQueries + 1⟩ := by simp [pre, hne']
  have hins : Inside A (pre A r) := by
    rw [hpre]; intro p hp; exact hw.closed.1 p (List.mem_of_mem_head? hp)
  have hvn : (pre A r).val.Nonneg := by rw [hpre]; exact Valuation.Nonneg.zero
  have hd0 : 0 ≤ d := hnn d (by simp)
  cases hsd : stepDelay A fuel (pre A r) d with
  | none => rw [hsd] at h; simp at h
  | some q1 =>
    rw [hsd] at h
    simp only at h
    obtain ⟨b1, b2, b3, b4⟩ := stepDelay_sound A hw.closed hw.resets he fuel _ hins hvn d hd0 q1 hsd
    cases hrf : runFrom A fuel q1.1 q1.2 as ds with
    | none => rw [hrf] at h; simp at h
    | some q2 =>
      rw [hrf] at h
      simp only [Option.some.injEq] at h
      subst h
      obtain ⟨p1, c, e1, hs, hm⟩ := runFrom_sound A hw.closed hw.resets he fuel as ds hobs
        (fun d hd => hnn d (by simp [hd])) q1.1 q1.2 b1 b2 b3 q2 hrf hq
      obtain ⟨p2, e2, hs2⟩ := b4 p1 e1
      rw [hpre] at e2 hs2
      refine ⟨p2, List.mem_of_mem_head? e2, c, ?_, hm⟩
      rw [TimedWord.events, eventsOf_cons as d ds hlen]
      exact hs2 _ _ hs

end Runner
end LearnTA
