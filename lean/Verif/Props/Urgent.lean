import Verif.Lemmas.Urgent
import Verif.Props.TA

/-!
# Property C52: execution with unobservable transitions, exactly
-/

namespace LearnTA
namespace Runner

theorem ltOpt_trans {a b c : Option Bound} (h1 : ltOpt a b = true) (h2 : ltOpt b c = true) : ltOpt a c = true := by
  cases c with
  | none => cases b <;> simp [ltOpt] at h2
  | some c =>
    cases b with
    | none => cases a <;> simp [ltOpt] at h1
    | some b =>
      cases a with
      | none => rfl
      | some a =>
        simp only [ltOpt, decide_eq_true_eq] at *
        exact h1.trans h2

/-- The chosen transition has a smallest bound. -/
theorem epsCandidate_min (v : Valuation) (ts : List Trans) (hne : ts ≠ [])
    (hd : ∀ t ∈ ts, ∃ b, t.guard.lowerBoundDurationToSatisfy v = some b) :
    ∃ t b, epsCandidate v ts = some (some (t, b)) ∧ ∀ u ∈ ts, ∀ b', u.guard.lowerBoundDurationToSatisfy v = some b' →
      ltOpt b' b = false := by
  cases ts with
  | nil => exact absurd rfl hne
  | cons t0 ts =>
    obtain ⟨b0, h0⟩ := hd t0 (by simp)
    have key : ∀ (L : List Trans) (t : Trans) (b : Option Bound) (seen : List Trans),
        (∀ u ∈ L, ∃ b, u.guard.lowerBoundDurationToSatisfy v = some b) →
        (∀ u ∈ seen, ∀ b', u.guard.lowerBoundDurationToSatisfy v = some b' → ltOpt b' b = false) →
        ∃ t' b1, L.foldl (fun acc t' =>
            match acc, t'.guard.lowerBoundDurationToSatisfy v with
            | some (some (u, bu)), some b' =>
              if ltOpt b' bu then some (some (t', b')) else some (some (u, bu))
            | _, _ => none) (some (some (t, b))) = some (some (t', b1)) ∧
          ∀ u ∈ seen ++ L, ∀ b', u.guard.lowerBoundDurationToSatisfy v = some b' → ltOpt b' b1 = false := by
      intro L
      induction L with
      | nil => intro t b seen _ hs; exact ⟨t, b, rfl, by simpa using hs⟩
      | cons x L ih =>
        intro t b seen hL hs
        obtain ⟨bx, hx⟩ := hL x (by simp)
        rw [List.foldl_cons, hx]
        dsimp only
        cases hlt : ltOpt bx b with
        | true =>
          obtain ⟨t', b1, e, hh⟩ := ih x bx (seen ++ [x]) (fun u hu => hL u (by simp [hu])) (by
            intro u hu b' hb'
            rcases List.mem_append.1 hu with hu | hu
            · cases hlt' : ltOpt b' bx with
              | false => rfl
              | true => rw [← hs u hu b' hb']; exact (ltOpt_trans hlt' hlt).symm
            · rw [List.mem_singleton] at hu
              subst hu
              rw [hx] at hb'
              obtain rfl := Option.some.inj hb'
              cases bx with
              | none => rfl
              | some bx => simp [ltOpt])
          exact ⟨t', b1, by simpa using e, by simpa using hh⟩
        | false =>
          obtain ⟨t', b1, e, hh⟩ := ih t b (seen ++ [x]) (fun u hu => hL u (by simp [hu])) (by
            intro u hu b' hb'
            rcases List.mem_append.1 hu with hu | hu
            · exact hs u hu b' hb'
            · rw [List.mem_singleton] at hu
              subst hu
              rw [hx] at hb'
              obtain rfl := Option.some.inj hb'
              exact hlt)
          exact ⟨t', b1, by simpa using e, by simpa using hh⟩
    obtain ⟨t', b1, e, hh⟩ := key ts t0 b0 [t0] (fun u hu => hd u (by simp [hu])) (by
      intro u hu b' hb'
      rw [List.mem_singleton] at hu
      subst hu
      rw [h0] at hb'
      obtain rfl := Option.some.inj hb'
      cases b0 with
      | none => rfl
      | some b => simp [ltOpt])
    refine ⟨t', b1, ?_, by simpa using hh⟩
    simp only [epsCandidate, h0]
    exact e

/-- A guard with an upper bound that is exceeded. -/
theorem lower_expired (g : Guard) (v : Valuation) {c : Constraint} (hc : c ∈ g) (ho : c.odr = .lt ∨ c.odr = .le)
    (hx : (c.c : ℚ) < v c.x) : g.lowerBoundDurationToSatisfy v = some none := by
  have hnone : c.lowerBoundDurationToSatisfy v = none := by
    rcases c with ⟨x, o, k⟩
    simp only at ho hx
    rcases ho with rfl | rfl <;> simp [Constraint.lowerBoundDurationToSatisfy, hx]
  have dead : ∀ cs : List Constraint, cs.foldl (fun acc c' => do
      let a ← acc
      let b ← Constraint.lowerBoundDurationToSatisfy c' v
      pure (min a b)) (none : Option Bound) = none := by
    intro cs
    induction cs with
    | nil => rfl
    | cons c' cs ih => rw [List.foldl_cons]; exact ih
  have key : ∀ (cs : List Constraint) (acc : Option Bound), c ∈ cs → cs.foldl (fun acc c' => do
      let a ← acc
      let b ← Constraint.lowerBoundDurationToSatisfy c' v
      pure (min a b)) acc = none := by
    intro cs
    induction cs with
    | nil => intro acc h; simp at h
    | cons c' cs ih =>
      intro acc h
      rw [List.foldl_cons]
      rcases List.mem_cons.1 h with rfl | h
      · rw [hnone]
        have : (do let a ← acc; let b ← (none : Option Bound); pure (min a b)) = (none : Option Bound) := by
          cases acc <;> rfl
        rw [this]; exact dead cs
      · exact ih _ h
  cases g with
  | nil => simp at hc
  | cons c0 cs =>
    simp only [Guard.lowerBoundDurationToSatisfy]
    rcases List.mem_cons.1 hc with rfl | hc
    · rw [hnone, dead]
    · rw [key cs _ hc]

theorem lower_defined (g : Guard) (v : Valuation) (h : g ≠ []) : ∃ b, g.lowerBoundDurationToSatisfy v = some b := by
  cases g with
  | nil => exact absurd rfl h
  | cons c cs => exact ⟨_, rfl⟩

theorem stepDelay_pos {A : TA} {p : ℕ} (hp : p ∈ A.states) (v : Valuation) {d : ℚ} (hd : 0 < d) (fuel n : ℕ) :
    stepDelay A (fuel + 1) ⟨some p, v, n⟩ d =
      match epsCandidate v ((A.loc p).next unobservable) with
      | none => none
      | some (some (t, some (.fin m s))) =>
        if m ≤ 0 ∧ Bound.fin (-d) true ≤ Bound.fin m s then
          stepDelay A fuel ⟨some t.target, t.resets.apply (v.shift (-m)), n⟩
            (d - (if m = 0 ∧ s = false then 1 / 10 ^ 10 else -m))
        else some (⟨some p, v.shift d, n⟩, (A.loc p).isMatch)
      | some _ => some (⟨some p, v.shift d, n⟩, (A.loc p).isMatch) := by
  have hne : A.states.isEmpty = false := by
    cases hs : A.states with
    | nil => rw [hs] at hp; simp at hp
    | cons => rfl
  conv_lhs => unfold stepDelay
  simp only [hne, Bool.false_eq_true, if_false, hd.ne']
  rfl

end Runner

namespace Props
open LearnTA

/-- C52: if every state has at most one unobservable transition, with a guard made of constraints `x ≥ c`, the answer of the
simulation is exact for the runs that take unobservable transitions as soon as they can. -/
theorem C52_urgent (A : TA) (hw : A.WF) (he : A.EpsSimple) (hdet : A.Deterministic) (hi : A.init.length ≤ 1) (fuel : ℕ)
    (r r' : Runner) (b : Bool) (w : TimedWord) (hwf : w.WF) (hnn : w.Nonneg)
    (h : Runner.answerQuery A fuel r w = some (r', b)) : b = true ↔ A.UrgentAccepts w := by
  rcases w with ⟨as, _ | ⟨d, ds⟩⟩
  · simp [TimedWord.WF] at hwf
  have hlen : as.length = ds.length := by simpa [TimedWord.WF] using hwf.symm
  have hd : 0 ≤ d := hnn d (by simp)
  simp only [Runner.answerQuery, List.headD_cons, List.tail_cons] at h
  cases hin : A.init with
  | nil =>
    have no : ¬ A.UrgentAccepts ⟨as, d :: ds⟩ := by rintro ⟨q, hq, _⟩; rw [hin] at hq; simp at hq
    refine iff_of_false ?_ no
    by_cases hemp : A.states = []
    · obtain ⟨_, h'⟩ := Runner.answerQuery_empty A hemp (fuel - 1) r ⟨as, d :: ds⟩
      cases fuel with
      | zero => simp [Runner.stepDelay] at h
      | succ fuel =>
        simp only [Runner.answerQuery, List.headD_cons, List.tail_cons, Nat.add_sub_cancel] at h'
        rw [h'] at h
        simp only [Option.some.injEq, Prod.mk.injEq] at h
        rw [← h.2]; simp
    · have hne : A.states.isEmpty = false := by simpa using hemp
      have hpre : Runner.pre A r = ⟨none, Valuation.zero, r.numQueries + 1⟩ := by simp [Runner.pre, hne, hin]
      rw [hpre] at h
      cases fuel with
      | zero => simp [Runner.stepDelay] at h
      | succ fuel =>
        have e2 : Runner.stepDelay A (fuel + 1) ⟨none, Valuation.zero, r.numQueries + 1⟩ d =
            some (⟨none, Valuation.zero, r.numQueries + 1⟩, false) := by
          unfold Runner.stepDelay; split <;> rfl
        rw [e2] at h
        dsimp only at h
        cases hr : Runner.runFrom A (fuel + 1) ⟨none, Valuation.zero, r.numQueries + 1⟩ false as ds with
        | none => rw [hr] at h; simp at h
        | some q =>
          rw [hr] at h
          simp only [Option.some.injEq, Prod.mk.injEq] at h
          rw [← h.2, Runner.runFrom_dead _ _ _ _ _ _ hr]; simp
  | cons q0 qs =>
    have hqs : qs = [] := by
      rw [hin] at hi
      cases qs with
      | nil => rfl
      | cons => simp at hi
    subst hqs
    have hq0 : q0 ∈ A.states := hw.closed.1 q0 (by simp [hin])
    have hne : A.states.isEmpty = false := by
      cases hs : A.states with
      | nil => rw [hs] at hq0; simp at hq0
      | cons => rfl
    have hpre : Runner.pre A r = ⟨some q0, Valuation.zero, r.numQueries + 1⟩ := by simp [Runner.pre, hne, hin]
    rw [hpre] at h
    cases hs : Runner.stepDelay A fuel ⟨some q0, Valuation.zero, r.numQueries + 1⟩ d with
    | none => rw [hs] at h; simp at h
    | some q1 =>
      rw [hs] at h
      obtain ⟨p', hp', e2, e3, e4⟩ := Runner.stepDelay_urgent hw.closed hw.resets he fuel hq0 Valuation.Nonneg.zero hd hs
      rw [e2] at h
      dsimp only at h
      cases hr : Runner.runFrom A fuel ⟨some p', q1.1.val, r.numQueries + 1⟩ (A.loc p').isMatch as ds with
      | none => rw [hr] at h; simp at h
      | some q =>
        rw [hr] at h
        simp only [Option.some.injEq, Prod.mk.injEq] at h
        rw [← h.2, Runner.runFrom_urgent hw.closed hw.resets he hdet fuel as ds hlen (fun d hd => hnn d (by simp [hd])) hp' e3 hr]
        constructor
        · rintro ⟨c, h1, h2⟩
          exact ⟨q0, by simp [hin], d, ds, rfl, _, c, (e4 _).2 rfl, h1, h2⟩
        · rintro ⟨q, hq, d', ds', e, c1, c2, h1, h2, h3⟩
          rw [hin, List.mem_singleton] at hq
          subst hq
          simp only [List.cons.injEq] at e
          obtain ⟨rfl, rfl⟩ := e
          obtain rfl := (e4 _).1 h1
          exact ⟨c2, h2, h3⟩

/-- C52: for a word with an accepting urgent run the simulation returns. -/
theorem C52_urgent_returns (A : TA) (hw : A.WF) (he : A.EpsSimple) (hdet : A.Deterministic) (hi : A.init.length ≤ 1)
    (r : Runner) (w : TimedWord) (hwf : w.WF) (hnn : w.Nonneg) (h : A.UrgentAccepts w) :
    ∃ N, ∀ fuel ≥ N, ∃ r', Runner.answerQuery A fuel r w = some (r', true) := by
  have h' := h
  obtain ⟨q0, hq, d, ds, e, c1, c2, h1, h2, h3⟩ := h
  have hq0 : q0 ∈ A.states := hw.closed.1 q0 hq
  have hhead : A.init.head? = some q0 := by
    cases hin : A.init with
    | nil => rw [hin] at hq; simp at hq
    | cons a l =>
      rw [hin] at hi hq
      cases l with
      | nil => simp at hq; simp [hq]
      | cons => simp at hi
  have hne : A.states.isEmpty = false := by
    cases hs : A.states with
    | nil => rw [hs] at hq0; simp at hq0
    | cons => rfl
  have hpre : Runner.pre A r = ⟨some q0, Valuation.zero, r.numQueries + 1⟩ := by simp [Runner.pre, hne, hhead]
  have hd : 0 ≤ d := hnn d (by simp [e])
  obtain ⟨N1, g1⟩ := Runner.stepDelay_returns hw.closed he h1 hq0
  obtain ⟨qa, hqa⟩ := g1 N1 le_rfl 0
  obtain ⟨pa, hpa, _, a3, a4⟩ := Runner.stepDelay_urgent hw.closed hw.resets he N1 hq0 Valuation.Nonneg.zero hd hqa
  have ec := (a4 _).1 h1
  obtain ⟨N2, g2⟩ := Runner.runFrom_returns hw.closed hw.resets he hdet h2 (fun d hd => hnn d (by simp [e, hd]))
    (by rw [ec]; exact hpa) (by rw [ec]; exact a3)
  refine ⟨max N1 N2, fun fuel hf => ?_⟩
  obtain ⟨q, hq1⟩ := g1 fuel (le_trans (le_max_left _ _) hf) (r.numQueries + 1)
  obtain ⟨p2, hp2, f2, f3, f4⟩ := Runner.stepDelay_urgent hw.closed hw.resets he fuel hq0 Valuation.Nonneg.zero hd hq1
  have fc := (f4 _).1 h1
  obtain ⟨q', hq'⟩ := g2 fuel (le_trans (le_max_right _ _) hf) (r.numQueries + 1)
  rw [fc] at hq'
  have hret : Runner.answerQuery A fuel r w = some (Runner.post A q'.1, q'.2) := by
    simp only [Runner.answerQuery, e, List.headD_cons, List.tail_cons, hpre, hq1]
    rw [f2]
    simp only [hq']
  have := (C52_urgent A hw he hdet hi fuel r _ _ w hwf hnn hret).2 h'
  exact ⟨_, by rw [hret, this]⟩

/-- C52: with several unobservable transitions, all guarded by constraints `x ≥ c`, the simulation takes one of them at the
first moment at which all of them are enabled, and none before. -/
theorem C52_several (A : TA) (p : ℕ) (hp : p ∈ A.states) (hne : (A.loc p).next unobservable ≠ [])
    (hg : ∀ t ∈ (A.loc p).next unobservable, t.guard ≠ [] ∧ ∀ c ∈ t.guard, c.odr = .ge) (v : Valuation) (n : ℕ) (d : ℚ)
    (hd : 0 < d) : ∃ t ∈ (A.loc p).next unobservable, ∃ e : ℚ, 0 ≤ e ∧
      (∀ e', 0 ≤ e' → ((∀ u ∈ (A.loc p).next unobservable, u.guard.Holds (v.shift e')) ↔ e ≤ e')) ∧
      (e ≤ d → ∀ fuel, Runner.stepDelay A (fuel + 1) ⟨some p, v, n⟩ d =
        Runner.stepDelay A fuel ⟨some t.target, t.resets.apply (v.shift e), n⟩ (d - e)) ∧
      (d < e → ∀ fuel, Runner.stepDelay A (fuel + 1) ⟨some p, v, n⟩ d =
        some (⟨some p, v.shift d, n⟩, (A.loc p).isMatch)) := by
  obtain ⟨t, b, h1, h2⟩ := Runner.epsCandidate_min v _ hne (fun t ht => Runner.lower_defined _ _ (hg t ht).1)
  obtain ⟨ht, hb⟩ := Runner.epsCandidate_mem _ _ _ _ h1
  obtain ⟨m, g1, g2, g3⟩ := Runner.lower_exact t.guard v (hg t ht).1 (hg t ht).2
  rw [g1] at hb
  obtain rfl := Option.some.inj hb
  have hbd : Bound.fin (-d) true ≤ Bound.fin m true ↔ -m ≤ d := by
    rw [Bound.fin_le_fin]
    constructor
    · rintro (h | h) <;> linarith
    · intro h
      rcases (show -d ≤ m by linarith).lt_or_eq with h | h
      · exact .inl h
      · exact .inr ⟨h, le_refl _⟩
  refine ⟨t, ht, -m, by linarith, fun e' he' => ⟨fun h => (g3 e' he').1 (h t ht), fun h u hu => ?_⟩, fun hle fuel => ?_,
    fun hlt fuel => ?_⟩
  · obtain ⟨m', k1, k2, k3⟩ := Runner.lower_exact u.guard v (hg u hu).1 (hg u hu).2
    have := h2 u hu _ k1
    simp only [Runner.ltOpt, decide_eq_false_iff_not, not_lt, Bound.fin_le_fin] at this
    refine (k3 e' he').2 ?_
    rcases this with h | h <;> linarith
  · rw [Runner.stepDelay_pos hp v hd, h1]
    simp only [g2, hbd.2 hle, and_self, if_true]
    simp
  · rw [Runner.stepDelay_pos hp v hd, h1]
    simp only [hbd, not_le.2 hlt, and_false, if_false]

/-- C52: an unobservable transition that can no longer be taken, because a clock has passed an upper bound of its guard,
blocks all unobservable transitions of the state. -/
theorem C52_blocked (A : TA) (p : ℕ) (hp : p ∈ A.states) (hg : ∀ t ∈ (A.loc p).next unobservable, t.guard ≠ [])
    {t : Trans} (ht : t ∈ (A.loc p).next unobservable) {c : Constraint} (hc : c ∈ t.guard) (ho : c.odr = .lt ∨ c.odr = .le)
    (v : Valuation) (hx : (c.c : ℚ) < v c.x) (n fuel : ℕ) (d : ℚ) (hd : 0 < d) :
    Runner.stepDelay A (fuel + 1) ⟨some p, v, n⟩ d = some (⟨some p, v.shift d, n⟩, (A.loc p).isMatch) := by
  obtain ⟨u, b, h1, h2⟩ := Runner.epsCandidate_min v _ (List.ne_nil_of_mem ht)
    (fun t ht => Runner.lower_defined _ _ (hg t ht))
  have := h2 t ht _ (Runner.lower_expired t.guard v hc ho hx)
  rw [Runner.stepDelay_pos hp v hd, h1]
  cases b with
  | none => rfl
  | some b => simp [Runner.ltOpt] at this

/-- The hypotheses are met by an automaton with an unobservable transition, which accepts a word by an urgent run. -/
example : (epsA [⟨0, .ge, 1⟩]).WF ∧ (epsA [⟨0, .ge, 1⟩]).EpsSimple ∧ (epsA [⟨0, .ge, 1⟩]).Deterministic ∧
    (epsA [⟨0, .ge, 1⟩]).UrgentAccepts ⟨[], [3]⟩ ∧ ¬ (epsA [⟨0, .ge, 1⟩]).UrgentAccepts ⟨[], [1 / 2]⟩ := by
  have hw : (epsA [⟨0, .ge, 1⟩]).WF := wf_of_check (by decide +kernel)
  have he : (epsA [⟨0, .ge, 1⟩]).EpsSimple := by
    intro p hp
    have hp' : p = 1 ∨ p = 2 := by simpa [epsA] using hp
    rcases hp' with rfl | rfl
    · simp [epsA]
    · simp [epsA]
  have hdet : (epsA [⟨0, .ge, 1⟩]).Deterministic := by
    intro p hp a
    have hp' : p = 1 ∨ p = 2 := by simpa [epsA] using hp
    rcases hp' with rfl | rfl
    · simp only [epsA]; split <;> simp
    · simp [epsA]
  refine ⟨hw, he, hdet, ?_, ?_⟩
  · have : (Runner.answerQuery (epsA [⟨0, .ge, 1⟩]) 2 (Runner.start (epsA [⟨0, .ge, 1⟩])) ⟨[], [3]⟩).map (·.2) = some true := by
      decide +kernel
    cases h : Runner.answerQuery (epsA [⟨0, .ge, 1⟩]) 2 (Runner.start (epsA [⟨0, .ge, 1⟩])) ⟨[], [3]⟩ with
    | none => rw [h] at this; simp at this
    | some q =>
      rw [h] at this
      exact (C52_urgent _ hw he hdet (by simp [epsA]) 2 _ q.1 q.2 ⟨[], [3]⟩ rfl (by intro d hd; simp at hd; subst hd; norm_num) h).1
        (by simpa using this)
  · have : (Runner.answerQuery (epsA [⟨0, .ge, 1⟩]) 2 (Runner.start (epsA [⟨0, .ge, 1⟩])) ⟨[], [1/2]⟩).map (·.2) = some false := by
      decide +kernel
    cases h : Runner.answerQuery (epsA [⟨0, .ge, 1⟩]) 2 (Runner.start (epsA [⟨0, .ge, 1⟩])) ⟨[], [1/2]⟩ with
    | none => rw [h] at this; simp at this
    | some q =>
      rw [h] at this
      intro hu
      have := (C52_urgent _ hw he hdet (by simp [epsA]) 2 _ q.1 q.2 ⟨[], [1/2]⟩ rfl (by intro d hd; simp at hd; subst hd; norm_num) h).2 hu
      simp_all

end Props
end LearnTA
