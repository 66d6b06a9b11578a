import Verif.Spec.TA
import Verif.Model.Runner
import Verif.Lemmas.Constraint

namespace LearnTA

theorem Valuation.shift_zero (v : Valuation) : v.shift 0 = v := by
  funext i; simp [Valuation.shift]

theorem Valuation.shift_shift (v : Valuation) (a b : ℚ) : (v.shift a).shift b = v.shift (a + b) := by
  funext i; simp [Valuation.shift, add_assoc]

theorem Valuation.Nonneg.shift {v : Valuation} (h : v.Nonneg) {d : ℚ} (hd : 0 ≤ d) :
    (v.shift d).Nonneg := fun i => add_nonneg (h i) hd

theorem Valuation.Nonneg.zero : Valuation.Nonneg Valuation.zero := fun _ => le_refl _

theorem Resets.apply_nonneg (r : Resets) (v : Valuation) (hv : v.Nonneg)
    (hr : ∀ p ∈ r, ∀ q, p.2 = .const q → 0 ≤ q) : (r.apply v).Nonneg := by
  unfold Resets.apply
  have : ∀ (r : Resets) (w : Valuation), w.Nonneg → (∀ p ∈ r, ∀ q, p.2 = .const q → 0 ≤ q) →
      Valuation.Nonneg (r.foldl (fun (w : Valuation) p => Function.update w p.1 (p.2.eval v)) w) := by
    intro r
    induction r with
    | nil => intro w hw _; exact hw
    | cons p r ih =>
      intro w hw hr
      refine ih _ ?_ (fun q hq => hr q (by simp [hq]))
      intro i
      by_cases hi : i = p.1
      · subst hi
        show 0 ≤ Function.update w p.1 (p.2.eval v) p.1
        rw [Function.update_self]
        rcases hp : p.2 with q | y
        · exact hr p (by simp) q hp
        · exact hv y
      · show 0 ≤ Function.update w p.1 (p.2.eval v) i
        rw [Function.update_of_ne hi]; exact hw i
  exact this r v hv hr

@[simp] theorem mem_allActions (a : Action) : a ∈ allActions := List.mem_finRange a

namespace TA

/-! ### Simulation -/

theorem Steps.sim {A B : TA} (R : Config → Config → Prop)
    (hd : ∀ c d q, R c d → 0 ≤ q → R ⟨c.loc, c.val.shift q⟩ ⟨d.loc, d.val.shift q⟩)
    (ht : ∀ c d, R c d → ∀ a, ∀ t ∈ (A.loc c.loc).next a, t.guard.Holds c.val →
      ∃ t' ∈ (B.loc d.loc).next a, t'.guard.Holds d.val ∧
        R ⟨t.target, t.resets.apply c.val⟩ ⟨t'.target, t'.resets.apply d.val⟩)
    {c c' : Config} {es : List Event} (h : A.Steps c es c') :
    ∀ d, R c d → ∃ d', B.Steps d es d' ∧ R c' d' := by
  induction h with
  | nil c => intro d hR; exact ⟨d, .nil d, hR⟩
  | eps t ht' hg h ih =>
    intro d hR
    obtain ⟨t', h1, h2, h3⟩ := ht _ d hR _ t ht' hg
    obtain ⟨d', h4, h5⟩ := ih _ h3
    exact ⟨d', .eps t' h1 h2 h4, h5⟩
  | delay q hq h ih =>
    intro d hR
    obtain ⟨d', h4, h5⟩ := ih _ (hd _ _ q hR hq)
    exact ⟨d', .delay q hq h4, h5⟩
  | split d1 d2 h1 h2 h ih =>
    intro d hR
    obtain ⟨d', h4, h5⟩ := ih _ hR
    exact ⟨d', .split d1 d2 h1 h2 h4, h5⟩
  | act a ha t ht' hg h ih =>
    intro d hR
    obtain ⟨t', h1, h2, h3⟩ := ht _ d hR _ t ht' hg
    obtain ⟨d', h4, h5⟩ := ih _ h3
    exact ⟨d', .act a ha t' h1 h2 h4, h5⟩

/-- The general way to show that all accepted words are accepted by another automaton. -/
theorem accepts_of_sim {A B : TA} (R : Config → Config → Prop)
    (h0 : ∀ q ∈ A.init, ∃ q' ∈ B.init, R ⟨q, Valuation.zero⟩ ⟨q', Valuation.zero⟩)
    (hd : ∀ c d q, R c d → 0 ≤ q → R ⟨c.loc, c.val.shift q⟩ ⟨d.loc, d.val.shift q⟩)
    (ht : ∀ c d, R c d → ∀ a, ∀ t ∈ (A.loc c.loc).next a, t.guard.Holds c.val →
      ∃ t' ∈ (B.loc d.loc).next a, t'.guard.Holds d.val ∧
        R ⟨t.target, t.resets.apply c.val⟩ ⟨t'.target, t'.resets.apply d.val⟩)
    (hm : ∀ c d, R c d → (A.loc c.loc).isMatch = true → (B.loc d.loc).isMatch = true)
    {w : TimedWord} (h : A.Accepts w) : B.Accepts w := by
  obtain ⟨q, hq, c, hs, hacc⟩ := h
  obtain ⟨q', hq', hR⟩ := h0 q hq
  obtain ⟨d, hsd, hRd⟩ := hs.sim R hd ht _ hR
  exact ⟨q', hq', d, hsd, hm _ _ hRd hacc⟩

/-! ### Invariants of runs -/

/-- States are never left in a closed automaton, and clock values stay non-negative. -/
theorem Steps.inv {A : TA} (hc : A.Closed) (hr : A.NonnegResets) {c c' : Config} {es : List Event}
    (h : A.Steps c es c') : c.loc ∈ A.states → c.val.Nonneg → c'.loc ∈ A.states ∧ c'.val.Nonneg := by
  induction h with
  | nil c => intro h1 h2; exact ⟨h1, h2⟩
  | eps t ht hg h ih =>
    intro h1 h2
    exact ih (hc.2 _ h1 _ t ht) (Resets.apply_nonneg _ _ h2 (hr _ h1 _ t ht))
  | delay q hq h ih => intro h1 h2; exact ih h1 (h2.shift hq)
  | split d1 d2 _ _ h ih => exact ih
  | act a ha t ht hg h ih =>
    intro h1 h2
    exact ih (hc.2 _ h1 _ t ht) (Resets.apply_nonneg _ _ h2 (hr _ h1 _ t ht))

/-! ### Runs without silent transitions -/

/-- Runs in which each delay is one step and no silent transition is used. -/
inductive Plain (A : TA) : Config → List Event → Config → Prop where
  | nil (c) : Plain A c [] c
  | delay {c es c'} (d : ℚ) (hd : 0 ≤ d) (h : Plain A ⟨c.loc, c.val.shift d⟩ es c') :
      Plain A c (.delay d :: es) c'
  | act {c es c'} (a : Action) (ha : a ≠ unobservable) (t : Trans)
      (ht : t ∈ (A.loc c.loc).next a) (hg : t.guard.Holds c.val)
      (h : Plain A ⟨t.target, t.resets.apply c.val⟩ es c') : Plain A c (.act a :: es) c'

theorem Plain.steps {A : TA} {c c' : Config} {es : List Event} (h : A.Plain c es c') :
    A.Steps c es c' := by
  induction h with
  | nil c => exact .nil c
  | delay d hd _ ih => exact .delay d hd ih
  | act a ha t ht hg _ ih => exact .act a ha t ht hg ih

theorem Steps.plain {A : TA} (hc : A.Closed) (he : A.EpsFree) {c c' : Config} {es : List Event}
    (h : A.Steps c es c') (hl : c.loc ∈ A.states) : A.Plain c es c' := by
  induction h with
  | nil c => exact .nil c
  | eps t ht hg h ih => rw [he _ hl] at ht; simp at ht
  | delay d hd _ ih => exact .delay d hd (ih hl)
  | split d1 d2 h1 h2 h ih =>
    cases ih hl with
    | delay _ _ h' =>
      cases h' with
      | delay _ _ h'' =>
        rw [Valuation.shift_shift] at h''
        exact .delay _ (add_nonneg h1 h2) h''
  | act a ha t ht hg _ ih => exact .act a ha t ht hg (ih (hc.2 _ hl _ t ht))

/-! ### Updating all the states of a list -/

theorem foldl_setLoc (f : TAState → TAState) (l : List ℕ) (A : TA) (hn : l.Nodup) :
    l.foldl (fun B p => B.setLoc p (f (B.loc p))) A =
      { A with loc := fun p => if p ∈ l then f (A.loc p) else A.loc p } := by
  induction l generalizing A with
  | nil => simp
  | cons q l ih =>
    rw [List.nodup_cons] at hn
    rw [List.foldl_cons, ih _ hn.2]
    simp only [setLoc, mk.injEq, and_true]
    funext p
    by_cases hp : p = q
    · subst hp; simp [hn.1]
    · simp [hp]

/-! ### Determinism -/

theorem conj_iff (g h : Guard) (v : Valuation) :
    (Guard.conjunction g h).Holds v ↔ g.Holds v ∧ h.Holds v := by
  simp only [Guard.conjunction, Guard.Holds, List.mem_append]
  constructor
  · exact fun H => ⟨fun c hc => H c (Or.inl hc), fun c hc => H c (Or.inr hc)⟩
  · rintro ⟨h1, h2⟩ c (hc | hc)
    · exact h1 c hc
    · exact h2 c hc

theorem detFrom_iff (before ts : List Trans) (hs : ∀ t ∈ before ++ ts, t.guard.Small) :
    TAState.detFrom before ts = true ↔
      (∀ u ∈ before, ∀ t ∈ ts, ∀ v : Valuation, v.Nonneg → ¬ (u.guard.Holds v ∧ t.guard.Holds v)) ∧
      ts.Pairwise fun t u => ∀ v : Valuation, v.Nonneg → ¬ (t.guard.Holds v ∧ u.guard.Holds v) := by
  induction ts generalizing before with
  | nil => simp [TAState.detFrom]
  | cons t ts ih =>
    have hsat : ∀ u ∈ before, Guard.satisfiable (Guard.conjunction u.guard t.guard) = true ↔
        ∃ v : Valuation, v.Nonneg ∧ u.guard.Holds v ∧ t.guard.Holds v := by
      intro u hu
      rw [Guard.satisfiable_iff]
      · simp only [conj_iff]
      · intro c hc
        simp only [Guard.conjunction, List.mem_append] at hc
        rcases hc with hc | hc
        · exact hs u (by simp [hu]) c hc
        · exact hs t (by simp) c hc
    simp only [TAState.detFrom]
    split
    · rename_i h
      simp only [Bool.false_eq_true, false_iff, not_and]
      rw [List.any_eq_true] at h
      obtain ⟨u, hu, h⟩ := h
      obtain ⟨v, hv, h1, h2⟩ := (hsat u hu).1 h
      intro H
      exact absurd h2 (H u hu t (by simp) v hv h1)
    · rename_i h
      rw [List.any_eq_true] at h
      push Not at h
      rw [ih (before ++ [t]) (by simpa using hs), List.pairwise_cons]
      constructor
      · rintro ⟨h1, h2⟩
        refine ⟨?_, fun u hu => h1 t (by simp) u hu, h2⟩
        intro u hu t' ht' v hv hh
        simp only [List.mem_cons] at ht'
        rcases ht' with rfl | ht'
        · exact h u hu ((hsat u hu).2 ⟨v, hv, hh⟩)
        · exact h1 u (by simp [hu]) t' ht' v hv hh
      · rintro ⟨h1, h2, h3⟩
        refine ⟨?_, h3⟩
        intro u hu t' ht' v hv hh
        simp only [List.mem_append, List.mem_singleton] at hu
        rcases hu with hu | rfl
        · exact h1 u hu t' (by simp [ht']) v hv hh
        · exact h2 t' ht' v hv hh

theorem deterministic_iff (A : TA) (hs : A.SmallGuards) :
    A.deterministic = true ↔ A.Deterministic := by
  simp only [deterministic, List.all_eq_true, TAState.deterministic, mem_allActions, forall_const,
    Deterministic]
  constructor
  · intro h p hp a
    exact ((detFrom_iff [] _ (by simpa using hs p hp a)).1 (h p hp a)).2
  · intro h p hp a
    exact (detFrom_iff [] _ (by simpa using hs p hp a)).2 ⟨by simp, h p hp a⟩

theorem Deterministic.confluent {A : TA} (h : A.Deterministic) : A.Confluent := by
  intro p hp a t ht u hu v hv h1 h2
  have := h p hp a
  generalize (A.loc p).next a = ts at *
  induction this with
  | nil => simp at ht
  | @cons x l hx _ ih =>
    simp only [List.mem_cons] at ht hu
    rcases ht with rfl | ht <;> rcases hu with rfl | hu
    · exact ⟨rfl, rfl⟩
    · exact absurd ⟨h1, h2⟩ (hx u hu v hv)
    · exact absurd ⟨h2, h1⟩ (hx t ht v hv)
    · exact ih ht hu

end TA

/-! ### The runner on automata without silent transitions -/

namespace Runner

theorem stepDelay_plain (A : TA) (he : A.EpsFree) (fuel : ℕ) (r : Runner) (p : ℕ)
    (hp : p ∈ A.states) (hl : r.loc = some p) (d : ℚ) :
    stepDelay A (fuel + 1) r d = some ({ r with val := r.val.shift d }, (A.loc p).isMatch) := by
  have hne : A.states.isEmpty = false := by
    cases h : A.states with
    | nil => rw [h] at hp; simp at hp
    | cons => rfl
  unfold stepDelay
  rw [hne]
  simp only [Bool.false_eq_true, if_false, hl, he p hp, epsCandidate]
  split
  · rename_i h; subst h; rw [Valuation.shift_zero, ← hl]
  · rfl

theorem stepDelay_none (A : TA) (fuel : ℕ) (r : Runner) (hl : r.loc = none) (d : ℚ) :
    stepDelay A (fuel + 1) r d = some (r, false) := by
  unfold stepDelay
  rw [hl]; split <;> rfl

theorem stepAct_none (A : TA) (r : Runner) (hl : r.loc = none) (a : Action) :
    stepAct A r a = (r, false) := by
  unfold stepAct
  rw [hl]; split <;> rfl

theorem runFrom_none (A : TA) (fuel : ℕ) (as : List Action) (ds : List ℚ) (r : Runner)
    (hl : r.loc = none) : runFrom A (fuel + 1) r false as ds = some (r, false) := by
  induction as generalizing ds with
  | nil => cases ds <;> rfl
  | cons a as ih =>
    cases ds with
    | nil => rfl
    | cons d ds =>
      simp only [runFrom, stepAct_none A r hl, stepDelay_none A fuel r hl]
      exact ih ds

end Runner

/-- The events after the first delay. -/
def tailEvents : List Action → List ℚ → List Event
  | a :: as, d :: ds => .act a :: .delay d :: tailEvents as ds
  | _, _ => []

theorem eventsOf_cons (as : List Action) (d : ℚ) (ds : List ℚ) (h : as.length = ds.length) :
    eventsOf as (d :: ds) = .delay d :: tailEvents as ds := by
  induction as generalizing d ds with
  | nil => cases ds <;> simp [eventsOf, tailEvents]
  | cons a as ih =>
    cases ds with
    | nil => simp at h
    | cons e ds =>
      simp only [eventsOf, tailEvents]
      rw [ih e ds (by simpa using h)]

namespace Runner

theorem runFrom_correct (A : TA) (hw : A.WF) (he : A.EpsFree) (hdet : A.Confluent) (fuel : ℕ)
    (as : List Action) (ds : List ℚ) (hlen : as.length = ds.length)
    (hobs : ∀ a ∈ as, a ≠ unobservable) (hnn : ∀ d ∈ ds, 0 ≤ d) (r : Runner) (p : ℕ)
    (hp : p ∈ A.states) (hl : r.loc = some p) (hv : r.val.Nonneg) :
    ∃ r' b, runFrom A (fuel + 1) r (A.loc p).isMatch as ds = some (r', b) ∧
      (b = true ↔ ∃ c, A.Plain ⟨p, r.val⟩ (tailEvents as ds) c ∧ (A.loc c.loc).isMatch = true) := by
  induction as generalizing ds r p with
  | nil =>
    have : ds = [] := by simpa using hlen.symm
    subst this
    refine ⟨r, _, rfl, ?_⟩
    constructor
    · intro h; exact ⟨_, .nil _, h⟩
    · rintro ⟨c, hc, h⟩
      cases hc; exact h
  | cons a as ih =>
    cases ds with
    | nil => simp at hlen
    | cons d ds =>
      have hne : A.states.isEmpty = false := by
        cases h : A.states with
        | nil => rw [h] at hp; simp at hp
        | cons => rfl
      simp only [runFrom, stepAct, hne, Bool.false_eq_true, if_false, hl]
      cases hf : ((A.loc p).next a).find? (fun t => t.guard.satisfy r.val) with
      | none =>
        simp only
        rw [stepDelay_none A fuel _ rfl]
        simp only
        rw [runFrom_none A fuel as ds _ rfl]
        refine ⟨_, _, rfl, ?_⟩
        simp only [Bool.false_eq_true, false_iff, not_exists, not_and]
        intro c hc
        exfalso
        simp only [tailEvents] at hc
        cases hc with
        | act _ _ t ht hg _ =>
          have := List.find?_eq_none.1 hf t ht
          exact this ((Guard.satisfy_iff _ _).2 hg)
      | some t =>
        simp only
        have ht : t ∈ (A.loc p).next a := List.mem_of_find?_eq_some hf
        have hg : t.guard.Holds r.val := (Guard.satisfy_iff _ _).1 (List.find?_some (p := fun t : Trans => t.guard.satisfy r.val) hf)
        have htp : t.target ∈ A.states := hw.closed.2 p hp a t ht
        have hvn : (t.resets.apply r.val).Nonneg :=
          Resets.apply_nonneg _ _ hv (hw.resets p hp a t ht)
        have hd0 : 0 ≤ d := hnn d (by simp)
        rw [stepDelay_plain A he fuel _ t.target htp rfl]
        simp only
        obtain ⟨r', b, h1, h2⟩ := ih ds (by simpa using hlen) (fun a ha => hobs a (by simp [ha]))
          (fun e he => hnn e (by simp [he]))
          { loc := some t.target, val := (t.resets.apply r.val).shift d, numQueries := r.numQueries }
          t.target htp rfl (hvn.shift hd0)
        refine ⟨r', b, h1, h2.trans ?_⟩
        simp only [tailEvents]
        constructor
        · rintro ⟨c, hc, h⟩
          exact ⟨c, .act a (hobs a (by simp)) t ht hg (.delay d hd0 hc), h⟩
        · rintro ⟨c, hc, h⟩
          cases hc with
          | act _ _ t' ht' hg' hc' =>
            obtain ⟨e1, e2⟩ := hdet p hp a t' ht' t ht r.val hv hg' hg
            simp only [e1, e2] at hc'
            cases hc' with
            | delay _ _ hc'' => exact ⟨c, hc'', h⟩

/-- What the oracle answers (the runner state does not matter). -/
theorem answerQuery_correct (A : TA) (hw : A.WF) (he : A.EpsFree) (hdet : A.Confluent)
    (q0 : ℕ) (hi : A.init = [q0]) (fuel : ℕ) (r : Runner) (w : TimedWord) (hwf : w.WF)
    (hobs : w.Observable) (hnn : w.Nonneg) :
    ∃ r' b, answerQuery A (fuel + 1) r w = some (r', b) ∧ (b = true ↔ A.Accepts w) := by
  rcases w with ⟨as, ds⟩
  cases ds with
  | nil => simp [TimedWord.WF] at hwf
  | cons d ds =>
    have hlen : as.length = ds.length := by simpa [TimedWord.WF] using hwf.symm
    have hq0 : q0 ∈ A.states := hw.closed.1 q0 (by simp [hi])
    have hne : A.states.isEmpty = false := by
      cases h : A.states with
      | nil => rw [h] at hq0; simp at hq0
      | cons => rfl
    have hd0 : 0 ≤ d := hnn d (by simp)
    unfold answerQuery
    simp only [pre, hne, Bool.false_eq_true, if_false, hi, List.head?_cons, List.headD_cons,
      List.tail_cons]
    rw [stepDelay_plain A he fuel _ q0 hq0 rfl]
    simp only
    obtain ⟨r', b, h1, h2⟩ := runFrom_correct A hw he hdet fuel as ds hlen hobs
      (fun e he => hnn e (by simp [he]))
      { loc := some q0, val := Valuation.zero.shift d, numQueries := r.numQueries + 1 } q0 hq0 rfl
      (Valuation.Nonneg.zero.shift hd0)
    rw [h1]
    refine ⟨_, b, rfl, h2.trans ?_⟩
    simp only [TA.Accepts, hi, List.mem_singleton, exists_eq_left, TimedWord.events]
    rw [eventsOf_cons as d ds hlen]
    constructor
    · rintro ⟨c, hc, h⟩
      exact ⟨c, (TA.Plain.delay d hd0 hc).steps, h⟩
    · rintro ⟨c, hc, h⟩
      have := hc.plain hw.closed he hq0
      cases this with
      | delay _ _ hc' => exact ⟨c, hc', h⟩

/-- The runner rejects every word if there are no states. -/
theorem answerQuery_empty (A : TA) (h : A.states = []) (fuel : ℕ) (r : Runner) (w : TimedWord) :
    ∃ r', answerQuery A (fuel + 1) r w = some (r', false) := by
  have hd : ∀ (r : Runner) d, stepDelay A (fuel + 1) r d = some (r, false) := by
    intro r d; simp [stepDelay, h]
  have ha : ∀ (r : Runner) a, (stepAct A r a).1 = r := by intro r a; simp [stepAct, h]
  have hr : ∀ (as : List Action) (ds : List ℚ) (r : Runner), runFrom A (fuel + 1) r false as ds = some (r, false) := by
    intro as
    induction as with
    | nil => intro ds r; cases ds <;> rfl
    | cons a as ih =>
      intro ds r
      cases ds with
      | nil => rfl
      | cons d ds => simp only [runFrom, hd, ha]; exact ih ds r
  exact ⟨_, by unfold answerQuery; rw [hd]; simp only; rw [hr]⟩

/-! ### Histories -/

theorem call_congr (A : TA) (fuel : ℕ) (r s : Runner) (h1 : r.loc = s.loc) (h2 : r.val = s.val)
    (c : Call) :
    (call A fuel r c).map (fun p => (p.1.loc, p.1.val, p.2)) =
      (call A fuel s c).map (fun p => (p.1.loc, p.1.val, p.2)) := by
  have hd : ∀ (fuel : ℕ) (r s : Runner) (d : ℚ), r.loc = s.loc → r.val = s.val →
      (stepDelay A fuel r d).map (fun p => (p.1.loc, p.1.val, p.2)) =
        (stepDelay A fuel s d).map (fun p => (p.1.loc, p.1.val, p.2)) := by
    intro fuel
    induction fuel with
    | zero => intro r s d _ _; rfl
    | succ fuel ih =>
      intro r s d h1 h2
      unfold stepDelay
      rw [h1, h2]
      split
      · simp [h1, h2]
      · cases s.loc with
        | none => simp [h1, h2]
        | some p =>
          dsimp only
          split
          · simp [h1, h2]
          · split
            · rfl
            · split
              · exact ih _ _ _ rfl rfl
              · simp [h1]
            · simp [h1]
  cases c with
  | pre =>
    simp only [call, pre]
    split <;> simp [h1, h2]
  | post => simp [call, post, h1, h2]
  | act a =>
    simp only [call, stepAct, h1, h2]
    split
    · simp [h1, h2]
    · cases s.loc with
      | none => simp [h1, h2]
      | some p => dsimp only; split <;> simp [h2]
  | delay d =>
    have := hd fuel r s d h1 h2
    simp only [call, Option.map_map] at this ⊢
    cases hr : stepDelay A fuel r d <;> cases hs : stepDelay A fuel s d <;>
      rw [hr, hs] at this <;> simp at this ⊢
    exact this

theorem calls_congr (A : TA) (fuel : ℕ) (cs : List Call) (r s : Runner) (h1 : r.loc = s.loc)
    (h2 : r.val = s.val) :
    (calls A fuel r cs).map (·.2) = (calls A fuel s cs).map (·.2) := by
  induction cs generalizing r s with
  | nil => rfl
  | cons c cs ih =>
    have := call_congr A fuel r s h1 h2 c
    unfold calls
    cases hr : call A fuel r c with
    | none =>
      rw [hr] at this
      cases hs : call A fuel s c with
      | none => rfl
      | some p => rw [hs] at this; simp at this
    | some p =>
      cases hs : call A fuel s c with
      | none => rw [hr, hs] at this; simp at this
      | some q =>
        rw [hr, hs] at this
        simp only [Option.map_some, Option.some.injEq, Prod.mk.injEq] at this
        obtain ⟨e1, e2, e3⟩ := this
        have := ih p.1 q.1 e1 e2
        simp only [Option.map_map] at this ⊢
        rw [e3]
        cases ha : calls A fuel p.1 cs <;> cases hb : calls A fuel q.1 cs <;>
          rw [ha, hb] at this <;> simp at this ⊢
        exact this

theorem stepDelay_numQueries (A : TA) (fuel : ℕ) (r : Runner) (d : ℚ) (p : Runner × Bool)
    (h : stepDelay A fuel r d = some p) : p.1.numQueries = r.numQueries := by
  induction fuel generalizing r d with
  | zero => simp [stepDelay] at h
  | succ fuel ih =>
    unfold stepDelay at h
    split at h
    · simp at h; rw [← h]
    · split at h
      · simp at h; rw [← h]
      · split at h
        · simp at h; rw [← h]
        · split at h
          · simp at h
          · split at h
            · have := ih _ _ h
              exact this
            · simp at h; rw [← h]
          · simp at h; rw [← h]

/-- 1 for a call of `pre`. -/
def isPre : Call → ℕ
  | .pre => 1
  | _ => 0

theorem call_numQueries (A : TA) (fuel : ℕ) (r : Runner) (c : Call) (p) (h : call A fuel r c = some p) :
    p.1.numQueries = r.numQueries + isPre c := by
  cases c with
  | pre => simp only [call, pre] at h; split at h <;> simp at h <;> rw [← h] <;> rfl
  | post => simp [call, post] at h; rw [← h]; simp [isPre]
  | act a =>
    simp only [call, Option.some.injEq] at h
    rw [← h]
    simp only [stepAct]
    split
    · rfl
    · split
      · rfl
      · split <;> rfl
  | delay d =>
    simp only [call, Option.map_eq_some_iff] at h
    obtain ⟨q, hq, rfl⟩ := h
    simpa [isPre] using stepDelay_numQueries A fuel r d q hq

/-- The number of calls of `pre`. -/
def countPre : List Call → ℕ
  | [] => 0
  | .pre :: cs => countPre cs + 1
  | _ :: cs => countPre cs

theorem calls_numQueries (A : TA) (fuel : ℕ) (cs : List Call) (r : Runner) (p)
    (h : calls A fuel r cs = some p) : p.1.numQueries = r.numQueries + countPre cs := by
  induction cs generalizing r p with
  | nil => simp [calls] at h; rw [← h]; simp [countPre]
  | cons c cs ih =>
    unfold calls at h
    cases hc : call A fuel r c with
    | none => rw [hc] at h; simp at h
    | some q =>
      rw [hc] at h
      simp only [Option.map_eq_some_iff] at h
      obtain ⟨p', hp', rfl⟩ := h
      have h1 := call_numQueries A fuel r c q hc
      have h2 := ih _ _ hp'
      simp only
      rw [h2, h1]
      cases c <;> simp only [countPre, isPre] <;> omega

theorem calls_dead (A : TA) (fuel : ℕ) (cs : List Call) (hcs : ∀ c ∈ cs, c ≠ .pre) (r : Runner)
    (hl : r.loc = none) (p) (h : calls A (fuel + 1) r cs = some p) :
    p.1 = r ∧ ∀ o ∈ p.2, o ≠ some true := by
  induction cs generalizing p with
  | nil => simp [calls] at h; rw [← h]; simp
  | cons c cs ih =>
    have : call A (fuel + 1) r c = some (r, none) ∨ call A (fuel + 1) r c = some (r, some false) := by
      cases c with
      | pre => exact absurd rfl (hcs .pre (by simp))
      | post => left; rfl
      | act a => right; simp [call, stepAct_none A r hl]
      | delay d => right; simp [call, stepDelay_none A fuel r hl]
    unfold calls at h
    rcases this with e | e <;>
    · rw [e] at h
      simp only [Option.map_eq_some_iff] at h
      obtain ⟨p', hp', rfl⟩ := h
      obtain ⟨i1, i2⟩ := ih (fun c hc => hcs c (by simp [hc])) p' hp'
      refine ⟨i1, ?_⟩
      intro o ho
      simp only [List.mem_cons] at ho
      rcases ho with rfl | ho
      · simp
      · exact i2 o ho

end Runner
end LearnTA
