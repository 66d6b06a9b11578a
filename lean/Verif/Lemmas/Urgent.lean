import Verif.Spec.Urgent
import Verif.Lemmas.RunnerMore

/-!
# The runner performs urgent runs
-/

namespace LearnTA
namespace Runner

/-- A non-empty guard of lower bounds holds from a certain delay on, which is computed. -/
theorem lower_exact (g : Guard) (v : Valuation) (hne : g ≠ []) (hg : ∀ c ∈ g, c.odr = .ge) :
    ∃ m : ℚ, g.lowerBoundDurationToSatisfy v = some (some (.fin m true)) ∧ m ≤ 0 ∧
      ∀ e, 0 ≤ e → (g.Holds (v.shift e) ↔ -m ≤ e) := by
  have bmin : ∀ a b : ℚ, min (Bound.fin a true) (Bound.fin b true) = Bound.fin (min a b) true := by
    intro m0 m1
    rcases le_total m0 m1 with h | h
    · rw [min_eq_left h, min_eq_left]
      rw [Bound.fin_le_fin]
      rcases h.lt_or_eq with h | h
      · exact Or.inl h
      · exact Or.inr ⟨h, le_refl _⟩
    · rw [min_eq_right h, min_eq_right]
      rw [Bound.fin_le_fin]
      rcases h.lt_or_eq with h | h
      · exact Or.inl h
      · exact Or.inr ⟨h, le_refl _⟩
  have one : ∀ c : Constraint, c.odr = .ge → c.lowerBoundDurationToSatisfy v = some (.fin (min 0 (-c.c + v c.x)) true) ∧
      ∀ e, c.Holds (v.shift e) ↔ (c.c : ℚ) - v c.x ≤ e := by
    rintro ⟨x, o, c⟩ hc
    simp only at hc; subst hc
    refine ⟨by simp only [Constraint.lowerBoundDurationToSatisfy, bmin], fun e => ?_⟩
    simp only [Constraint.Holds, Valuation.shift]
    constructor <;> intro h <;> linarith
  have key : ∀ (cs : List Constraint), (∀ c ∈ cs, c.odr = .ge) → ∀ m0 : ℚ, m0 ≤ 0 →
      ∃ m, cs.foldl (fun acc c' => do
          let a ← acc
          let b ← c'.lowerBoundDurationToSatisfy v
          pure (min a b)) (some (.fin m0 true)) = some (Bound.fin m true) ∧ m ≤ 0 ∧
        ∀ e, 0 ≤ e → (-m ≤ e ↔ -m0 ≤ e ∧ ∀ c ∈ cs, c.Holds (v.shift e)) := by
    intro cs
    induction cs with
    | nil => intro _ m0 hm0; exact ⟨m0, rfl, hm0, by simp⟩
    | cons c' cs ih =>
      intro hcs m0 hm0
      obtain ⟨e1, h1⟩ := one c' (hcs c' (by simp))
      obtain ⟨m, e, l, hh⟩ := ih (fun c hc => hcs c (by simp [hc])) (min m0 (min 0 (-c'.c + v c'.x)))
        (min_le_of_left_le hm0)
      refine ⟨m, ?_, l, fun e he => ?_⟩
      · rw [List.foldl_cons, e1]
        simp only [Option.bind_eq_bind, Option.bind_some, Option.pure_def, bmin]
        exact e
      · rw [hh e he]
        simp only [List.mem_cons, forall_eq_or_imp, h1]
        rw [show -min m0 (min 0 (-(c'.c : ℚ) + v c'.x)) ≤ e ↔ -m0 ≤ e ∧ (c'.c : ℚ) - v c'.x ≤ e from ?_, and_assoc]
        rw [neg_le, le_min_iff, le_min_iff]
        constructor
        · rintro ⟨a, b, c⟩; exact ⟨by linarith, by linarith⟩
        · rintro ⟨a, b⟩; exact ⟨by linarith, by linarith, by linarith⟩
  cases g with
  | nil => exact absurd rfl hne
  | cons c cs =>
    obtain ⟨e0, h0⟩ := one c (hg c (by simp))
    obtain ⟨m, e, l, hh⟩ := key cs (fun c hc => hg c (by simp [hc])) (min 0 (-c.c + v c.x)) (min_le_left _ _)
    refine ⟨m, ?_, l, fun e he => ?_⟩
    · simp only [Guard.lowerBoundDurationToSatisfy, e0]
      exact congrArg some e
    · rw [hh e he]
      unfold Guard.Holds
      simp only [List.mem_cons, forall_eq_or_imp, h0]
      refine and_congr ?_ Iff.rfl
      rw [neg_le, le_min_iff]
      constructor
      · intro h; exact ⟨by linarith, by linarith⟩
      · rintro ⟨a, b⟩; linarith

/-- What happens in a state when time passes. -/
inductive Next (A : TA) (p : ℕ) (v : Valuation) (d : ℚ) : Prop
  | wait (h : ∀ t ∈ (A.loc p).next unobservable, ∀ e, 0 ≤ e → e ≤ d → ¬ t.guard.Holds (v.shift e))
      (hs : ∀ fuel n, stepDelay A (fuel + 1) ⟨some p, v, n⟩ d = some (⟨some p, v.shift d, n⟩, (A.loc p).isMatch))
  | take (t : Trans) (e : ℚ) (h : (A.loc p).next unobservable = [t]) (h0 : 0 ≤ e) (h1 : e ≤ d)
      (hg : ∀ e', 0 ≤ e' → (t.guard.Holds (v.shift e') ↔ e ≤ e'))
      (hs : ∀ fuel n, stepDelay A (fuel + 1) ⟨some p, v, n⟩ d =
        stepDelay A fuel ⟨some t.target, t.resets.apply (v.shift e), n⟩ (d - e))

theorem next_of {A : TA} (he : A.EpsSimple) {p : ℕ} (hp : p ∈ A.states) (v : Valuation) {d : ℚ} (hd : 0 < d) :
    Next A p v d := by
  obtain ⟨hlen, hgs⟩ := he p hp
  have hne : A.states.isEmpty = false := by
    cases hs : A.states with
    | nil => rw [hs] at hp; simp at hp
    | cons => rfl
  have hstep : ∀ fuel n, stepDelay A (fuel + 1) ⟨some p, v, n⟩ d =
      match epsCandidate v ((A.loc p).next unobservable) with
      | none => none
      | some (some (t, some (.fin m s))) =>
        if m ≤ 0 ∧ Bound.fin (-d) true ≤ Bound.fin m s then
          stepDelay A fuel ⟨some t.target, t.resets.apply (v.shift (-m)), n⟩
            (d - (if m = 0 ∧ s = false then 1 / 10 ^ 10 else -m))
        else some (⟨some p, v.shift d, n⟩, (A.loc p).isMatch)
      | some _ => some (⟨some p, v.shift d, n⟩, (A.loc p).isMatch) := by
    intro fuel n
    conv_lhs => unfold stepDelay
    simp only [hne, Bool.false_eq_true, if_false, hd.ne']
    rfl
  cases hl : (A.loc p).next unobservable with
  | nil =>
    refine .wait (by simp [hl]) (fun fuel n => ?_)
    rw [hstep, hl]; rfl
  | cons t ts =>
    rw [hl] at hlen hgs
    have : ts = [] := by
      cases ts with
      | nil => rfl
      | cons => simp at hlen
    subst this
    obtain ⟨hne', hge⟩ := hgs t (by simp)
    obtain ⟨m, h1, h2, h3⟩ := lower_exact t.guard v hne' hge
    have hc : epsCandidate v [t] = some (some (t, some (.fin m true))) := by
      simp [epsCandidate, h1]
    have hb : Bound.fin (-d) true ≤ Bound.fin m true ↔ -m ≤ d := by
      rw [Bound.fin_le_fin]
      constructor
      · rintro (h | h) <;> linarith
      · intro h
        rcases (show -d ≤ m by linarith).lt_or_eq with h | h
        · exact .inl h
        · exact .inr ⟨h, le_refl _⟩
    by_cases hle : -m ≤ d
    · refine .take t (-m) hl (by linarith) hle h3 (fun fuel n => ?_)
      rw [hstep, hl, hc]
      simp only [h2, hb.2 hle, and_self, if_true]
      simp
    · refine .wait (fun u hu e he0 hed => ?_) (fun fuel n => ?_)
      · rw [hl, List.mem_singleton] at hu
        subst hu
        rw [h3 e he0]
        intro h; exact hle (h.trans hed)
      · rw [hstep, hl, hc]
        simp only [hb, hle, and_false, if_false]

theorem stepDelay_none_left {A : TA} {p : ℕ} (hp : p ∈ A.states) (v : Valuation) (fuel n : ℕ) :
    stepDelay A (fuel + 1) ⟨some p, v, n⟩ 0 = some (⟨some p, v, n⟩, (A.loc p).isMatch) := by
  have hne : A.states.isEmpty = false := by
    cases hs : A.states with
    | nil => rw [hs] at hp; simp at hp
    | cons => rfl
  unfold stepDelay
  simp [hne]

theorem urgent_zero {A : TA} {c c' : Config} (h : A.Urgent c 0 c') : c' = c := by
  cases h with
  | done => rfl
  | wait _ _ h _ => exact absurd h (lt_irrefl _)
  | take _ _ e t _ h => exact absurd h (lt_irrefl _)

theorem urgent_wait {A : TA} {p : ℕ} {v : Valuation} {d : ℚ} (hd : 0 < d)
    (h : ∀ t ∈ (A.loc p).next unobservable, ∀ e, 0 ≤ e → e ≤ d → ¬ t.guard.Holds (v.shift e)) {c' : Config} :
    A.Urgent ⟨p, v⟩ d c' ↔ c' = ⟨p, v.shift d⟩ := by
  constructor
  · intro hu
    cases hu with
    | done => exact absurd hd (lt_irrefl _)
    | wait _ _ _ _ => rfl
    | take _ _ e t _ _ he hed ht hg _ _ => exact absurd hg (h t ht e he hed)
  · rintro rfl; exact .wait ⟨p, v⟩ d hd h

theorem urgent_take {A : TA} {p : ℕ} {v : Valuation} {d e : ℚ} {t : Trans} (hd : 0 < d)
    (h : (A.loc p).next unobservable = [t]) (h0 : 0 ≤ e) (h1 : e ≤ d)
    (hg : ∀ e', 0 ≤ e' → (t.guard.Holds (v.shift e') ↔ e ≤ e')) {c' : Config} :
    A.Urgent ⟨p, v⟩ d c' ↔ A.Urgent ⟨t.target, t.resets.apply (v.shift e)⟩ (d - e) c' := by
  constructor
  · intro hu
    cases hu with
    | done => exact absurd hd (lt_irrefl _)
    | wait _ _ _ hw => exact absurd ((hg e h0).2 le_rfl) (hw t (by simp [h]) e h0 h1)
    | take _ _ e' u _ _ he hed ht hgu hmin hu =>
      simp only [h, List.mem_singleton] at ht
      subst ht
      have a := (hg e' he).1 hgu
      have b : ¬ e < e' := fun hlt => hmin e h0 hlt ((hg e h0).2 le_rfl)
      have : e' = e := le_antisymm (not_lt.1 b) a
      subst this; exact hu
  · intro hu
    exact .take ⟨p, v⟩ d e t c' hd h0 h1 (by simp [h]) ((hg e h0).2 le_rfl) (fun e' he' hlt hh => by
      have := (hg e' he').1 hh
      linarith) hu

/-- If the runner returns from a delay, it is in the configuration that the urgent run reaches. -/
theorem stepDelay_urgent {A : TA} (hc : A.Closed) (hres : A.NonnegResets) (he : A.EpsSimple) (fuel : ℕ) :
    ∀ {p : ℕ} (_ : p ∈ A.states) {v : Valuation} (_ : v.Nonneg) {n : ℕ} {d : ℚ} (_ : 0 ≤ d) {q : Runner × Bool}
      (_ : stepDelay A fuel ⟨some p, v, n⟩ d = some q),
      ∃ p' ∈ A.states, q = (⟨some p', q.1.val, n⟩, (A.loc p').isMatch) ∧ q.1.val.Nonneg ∧
        ∀ c', A.Urgent ⟨p, v⟩ d c' ↔ c' = ⟨p', q.1.val⟩ := by
  induction fuel with
  | zero => intro p hp v hv n d hd q h; simp [stepDelay] at h
  | succ fuel ih =>
    intro p hp v hv n d hd q h
    rcases hd.lt_or_eq with hd' | rfl
    · rcases next_of he hp v hd' with ⟨hw, hs⟩ | ⟨t, e, hl, h0, h1, hg, hs⟩
      · rw [hs] at h
        obtain rfl := (Option.some.inj h).symm
        exact ⟨p, hp, rfl, hv.shift hd, fun c' => urgent_wait hd' hw⟩
      · rw [hs] at h
        have htm : t ∈ (A.loc p).next unobservable := by simp [hl]
        obtain ⟨p', hp', e1, e2, e3⟩ := ih (hc.2 p hp _ t htm)
          (Resets.apply_nonneg _ _ (hv.shift h0) (hres p hp _ t htm)) (by linarith) h
        exact ⟨p', hp', e1, e2, fun c' => (urgent_take hd' hl h0 h1 hg).trans (e3 c')⟩
    · rw [stepDelay_none_left hp] at h
      obtain rfl := (Option.some.inj h).symm
      exact ⟨p, hp, rfl, hv, fun c' => ⟨urgent_zero, fun h => h ▸ .done _⟩⟩

/-- Along an urgent run the runner returns. -/
theorem stepDelay_returns {A : TA} (hc : A.Closed) (he : A.EpsSimple) {c c' : Config} {d : ℚ} (h : A.Urgent c d c') :
    c.loc ∈ A.states → ∃ N, ∀ fuel ≥ N, ∀ n, ∃ q, stepDelay A fuel ⟨some c.loc, c.val, n⟩ d = some q := by
  induction h with
  | done c =>
    intro hp
    refine ⟨1, fun fuel hf n => ?_⟩
    obtain ⟨k, rfl⟩ : ∃ k, fuel = k + 1 := ⟨fuel - 1, by omega⟩
    exact ⟨_, stepDelay_none_left hp _ _ _⟩
  | wait c d hd hw =>
    intro hp
    refine ⟨1, fun fuel hf n => ?_⟩
    obtain ⟨k, rfl⟩ : ∃ k, fuel = k + 1 := ⟨fuel - 1, by omega⟩
    rcases next_of he hp c.val hd with ⟨_, hs⟩ | ⟨t, e, hl, h0, h1, hg, hs⟩
    · exact ⟨_, hs k n⟩
    · exact absurd ((hg e h0).2 le_rfl) (hw t (by simp [hl]) e h0 h1)
  | take c d e t c' hd he0 hed ht hgu hmin hu ih =>
    intro hp
    obtain ⟨N, hN⟩ := ih (hc.2 _ hp _ t ht)
    refine ⟨N + 1, fun fuel hf n => ?_⟩
    obtain ⟨k, rfl⟩ : ∃ k, fuel = k + 1 := ⟨fuel - 1, by omega⟩
    rcases next_of he hp c.val hd with ⟨hw, _⟩ | ⟨u, e', hl, h0, h1, hg, hs⟩
    · exact absurd hgu (hw t ht e he0 hed)
    · rw [hl, List.mem_singleton] at ht
      subst ht
      have a := (hg e he0).1 hgu
      have b : ¬ e' < e := fun hlt => hmin e' h0 hlt ((hg e' h0).2 le_rfl)
      have : e' = e := le_antisymm a (not_lt.1 b)
      subst this
      obtain ⟨q, hq⟩ := hN k (by omega) n
      exact ⟨q, (hs k n).trans hq⟩

/-- The actions with the delays after them. -/
theorem runFrom_dead {A : TA} (fuel : ℕ) : ∀ (as : List Action) (ds : List ℚ) (v : Valuation) (n : ℕ) (q : Runner × Bool),
    runFrom A fuel ⟨none, v, n⟩ false as ds = some q → q.2 = false := by
  intro as
  induction as with
  | nil => intro ds v n q h; simp only [runFrom] at h; rw [← Option.some.inj h]
  | cons a as ih =>
    intro ds v n q h
    cases ds with
    | nil => simp only [runFrom] at h; rw [← Option.some.inj h]
    | cons d ds =>
      simp only [runFrom] at h
      rw [stepAct_none A _ rfl] at h
      cases fuel with
      | zero => simp [stepDelay] at h
      | succ fuel =>
        have : stepDelay A (fuel + 1) ⟨none, v, n⟩ d = some (⟨none, v, n⟩, false) := by
          unfold stepDelay; split <;> rfl
        rw [this] at h
        exact ih ds v n q h

theorem find_unique {A : TA} (hdet : A.Deterministic) {p : ℕ} (hp : p ∈ A.states) {v : Valuation} (hv : v.Nonneg) {a : Action}
    {t : Trans} (ht : t ∈ (A.loc p).next a) (hg : t.guard.Holds v) :
    ((A.loc p).next a).find? (fun t => t.guard.satisfy v) = some t := by
  have hpw := hdet p hp a
  revert ht hpw
  generalize (A.loc p).next a = l
  intro ht hpw
  induction l with
  | nil => simp at ht
  | cons u us ih =>
    rw [List.find?_cons]
    obtain ⟨h1, h2⟩ := List.pairwise_cons.1 hpw
    rcases List.mem_cons.1 ht with rfl | ht
    · rw [(Guard.satisfy_iff _ _).2 hg]
    · have : u.guard.satisfy v = false := by
        cases hs : u.guard.satisfy v with
        | false => rfl
        | true => exact absurd ⟨(Guard.satisfy_iff _ _).1 hs, hg⟩ (h1 t ht v hv)
      rw [this]
      exact ih ht h2

theorem runFrom_urgent {A : TA} (hc : A.Closed) (hres : A.NonnegResets) (he : A.EpsSimple) (hdet : A.Deterministic) (fuel : ℕ) :
    ∀ (as : List Action) (ds : List ℚ), as.length = ds.length → (∀ d ∈ ds, 0 ≤ d) → ∀ {p : ℕ} (_ : p ∈ A.states)
      {v : Valuation} (_ : v.Nonneg) {n : ℕ} {q : Runner × Bool},
      runFrom A fuel ⟨some p, v, n⟩ (A.loc p).isMatch as ds = some q →
      (q.2 = true ↔ ∃ c, A.UrgentRun ⟨p, v⟩ as ds c ∧ (A.loc c.loc).isMatch = true) := by
  intro as
  induction as with
  | nil =>
    intro ds hl _ p hp v hv n q h
    cases ds with
    | cons => simp at hl
    | nil =>
      simp only [runFrom] at h
      rw [← Option.some.inj h]
      constructor
      · intro hm; exact ⟨_, .nil _, hm⟩
      · rintro ⟨c, hc, hm⟩
        cases hc; exact hm
  | cons a as ih =>
    intro ds hl hds p hp v hv n q h
    cases ds with
    | nil => simp at hl
    | cons d ds =>
      have hne : A.states.isEmpty = false := by
        cases hs : A.states with
        | nil => rw [hs] at hp; simp at hp
        | cons => rfl
      have hd : 0 ≤ d := hds d (by simp)
      simp only [runFrom] at h
      cases hf : ((A.loc p).next a).find? (fun t => t.guard.satisfy v) with
      | none =>
        have e1 : (stepAct A ⟨some p, v, n⟩ a).1 = ⟨none, v, n⟩ := by
          simp [stepAct, hne, hf]
        rw [e1] at h
        cases fuel with
        | zero => simp [stepDelay] at h
        | succ fuel =>
          have e2 : stepDelay A (fuel + 1) ⟨none, v, n⟩ d = some (⟨none, v, n⟩, false) := by
            unfold stepDelay; split <;> rfl
          rw [e2] at h
          have := runFrom_dead _ _ _ _ _ _ h
          rw [this]
          constructor
          · intro h; simp at h
          · rintro ⟨c, hr, _⟩
            cases hr with
            | cons _ _ _ _ _ t c1 c2 ht hg _ _ =>
              rw [find_unique hdet hp hv ht hg] at hf
              simp at hf
      | some t =>
        have htm := List.mem_of_find?_eq_some hf
        have hg : t.guard.Holds v := (Guard.satisfy_iff _ _).1
          (List.find?_some (p := fun t : Trans => t.guard.satisfy v) hf)
        have e1 : (stepAct A ⟨some p, v, n⟩ a).1 = ⟨some t.target, t.resets.apply v, n⟩ := by
          simp [stepAct, hne, hf]
        rw [e1] at h
        cases hs : stepDelay A fuel ⟨some t.target, t.resets.apply v, n⟩ d with
        | none => rw [hs] at h; simp at h
        | some q1 =>
          rw [hs] at h
          obtain ⟨p', hp', e2, e3, e4⟩ := stepDelay_urgent hc hres he fuel (hc.2 p hp _ t htm)
            (Resets.apply_nonneg _ _ hv (hres p hp _ t htm)) hd hs
          rw [e2] at h
          rw [ih ds (by simpa using hl) (fun d hd => hds d (by simp [hd])) hp' e3 h]
          constructor
          · rintro ⟨c, hr, hm⟩
            exact ⟨c, .cons _ _ _ _ _ t _ _ htm hg ((e4 _).2 rfl) hr, hm⟩
          · rintro ⟨c, hr, hm⟩
            cases hr with
            | cons _ _ _ _ _ u c1 _ hu hgu h1 h2 =>
              have := find_unique hdet hp hv hu hgu
              rw [hf] at this
              obtain rfl := (Option.some.inj this).symm
              obtain rfl := (e4 _).1 h1
              exact ⟨c, h2, hm⟩

theorem runFrom_returns {A : TA} (hc : A.Closed) (hres : A.NonnegResets) (he : A.EpsSimple) (hdet : A.Deterministic)
    {c c' : Config} {as : List Action} {ds : List ℚ} (h : A.UrgentRun c as ds c') : (∀ d ∈ ds, 0 ≤ d) → c.loc ∈ A.states →
    c.val.Nonneg → ∃ N, ∀ fuel ≥ N, ∀ n, ∃ q, runFrom A fuel ⟨some c.loc, c.val, n⟩ (A.loc c.loc).isMatch as ds = some q := by
  induction h with
  | nil c => intro _ _ _; exact ⟨0, fun fuel _ n => ⟨_, rfl⟩⟩
  | cons c a d as ds t c1 c2 ht hg hu hr ih =>
    intro hds hp hv
    have hne : A.states.isEmpty = false := by
      cases hs : A.states with
      | nil => rw [hs] at hp; simp at hp
      | cons => rfl
    have hd : 0 ≤ d := hds d (by simp)
    have hp1 : t.target ∈ A.states := hc.2 _ hp _ t ht
    have hv1 := Resets.apply_nonneg t.resets c.val hv (hres _ hp _ t ht)
    obtain ⟨N1, h1⟩ := stepDelay_returns hc he hu hp1
    obtain ⟨q1, hq1⟩ := h1 N1 le_rfl 0
    obtain ⟨p', hp', e2, e3, e4⟩ := stepDelay_urgent hc hres he N1 hp1 hv1 hd hq1
    have ec := (e4 _).1 hu
    have hc1 : c1.loc ∈ A.states := by rw [ec]; exact hp'
    have hcv : c1.val.Nonneg := by rw [ec]; exact e3
    obtain ⟨N2, h2⟩ := ih (fun d hd => hds d (by simp [hd])) hc1 hcv
    refine ⟨max N1 N2, fun fuel hf n => ?_⟩
    have hfind := find_unique hdet hp hv ht hg
    have e1 : (stepAct A ⟨some c.loc, c.val, n⟩ a).1 = ⟨some t.target, t.resets.apply c.val, n⟩ := by
      simp [stepAct, hne, hfind]
    simp only [runFrom, e1]
    obtain ⟨q, hq⟩ := h1 fuel (le_trans (le_max_left _ _) hf) n
    obtain ⟨p2, hp2, f2, f3, f4⟩ := stepDelay_urgent hc hres he fuel hp1 hv1 hd hq
    have fc := (f4 _).1 hu
    rw [hq, f2]
    obtain ⟨q', hq'⟩ := h2 fuel (le_trans (le_max_right _ _) hf) n
    rw [fc] at hq'
    exact ⟨q', hq'⟩

end Runner
end LearnTA
