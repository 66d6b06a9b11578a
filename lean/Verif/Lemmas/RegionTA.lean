import Verif.Spec.Symbolic
import Verif.Lemmas.Region
import Verif.Lemmas.Regional
import Verif.Lemmas.Resets
import Verif.Lemmas.Micro

/-!
# Timed automata do not distinguish timed words in the same region
-/

namespace LearnTA
namespace RegionTA
open Bound

/-- Two families of points on the time axis with the same integer distances and the same order. -/
def Equiv (N : ℕ) (p p' : ℕ → ℚ) : Prop :=
  ∀ i < N, ∀ j < N, reg (p i - p j) = reg (p' i - p' j)

theorem reg_eq_iff {a b : ℚ} : reg a = reg b ↔ ⌊a⌋ = ⌊b⌋ ∧ ⌈a⌉ = ⌈b⌉ := by
  constructor
  · intro h
    have h1 : Sat a (reg b) := h ▸ sat_reg a
    have h2 : Sat b (reg a) := h ▸ sat_reg b
    have key : ∀ {a b : ℚ}, reg a = reg b → ⌈a⌉ ≤ ⌈b⌉ ∧ ⌊a⌋ ≤ ⌊b⌋ := by
      intro a b h
      refine ⟨?_, ?_⟩
      · rcases cases_int b with ⟨n, rfl⟩ | ⟨n, h1, h2⟩
        · have : Sat a (reg (n : ℚ)) := h ▸ sat_reg a
          rw [reg_int] at this
          rw [Int.ceil_intCast]
          exact Int.ceil_le.2 (by simpa [Bound.Sat] using this)
        · have : Sat a (reg b) := h ▸ sat_reg a
          rw [reg_of_between h1 h2] at this
          have hb : ⌈b⌉ = n + 1 := Int.ceil_eq_iff.2 ⟨by push_cast; linarith, by push_cast; linarith⟩
          rw [hb]
          exact Int.ceil_le.2 (by push_cast; exact le_of_lt (by simpa [Bound.Sat] using this))
      · exact (LearnTA.reg_floor h).le
    exact ⟨LearnTA.reg_floor h, le_antisymm (key h).1 (key h.symm).1⟩
  · rintro ⟨h1, h2⟩
    exact (ForwardRegional.reg_of_floor_ceil h1 h2).1

theorem insert_point {N : ℕ} {p p' : ℕ → ℚ} (h : Equiv N p p') (s : ℚ) :
    ∃ s', Equiv (N + 1) (Function.update p N s) (Function.update p' N s') := by
  obtain ⟨t, ht⟩ := Bound.exists_value (List.range N) p' (fun i => reg (s - p i)) (fun i => reg (p i - s)) (by
    intro i hi j hj
    rw [List.mem_range] at hi hj
    have h1 := sat_reg (p' i - p' j)
    rw [← h i hi j hj] at h1
    refine h1.mono ?_
    have := reg_subadd (p i - s) (s - p j)
    rwa [sub_add_sub_cancel] at this)
  refine ⟨t, ?_⟩
  have key : ∀ i < N, reg (s - p i) = reg (t - p' i) ∧ reg (p i - s) = reg (p' i - t) := by
    intro i hi
    obtain ⟨g1, g2⟩ := ht i (List.mem_range.2 hi)
    have e1 : p' i - t = -(t - p' i) := by ring
    have e2 : p i - s = -(s - p i) := by ring
    constructor
    · exact (reg_same g1 (by rw [e1, e2] at g2; exact g2)).symm
    · exact (reg_same g2 (by rw [show -(p' i - t) = t - p' i by ring, show -(p i - s) = s - p i by ring]; exact g1)).symm
  intro i hi j hj
  by_cases h1 : i = N <;> by_cases h2 : j = N
  · subst h1; subst h2; simp
  · subst h1; simp [h2, (key j (by omega)).1]
  · subst h2; simp [h1, (key i (by omega)).2]
  · simp only [Function.update_of_ne h1, Function.update_of_ne h2]
    exact h i (by omega) j (by omega)

/-- The values of a clock in the two runs: it had the integer value `n` at the point `k`. -/
def Clk (N : ℕ) (p p' : ℕ → ℚ) (cur : ℕ) (a b : ℚ) : Prop :=
  ∃ k < N, ∃ n : ℤ, a = n + (p cur - p k) ∧ b = n + (p' cur - p' k)

theorem Clk.reg {N : ℕ} {p p' : ℕ → ℚ} (h : Equiv N p p') {cur : ℕ} (hc : cur < N) {a b : ℚ}
    (hk : Clk N p p' cur a b) : ⌊a⌋ = ⌊b⌋ ∧ ⌈a⌉ = ⌈b⌉ := by
  obtain ⟨k, h1, n, rfl, rfl⟩ := hk
  obtain ⟨g1, g2⟩ := reg_eq_iff.1 (h cur hc k h1)
  rw [Int.floor_intCast_add, Int.floor_intCast_add, Int.ceil_intCast_add, Int.ceil_intCast_add, g1, g2]
  exact ⟨rfl, rfl⟩

theorem holds_of_floor {g : Constraint} {v v' : Valuation} (h : ∀ x, ⌊v x⌋ = ⌊v' x⌋ ∧ ⌈v x⌉ = ⌈v' x⌉)
    (hg : g.Holds v) : g.Holds v' := by
  obtain ⟨x, o, c⟩ := g
  obtain ⟨h1, h2⟩ := h x
  cases o <;> simp only [Constraint.Holds] at hg ⊢
  · rw [← Int.floor_lt] at hg ⊢; omega
  · rw [← Int.ceil_le] at hg ⊢; omega
  · rw [← Int.le_floor] at hg ⊢; omega
  · rw [← Int.lt_ceil] at hg ⊢; omega

/-- The remaining events of the two runs happen at the same points. -/
inductive Match (N : ℕ) (p p' : ℕ → ℚ) : ℕ → List Event → List Event → Prop
  | nil (cur) : Match N p p' cur [] []
  | act {cur es es'} (a : Action) : Match N p p' cur es es' → Match N p p' cur (.act a :: es) (.act a :: es')
  | delay {cur es es'} (d d' : ℚ) (k : ℕ) (hk : k < N) (h : p k = p cur + d) (h' : p' k = p' cur + d') :
      Match N p p' k es es' → Match N p p' cur (.delay d :: es) (.delay d' :: es')

theorem Match.mono {N : ℕ} {p p' : ℕ → ℚ} {cur : ℕ} {es es' : List Event} (h : Match N p p' cur es es')
    (hc : cur < N) (s s' : ℚ) : Match (N + 1) (Function.update p N s) (Function.update p' N s') cur es es' := by
  induction h with
  | nil => exact .nil _
  | act a _ ih => exact .act a (ih hc)
  | @delay cur _ _ d d' k hk h h' _ ih =>
    have h1 : cur ≠ N := by omega
    have h2 : k ≠ N := by omega
    refine .delay d d' k (by omega) ?_ ?_ (ih hk)
    · simp [h1, h2, h]
    · simp [h1, h2, h']

theorem Clk.mono {N : ℕ} {p p' : ℕ → ℚ} {cur : ℕ} {a b : ℚ} (h : Clk N p p' cur a b) (hc : cur < N)
    (s s' : ℚ) : Clk (N + 1) (Function.update p N s) (Function.update p' N s') cur a b := by
  obtain ⟨k, h1, n, e1, e2⟩ := h
  have hk : k ≠ N := by omega
  have hc' : cur ≠ N := by omega
  exact ⟨k, by omega, n, by simp [hk, hc', e1], by simp [hk, hc', e2]⟩

theorem Clk.move {N : ℕ} {p p' : ℕ → ℚ} {cur k : ℕ} {a b d d' : ℚ} (h : Clk N p p' cur a b)
    (h1 : p k = p cur + d) (h2 : p' k = p' cur + d') : Clk N p p' k (a + d) (b + d') := by
  obtain ⟨m, hm, n, e1, e2⟩ := h
  exact ⟨m, hm, n, by rw [e1, h1]; ring, by rw [e2, h2]; ring⟩

theorem apply_clk {N : ℕ} {p p' : ℕ → ℚ} {cur : ℕ} (hc : cur < N) {v v' : Valuation}
    (h : ∀ x, Clk N p p' cur (v x) (v' x)) (r : Resets) (hr : ∀ u ∈ r, ∀ q, u.2 = .const q → ∃ n : ℤ, q = n)
    (x : ℕ) : Clk N p p' cur (r.apply v x) (r.apply v' x) := by
  have key : ∀ (l : Resets) (u u' : Valuation), (∀ e ∈ l, e ∈ r) → (∀ x, Clk N p p' cur (u x) (u' x)) →
      ∀ x, Clk N p p' cur (l.foldl (fun (w : Valuation) e => Function.update w e.1 (e.2.eval v)) u x)
        (l.foldl (fun (w : Valuation) e => Function.update w e.1 (e.2.eval v')) u' x) := by
    intro l
    induction l with
    | nil => intro u u' _ h x; exact h x
    | cons e l ih =>
      intro u u' hl hu x
      simp only [List.foldl_cons]
      refine ih _ _ (fun e he => hl e (by simp [he])) (fun y => ?_) x
      by_cases hy : y = e.1
      · subst hy
        simp only [Function.update_self]
        cases he : e.2 with
        | const q =>
          obtain ⟨n, hn⟩ := hr e (hl e (by simp)) q he
          exact ⟨cur, hc, n, by simp [Upd.eval, hn], by simp [Upd.eval, hn]⟩
        | clock y => exact h y
      · simp only [Function.update_of_ne hy]; exact hu y
  exact key r v v' (fun _ h => h) h x

/-- The simulation. -/
theorem steps_sim {A : TA} (hA : A.Closed) (hI : A.IntResets) {c c' : Config} {es : List Event}
    (h : A.Steps c es c') : ∀ (N : ℕ) (p p' : ℕ → ℚ) (cur : ℕ) (v' : Valuation) (es' : List Event),
      Equiv N p p' → cur < N → c.loc ∈ A.states → (∀ x, Clk N p p' cur (c.val x) (v' x)) →
      Match N p p' cur es es' → ∃ d', A.Steps ⟨c.loc, v'⟩ es' d' ∧ d'.loc = c'.loc := by
  induction h with
  | nil c =>
    intro N p p' cur v' es' hE hc hl hv hm
    cases hm
    exact ⟨_, .nil _, rfl⟩
  | @eps c es c' t ht hg _ ih =>
    intro N p p' cur v' es' hE hc hl hv hm
    obtain ⟨d', h1, h2⟩ := ih N p p' cur (t.resets.apply v') es' hE hc (hA.2 _ hl _ t ht)
      (fun x => apply_clk hc hv _ (hI _ hl _ t ht) x) hm
    refine ⟨d', .eps t ht (fun g hgm => ?_) h1, h2⟩
    exact holds_of_floor (fun x => (hv x).reg hE hc) (hg g hgm)
  | @delay c es c' d hd _ ih =>
    intro N p p' cur v' es' hE hc hl hv hm
    cases hm with
    | delay _ d' k hk h h' hm =>
      obtain ⟨q, h1, h2⟩ := ih N p p' k (v'.shift d') _ hE hk hl (fun x => (hv x).move h h') hm
      refine ⟨q, .delay d' ?_ h1, h2⟩
      have := (reg_eq_iff.1 (hE k hk cur hc)).1
      have e1 : p k - p cur = d := by rw [h]; ring
      have e2 : p' k - p' cur = d' := by rw [h']; ring
      rw [e1, e2] at this
      have h0 : (0 : ℤ) ≤ ⌊d⌋ := Int.floor_nonneg.2 hd
      rw [this] at h0
      exact Int.floor_nonneg.1 h0
  | @split c es c' d1 d2 h1 h2 _ ih =>
    intro N p p' cur v' es' hE hc hl hv hm
    cases hm with
    | @delay _ _ es'' _ d' k hk h h' hm =>
      obtain ⟨s', hs⟩ := insert_point hE (p cur + d1)
      have hcN : cur ≠ N := by omega
      have hkN : k ≠ N := by omega
      have hc1 : cur < N + 1 := by omega
      obtain ⟨q, g1, g2⟩ := ih (N + 1) _ _ cur v' (.delay (s' - p' cur) :: .delay (p' k - s') :: es'') hs hc1 hl
        (fun x => (hv x).mono hc _ _)
        (.delay _ _ N (by omega) (by simp [hcN]) (by simp [hcN])
          (.delay _ _ k (by omega) (by simp [hkN, h]; ring) (by simp [hkN]) (hm.mono hk _ _)))
      have n1 : 0 ≤ s' - p' cur := by
        have := (reg_eq_iff.1 (hs N (by omega) cur (by omega))).1
        simp [hcN] at this
        have h0 : (0 : ℤ) ≤ ⌊d1⌋ := Int.floor_nonneg.2 h1
        rw [this] at h0
        exact Int.floor_nonneg.1 h0
      have n2 : 0 ≤ p' k - s' := by
        have := (reg_eq_iff.1 (hs k (by omega) N (by omega))).1
        simp only [Function.update_of_ne hkN, Function.update_self] at this
        have e : p k - (p cur + d1) = d2 := by rw [h]; ring
        rw [e] at this
        have h0 : (0 : ℤ) ≤ ⌊d2⌋ := Int.floor_nonneg.2 h2
        rw [this] at h0
        exact Int.floor_nonneg.1 h0
      refine ⟨q, ?_, g2⟩
      have e : d' = (s' - p' cur) + (p' k - s') := by rw [h']; ring
      rw [e]
      exact .split _ _ n1 n2 g1
  | @act c es c' a ha t ht hg _ ih =>
    intro N p p' cur v' es' hE hc hl hv hm
    cases hm with
    | act _ hm =>
      obtain ⟨d', h1, h2⟩ := ih N p p' cur (t.resets.apply v') _ hE hc (hA.2 _ hl _ t ht)
        (fun x => apply_clk hc hv _ (hI _ hl _ t ht) x) hm
      refine ⟨d', .act a ha t ht (fun g hgm => ?_) h1, h2⟩
      exact holds_of_floor (fun x => (hv x).reg hE hc) (hg g hgm)

/-- The absolute times of the events of a timed word. -/
def pts (d : List ℚ) (i : ℕ) : ℚ := (d.take i).sum

theorem match_events (d0 d0' : List ℚ) (N : ℕ) (hN : d0.length < N) : ∀ (as : List Action) (k : ℕ),
    d0.length = d0'.length → k + as.length + 1 = d0.length →
    Match N (pts d0) (pts d0') k (eventsOf as (d0.drop k)) (eventsOf as (d0'.drop k)) := by
  intro as
  induction as with
  | nil =>
    intro k hl hk
    simp only [List.length_nil, add_zero] at hk
    rw [List.drop_eq_getElem_cons (show k < d0.length by omega), List.drop_eq_getElem_cons (show k < d0'.length by omega)]
    refine .delay _ _ (k + 1) (by omega) ?_ ?_ (.nil _)
    · exact List.sum_take_succ _ _ _
    · exact List.sum_take_succ _ _ _
  | cons a as ih =>
    intro k hl hk
    simp only [List.length_cons] at hk
    rw [List.drop_eq_getElem_cons (show k < d0.length by omega), List.drop_eq_getElem_cons (show k < d0'.length by omega)]
    refine .delay _ _ (k + 1) (by omega) ?_ ?_ (.act a (ih (k + 1) hl (by omega)))
    · exact List.sum_take_succ _ _ _
    · exact List.sum_take_succ _ _ _

theorem pts_sub (d : List ℚ) {i j : ℕ} (h : i ≤ j) : pts d (j + 1) - pts d i = TimedCondition.T d i j := by
  unfold pts TimedCondition.T
  have : (d.take (j + 1)) = d.take i ++ (d.drop i).take (j + 1 - i) := by
    rw [List.take_drop, show i + (j + 1 - i) = j + 1 by omega]
    conv_lhs => rw [← List.take_append_drop i (d.take (j + 1))]
    rw [List.take_take, min_eq_left (by omega)]
  rw [this, List.sum_append]; ring

theorem pts_equiv {w w' : TimedWord} (h : w.SameRegion w') :
    Equiv (w.durations.length + 1) (pts w.durations) (pts w'.durations) := by
  obtain ⟨_, hl, hT⟩ := h
  have key : ∀ i j, i < j → j < w.durations.length + 1 →
      reg (pts w.durations j - pts w.durations i) = reg (pts w'.durations j - pts w'.durations i) ∧
      reg (pts w.durations i - pts w.durations j) = reg (pts w'.durations i - pts w'.durations j) := by
    intro i j hij hj
    obtain ⟨m, rfl⟩ : ∃ m, j = m + 1 := ⟨j - 1, by omega⟩
    obtain ⟨h1, h2⟩ := hT i m (by omega) (by omega)
    rw [← neg_sub (pts w.durations (m + 1)), ← neg_sub (pts w'.durations (m + 1)),
      pts_sub _ (by omega), pts_sub _ (by omega)]
    exact ForwardRegional.reg_of_floor_ceil h1 h2
  intro i hi j hj
  rcases lt_trichotomy i j with h | h | h
  · exact (key i j h hj).2
  · subst h; simp
  · exact (key j i h hi).1

theorem accepts_of_sameRegion {A : TA} (hA : A.Closed) (hI : A.IntResets) {w w' : TimedWord} (hw : w.WF)
    (h : w.SameRegion w') (ha : A.Accepts w) : A.Accepts w' := by
  obtain ⟨q, hq, c, hs, hm⟩ := ha
  have hl := h.2.1
  have hwf : w.durations.length = w.word.length + 1 := hw
  obtain ⟨d', h1, h2⟩ := steps_sim hA hI hs (w.durations.length + 1) (pts w.durations) (pts w'.durations) 0
    Valuation.zero w'.events (pts_equiv h) (by omega) (hA.1 q hq)
    (fun x => ⟨0, by omega, 0, by simp [Valuation.zero], by simp [Valuation.zero]⟩) (by
      have := match_events w.durations w'.durations (w.durations.length + 1) (by omega) w.word 0 hl (by omega)
      unfold TimedWord.events
      rw [← h.1]
      simpa using this)
  exact ⟨q, hq, d', h1, by rw [h2]; exact hm⟩

end RegionTA
end LearnTA
