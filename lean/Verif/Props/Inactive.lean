import Verif.Model.Inactive
import Verif.Props.Condition
import Verif.Props.Renaming

/-!
# C85: the clocks whose value is lost by a transition
-/

namespace LearnTA.Props

open LearnTA TimedCondition

theorem mem_foldl_filter (xs l : List ℕ) (y : ℕ) :
    y ∈ xs.foldl (fun l (x : ℕ) => l.filter fun y => y != x) l ↔ y ∈ l ∧ y ∉ xs := by
  induction xs generalizing l with
  | nil => simp
  | cons x xs ih =>
    rw [List.foldl_cons, ih, List.mem_filter, List.mem_cons]
    simp only [bne_iff_ne, ne_eq]
    tauto

theorem nodup_foldl_filter (xs l : List ℕ) (h : l.Nodup) : (xs.foldl (fun l (x : ℕ) => l.filter fun y => y != x) l).Nodup := by
  induction xs generalizing l with
  | nil => exact h
  | cons x xs ih => exact ih _ (h.filter _)

theorem mem_inactive (r : RenamingRelation) (c : TimedCondition) (p : ℕ × Option ℕ) :
    p ∈ r.inactiveClockVariables c ↔ p.1 < c.size ∧ (∀ q ∈ r, q.2 ≠ p.1) ∧ c.isPoint p.1 = false ∧
      p.2 = (Zone.firstOf (c.upper p.1 (c.size - 1))).map fun b => ⌊|b|⌋₊ := by
  unfold RenamingRelation.inactiveClockVariables
  simp only [List.mem_map, List.mem_filter, mem_foldl_filter, List.mem_range, RenamingRelation.rightVariables,
    (sortUnique_spec _).2, Bool.not_eq_true', Prod.exists]
  constructor
  · rintro ⟨x, ⟨⟨h1, h2⟩, h3⟩, rfl⟩
    exact ⟨h1, fun q hq e => h2 ⟨q.1, q.2, hq, e⟩, h3, rfl⟩
  · rintro ⟨h1, h2, h3, h4⟩
    refine ⟨p.1, ⟨⟨h1, ?_⟩, h3⟩, Prod.ext rfl h4.symm⟩
    rintro ⟨a, b, hq, e⟩
    exact h2 _ hq e

/-- **C85** A clock is reported as inactive after a transition exactly if it is a clock of the target, no clock is renamed to it, and
two words of the target condition give it different values; and no clock is reported twice. -/
theorem C85_inactive (r : RenamingRelation) {c : TimedCondition} (hc : c.Canonical) :
    ((r.inactiveClockVariables c).map (·.1)).Nodup ∧
    ∀ x, x ∈ (r.inactiveClockVariables c).map (·.1) ↔ x < c.size ∧ (∀ p ∈ r, p.2 ≠ x) ∧
      ∃ d d', c.Holds d ∧ c.Holds d' ∧ T d x (c.size - 1) ≠ T d' x (c.size - 1) := by
  constructor
  · unfold RenamingRelation.inactiveClockVariables
    rw [List.map_map]
    refine List.Nodup.map (fun a b h => h) ?_
    exact (nodup_foldl_filter _ _ List.nodup_range).filter _
  · intro x
    have key : x < c.size → (c.isPoint x = false ↔
        ∃ d d', c.Holds d ∧ c.Holds d' ∧ T d x (c.size - 1) ≠ T d' x (c.size - 1)) := by
      intro hx
      rw [← Bool.not_eq_true, C78_isPoint hc hx]
      constructor
      · intro h
        by_contra h'
        push Not at h'
        obtain ⟨v, hv⟩ := hc.nonempty
        have hd0 : c.Holds (delays v c.size) := by
          rw [holds_iff_mem _ hc.1 hc.diagNN]; exact ⟨by simp, mem_delays hv⟩
        exact h ⟨_, fun d hd => h' d _ hd hd0⟩
      · rintro ⟨d, d', h1, h2, h3⟩ ⟨q, hq⟩
        exact h3 ((hq d h1).trans (hq d' h2).symm)
    rw [List.mem_map]
    constructor
    · rintro ⟨p, hp, rfl⟩
      obtain ⟨h1, h2, h3, -⟩ := (mem_inactive r c p).1 hp
      exact ⟨h1, h2, (key h1).1 h3⟩
    · rintro ⟨h1, h2, h3⟩
      exact ⟨(x, (Zone.firstOf (c.upper x (c.size - 1))).map fun b => ⌊|b|⌋₊),
        (mem_inactive r c _).2 ⟨h1, h2, (key h1).2 h3, rfl⟩, rfl⟩

/-- **C85** The number reported with a clock is the least upper bound of its values in the words of the target condition, if they have
one, of conditions with integer bounds and words with durations that are not negative. -/
theorem C85_bound (r : RenamingRelation) {c : TimedCondition} (hc : c.Canonical) (hi : c.Integral)
    (hn : ∀ d, c.Holds d → ∀ i < c.size, 0 ≤ T d i (c.size - 1)) {x : ℕ} {b : Option ℕ}
    (h : (x, b) ∈ r.inactiveClockVariables c) :
    (∀ m : ℕ, b = some m ↔ IsLUB {t | ∃ d, c.Holds d ∧ T d x (c.size - 1) = t} (m : ℚ)) ∧
    (b = none ↔ ∀ q : ℚ, ∃ d, c.Holds d ∧ q ≤ T d x (c.size - 1)) := by
  obtain ⟨h1, -, -, hb⟩ := (mem_inactive r c _).1 h
  simp only at h1 hb
  subst hb
  have hx : x ≤ c.size - 1 := by omega
  have hl : c.size - 1 < c.size := by omega
  cases hu : c.upper x (c.size - 1) with
  | inf =>
    have hub : ∀ q : ℚ, ∃ d, c.Holds d ∧ q ≤ T d x (c.size - 1) := fun q =>
      hc.realize_above hx hl q (by rw [hu]; trivial)
    refine ⟨fun m => ⟨fun h => by simp [Zone.firstOf] at h, fun h => ?_⟩, ⟨fun _ => hub, fun _ => rfl⟩⟩
    obtain ⟨d, hd, hq⟩ := hub (m + 1)
    have := h.1 ⟨d, hd, rfl⟩
    linarith
  | fin k s =>
    have up : ∀ d, c.Holds d → T d x (c.size - 1) ≤ k := fun d hd => by
      have := (hd.2 x (c.size - 1) hx hl).1
      rw [hu] at this
      cases s <;> simp only [Bound.Sat] at this <;> linarith
    have near : ∀ q, q < k → ∃ d, c.Holds d ∧ q ≤ T d x (c.size - 1) := fun q hq =>
      hc.realize_above hx hl q (by rw [hu]; cases s <;> simp only [Bound.Sat] <;> linarith)
    have lub : IsLUB {t | ∃ d, c.Holds d ∧ T d x (c.size - 1) = t} k := by
      refine ⟨?_, fun u hu' => ?_⟩
      · rintro t ⟨d, hd, rfl⟩; exact up d hd
      · by_contra hlt
        push Not at hlt
        obtain ⟨d, hd, hq⟩ := near ((u + k) / 2) (by linarith)
        have := hu' ⟨d, hd, rfl⟩
        linarith
    have hk0 : 0 ≤ k := by
      obtain ⟨d, hd, hq⟩ := near (k - 1) (by linarith)
      exact (hn d hd x h1).trans (up d hd)
    have hkint : ∃ n : ℕ, k = n := by
      have hint := hi (x + 1) (by unfold size at h1; omega) 0 (by unfold size at h1; omega)
      have hu' : c.zone.val (x + 1) 0 = .fin k s := by
        have := hu; unfold upper at this; rwa [if_pos rfl] at this
      rw [hu'] at hint
      obtain ⟨n, hn'⟩ := hint
      have : 0 ≤ n := by
        have : (0 : ℚ) ≤ (n : ℚ) := by rw [← hn']; exact hk0
        exact_mod_cast this
      exact ⟨n.toNat, by rw [hn']; exact_mod_cast (Int.toNat_of_nonneg this).symm⟩
    obtain ⟨n, rfl⟩ := hkint
    refine ⟨fun m => ⟨fun h => ?_, fun h => ?_⟩, ⟨fun h => by simp [Zone.firstOf] at h, fun h => ?_⟩⟩
    · simp [Zone.firstOf] at h
      subst h; exact lub
    · have := lub.unique h
      have : n = m := by exact_mod_cast this
      subst this
      simp [Zone.firstOf]
    · obtain ⟨d, hd, hq⟩ := h (n + 1)
      have := up d hd
      linarith

/-- The condition of the unit test (`/repo/tests/external_transition_maker_test.cc:75-98`): `T_{0,0} ∈ (2,3)`, `T_{0,1} = 4`,
`T_{0,2} = 4`, `T_{1,1} ∈ (1,2)`, `T_{1,2} ∈ (1,2)`, `T_{2,2} = 0`. -/
def testCond : TimedCondition :=
  ((((((((((((⟨Zone.top 4⟩ : TimedCondition).restrictLower 0 0 (.fin (-2) false) false).restrictUpper 0 0 (.fin 3 false) false).restrictLower
    0 1 (.fin (-4) true) false).restrictUpper 0 1 (.fin 4 true) false).restrictLower 0 2 (.fin (-4) true) false).restrictUpper
    0 2 (.fin 4 true) false).restrictLower 1 1 (.fin (-1) false) false).restrictUpper 1 1 (.fin 2 false) false).restrictLower
    1 2 (.fin (-1) false) false).restrictUpper 1 2 (.fin 2 false) false).restrictLower 2 2 (.fin 0 true) false).restrictUpper
    2 2 (.fin 0 true) false

set_option maxRecDepth 100000 in
/-- The unit test: without a renaming only the clock 1 is inactive, with the bound 2; with `x0` renamed to `x1` none is.  The
condition meets the hypotheses. -/
example : testCond.Canonical ∧ testCond.Integral ∧
    (∀ d, testCond.Holds d → ∀ i < testCond.size, 0 ≤ T d i (testCond.size - 1)) ∧
    RenamingRelation.inactiveClockVariables [] testCond = [(1, some 2)] ∧
    RenamingRelation.inactiveClockVariables [(0, 1)] testCond = [] := by
  refine ⟨by unfold TimedCondition.Canonical; decide +kernel, ?_, ?_, by decide +kernel, by decide +kernel⟩
  swap
  · intro d hd i hi
    have h := (hd.2 i (testCond.size - 1) (by omega) (by omega)).2
    have hl : ∀ i < testCond.size, testCond.lower i (testCond.size - 1) ≤ .fin 0 true := by decide +kernel
    have := Bound.Sat.mono h (hl i hi)
    simp only [Bound.Sat] at this
    linarith
  have h : ∀ i < testCond.zone.dim, ∀ j < testCond.zone.dim, testCond.zone.val i j = .inf ∨
      (Zone.firstOf (testCond.zone.val i j)).any (fun q => q.den == 1) = true := by decide +kernel
  intro i hi j hj
  have := h i hi j hj
  cases e : testCond.zone.val i j with
  | inf => trivial
  | fin q s =>
    rw [e] at this
    simp [Zone.firstOf] at this
    exact ⟨q.num, by rw [Rat.coe_int_num_of_den_eq_one this]⟩

end LearnTA.Props
