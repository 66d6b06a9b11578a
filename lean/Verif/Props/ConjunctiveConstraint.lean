import Verif.Lemmas.ConjunctiveConstraint
import Verif.Props.Constraint
import Mathlib.Data.List.Induction

/-!
# Properties of the vector representation of conjunctions (C79)
-/

namespace LearnTA.Props

open LearnTA ConjIneq

/-! ## C79 -/

/-- The conjunction made from the trivial one by adding the constraints of `g` one by one. -/
def conj (n : ℕ) (g : Guard) : ConjIneq := g.foldl addConstraint (.trivial n)

/-- The constraints are about the `n` clocks, with constants below `maxValue`. -/
def ConjOk (n : ℕ) (g : Guard) : Prop := ∀ c ∈ g, c.x < n ∧ c.c < maxValue

theorem conj_props (n : ℕ) (g : Guard) (hg : ConjOk n g) : (conj n g).dim = n ∧ (conj n g).Small ∧ (conj n g).Nonneg ∧
    (conj n g).UpNormal ∧ ∀ v : Valuation, v.Nonneg → ((conj n g).Holds v ↔ g.Holds v) := by
  induction g using List.reverseRecOn with
  | nil =>
    refine ⟨rfl, fun i _ => ?_, fun i _ => le_rfl, fun i _ => le_rfl, fun v hv => ?_⟩
    · show -maxValue < 0; decide
    · exact iff_of_true (trivial_holds n hv) (Guard.holds_nil v)
  | append_singleton g c ih =>
    obtain ⟨h1, h2, h3, h4, h5⟩ := ih fun c hc => hg c (by simp [hc])
    obtain ⟨hx, hc⟩ := hg c (by simp)
    have e : conj n (g ++ [c]) = (conj n g).addConstraint c := by simp [conj]
    rw [e]
    refine ⟨by simp [h1], addConstraint_small h2 hc, fun i hi => ?_, fun i hi => ?_, fun v hv => ?_⟩
    · rw [addConstraint_dim] at hi
      unfold addConstraint
      split
      · exact h3 i hi
      · dsimp only
        by_cases e : i = c.x
        · subst e; rw [Function.update_self]; exact (min_le_left _ _).trans (h3 _ hi)
        · rw [Function.update_of_ne e]; exact h3 i hi
    · rw [addConstraint_dim] at hi
      unfold addConstraint
      split
      · dsimp only
        by_cases e : i = c.x
        · subst e; rw [Function.update_self]; exact (min_le_left _ _).trans (h4 _ hi)
        · rw [Function.update_of_ne e]; exact h4 i hi
      · exact h4 i hi
    · rw [addConstraint_holds _ _ (by rw [h1]; exact hx) hc, h5 v hv, Guard.holds_append]
      simp [Guard.holds_cons]

/-- C79: adding constraints one by one and listing them again keeps the meaning. -/
theorem C79_listed (n : ℕ) (g : Guard) (hg : ConjOk n g) (v : Valuation) (hv : v.Nonneg) :
    (conj n g).asConstraints.Holds v ↔ g.Holds v := by
  rw [asConstraints_holds _ hv]
  exact (conj_props n g hg).2.2.2.2 v hv

/-- C79: the test for satisfiability is exact. -/
theorem C79_satisfiable (n : ℕ) (g : Guard) (hg : ConjOk n g) :
    (conj n g).isSatisfiable = true ↔ ∃ v : Valuation, v.Nonneg ∧ g.Holds v := by
  obtain ⟨_, h2, h3, _, h5⟩ := conj_props n g hg
  constructor
  · intro h
    obtain ⟨v, hv, hh⟩ := holds_of_isSatisfiable h3 h
    exact ⟨v, hv, (h5 v hv).1 hh⟩
  · rintro ⟨v, hv, hh⟩
    exact isSatisfiable_of_holds h2 ((h5 v hv).2 hh)

/-- C79: `includes` tells whether a satisfiable conjunction implies another one. -/
theorem C79_includes (n : ℕ) (g h : Guard) (hg : ConjOk n g) (hh : ConjOk n h) (hs : (conj n h).isSatisfiable = true) :
    (conj n g).includes (conj n h) = true ↔ ∀ v : Valuation, v.Nonneg → h.Holds v → g.Holds v := by
  obtain ⟨a1, _, _, _, a5⟩ := conj_props n g hg
  obtain ⟨b1, _, b3, b4, b5⟩ := conj_props n h hh
  constructor
  · intro hi v hv hv'
    exact (a5 v hv).1 (includes_sound (a1.trans b1.symm) hi ((b5 v hv).2 hv'))
  · intro hi
    exact includes_complete (a1.trans b1.symm) hs b3 b4 fun v hv hb => (a5 v hv).2 (hi v hv ((b5 v hv).1 hb))

/-- C79: the intersection holds exactly if both conjunctions do. -/
theorem C79_intersection (n : ℕ) (g h : Guard) (hg : ConjOk n g) (hh : ConjOk n h) (v : Valuation) (hv : v.Nonneg) :
    ((conj n g).inter (conj n h)).asConstraints.Holds v ↔ g.Holds v ∧ h.Holds v := by
  obtain ⟨a1, _, _, _, a5⟩ := conj_props n g hg
  obtain ⟨b1, _, _, _, b5⟩ := conj_props n h hh
  rw [asConstraints_holds _ hv, inter_holds _ _ (a1.trans b1.symm), a5 v hv, b5 v hv]

/-- C79: equal conjunctions have the same meaning, and satisfiable ones with the same meaning are equal. -/
theorem C79_equal (n : ℕ) (g h : Guard) (hg : ConjOk n g) (hh : ConjOk n h) :
    ((conj n g).beq (conj n h) = true → ∀ v : Valuation, v.Nonneg → (g.Holds v ↔ h.Holds v)) ∧
    ((∃ v : Valuation, v.Nonneg ∧ g.Holds v) → (∀ v : Valuation, v.Nonneg → (g.Holds v ↔ h.Holds v)) →
      (conj n g).beq (conj n h) = true) := by
  obtain ⟨a1, _, _, _, a5⟩ := conj_props n g hg
  obtain ⟨b1, _, _, _, b5⟩ := conj_props n h hh
  have hb : (conj n g).beq (conj n h) = true ↔ (conj n g).includes (conj n h) = true ∧ (conj n h).includes (conj n g) = true := by
    unfold ConjIneq.beq
    rw [includes_iff, includes_iff, a1, b1]
    simp only [decide_true, Bool.true_and, List.all_eq_true, List.mem_range, Bool.and_eq_true, decide_eq_true_eq]
    constructor
    · intro h
      exact ⟨fun i hi => ⟨(h i hi).1.ge, (h i hi).2.ge⟩, fun i hi => ⟨(h i hi).1.le, (h i hi).2.le⟩⟩
    · rintro ⟨h1, h2⟩ i hi
      exact ⟨le_antisymm (h2 i hi).1 (h1 i hi).1, le_antisymm (h2 i hi).2 (h1 i hi).2⟩
  rw [hb]
  constructor
  · rintro ⟨h1, h2⟩ v hv
    rw [← a5 v hv, ← b5 v hv]
    exact ⟨includes_sound (b1.trans a1.symm) h2, includes_sound (a1.trans b1.symm) h1⟩
  · rintro ⟨v, hv, hgv⟩ he
    have sg := (C79_satisfiable n g hg).2 ⟨v, hv, hgv⟩
    have sh := (C79_satisfiable n h hh).2 ⟨v, hv, (he v hv).1 hgv⟩
    exact ⟨(C79_includes n g h hg hh sh).2 fun v hv => (he v hv).2, (C79_includes n h g hh hg sg).2 fun v hv => (he v hv).1⟩

/-- C79: this `negate`, too, is the exact complement on non-negative valuations; it differs from the other one in form
only. -/
theorem C79_negate (dnf : List Guard) (hne : dnf ≠ []) (hd : ∀ g ∈ dnf, g ≠ [])
    (hs : ∀ g ∈ dnf, ∀ c ∈ g, c.c < maxValue) (v : Valuation) (hv : v.Nonneg) :
    (DNF.Holds (negate dnf) v ↔ ¬ DNF.Holds dnf v) ∧
    (DNF.Holds (negate dnf) v ↔ DNF.Holds (Guard.negateDNF dnf) v) := by
  have h1 := negate_holds dnf hne hd hs hv
  refine ⟨h1, h1.trans (C05_negate_dnf_exact dnf hne hd ?_ v hv).symm⟩
  intro g hg c hc
  have := hs g hg c hc
  have : maxValue < intMax := by decide
  omega

example : negate [[⟨0, .gt, 1⟩, ⟨0, .lt, 3⟩], [⟨1, .ge, 3⟩]] =
    [[⟨0, .le, 1⟩, ⟨1, .lt, 3⟩], [⟨1, .lt, 3⟩, ⟨0, .ge, 3⟩]] := by decide +kernel

example : ConjOk 2 [⟨0, .gt, 1⟩, ⟨0, .lt, 3⟩, ⟨1, .ge, 3⟩] ∧ (conj 2 [⟨0, .gt, 1⟩, ⟨0, .lt, 3⟩, ⟨1, .ge, 3⟩]).isSatisfiable = true ∧
    (conj 2 [⟨0, .gt, 1⟩, ⟨0, .lt, 3⟩, ⟨0, .lt, 1⟩]).isSatisfiable = false ∧
    (conj 2 [⟨0, .lt, 4⟩]).includes (conj 2 [⟨0, .gt, 1⟩, ⟨0, .lt, 3⟩, ⟨1, .ge, 3⟩]) = true ∧
    (conj 2 [⟨0, .lt, 2⟩]).includes (conj 2 [⟨0, .gt, 1⟩, ⟨0, .lt, 3⟩, ⟨1, .ge, 3⟩]) = false := by
  refine ⟨?_, by decide +kernel⟩
  intro c hc
  simp only [List.mem_cons, List.not_mem_nil, or_false] at hc
  rcases hc with rfl | rfl | rfl <;> decide

/-- C79: limits of the code.  The constructor from several constraints keeps only the last bound of each kind (here
`x ≤ 1`, `x ≤ 3` gives `x ≤ 3`); a constant from `maxValue` on is taken for no bound, so that `x ≤ 1073741823` gets lost;
the degenerate cases of C05 are the same. -/
theorem C79_limits_witness :
    (ofGuard [⟨0, .le, 1⟩, ⟨0, .le, 3⟩] 1).asConstraints = [⟨0, .le, 3⟩] ∧
    negate [[⟨0, .gt, 1073741823⟩]] = [[]] ∧ negate [] = [] ∧
    negate [[], [⟨0, .le, 1⟩]] = [[⟨0, .gt, 1⟩]] := by decide +kernel

end LearnTA.Props
