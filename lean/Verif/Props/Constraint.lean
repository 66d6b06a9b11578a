import Verif.Lemmas.Constraint
import Verif.Lemmas.UnionHull

/-!
# Properties of guards (C01–C06, C49)
-/

namespace LearnTA.Props

open LearnTA

/-! ## C01 -/

/-- C01: `negate` is the exact complement of a constraint, and is an involution. -/
theorem C01_negate_exact (g : Constraint) (v : Valuation) :
    (g.negate.satisfy v = !g.satisfy v) ∧ g.negate.negate = g := by
  constructor
  · rw [Bool.eq_iff_iff, Bool.not_eq_true', ← Bool.not_eq_true, Constraint.satisfy_iff,
      Constraint.satisfy_iff, Constraint.negate_holds]
  · rcases g with ⟨x, o, c⟩
    cases o <;> rfl

/-- The executable test agrees with the mathematical inequality. -/
theorem C01_satisfy_iff (g : Constraint) (v : Valuation) : g.satisfy v = true ↔ g.Holds v :=
  Constraint.satisfy_iff g v

example : (Constraint.mk 0 .le 3).satisfy (fun _ => 3) = true ∧
    ((Constraint.mk 0 .le 3).negate).satisfy (fun _ => 3) = false := by
  simp [Constraint.satisfy, Constraint.satisfyD, Constraint.negate]

/-! ## C02 -/

/-- C02: `satisfiable` answers true exactly if a non-negative valuation satisfies the guard.
Constants must be below `INT_MAX`, which the code reserves for "no upper bound". -/
theorem C02_satisfiable_exact (g : Guard) (hg : g.Small) :
    g.satisfiable = true ↔ ∃ v : Valuation, v.Nonneg ∧ g.Holds v :=
  Guard.satisfiable_iff g hg

example : Guard.Small [⟨0, .gt, 1⟩, ⟨1, .le, 3⟩, ⟨0, .lt, 2⟩] ∧
    Guard.satisfiable [⟨0, .gt, 1⟩, ⟨1, .le, 3⟩, ⟨0, .lt, 2⟩] = true ∧
    Guard.satisfiable [⟨0, .gt, 1⟩, ⟨1, .le, 3⟩, ⟨0, .le, 1⟩] = false := by decide

/-- The excluded constant: with `INT_MAX` the code answers "unsatisfiable" for the satisfiable
guard `x ≥ INT_MAX`, so the hypothesis of `C02_satisfiable_exact` is needed. -/
theorem C02_intMax_witness : Guard.satisfiable [⟨0, .ge, intMax⟩] = false ∧
    ∃ v : Valuation, v.Nonneg ∧ Guard.Holds [⟨0, .ge, intMax⟩] v := by
  refine ⟨by decide, fun _ => (intMax : ℚ), ?_, ?_⟩
  · intro i; simp [intMax]
  · intro c hc; simp at hc; subst hc; simp [Constraint.Holds]

/-! ## C03 -/

/-- C03: `simplify` keeps the meaning of a guard on all non-negative valuations. -/
theorem C03_simplify_meaning (g : Guard) (hg : g.Small) (v : Valuation) (hv : v.Nonneg) :
    (g.simplify).Holds v ↔ g.Holds v :=
  Guard.simplify_holds g v hg hv

example : Guard.simplify [⟨1, .gt, 1⟩, ⟨0, .lt, 5⟩, ⟨1, .ge, 1⟩, ⟨0, .le, 4⟩, ⟨0, .ge, 0⟩] =
    [⟨1, .gt, 1⟩, ⟨0, .le, 4⟩] := by decide

/-! ## C04 -/

/-- C04: if `isWeaker(left, right)` then `right` implies `left` on every valuation. -/
theorem C04_isWeaker_sound (left right : Guard) (h : left.isWeaker right = true) (v : Valuation)
    (hv : right.Holds v) : left.Holds v :=
  Guard.isWeaker_sound h v hv

example : Guard.isWeaker [⟨0, .le, 5⟩] [⟨1, .gt, 2⟩, ⟨0, .lt, 5⟩] = true := by decide

/-- C04: on two atomic constraints that bound one clock from the same side, `isWeaker` is exactly
implication over all valuations. -/
theorem C04_isWeaker_atomic_complete (a b : Constraint) (hx : a.x = b.x)
    (hu : a.isUpperBound = b.isUpperBound) :
    a.isWeaker b = true ↔ ∀ v : Valuation, b.Holds v → a.Holds v := by
  constructor
  · exact fun h v hv => Constraint.isWeaker_sound h v hv
  · intro h
    rw [Constraint.isWeaker_iff]
    refine ⟨hx, hu, ?_⟩
    by_contra hlt
    obtain ⟨d, h1, h2⟩ := Guard.exists_sep (not_le.1 hlt)
    have := h (fun _ => Guard.sgn a.isUpperBound d)
    rw [Guard.holds_iff_sgn, Guard.holds_iff_sgn, ← hu] at this
    have e : Guard.sgn a.isUpperBound (Guard.sgn a.isUpperBound d) = d := by
      unfold Guard.sgn; split <;> simp
    simp only [e] at this
    exact h2 (this h1)

/-- C04: a satisfiable guard without redundancy implies (on non-negative valuations) a constraint
that is not trivially true only if `isWeaker` finds it: the test is also complete for tidy guards. -/
theorem C04_isWeaker_complete_tidy (left right : Guard)
    (hsat : ∃ v : Valuation, v.Nonneg ∧ right.Holds v)
    (htidy : ∀ c ∈ right, ∀ d ∈ right, c.x = d.x → c.isUpperBound = d.isUpperBound → c = d)
    (hnontrivial : ∀ c ∈ left, ∃ v : Valuation, v.Nonneg ∧ ¬ c.Holds v) :
    left.isWeaker right = true ↔ ∀ v : Valuation, v.Nonneg → right.Holds v → left.Holds v := by
  constructor
  · exact fun h v _ hv => Guard.isWeaker_sound h v hv
  · intro h
    simp only [Guard.isWeaker, List.all_eq_true, List.any_eq_true]
    intro c hc
    have ht : Guard.Tidy right := by
      intro c hc d hd hk
      simp only [Guard.ckey, Prod.mk.injEq] at hk
      exact htidy c hc d hd hk.1 hk.2
    rcases Guard.implied_iff right ht c hsat (fun v hv hr => h v hv hr c hc) with h' | h'
    · exact h'
    · obtain ⟨v, hv, hn⟩ := hnontrivial c hc
      exact absurd (h' v hv) hn

example : ∃ v : Valuation, v.Nonneg ∧ Guard.Holds [⟨0, .ge, 1⟩, ⟨0, .lt, 2⟩] v :=
  ⟨fun _ => 1, fun _ => by norm_num, by intro c hc; simp at hc; rcases hc with rfl | rfl <;>
    norm_num [Constraint.Holds]⟩

/-! ## C05 -/

/-- C05: `negate` on a disjunction of non-empty guards is the exact complement on every
non-negative valuation. -/
theorem C05_negate_dnf_exact (dnf : List Guard) (hne : dnf ≠ []) (hd : ∀ g ∈ dnf, g ≠ [])
    (hs : ∀ g ∈ dnf, g.Small) (v : Valuation) (hv : v.Nonneg) :
    DNF.Holds (Guard.negateDNF dnf) v ↔ ¬ DNF.Holds dnf v :=
  Guard.negateDNF_holds dnf v hne hd hs hv

example : Guard.negateDNF [[⟨0, .gt, 1⟩, ⟨0, .lt, 3⟩], [⟨0, .ge, 3⟩]] = [[⟨0, .le, 1⟩]] := by decide

/-- The hypotheses of C05 are needed: the code answers "unsatisfiable" (`[]`) for the negation of
the empty disjunction (which is false, so its negation is true), and ignores a disjunct that is
the empty (always true) guard. -/
theorem C05_degenerate_witness :
    Guard.negateDNF [] = [] ∧ (∀ v, ¬ DNF.Holds [] v) ∧
    Guard.negateDNF [[], [⟨0, .le, 1⟩]] = [[⟨0, .gt, 1⟩]] ∧ (∀ v, DNF.Holds [[], [⟨0, .le, 1⟩]] v) := by
  refine ⟨by decide, by simp [DNF.Holds], by decide, ?_⟩
  intro v
  exact ⟨[], by simp, by simp⟩

/-! ## C06 -/

/-- C06: every valuation of one of the guards satisfies the union hull. -/
theorem C06_unionHull_contains (guards : List Guard) (g : Guard) (hg : g ∈ guards) (v : Valuation)
    (hv : g.Holds v) : (Guard.unionHull guards).Holds v :=
  Guard.isWeaker_sound (Guard.unionHull_weaker guards g hg) v hv

/-- C06: the union hull is the strongest conjunction of single-clock bounds implied by all the
guards (each satisfiable and with at most one upper and one lower bound per clock): a bound that
holds on all of them holds on the hull. -/
theorem C06_unionHull_strongest (guards : List Guard) (hne : guards ≠ [])
    (hsat : ∀ g ∈ guards, ∃ v : Valuation, v.Nonneg ∧ g.Holds v)
    (htidy : ∀ g ∈ guards, ∀ c ∈ g, ∀ d ∈ g, c.x = d.x → c.isUpperBound = d.isUpperBound → c = d)
    (h : Constraint)
    (himp : ∀ g ∈ guards, ∀ v : Valuation, v.Nonneg → g.Holds v → h.Holds v)
    (v : Valuation) (hv : v.Nonneg) (hh : (Guard.unionHull guards).Holds v) : h.Holds v := by
  have ht : ∀ g ∈ guards, Guard.Tidy g := by
    intro g hg c hc d hd hk
    simp only [Guard.ckey, Prod.mk.injEq] at hk
    exact htidy g hg c hc d hd hk.1 hk.2
  by_cases htriv : ∀ w : Valuation, w.Nonneg → h.Holds w
  · exact htriv v hv
  · have hw : ∀ g ∈ guards, ∃ c ∈ g, h.isWeaker c = true := by
      intro g hg
      exact (Guard.implied_iff g (ht g hg) h (hsat g hg) (himp g hg)).resolve_right htriv
    obtain ⟨c, hc, hcw⟩ := Guard.unionHull_strongest guards hne ht h hw
    exact Constraint.isWeaker_sound hcw v (hh c hc)

example : Guard.unionHull [[⟨0, .ge, 1⟩, ⟨0, .lt, 2⟩, ⟨1, .le, 4⟩], [⟨0, .gt, 1⟩, ⟨0, .le, 2⟩]] =
    [⟨0, .ge, 1⟩, ⟨0, .le, 2⟩] := by decide

/-- Redundant guards: the hull of the single guard `x < 5 ∧ x < 3` is `x < 5`, so tidiness is
needed for "strongest" (the code takes the weakest duplicate). -/
theorem C06_redundant_witness :
    Guard.unionHull [[⟨0, .lt, 5⟩, ⟨0, .lt, 3⟩]] = [⟨0, .lt, 5⟩] := by decide

/-! ## C49: delay needed to satisfy a guard -/

/-- C49: if waiting `d ≥ 0` makes the guard true then the computed bound exists and admits `d`. -/
theorem C49_delay_bound_necessary (g : Guard) (v : Valuation) (b : Option Bound)
    (hb : g.lowerBoundDurationToSatisfy v = some b) (d : ℚ) (hd : 0 ≤ d)
    (hg : g.Holds (v.shift d)) : ∃ b', b = some b' ∧ Bound.Sat (-d) b' := by
  have one : ∀ c : Constraint, c.Holds (v.shift d) →
      ∃ b', c.lowerBoundDurationToSatisfy v = some b' ∧ Bound.Sat (-d) b' := by
    intro c hc
    rcases c with ⟨x, o, c⟩
    cases o <;>
      simp only [Constraint.Holds, Valuation.shift] at hc <;>
      simp only [Constraint.lowerBoundDurationToSatisfy]
    · exact ⟨.fin 0 true, by rw [if_pos (by linarith)], by simpa⟩
    · exact ⟨.fin 0 true, by rw [if_pos (by linarith)], by simpa⟩
    · exact ⟨_, rfl, Bound.sat_min.2 ⟨by simpa, by simp; linarith⟩⟩
    · exact ⟨_, rfl, Bound.sat_min.2 ⟨by simpa, by simp; linarith⟩⟩
  cases g with
  | nil => simp [Guard.lowerBoundDurationToSatisfy] at hb
  | cons c cs =>
    simp only [Guard.lowerBoundDurationToSatisfy, Option.some.injEq] at hb
    subst hb
    have h0 := one c (hg c (by simp))
    have hcs : ∀ c' ∈ cs, c'.Holds (v.shift d) := fun c' hc' => hg c' (by simp [hc'])
    clear hg
    generalize Constraint.lowerBoundDurationToSatisfy c v = acc at h0
    induction cs generalizing acc with
    | nil => simpa using h0
    | cons c' cs ih =>
      simp only [List.foldl_cons]
      apply ih
      · exact fun c'' hc'' => hcs c'' (by simp [hc''])
      · obtain ⟨a, ha, hsa⟩ := h0
        obtain ⟨b, hb, hsb⟩ := one c' (hcs c' (by simp))
        exact ⟨min a b, by simp [ha, hb], Bound.sat_min.2 ⟨hsa, hsb⟩⟩

/-- C49: for a guard made of lower bounds only, the computed bound is exact: waiting `d ≥ 0` makes
the guard true if and only if the bound admits `d`. -/
theorem C49_delay_bound_exact_lower (g : Guard) (v : Valuation) (b : Bound)
    (hlow : ∀ c ∈ g, c.isUpperBound = false)
    (hb : g.lowerBoundDurationToSatisfy v = some (some b)) (d : ℚ) (hd : 0 ≤ d) :
    g.Holds (v.shift d) ↔ Bound.Sat (-d) b := by
  have one : ∀ c : Constraint, c.isUpperBound = false →
      ∃ b', c.lowerBoundDurationToSatisfy v = some b' ∧
        (c.Holds (v.shift d) ↔ Bound.Sat (-d) b') := by
    intro c hc
    rcases c with ⟨x, o, c⟩
    cases o <;> simp [Constraint.isUpperBound] at hc
    · refine ⟨_, rfl, ?_⟩
      rw [Bound.sat_min]
      simp only [Constraint.Holds, Valuation.shift, Bound.sat_true]
      constructor
      · intro h; exact ⟨by linarith, by linarith⟩
      · intro h; linarith [h.2]
    · refine ⟨_, rfl, ?_⟩
      rw [Bound.sat_min]
      simp only [Constraint.Holds, Valuation.shift, Bound.sat_true, Bound.sat_false]
      constructor
      · intro h; exact ⟨by linarith, by linarith⟩
      · intro h; linarith [h.2]
  cases g with
  | nil => simp [Guard.lowerBoundDurationToSatisfy] at hb
  | cons c cs =>
    simp only [Guard.lowerBoundDurationToSatisfy, Option.some.injEq] at hb
    obtain ⟨b0, h0, h0'⟩ := one c (hlow c (by simp))
    rw [h0] at hb
    rw [Guard.holds_cons, h0']
    have hcs : ∀ c' ∈ cs, c'.isUpperBound = false := fun c' hc' => hlow c' (by simp [hc'])
    clear hlow h0 h0'
    induction cs generalizing b0 with
    | nil => simp at hb; subst hb; simp
    | cons c' cs ih =>
      obtain ⟨b1, h1, h1'⟩ := one c' (hcs c' (by simp))
      simp only [List.foldl_cons, h1] at hb
      have := ih (min b0 b1) (by simpa using hb) (fun c'' hc'' => hcs c'' (by simp [hc'']))
      rw [Guard.holds_cons, h1', ← and_assoc, ← Bound.sat_min]
      exact this

example : Guard.lowerBoundDurationToSatisfy [⟨0, .ge, 3⟩, ⟨1, .gt, 2⟩] (fun _ => 1) =
    some (some (.fin (-2) true)) := by decide +kernel

/-- C49 fails with upper bounds: for `x ≥ 5 ∧ y ≤ 1` at `x = y = 0` the code computes the bound
"wait 5", but no delay satisfies the guard; and for `x < 1` at `x = 1` it answers "wait 0". -/
theorem C49_upper_witness :
    (Guard.lowerBoundDurationToSatisfy [⟨0, .ge, 5⟩, ⟨1, .le, 1⟩] (fun _ => 0) =
      some (some (.fin (-5) true)) ∧
     ∀ d : ℚ, 0 ≤ d → ¬ Guard.Holds [⟨0, .ge, 5⟩, ⟨1, .le, 1⟩] (Valuation.shift (fun _ => 0) d)) ∧
    (Guard.lowerBoundDurationToSatisfy [⟨0, .lt, 1⟩] (fun _ => 1) = some (some (.fin 0 true)) ∧
     ∀ d : ℚ, 0 ≤ d → ¬ Guard.Holds [⟨0, .lt, 1⟩] (Valuation.shift (fun _ => 1) d)) := by
  refine ⟨⟨by decide +kernel, ?_⟩, ⟨by decide +kernel, ?_⟩⟩
  · intro d _ h
    have h1 := h ⟨0, .ge, 5⟩ (by simp)
    have h2 := h ⟨1, .le, 1⟩ (by simp)
    simp only [Constraint.Holds, Valuation.shift] at h1 h2
    norm_num at h1 h2
    linarith
  · intro d hd h
    have h1 := h ⟨0, .lt, 1⟩ (by simp)
    simp only [Constraint.Holds, Valuation.shift] at h1
    norm_num at h1
    linarith

/-- C50: `widen` removes exactly the lower bounds, so the widened guard holds at every valuation
from which some delay reaches the guard. -/
theorem C50_widen_downward (g : Guard) (v : Valuation) (d : ℚ) (hd : 0 ≤ d)
    (h : g.Holds (v.shift d)) : g.widen.Holds v := by
  intro c hc
  simp only [Guard.widen, List.mem_filter] at hc
  have := h c hc.1
  rcases c with ⟨x, o, c⟩
  cases o <;> simp [Constraint.Holds, Valuation.shift] at this hc ⊢ <;> linarith

/-- C50: `widen` keeps exactly the upper-bound constraints. -/
theorem C50_widen_exact (g : Guard) (v : Valuation) :
    g.widen.Holds v ↔ ∀ c ∈ g, (c.odr = .lt ∨ c.odr = .le) → c.Holds v := by
  constructor
  · intro h c hc ho
    apply h
    simp only [Guard.widen, List.mem_filter]
    exact ⟨hc, by rcases ho with h | h <;> simp [h]⟩
  · intro h c hc
    simp only [Guard.widen, List.mem_filter] at hc
    refine h c hc.1 ?_
    rcases c with ⟨x, o, c⟩
    cases o <;> simp at hc ⊢

example : Guard.Holds [⟨0, .ge, 2⟩, ⟨1, .lt, 4⟩] (Valuation.shift (fun _ => 0) 2) ∧
    Guard.widen [⟨0, .ge, 2⟩, ⟨1, .lt, 4⟩] = [⟨1, .lt, 4⟩] := by
  constructor
  · intro c hc
    simp at hc
    rcases hc with rfl | rfl <;> norm_num [Constraint.Holds, Valuation.shift]
  · decide

end LearnTA.Props
