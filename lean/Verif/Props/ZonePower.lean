import Verif.Model.ZonePower
import Verif.Lemmas.Zone
import Mathlib.Tactic.IntervalCases
import Mathlib.Tactic.NormNum

/-!
# The juxtaposition operator of zones (C87)
-/

namespace LearnTA.Props
open LearnTA

/-- C87, the part that holds: every valuation of the juxtaposition is in the left zone (the values of the first clocks), whatever
the two zones with at least one clock each.  Missing: that its further values are those of a valuation of the right zone, which is
false, see `C87_right_witness`. -/
theorem C87_left_partial (z another : Zone) (hz : 2 ≤ z.dim) (ha : 2 ≤ another.dim) (v : Valuation)
    (h : (z.power another).Mem v) : z.Mem v := by
  intro i hi j hj
  have hd : (z.powerMatrix another).dim = (z.dim - 1) + (another.dim - 1) := rfl
  have h1 := h i (by unfold Zone.power; rw [Zone.canonize_dim, hd]; omega) j
    (by unfold Zone.power; rw [Zone.canonize_dim, hd]; omega)
  have h2 := Zone.canonize_le (z.powerMatrix another) i j
  have h3 : (z.powerMatrix another).val i j = z.val i j := if_pos ⟨by omega, by omega⟩
  rw [h3] at h2
  exact Bound.Sat.mono h1 h2

/-- C87, what the operator computes: the valuations in the left zone whose further clocks have the bounds of the clocks of the right
zone but the last, and the differences of the next ones: the difference of the clocks `i` and `j` of the right zone bounds the
clocks `i - 1` and `j - 1` of its copy (clock `-1` is the last clock of the left zone). -/
theorem C87_exact (z another : Zone) (hz : 2 ≤ z.dim) (ha : 2 ≤ another.dim) (v : Valuation) :
    (z.power another).Mem v ↔ z.Mem v ∧
      (∀ k, k + 2 < another.dim → Bound.Sat (v (z.dim - 1 + k)) (another.val (k + 1) 0) ∧
        Bound.Sat (0 - v (z.dim - 1 + k)) (another.val 0 (k + 1))) ∧
      ∀ i j, i + 1 < another.dim → j + 1 < another.dim → (i ≠ 0 ∨ j ≠ 0) →
        Bound.Sat (v (z.dim - 2 + i) - v (z.dim - 2 + j)) (another.val (i + 1) (j + 1)) := by
  obtain ⟨n, hn⟩ : ∃ n, z.dim = n + 2 := ⟨z.dim - 2, by omega⟩
  unfold Zone.power
  rw [Zone.canonize_mem]
  unfold Zone.Mem Zone.Sat
  have hv : ∀ i j, (z.powerMatrix another).val i j =
      if i ≤ n + 1 ∧ j ≤ n + 1 then z.val i j
      else if j = 0 then another.val (i - (n + 1)) 0
      else if i = 0 then another.val 0 (j - (n + 1))
      else if n + 1 ≤ i ∧ n + 1 ≤ j then another.val (i - (n + 1) + 1) (j - (n + 1) + 1)
      else .inf := by
    intro i j
    unfold Zone.powerMatrix
    rw [hn]
    rfl
  have hd : (z.powerMatrix another).dim = (n + 1) + (another.dim - 1) := by
    unfold Zone.powerMatrix
    rw [hn]
    rfl
  have ext1 : ∀ k, v.ext (n + 1 + k) = v (n + k) := fun k => by
    rw [show n + 1 + k = (n + k) + 1 by omega]; rfl
  rw [hd, hn]
  simp only [hv]
  constructor
  · intro h
    refine ⟨fun i hi j hj => ?_, fun k hk => ⟨?_, ?_⟩, fun i j hi hj hij => ?_⟩
    · have := h i (by omega) j (by omega)
      rwa [if_pos ⟨by omega, by omega⟩] at this
    · have := h (n + 1 + (k + 1)) (by omega) 0 (by omega)
      rw [if_neg (by omega), if_pos rfl, ext1, Nat.add_sub_cancel_left] at this
      rw [show n + 2 - 1 + k = n + (k + 1) by omega]
      simpa [Valuation.ext] using this
    · have := h 0 (by omega) (n + 1 + (k + 1)) (by omega)
      rw [if_neg (by omega), if_neg (by omega), if_pos rfl, ext1, Nat.add_sub_cancel_left] at this
      rw [show n + 2 - 1 + k = n + (k + 1) by omega]
      exact this
    · have := h (n + 1 + i) (by omega) (n + 1 + j) (by omega)
      rw [if_neg (by omega), if_neg (by omega), if_neg (by omega), if_pos ⟨by omega, by omega⟩, ext1, ext1,
        Nat.add_sub_cancel_left, Nat.add_sub_cancel_left] at this
      exact this
  · rintro ⟨h1, h2, h3⟩ i hi j hj
    by_cases c1 : i ≤ n + 1 ∧ j ≤ n + 1
    · rw [if_pos c1]
      exact h1 i (by omega) j (by omega)
    rw [if_neg c1]
    by_cases c2 : j = 0
    · subst c2
      obtain ⟨k, rfl⟩ : ∃ k, i = n + 1 + (k + 1) := ⟨i - (n + 2), by omega⟩
      have := (h2 k (by omega)).1
      rw [if_pos rfl, ext1, Nat.add_sub_cancel_left]
      rw [show n + 2 - 1 + k = n + (k + 1) by omega] at this
      simpa [Valuation.ext] using this
    rw [if_neg c2]
    by_cases c3 : i = 0
    · subst c3
      obtain ⟨k, rfl⟩ : ∃ k, j = n + 1 + (k + 1) := ⟨j - (n + 2), by omega⟩
      have := (h2 k (by omega)).2
      rw [if_pos rfl, ext1, Nat.add_sub_cancel_left]
      rw [show n + 2 - 1 + k = n + (k + 1) by omega] at this
      exact this
    rw [if_neg c3]
    by_cases c4 : n + 1 ≤ i ∧ n + 1 ≤ j
    · obtain ⟨k, rfl⟩ := Nat.exists_eq_add_of_le c4.1
      obtain ⟨l, rfl⟩ := Nat.exists_eq_add_of_le c4.2
      rw [if_pos c4, ext1, ext1, Nat.add_sub_cancel_left, Nat.add_sub_cancel_left]
      exact h3 k l (by omega) (by omega) (by omega)
    · rw [if_neg c4]
      trivial

/-- The zone of one clock that is at most 1. -/
def atMostOne : Zone := ⟨2, fun i j => if i = 1 ∧ j = 0 then .fin 1 true else .fin 0 true⟩

/-- C87 is false of the code: the result has one clock too few.  The juxtaposition of two zones of one clock has one clock, and
the bound of the right zone is lost: any value of the second clock is allowed. -/
theorem C87_right_witness : atMostOne.dim = 2 ∧ (atMostOne.power atMostOne).dim = 2 ∧
    (atMostOne.power atMostOne).Mem (fun i => if i = 0 then 1 else 5) ∧ ¬ atMostOne.Mem (fun _ => 5) := by
  refine ⟨rfl, ?_, ?_, ?_⟩
  · rfl
  · have h : (Zone.powerMatrix atMostOne atMostOne).Mem (fun i => if i = 0 then 1 else 5) := by
      intro i hi j hj
      have hi : i < 2 := hi
      have hj : j < 2 := hj
      interval_cases i <;> interval_cases j <;>
        norm_num [Zone.powerMatrix, atMostOne, Valuation.ext, Bound.Sat]
    exact (Zone.canonize_mem _ _).2 h
  · intro h
    have := h 1 (by decide) 0 (by decide)
    norm_num [atMostOne, Valuation.ext, Bound.Sat] at this

/-- The hypotheses of `C87_left_partial` are met. -/
example : 2 ≤ atMostOne.dim ∧ (atMostOne.power atMostOne).Mem (fun i => if i = 0 then 1 else 5) ∧
    atMostOne.Mem (fun i => if i = 0 then 1 else 5) :=
  ⟨le_refl _, C87_right_witness.2.2.1, C87_left_partial _ _ (le_refl _) (le_refl _) _ C87_right_witness.2.2.1⟩

end LearnTA.Props
