import Verif.Lemmas.Constraint
import Mathlib.Data.Rat.Floor
import Mathlib.Tactic.Linarith
import Mathlib.Algebra.Order.Floor.Ring

/-!
# Positions of clock values

The position of a number is `2 n` if it is the integer `n` and `2 n + 1` if it is between `n` and `n + 1`.
-/

namespace LearnTA

/-- The position of a number. -/
def pos (q : ℚ) : ℤ := ⌊q⌋ + ⌈q⌉

theorem pos_int (n : ℤ) : pos n = 2 * n := by simp [pos]; ring

theorem pos_of_eq {q : ℚ} {n : ℤ} (h : q = n) : pos q = 2 * n := by subst h; exact pos_int n

theorem pos_of_between {q : ℚ} {n : ℤ} (h1 : (n : ℚ) < q) (h2 : q < n + 1) : pos q = 2 * n + 1 := by
  have e1 : ⌊q⌋ = n := Int.floor_eq_iff.2 ⟨h1.le, h2⟩
  have e2 : ⌈q⌉ = n + 1 := by
    rw [Int.ceil_eq_iff]; push_cast; constructor <;> linarith
  simp only [pos, e1, e2]; ring

theorem cases_pos (q : ℚ) : (∃ n : ℤ, q = n ∧ pos q = 2 * n) ∨
    ∃ n : ℤ, (n : ℚ) < q ∧ q < n + 1 ∧ pos q = 2 * n + 1 := by
  by_cases h : (⌊q⌋ : ℚ) = q
  · exact Or.inl ⟨⌊q⌋, h.symm, pos_of_eq h.symm⟩
  · have h1 : (⌊q⌋ : ℚ) < q := lt_of_le_of_ne (Int.floor_le q) h
    have h2 := Int.lt_floor_add_one q
    exact Or.inr ⟨⌊q⌋, h1, h2, pos_of_between h1 h2⟩

theorem pos_mono {p q : ℚ} (h : p ≤ q) : pos p ≤ pos q := add_le_add (Int.floor_mono h) (Int.ceil_mono h)

theorem pos_even_iff (q : ℚ) : pos q % 2 = 0 ↔ ∃ n : ℤ, q = n := by
  rcases cases_pos q with ⟨n, h, e⟩ | ⟨n, h1, h2, e⟩
  · rw [e]; exact ⟨fun _ => ⟨n, h⟩, fun _ => by omega⟩
  · rw [e]
    refine ⟨fun h => by omega, fun ⟨m, hm⟩ => ?_⟩
    exfalso
    rw [hm] at h1 h2
    have h1' : n < m := by exact_mod_cast h1
    have h2' : m < n + 1 := by exact_mod_cast h2
    omega

theorem pos_nonneg {q : ℚ} (h : 0 ≤ q) : 0 ≤ pos q := by
  have := pos_mono h
  simpa [pos] using this

/-- The lower bound of the values at a position or above. -/
def lowOf (k : ℤ) : IntBound := IntBound.mk (k / 2) (decide (k % 2 = 0))
/-- The upper bound of the values at a position or below. -/
def upOf (k : ℤ) : IntBound := IntBound.mk ((k + 1) / 2) (decide (k % 2 = 0))

theorem lowOf_inj {k l : ℤ} (h : lowOf k = lowOf l) : k = l := by
  unfold lowOf at h
  rw [IntBound.mk_inj] at h
  obtain ⟨h1, h2⟩ := h
  rw [decide_eq_decide] at h2
  omega

theorem upOf_inj {k l : ℤ} (h : upOf k = upOf l) : k = l := by
  unfold upOf at h
  rw [IntBound.mk_inj] at h
  obtain ⟨h1, h2⟩ := h
  rw [decide_eq_decide] at h2
  omega

theorem lowSat_lowOf (q : ℚ) (k : ℤ) : IntBound.LowSat q (lowOf k) ↔ k ≤ pos q := by
  unfold lowOf IntBound.LowSat
  simp only [IntBound.snd_mk, IntBound.fst_mk, decide_eq_true_eq]
  rcases cases_pos q with ⟨n, rfl, e⟩ | ⟨n, h1, h2, e⟩
  · rw [e]
    split
    · rw [Int.cast_le]; omega
    · rw [Int.cast_lt]; omega
  · rw [e]
    split
    · constructor
      · intro h
        have : ((k / 2 : ℤ) : ℚ) < (n + 1 : ℤ) := by push_cast; linarith
        rw [Int.cast_lt] at this; omega
      · intro h
        have : (k / 2 : ℤ) ≤ n := by omega
        have : ((k / 2 : ℤ) : ℚ) ≤ (n : ℚ) := by exact_mod_cast this
        linarith
    · constructor
      · intro h
        have : ((k / 2 : ℤ) : ℚ) < (n + 1 : ℤ) := by push_cast; linarith
        rw [Int.cast_lt] at this; omega
      · intro h
        have : (k / 2 : ℤ) ≤ n := by omega
        have : ((k / 2 : ℤ) : ℚ) ≤ (n : ℚ) := by exact_mod_cast this
        linarith

theorem upSat_upOf (q : ℚ) (k : ℤ) : IntBound.UpSat q (upOf k) ↔ pos q ≤ k := by
  unfold upOf IntBound.UpSat
  simp only [IntBound.snd_mk, IntBound.fst_mk, decide_eq_true_eq]
  rcases cases_pos q with ⟨n, rfl, e⟩ | ⟨n, h1, h2, e⟩
  · rw [e]
    split
    · rw [Int.cast_le]; omega
    · rw [Int.cast_lt]; omega
  · rw [e]
    have hs : ∀ m : ℤ, (q ≤ m ∨ q < m) → n < m := by
      intro m hm
      have : (n : ℚ) < m := by rcases hm with h | h <;> linarith
      exact_mod_cast this
    split
    · constructor
      · intro h; have := hs _ (Or.inl h); omega
      · intro h
        have : n + 1 ≤ ((k + 1) / 2 : ℤ) := by omega
        have : ((n + 1 : ℤ) : ℚ) ≤ (((k + 1) / 2 : ℤ) : ℚ) := by exact_mod_cast this
        push_cast at this ⊢; linarith
    · constructor
      · intro h; have := hs _ (Or.inr h); omega
      · intro h
        have : n + 1 ≤ ((k + 1) / 2 : ℤ) := by omega
        have : ((n + 1 : ℤ) : ℚ) ≤ (((k + 1) / 2 : ℤ) : ℚ) := by exact_mod_cast this
        push_cast at this ⊢; linarith

theorem lowOf_le {k l : ℤ} (h : k ≤ l) : (lowOf l).neg ≤ (lowOf k).neg := by
  unfold lowOf
  simp only [IntBound.neg_mk, IntBound.mk_le_mk]
  by_cases h1 : k / 2 < l / 2
  · left; omega
  · right
    refine ⟨by omega, ?_⟩
    by_cases h2 : l % 2 = 0 <;> by_cases h3 : k % 2 = 0 <;> simp [h2, h3]
    omega

theorem upOf_le {k l : ℤ} (h : k ≤ l) : upOf k ≤ upOf l := by
  unfold upOf
  simp only [IntBound.mk_le_mk]
  by_cases h1 : (k + 1) / 2 < (l + 1) / 2
  · left; omega
  · right
    refine ⟨by omega, ?_⟩
    by_cases h2 : l % 2 = 0 <;> by_cases h3 : k % 2 = 0 <;> simp [h2, h3]
    omega

/-! ### Sequences of positions -/

/-- The positions of `n` clocks in a sequence of regions `0 … K`, each of which is the time successor of the one before. -/
structure Line (n K : ℕ) (κ : ℕ → ℕ → ℤ) : Prop where
  nonneg : ∀ m ≤ K, ∀ x < n, 0 ≤ κ m x
  step : ∀ m < K, ∀ x < n, κ (m + 1) x = κ m x ∨ κ (m + 1) x = κ m x + 1
  move : ∀ m < K, ∃ x < n, κ (m + 1) x = κ m x + 1
  point : ∀ m < K, ∀ x < n, κ m x % 2 = 0 → ∀ y < n, κ (m + 1) y = κ m y + 1 ↔ κ m y % 2 = 0
  par : ∀ m ≤ K, ∀ x < n, ∀ y < n, κ m x % 2 = 0 → κ m y % 2 = 0 → ∀ l ≤ K, κ l x % 2 = 0 ↔ κ l y % 2 = 0

namespace Line
variable {n K : ℕ} {κ : ℕ → ℕ → ℤ}

theorem mono (h : Line n K κ) {i j : ℕ} (hij : i ≤ j) (hj : j ≤ K) {x : ℕ} (hx : x < n) : κ i x ≤ κ j x := by
  induction j, hij using Nat.le_induction with
  | base => exact le_refl _
  | succ j hij ih =>
    have := h.step j (by omega) x hx
    have := ih (by omega)
    omega

theorem strict (h : Line n K κ) {i j : ℕ} (hij : i < j) (hj : j ≤ K) : ∃ x < n, κ i x < κ j x := by
  obtain ⟨x, hx, e⟩ := h.move i (by omega)
  have := h.mono (show i + 1 ≤ j from hij) hj hx
  exact ⟨x, hx, by omega⟩

/-- Positive after the first step. -/
theorem pos_of (h : Line n K κ) {i : ℕ} (hi : 0 < i) (hK : i ≤ K) {x : ℕ} (hx : x < n) : 0 < κ i x := by
  have h1 := h.mono (show 1 ≤ i from hi) hK hx
  have h0 := h.nonneg 0 (by omega) x hx
  by_cases he : κ 0 x = 0
  · have := (h.point 0 (by omega) x hx (by omega) x hx).2 (by omega)
    simp only [zero_add] at this
    omega
  · have := h.mono (show 0 ≤ i by omega) hK hx; omega

/-- If every clock moves by at most one from `j` to `i' > j`, then `i' = j + 1`, or `i' = j + 2` and different clocks move in
the two steps. -/
theorem close (h : Line n K κ) {j i' : ℕ} (hji : j < i') (hi : i' ≤ K) (hm : ∀ x < n, κ i' x ≤ κ j x + 1) :
    i' = j + 1 ∨ ∃ x < n, ∃ y < n, κ j x % 2 = 0 ∧ κ j y % 2 = 1 ∧ κ i' x = κ j x + 1 ∧ κ i' y = κ j y + 1 := by
  by_cases hs : i' = j + 1
  · exact Or.inl hs
  right
  have hm2 : ∀ x < n, κ (j + 2) x ≤ κ j x + 1 := fun x hx =>
    (h.mono (show j + 2 ≤ i' by omega) hi hx).trans (hm x hx)
  -- some clock is a point at `j`
  obtain ⟨x, hx, ex⟩ := h.move j (by omega)
  have hxe : κ j x % 2 = 0 := by
    by_contra hne
    have := (h.point (j + 1) (by omega) x hx (by omega) x hx).2 (by omega)
    have := hm2 x hx
    simp only [add_assoc, Nat.reduceAdd] at *
    omega
  obtain ⟨y, hy, ey⟩ := h.move (j + 1) (by omega)
  simp only [add_assoc, Nat.reduceAdd] at ey
  have h1 := hm2 y hy
  have h2 := h.mono (show j ≤ j + 1 by omega) (by omega) hy
  have hyo : κ j y % 2 = 1 := by
    by_contra hne
    have := (h.point j (by omega) x hx hxe y hy).2 (by omega)
    omega
  refine ⟨x, hx, y, hy, hxe, hyo, ?_, ?_⟩
  · have := h.mono (show j + 1 ≤ i' by omega) hi hx
    have := hm x hx
    omega
  · have := h.mono (show j + 2 ≤ i' by omega) hi hy
    have := hm y hy
    omega

end Line
end LearnTA
