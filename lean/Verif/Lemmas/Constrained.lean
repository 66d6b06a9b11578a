import Verif.Lemmas.ConditionEdit
import Verif.Model.Renaming

/-!
# Strictly constrained clocks: lemmas
-/

namespace LearnTA

theorem Bound.eq_of_sat {b b' : Bound} (h : ∀ q, Bound.Sat q b ↔ Bound.Sat q b') : b = b' := by
  cases b with
  | inf =>
    cases b' with
    | inf => rfl
    | fin c s =>
      have := (h (c + 1)).1 trivial
      cases s <;> simp at this <;> linarith
  | fin c s =>
    cases b' with
    | inf =>
      have := (h (c + 1)).2 trivial
      cases s <;> simp at this <;> linarith
    | fin c' s' =>
      have e : c = c' := by
        rcases lt_trichotomy c c' with hl | he | hl
        · have := (h ((c + c') / 2)).2 (by cases s' <;> simp <;> linarith)
          cases s <;> simp at this <;> linarith
        · exact he
        · have := (h ((c + c') / 2)).1 (by cases s <;> simp <;> linarith)
          cases s' <;> simp at this <;> linarith
      subst e
      have := h c
      cases s <;> cases s' <;> simp at this ⊢

namespace TimedCondition
open Zone

theorem Canonical.value_iff {c : TimedCondition} (hc : c.Canonical) {i j : ℕ} (hij : i ≤ j) (hj : j < c.size) (q : ℚ) :
    (∃ d, c.Holds d ∧ T d i j = q) ↔ Bound.Sat q (c.upper i j) ∧ Bound.Sat (-q) (c.lower i j) := by
  constructor
  · rintro ⟨d, hd, rfl⟩
    exact hd.2 i j hij hj
  · rintro ⟨h1, h2⟩
    exact hc.realize hij hj q h1 h2

theorem Canonical.upper_iff {c : TimedCondition} (hc : c.Canonical) {i j : ℕ} (hij : i ≤ j) (hj : j < c.size) (q : ℚ) :
    Bound.Sat q (c.upper i j) ↔ ∃ d, c.Holds d ∧ q ≤ T d i j := by
  constructor
  · exact hc.realize_above hij hj q
  · rintro ⟨d, hd, hq⟩
    have := (hd.2 i j hij hj).1
    generalize c.upper i j = b at this
    cases b with
    | inf => trivial
    | fin k s => cases s <;> simp at this ⊢ <;> linarith

theorem Canonical.lower_iff {c : TimedCondition} (hc : c.Canonical) {i j : ℕ} (hij : i ≤ j) (hj : j < c.size) (q : ℚ) :
    Bound.Sat q (c.lower i j) ↔ ∃ d, c.Holds d ∧ q ≤ - T d i j := by
  constructor
  · intro h
    obtain ⟨d, hd, hq⟩ := hc.realize_below hij hj (-q) (by rwa [neg_neg])
    exact ⟨d, hd, by linarith⟩
  · rintro ⟨d, hd, hq⟩
    have := (hd.2 i j hij hj).2
    generalize c.lower i j = b at this
    cases b with
    | inf => trivial
    | fin k s => cases s <;> simp at this ⊢ <;> linarith

/-- Two canonical conditions have the same bounds of a sum iff the sum takes the same values. -/
theorem Canonical.bounds_iff {c o : TimedCondition} (hc : c.Canonical) (ho : o.Canonical) (hd : c.size = o.size) {i j : ℕ}
    (hij : i ≤ j) (hj : j < c.size) :
    (c.upper i j = o.upper i j ∧ c.lower i j = o.lower i j) ↔
      ∀ q, (∃ d, c.Holds d ∧ T d i j = q) ↔ ∃ d, o.Holds d ∧ T d i j = q := by
  constructor
  · rintro ⟨h1, h2⟩ q
    rw [hc.value_iff hij hj, ho.value_iff hij (hd ▸ hj), h1, h2]
  · intro h
    constructor
    · apply Bound.eq_of_sat
      intro q
      rw [hc.upper_iff hij hj, ho.upper_iff hij (hd ▸ hj)]
      constructor
      · rintro ⟨d, h1, h2⟩
        obtain ⟨d', h3, h4⟩ := (h _).1 ⟨d, h1, rfl⟩
        exact ⟨d', h3, by rw [h4]; exact h2⟩
      · rintro ⟨d, h1, h2⟩
        obtain ⟨d', h3, h4⟩ := (h _).2 ⟨d, h1, rfl⟩
        exact ⟨d', h3, by rw [h4]; exact h2⟩
    · apply Bound.eq_of_sat
      intro q
      rw [hc.lower_iff hij hj, ho.lower_iff hij (hd ▸ hj)]
      constructor
      · rintro ⟨d, h1, h2⟩
        obtain ⟨d', h3, h4⟩ := (h _).1 ⟨d, h1, rfl⟩
        exact ⟨d', h3, by rw [h4]; exact h2⟩
      · rintro ⟨d, h1, h2⟩
        obtain ⟨d', h3, h4⟩ := (h _).2 ⟨d, h1, rfl⟩
        exact ⟨d', h3, by rw [h4]; exact h2⟩

end TimedCondition

theorem Equivalence.mem_strictlyConstrained {c o : TimedCondition} (hc : c.Canonical) (ho : o.Canonical)
    (hd : c.size = o.size) {i n : ℕ} (hi : i < c.size) :
    i ∈ Equivalence.strictlyConstrained c o n ↔ i < n ∧
      (c.zone.val (i + 1) (i + 1) ≠ o.zone.val (i + 1) (i + 1) ∨
        ∃ a b, a ≤ b ∧ b < c.size ∧ (a = i ∨ b + 1 = i) ∧
          ¬ ∀ q, (∃ d, c.Holds d ∧ TimedCondition.T d a b = q) ↔ ∃ d, o.Holds d ∧ TimedCondition.T d a b = q) := by
  have hdim : c.zone.dim = c.size + 1 := by unfold TimedCondition.size; have := hc.1; omega
  unfold Equivalence.strictlyConstrained
  simp only [List.mem_filter, List.mem_range, List.any_eq_true, Bool.or_eq_true, decide_eq_true_eq]
  refine and_congr_right fun _ => ?_
  -- the bounds of a sum, by the index of its end
  have key : ∀ a b k, a ≤ b → b < c.size → k = c.eidx b →
      ((c.zone.val k (a + 1) ≠ o.zone.val k (a + 1) ∨ c.zone.val (a + 1) k ≠ o.zone.val (a + 1) k) ↔
        ¬ ∀ q, (∃ d, c.Holds d ∧ TimedCondition.T d a b = q) ↔ ∃ d, o.Holds d ∧ TimedCondition.T d a b = q) := by
    intro a b k hab hb hk
    have hk' : k = o.eidx b := by rw [hk]; unfold TimedCondition.eidx; rw [hd]
    rw [← hc.bounds_iff ho hd hab hb, c.upper_eq, c.lower_eq, o.upper_eq, o.lower_eq, ← hk, ← hk']
    tauto
  constructor
  · rintro ⟨k, hk, h⟩
    by_cases hki : k = i + 1
    · left; subst hki; exact h.elim id id
    right
    by_cases hk0 : k = 0
    · exact ⟨i, c.size - 1, by omega, by omega, .inl rfl,
        (key i (c.size - 1) k (by omega) (by omega) (by unfold TimedCondition.eidx; simp [hk0])).1 h⟩
    by_cases hlt : k < i + 1
    · refine ⟨k - 1, i - 1, by omega, by omega, .inr (by omega),
        (key (k - 1) (i - 1) (i + 1) (by omega) (by omega) ?_).1 ?_⟩
      · unfold TimedCondition.eidx; rw [if_neg (by omega)]; omega
      · rw [show k - 1 + 1 = k by omega]; exact h.symm
    · refine ⟨i, k - 2, by omega, by omega, .inl rfl, (key i (k - 2) k (by omega) (by omega) ?_).1 h⟩
      unfold TimedCondition.eidx; rw [if_neg (by omega)]; omega
  · rintro (h | ⟨a, b, hab, hb, h, hne⟩)
    · exact ⟨i + 1, by omega, .inl h⟩
    · rcases h with rfl | h
      · exact ⟨c.eidx b, TimedCondition.eidx_lt hb, (key a b _ hab hb rfl).2 hne⟩
      · refine ⟨a + 1, by omega, ?_⟩
        have := (key a b (i + 1) hab hb (by unfold TimedCondition.eidx; rw [if_neg (by omega)]; omega)).2 hne
        exact this.symm

end LearnTA
