import Verif.Lemmas.Renaming
import Verif.Spec.Renaming

/-!
# Lemmas on the updates made of renaming relations
-/

namespace LearnTA
open Bound Zone TimedCondition

theorem Bound.reg_add_int {q q' : ℚ} (h : reg q = reg q') (k : ℤ) : reg (q + k) = reg (q' + k) := by
  rcases cases_int q with ⟨n, rfl⟩ | ⟨n, h1, h2⟩
  · rcases cases_int q' with ⟨m, rfl⟩ | ⟨m, g1, g2⟩
    · rw [reg_int, reg_int] at h
      simp only [Bound.fin.injEq, and_true] at h
      rw [h]
    · rw [reg_int, reg_of_between g1 g2] at h; simp at h
  · rcases cases_int q' with ⟨m, rfl⟩ | ⟨m, g1, g2⟩
    · rw [reg_int, reg_of_between h1 h2] at h; simp at h
    · rw [reg_of_between h1 h2, reg_of_between g1 g2] at h
      simp only [Bound.fin.injEq, and_true] at h
      have : (n : ℚ) = m := by linarith
      rw [reg_of_between (n := n + k) (by push_cast; linarith) (by push_cast; linarith),
        reg_of_between (n := m + k) (by push_cast; linarith) (by push_cast; linarith)]
      push_cast
      rw [this]

/-- The valuations of a simple condition are in one region. -/
theorem TimedCondition.Simple.isRegion {c : TimedCondition} (hs : c.Simple) (h2 : 2 ≤ c.zone.dim) {w : ℕ → ℚ}
    (h : c.zone.Sat w) : c.zone.IsRegion w := by
  have hz : c.size + 1 = c.zone.dim := by unfold TimedCondition.size; omega
  have key : ∀ i j, i ≤ j → j < c.size → c.zone.val (i + 1) (c.eidx j) = reg (w (i + 1) - w (c.eidx j)) ∧
      c.zone.val (c.eidx j) (i + 1) = reg (w (c.eidx j) - w (i + 1)) := by
    intro i j hij hj
    have h1 := h (i + 1) (by omega) (c.eidx j) (eidx_lt hj)
    have h2 := h (c.eidx j) (eidx_lt hj) (i + 1) (by omega)
    obtain ⟨n, hn⟩ := hs i j hij hj
    rw [upper_eq, lower_eq] at hn
    have e : w (c.eidx j) - w (i + 1) = -(w (i + 1) - w (c.eidx j)) := by ring
    rw [e] at h2 ⊢
    refine reg_of_simple ?_ ?_ h1 h2
    · rcases hn with hn | hn
      · rw [hn.1]; exact ⟨n, rfl⟩
      · rw [hn.1]; exact ⟨n + 1, by push_cast; rfl⟩
    · rcases hn with hn | hn
      · left; rw [hn.1, hn.2]; simp [Bound.isPoint]
      · right; rw [hn.1, hn.2]; simp [Bound.isUnitOpen]
  have key' : ∀ a < c.zone.dim, ∀ b < c.zone.dim, a < b → c.zone.val a b = reg (w a - w b) ∧
      c.zone.val b a = reg (w b - w a) := by
    intro a ha b hb hab
    cases a with
    | zero =>
      obtain ⟨k, rfl⟩ : ∃ k, b = k + 1 := ⟨b - 1, by omega⟩
      have := key k (c.size - 1) (by omega) (by omega)
      rw [show c.eidx (c.size - 1) = 0 by simp [eidx]] at this
      exact this.symm
    | succ a =>
      have := key a (b - 2) (by omega) (by omega)
      rw [show c.eidx (b - 2) = b by unfold eidx; rw [if_neg (by omega)]; omega] at this
      exact this
  intro a ha b hb hab
  rcases Nat.lt_or_gt_of_ne hab with h | h
  · exact (key' a ha b hb h).1
  · exact (key' b hb a ha h).2

/-- In a simple condition, a clock is an integer exactly where its bounds are equal. -/
theorem TimedCondition.Simple.pointAt_iff {c : TimedCondition} (hs : c.Simple) (h2 : 2 ≤ c.zone.dim) {v : Valuation}
    (h : c.zone.Mem v) {x : ℕ} (hx : x < c.size) : c.pointAt x = true ↔ v x = ⌊v x⌋ := by
  have hz : c.size + 1 = c.zone.dim := by unfold TimedCondition.size; omega
  have hr := hs.isRegion h2 h
  have e1 := hr (x + 1) (by omega) 0 (by omega) (by omega)
  have e2 := hr 0 (by omega) (x + 1) (by omega) (by omega)
  simp only [ext_succ, ext_zero, sub_zero, zero_sub] at e1 e2
  unfold pointAt
  rw [upper_eq, lower_eq, RenamingRelation.eidx_last, e1, e2]
  rcases cases_int (v x) with ⟨n, hn⟩ | ⟨n, g1, g2⟩
  · rw [hn]
    have e : -((n : ℤ) : ℚ) = ((-n : ℤ) : ℚ) := by push_cast; rfl
    rw [e, reg_int, reg_int]; simp [Bound.isPoint]
  · rw [reg_of_between g1 g2, reg_neg_of_between g1 g2]
    have : ⌊v x⌋ = n := Int.floor_eq_iff.2 ⟨g1.le, g2⟩
    rw [this]
    simp [Bound.isPoint]
    intro h; linarith

theorem TimedCondition.Simple.clocksBounded {c : TimedCondition} (hs : c.Simple) :
    RenamingRelation.ClocksBounded c := by
  intro i hi
  obtain ⟨n, hn⟩ := hs i (c.size - 1) (by omega) (by omega)
  rcases hn with hn | hn <;> rw [hn.1, hn.2] <;> simp

namespace RenamingRelation

theorem rightUnique_iff (r : RenamingRelation) : r.RightUnique ↔ (r.map (·.2)).Nodup := by
  unfold RightUnique List.Nodup
  rw [List.pairwise_map]

/-- What the updates of `toReset` do. -/
theorem toReset_apply {r : RenamingRelation} {c : TimedCondition} (hc : c.Canonical) (hs : c.Simple)
    (hu : (r.map (·.2)).Nodup) (hr : ∀ p ∈ r, p.2 < c.size) :
    ∃ R V, r.toReset c = some R ∧ c.zone.Mem V ∧ ∀ v : Valuation,
      (∀ x < c.size, c.pointAt x = true → R.apply v x = V x) ∧
      (∀ p ∈ r, c.pointAt p.2 = false → R.apply v p.2 = v p.1) ∧
      (∀ x < c.size, (∀ p ∈ r, p.2 ≠ x) → R.apply v x = V x) ∧
      (∀ x, c.size ≤ x → R.apply v x = v x) := by
  obtain ⟨vals, h1, h2, h3⟩ := toValuation_mem hc hs.clocksBounded
  obtain ⟨R, g1, _, g3⟩ := toReset_upd h1 hu
  refine ⟨R, fun k => vals.getD k 0, g1, h3, fun v => ⟨?_, ?_, ?_, ?_⟩⟩
  · intro x hx hp
    rw [Resets.apply_eq, g3, if_pos ⟨hx, Or.inl ((hs.pointAt_iff hc.1 h3 hx).1 hp)⟩]
    rfl
  · intro p hp hpt
    have hx := hr p hp
    rw [Resets.apply_eq, g3, if_neg]
    · cases hf : r.find? fun q => q.2 == p.2 with
      | none => rw [List.find?_eq_none] at hf; exact absurd (hf p hp) (by simp)
      | some q =>
        have hq := List.mem_of_find?_eq_some hf
        have he : q.2 = p.2 := by simpa using List.find?_some hf
        have : q = p := List.inj_on_of_nodup_map hu hq hp he
        subst this
        rfl
    · rintro ⟨_, h | h⟩
      · rw [(hs.pointAt_iff hc.1 h3 hx).2 h] at hpt; simp at hpt
      · exact h ⟨p, hp, rfl⟩
  · intro x hx hp
    rw [Resets.apply_eq, g3, if_pos ⟨hx, Or.inr (by rintro ⟨p, h, e⟩; exact hp p h e)⟩]
    rfl
  · intro x hx
    rw [Resets.apply_eq, g3, if_neg (by rintro ⟨h, _⟩; omega)]
    have : (r.find? fun p => p.2 == x) = none := by
      rw [List.find?_eq_none]
      intro p hp e
      have := hr p hp
      simp at e; omega
    rw [this]; rfl

/-- Every valuation of a simple condition has a related one in another simple condition, if some valuation
has and the relation mentions all clocks that are not fixed. -/
theorem related_exists {r : RenamingRelation} {l c : TimedCondition} (hl : l.Canonical) (hls : l.Simple)
    (hc : c.Canonical) (hs : c.Simple) (hr : ∀ p ∈ r, p.1 < l.size ∧ p.2 < c.size)
    (hf : ∀ x < c.size, c.pointAt x = true ∨ ∃ p ∈ r, p.2 = x)
    {w0 u0 : Valuation} (hw0 : l.zone.Mem w0) (hu0 : c.zone.Mem u0) (h0 : ∀ p ∈ r, w0 p.1 = u0 p.2)
    {w u : Valuation} (hw : l.zone.Mem w)
    (hu : ∀ x < c.size, c.pointAt x = true ∧ u x = u0 x ∨ ∃ p ∈ r, p.2 = x ∧ u x = w p.1) :
    c.zone.Mem u := by
  have hz : c.size + 1 = c.zone.dim := by have := hc.1; unfold TimedCondition.size; omega
  have hzl : l.size + 1 = l.zone.dim := by have := hl.1; unfold TimedCondition.size; omega
  have rl0 := hls.isRegion hl.1 hw0
  have rl := hls.isRegion hl.1 hw
  have rc := hs.isRegion hc.1 hu0
  have key : ∀ b < c.zone.dim, ∃ a < l.zone.dim, ∃ k : ℤ, u0.ext b = w0.ext a + k ∧ u.ext b = w.ext a + k := by
    intro b hb
    cases b with
    | zero => exact ⟨0, by omega, 0, by simp [Valuation.ext]⟩
    | succ b =>
      rcases hu b (by omega) with ⟨h1, h2⟩ | ⟨p, hp, e, h2⟩
      · have := (hs.pointAt_iff hc.1 hu0 (by omega)).1 h1
        exact ⟨0, by omega, ⌊u0 b⌋, by simpa [Valuation.ext] using this, by
          simp only [Valuation.ext]; rw [h2]; simpa using this⟩
      · have := hr p hp
        refine ⟨p.1 + 1, by omega, 0, ?_, ?_⟩
        · simp only [Valuation.ext]; rw [← e, h0 p hp]; simp
        · simp only [Valuation.ext]; rw [h2]; simp
  intro b hb b' hb'
  by_cases hbb : b = b'
  · subst hbb; rw [sub_self, sat_self_zero]; exact hc.diagNN b hb
  rw [rc b hb b' hb' hbb]
  obtain ⟨a, ha, k, h1, h2⟩ := key b hb
  obtain ⟨a', ha', k', h1', h2'⟩ := key b' hb'
  have e : reg (u.ext b - u.ext b') = reg (u0.ext b - u0.ext b') := by
    have e1 : u.ext b - u.ext b' = (w.ext a - w.ext a') + ((k - k' : ℤ) : ℚ) := by
      rw [h2, h2']; push_cast; ring
    have e2 : u0.ext b - u0.ext b' = (w0.ext a - w0.ext a') + ((k - k' : ℤ) : ℚ) := by
      rw [h1, h1']; push_cast; ring
    rw [e1, e2]
    refine reg_add_int ?_ _
    by_cases haa : a = a'
    · subst haa; simp
    · rw [← rl a ha a' ha' haa, ← rl0 a ha a' ha' haa]
  rw [← e]
  exact sat_reg _

end RenamingRelation
end LearnTA
