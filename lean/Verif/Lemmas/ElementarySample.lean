import Verif.Lemmas.Elementary

/-!
# `ElementaryLanguage::sample`
-/

namespace LearnTA
open Zone
namespace ElementaryLanguage
open TimedCondition

theorem accV_append (ds : List ℚ) (t : ℚ) {j : ℕ} (hj : j ≤ ds.length) :
    accV (ds ++ [t]) j = accV ds j + t := by
  unfold accV
  rw [List.drop_append_of_le_length hj]; simp

theorem inner_spec (c : TimedCondition) (ds : List ℚ) (lo0 up0 : ℚ) (len m : ℕ)
    (hm : m + len = ds.length) :
    let r := (List.range' m len).foldr (fun j s => sampleInner c ds ds.length s j) (0, lo0, up0)
    r.1 = accV ds m ∧
    (lo0 ≤ r.2.1 ∧ (∀ j, m ≤ j → j < ds.length → ∀ k s, c.lower j ds.length = .fin k s →
      -k - accV ds j ≤ r.2.1) ∧
      ∀ t, lo0 ≤ t → (∀ j, m ≤ j → j < ds.length → ∀ k s, c.lower j ds.length = .fin k s →
        -k - accV ds j ≤ t) → r.2.1 ≤ t) ∧
    (r.2.2 ≤ up0 ∧ (∀ j, m ≤ j → j < ds.length → ∀ k s, c.upper j ds.length = .fin k s →
      r.2.2 ≤ k - accV ds j) ∧
      ∀ t, t ≤ up0 → (∀ j, m ≤ j → j < ds.length → ∀ k s, c.upper j ds.length = .fin k s →
        t ≤ k - accV ds j) → t ≤ r.2.2) := by
  induction len generalizing m with
  | zero =>
    intro r
    have e : r = (0, lo0, up0) := rfl
    rw [e]
    refine ⟨?_, ⟨le_refl _, ?_, fun t h _ => h⟩, ⟨le_refl _, ?_, fun t h _ => h⟩⟩
    · rw [accV_ge]; omega
    · intro j h1 h2; omega
    · intro j h1 h2; omega
  | succ len ih =>
    intro r
    obtain ⟨h1, ⟨a1, a2, a3⟩, ⟨b1, b2, b3⟩⟩ := ih (m + 1) (by omega)
    set r' := (List.range' (m + 1) len).foldr (fun j s => sampleInner c ds ds.length s j) (0, lo0, up0)
      with hr'
    have hr : r = sampleInner c ds ds.length r' m := by
      simp only [r, hr', List.range'_succ, List.foldr_cons]
    have hs : r'.1 + ds.getD m 0 = accV ds m := by
      rw [h1, accV_step ds (i := m) (by omega)]; ring
    have e1 : r.1 = accV ds m := by rw [hr]; exact hs
    have e2 : r.2.1 = maxLower r'.2.1 (c.lower m ds.length) (accV ds m) := by
      rw [hr]; simp only [sampleInner, hs]
    have e3 : r.2.2 = minUpper r'.2.2 (c.upper m ds.length) (accV ds m) := by
      rw [hr]; simp only [sampleInner, hs]
    refine ⟨e1, ⟨?_, ?_, ?_⟩, ⟨?_, ?_, ?_⟩⟩
    · rw [e2]; unfold maxLower; split
      · exact a1.trans (le_max_left _ _)
      · exact a1
    · intro j hj1 hj2 k s hk
      rw [e2]
      by_cases e : j = m
      · subst e; simp only [hk, maxLower]; exact le_max_right _ _
      · have := a2 j (by omega) hj2 k s hk
        unfold maxLower; split
        · exact this.trans (le_max_left _ _)
        · exact this
    · intro t ht1 ht2
      rw [e2]
      have := a3 t ht1 (fun j h1 h2 => ht2 j (by omega) h2)
      unfold maxLower; split
      · rename_i k s hk
        exact max_le this (ht2 m (le_refl _) (by omega) k s hk)
      · exact this
    · rw [e3]; unfold minUpper; split
      · exact (min_le_left _ _).trans b1
      · exact b1
    · intro j hj1 hj2 k s hk
      rw [e3]
      by_cases e : j = m
      · subst e; simp only [hk, minUpper]; exact min_le_right _ _
      · have := b2 j (by omega) hj2 k s hk
        unfold minUpper; split
        · exact (min_le_left _ _).trans this
        · exact this
    · intro t ht1 ht2
      rw [e3]
      have := b3 t ht1 (fun j h1 h2 => ht2 j (by omega) h2)
      unfold minUpper; split
      · rename_i k s hk
        exact le_min this (ht2 m (le_refl _) (by omega) k s hk)
      · exact this

/-- The delays chosen so far respect the bounds on their sums. -/
def Partial (c : TimedCondition) (ds : List ℚ) : Prop :=
  ∀ j k, j ≤ k → k < ds.length → Bound.Sat (T ds j k) (c.upper j k) ∧ Bound.Sat (-T ds j k) (c.lower j k)

theorem exists_next (c : TimedCondition) (hc : c.Canonical) (ds : List ℚ) (hl : ds.length < c.size)
    (h : Partial c ds) : ∃ t, ∀ j ≤ ds.length,
      Bound.Sat (accV ds j + t) (c.upper j ds.length) ∧
      Bound.Sat (-(accV ds j + t)) (c.lower j ds.length) := by
  have hsz : c.size + 1 = c.zone.dim := by have := hc.1; unfold size; omega
  obtain ⟨t, ht⟩ := Bound.exists_value (List.range (ds.length + 1)) (fun j => -accV ds j)
    (fun j => c.upper j ds.length) (fun j => c.lower j ds.length) (by
      intro j hj k hk
      have hj : j ≤ ds.length := by simpa [Nat.lt_succ_iff] using hj
      have hk : k ≤ ds.length := by simpa [Nat.lt_succ_iff] using hk
      have he := eidx_lt hl
      rw [lower_eq, upper_eq]
      rcases Nat.lt_trichotomy k j with hkj | hkj | hkj
      · have h1 := (h k (j - 1) (by omega) (by omega)).1
        rw [T_eq ds (by omega), upper_eq] at h1
        have e : c.eidx (j - 1) = j + 1 := by unfold eidx; rw [if_neg (by omega)]; omega
        rw [e, show j - 1 + 1 = j by omega] at h1
        have e2 : -accV ds j - -accV ds k = accV ds k - accV ds j := by ring
        rw [e2, add_comm]
        exact h1.mono (hc.2.2 _ (by omega) _ (by omega) _ he (by omega))
      · subst hkj
        simp only [sub_self]
        rw [Bound.sat_self_zero]
        exact hc.2.1 _ he _ (by omega)
      · have h1 := (h j (k - 1) (by omega) (by omega)).2
        rw [T_eq ds (by omega), lower_eq] at h1
        have e : c.eidx (k - 1) = k + 1 := by unfold eidx; rw [if_neg (by omega)]; omega
        rw [e, show k - 1 + 1 = k by omega] at h1
        have e2 : -accV ds j - -accV ds k = -(accV ds j - accV ds k) := by ring
        rw [e2, add_comm]
        exact h1.mono (hc.2.2 _ (by omega) _ (by omega) _ he (by omega)))
  refine ⟨t, fun j hj => ?_⟩
  have := ht j (by simpa [Nat.lt_succ_iff] using hj)
  have e1 : t - -accV ds j = accV ds j + t := by ring
  have e2 : -accV ds j - t = -(accV ds j + t) := by ring
  rwa [e1, e2] at this

/-- A number between two bounds in the relative interior of the interval. -/
theorem mid_upper {k hi lo t q : ℚ} {s : Bool} (hq : Bound.Sat (q + t) (.fin k s)) (h1 : lo ≤ t) (h2 : t ≤ hi)
    (h3 : hi ≤ k - q) : Bound.Sat (q + (lo + hi) * (1 / 2)) (.fin k s) := by
  cases s
  · simp only [Bound.sat_false] at hq ⊢
    rcases lt_or_eq_of_le h3 with h | h
    · linarith
    · linarith
  · simp only [Bound.sat_true] at hq ⊢
    linarith

theorem mid_lower {k hi lo t q : ℚ} {s : Bool} (hq : Bound.Sat (-(q + t)) (.fin k s)) (h1 : lo ≤ t)
    (h2 : t ≤ hi) (h3 : -k - q ≤ lo) : Bound.Sat (-(q + (lo + hi) * (1 / 2))) (.fin k s) := by
  cases s
  · simp only [Bound.sat_false] at hq ⊢
    rcases lt_or_eq_of_le h3 with h | h
    · linarith
    · linarith
  · simp only [Bound.sat_true] at hq ⊢
    linarith

theorem sampleStep_ok (c : TimedCondition) (hc : c.Canonical) (hb : ∀ i < c.size, c.upper i i ≠ .inf ∧ c.lower i i ≠ .inf)
    (ds : List ℚ) (hl : ds.length < c.size) (h : Partial c ds) :
    Partial c (ds ++ [sampleStep c ds]) := by
  obtain ⟨t, ht⟩ := exists_next c hc ds hl h
  have key : ∀ j ≤ ds.length, Bound.Sat (accV ds j + sampleStep c ds) (c.upper j ds.length) ∧
      Bound.Sat (-(accV ds j + sampleStep c ds)) (c.lower j ds.length) := by
    obtain ⟨hb1, hb2⟩ := hb _ hl
    obtain ⟨u, us, hu⟩ : ∃ u us, c.upper ds.length ds.length = .fin u us := by
      cases e : c.upper ds.length ds.length with
      | fin a b => exact ⟨a, b, rfl⟩
      | inf => exact absurd e hb1
    obtain ⟨l, ls, hl'⟩ : ∃ u us, c.lower ds.length ds.length = .fin u us := by
      cases e : c.lower ds.length ds.length with
      | fin a b => exact ⟨a, b, rfl⟩
      | inf => exact absurd e hb2
    have htl := ht ds.length (le_refl _)
    rw [accV_ge ds (le_refl _), zero_add, hu, hl'] at htl
    unfold sampleStep
    simp only
    split
    · rename_i hp
      rw [hu, hl'] at hp
      simp only [Bound.isPoint, Bool.and_eq_true, decide_eq_true_eq] at hp
      obtain ⟨⟨e1, e2⟩, e3⟩ := hp
      subst e2 e3
      simp only [Bound.sat_true] at htl
      have : first (c.upper ds.length ds.length) = t := by
        rw [hu]; simp only [first]; linarith
      rw [this]; exact ht
    · have hspec := inner_spec c ds (negFirst (c.lower ds.length ds.length))
        (first (c.upper ds.length ds.length)) ds.length 0 (by omega)
      simp only at hspec
      rw [List.foldl_reverse, List.range_eq_range']
      set r := (List.range' 0 ds.length).foldr (fun j s => sampleInner c ds ds.length s j)
        (0, negFirst (c.lower ds.length ds.length), first (c.upper ds.length ds.length)) with hr
      obtain ⟨_, ⟨a1, a2, a3⟩, ⟨b1, b2, b3⟩⟩ := hspec
      rw [hu] at b1 b3
      rw [hl'] at a1 a3
      simp only [negFirst, first] at a1 a3 b1 b3
      have tle : t ≤ u ∧ -l ≤ t := by
        constructor
        · have := htl.1; cases us <;> simp at this <;> linarith
        · have := htl.2; cases ls <;> simp at this <;> linarith
      have hlo : r.2.1 ≤ t := by
        refine a3 t tle.2 fun j _ hj k s hk => ?_
        have := (ht j (by omega)).2
        rw [hk] at this
        cases s <;> simp at this <;> linarith
      have hhi : t ≤ r.2.2 := by
        refine b3 t tle.1 fun j _ hj k s hk => ?_
        have := (ht j (by omega)).1
        rw [hk] at this
        cases s <;> simp at this <;> linarith
      intro j hj
      have hj' := ht j hj
      constructor
      · cases hk : c.upper j ds.length with
        | inf => trivial
        | fin k s =>
          rw [hk] at hj'
          refine mid_upper hj'.1 hlo hhi ?_
          rcases Nat.lt_or_eq_of_le hj with h' | h'
          · exact b2 j (by omega) h' k s hk
          · subst h'
            rw [hu] at hk
            rw [accV_ge ds (le_refl _), sub_zero]
            cases hk; exact b1
      · cases hk : c.lower j ds.length with
        | inf => trivial
        | fin k s =>
          rw [hk] at hj'
          refine mid_lower hj'.2 hlo hhi ?_
          rcases Nat.lt_or_eq_of_le hj with h' | h'
          · exact a2 j (by omega) h' k s hk
          · subst h'
            rw [hl'] at hk
            rw [accV_ge ds (le_refl _), sub_zero]
            cases hk; exact a1
  intro j k hjk hk
  rw [T_eq _ hjk]
  simp only [List.length_append, List.length_singleton] at hk
  by_cases e : k = ds.length
  · subst e
    rw [accV_append ds _ (by omega), accV_ge (ds ++ _) (i := ds.length + 1) (by simp), sub_zero]
    exact key j hjk
  · rw [accV_append ds _ (by omega), accV_append ds _ (by omega), add_sub_add_right_eq_sub,
      ← T_eq _ hjk]
    exact h j k hjk (by omega)

theorem sampleDurations_ok (c : TimedCondition) (hc : c.Canonical)
    (hb : ∀ i < c.size, c.upper i i ≠ .inf ∧ c.lower i i ≠ .inf) (n : ℕ) (hn : n ≤ c.size) :
    (sampleDurations c n).length = n ∧ Partial c (sampleDurations c n) := by
  induction n with
  | zero => exact ⟨rfl, fun j k _ hk => absurd hk (by simp [sampleDurations])⟩
  | succ n ih =>
    obtain ⟨h1, h2⟩ := ih (by omega)
    have e : sampleDurations c (n + 1) = sampleDurations c n ++ [sampleStep c (sampleDurations c n)] := by
      simp [sampleDurations, List.range_succ, List.foldl_append]
    rw [e]
    exact ⟨by simp [h1], sampleStep_ok c hc hb _ (by omega) h2⟩

theorem sampleDurations_holds (c : TimedCondition) (hc : c.Canonical)
    (hb : ∀ i < c.size, c.upper i i ≠ .inf ∧ c.lower i i ≠ .inf) :
    c.Holds (sampleDurations c c.size) := by
  obtain ⟨h1, h2⟩ := sampleDurations_ok c hc hb c.size (le_refl _)
  exact ⟨h1, fun i j hij hj => h2 i j hij (by omega)⟩

end ElementaryLanguage
end LearnTA
