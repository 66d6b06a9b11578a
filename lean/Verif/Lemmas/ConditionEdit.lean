import Verif.Lemmas.TimedCondition
import Verif.Lemmas.ElementarySample
import Verif.Lemmas.TimedWord
import Verif.Spec.Constraint

/-!
# Editing the bounds of timed conditions: lemmas
-/

namespace LearnTA
namespace TimedCondition
open Zone

/-! ### Sums of extended lists of delays -/

theorem T_append_lt (d : List ℚ) (e : ℚ) {i j : ℕ} (hij : i ≤ j) (hj : j < d.length) :
    T (d ++ [e]) i j = T d i j := by
  unfold T
  rw [List.drop_append_of_le_length (by omega), List.take_append_of_le_length (by simp; omega)]

theorem T_append_end (d : List ℚ) (e : ℚ) {i : ℕ} (hi : i < d.length) :
    T (d ++ [e]) i d.length = T d i (d.length - 1) + e := by
  unfold T
  rw [List.drop_append_of_le_length (by omega), List.take_of_length_le (by simp; omega),
    List.take_of_length_le (by simp; omega)]
  simp

theorem T_append_last (d : List ℚ) (e : ℚ) : T (d ++ [e]) d.length d.length = e := by
  unfold T; simp

theorem T_cons_zero (d : List ℚ) (e : ℚ) : T (e :: d) 0 0 = e := by simp [T]

theorem T_cons_first (d : List ℚ) (e : ℚ) (j : ℕ) : T (e :: d) 0 (j + 1) = e + T d 0 j := by simp [T]

theorem T_cons_succ (d : List ℚ) (e : ℚ) (i j : ℕ) : T (e :: d) (i + 1) (j + 1) = T d i j := by simp [T]

/-! ### Bounds of extended conditions -/

theorem extendN_size (c : TimedCondition) (h : 2 ≤ c.zone.dim) : c.extendN.size = c.size + 1 := by
  simp only [size, extendN]; omega

theorem extendZero_size (c : TimedCondition) (h : 2 ≤ c.zone.dim) : c.extendZero.size = c.size + 1 := by
  simp only [size, extendZero]; omega

theorem extendN_bounds_lt (c : TimedCondition) (h : 2 ≤ c.zone.dim) {i j : ℕ} (hij : i ≤ j) (hj : j < c.size) :
    c.extendN.upper i j = c.upper i j ∧ c.extendN.lower i j = c.lower i j := by
  have hs := c.extendN_size h
  have hd : c.zone.dim = c.size + 1 := by unfold size; omega
  have e1 : j ≠ c.size + 1 - 1 := by omega
  have e3 : i + 1 ≠ c.zone.dim := by omega
  unfold upper lower
  rw [hs]
  by_cases e : j = c.size - 1
  · have e2 : j + 2 = c.zone.dim := by omega
    simp only [if_neg e1, if_pos e]
    constructor <;> simp [extendN, e2, e3]
  · have e2 : j + 2 ≠ c.zone.dim := by omega
    simp only [if_neg e1, if_neg e]
    constructor <;> simp [extendN, e2, e3]

theorem extendN_bounds_end (c : TimedCondition) (h : 2 ≤ c.zone.dim) {i : ℕ} (hi : i < c.size) :
    c.extendN.upper i c.size = c.upper i (c.size - 1) ∧ c.extendN.lower i c.size = c.lower i (c.size - 1) := by
  have hs := c.extendN_size h
  have hd : c.zone.dim = c.size + 1 := by unfold size; omega
  have e1 : c.size = c.size + 1 - 1 := by omega
  have e3 : i + 1 ≠ c.zone.dim := by omega
  have e4 : 0 ≠ c.zone.dim := by omega
  unfold upper lower
  rw [hs]
  simp only [if_pos e1, if_true]
  constructor <;> simp [extendN, e3, e4]

theorem extendN_bounds_last (c : TimedCondition) (h : 2 ≤ c.zone.dim) :
    c.extendN.upper c.size c.size = .fin 0 true ∧ c.extendN.lower c.size c.size = .fin 0 true := by
  have hs := c.extendN_size h
  have hd : c.zone.dim = c.size + 1 := by unfold size; omega
  have e1 : c.size = c.size + 1 - 1 := by omega
  have e4 : 0 ≠ c.zone.dim := by omega
  have e5 : c.size + 1 = c.zone.dim := by omega
  unfold upper lower
  rw [hs]
  simp only [if_pos e1]
  constructor <;> simp [extendN, e5, e4]

theorem sat_zero_pair {x : ℚ} : (Bound.Sat x (.fin 0 true) ∧ Bound.Sat (-x) (.fin 0 true)) ↔ x = 0 := by
  simp only [Bound.Sat]
  constructor
  · rintro ⟨h1, h2⟩; linarith
  · rintro rfl; simp

/-- Appending an action: the new last delay is 0, the others satisfy the condition. -/
theorem extendN_holds (c : TimedCondition) (h : 2 ≤ c.zone.dim) (d : List ℚ) (e : ℚ) :
    c.extendN.Holds (d ++ [e]) ↔ c.Holds d ∧ e = 0 := by
  have hs := c.extendN_size h
  have hp : 1 ≤ c.size := by unfold size; omega
  unfold Holds
  rw [hs]
  constructor
  · rintro ⟨hl, hb⟩
    simp only [List.length_append, List.length_cons, List.length_nil, zero_add] at hl
    have hl' : d.length = c.size := by omega
    refine ⟨⟨hl', fun i j hij hj => ?_⟩, ?_⟩
    · have := hb i j hij (by omega)
      rw [(c.extendN_bounds_lt h hij hj).1, (c.extendN_bounds_lt h hij hj).2, T_append_lt d e hij (by omega)] at this
      exact this
    · have := hb c.size c.size le_rfl (by omega)
      rw [(c.extendN_bounds_last h).1, (c.extendN_bounds_last h).2, ← hl', T_append_last] at this
      exact sat_zero_pair.1 this
  · rintro ⟨⟨hl, hb⟩, rfl⟩
    refine ⟨by simp [hl], fun i j hij hj => ?_⟩
    rcases Nat.lt_or_ge j c.size with hj' | hj'
    · rw [(c.extendN_bounds_lt h hij hj').1, (c.extendN_bounds_lt h hij hj').2, T_append_lt d 0 hij (by omega)]
      exact hb i j hij hj'
    · have ej : j = c.size := by omega
      subst ej
      rcases Nat.lt_or_ge i c.size with hi | hi
      · rw [(c.extendN_bounds_end h hi).1, (c.extendN_bounds_end h hi).2, ← hl, T_append_end d 0 (by omega),
          add_zero, hl]
        exact hb i _ (by omega) (by omega)
      · have ei : i = c.size := by omega
        subst ei
        rw [(c.extendN_bounds_last h).1, (c.extendN_bounds_last h).2, ← hl, T_append_last]
        exact sat_zero_pair.2 rfl

theorem extendZero_bounds_first (c : TimedCondition) (h : 2 ≤ c.zone.dim) :
    c.extendZero.upper 0 0 = .fin 0 true ∧ c.extendZero.lower 0 0 = .fin 0 true := by
  have hs := c.extendZero_size h
  have hp : 1 ≤ c.size := by unfold size; omega
  have e1 : 0 ≠ c.size + 1 - 1 := by omega
  unfold upper lower
  rw [hs]
  simp only [if_neg e1]
  constructor <;> simp [extendZero]

theorem extendZero_bounds_zero (c : TimedCondition) (h : 2 ≤ c.zone.dim) {j : ℕ} (hj : j < c.size) :
    c.extendZero.upper 0 (j + 1) = c.upper 0 j ∧ c.extendZero.lower 0 (j + 1) = c.lower 0 j := by
  have hs := c.extendZero_size h
  unfold upper lower
  rw [hs]
  by_cases e : j = c.size - 1
  · have e1 : j + 1 = c.size + 1 - 1 := by omega
    simp only [if_pos e1, if_pos e]
    constructor <;> simp [extendZero]
  · have e1 : j + 1 ≠ c.size + 1 - 1 := by omega
    simp only [if_neg e1, if_neg e]
    constructor <;> simp [extendZero]

theorem extendZero_bounds_succ (c : TimedCondition) (h : 2 ≤ c.zone.dim) {i j : ℕ} (hj : j < c.size) :
    c.extendZero.upper (i + 1) (j + 1) = c.upper i j ∧ c.extendZero.lower (i + 1) (j + 1) = c.lower i j := by
  have hs := c.extendZero_size h
  unfold upper lower
  rw [hs]
  by_cases e : j = c.size - 1
  · have e1 : j + 1 = c.size + 1 - 1 := by omega
    simp only [if_pos e1, if_pos e]
    constructor <;> simp [extendZero]
  · have e1 : j + 1 ≠ c.size + 1 - 1 := by omega
    simp only [if_neg e1, if_neg e]
    constructor <;> simp [extendZero]

/-- Prepending an action: the new first delay is 0, the others satisfy the condition. -/
theorem extendZero_holds (c : TimedCondition) (h : 2 ≤ c.zone.dim) (d : List ℚ) (e : ℚ) :
    c.extendZero.Holds (e :: d) ↔ e = 0 ∧ c.Holds d := by
  have hs := c.extendZero_size h
  have hp : 1 ≤ c.size := by unfold size; omega
  unfold Holds
  rw [hs]
  constructor
  · rintro ⟨hl, hb⟩
    have hl' : d.length = c.size := by simpa using hl
    refine ⟨?_, hl', fun i j hij hj => ?_⟩
    · have := hb 0 0 le_rfl (by omega)
      rw [(c.extendZero_bounds_first h).1, (c.extendZero_bounds_first h).2, T_cons_zero] at this
      exact sat_zero_pair.1 this
    · have := hb (i + 1) (j + 1) (by omega) (by omega)
      rw [(c.extendZero_bounds_succ h (i := i) hj).1, (c.extendZero_bounds_succ h (i := i) hj).2, T_cons_succ] at this
      exact this
  · rintro ⟨rfl, hl, hb⟩
    refine ⟨by simp [hl], fun i j hij hj => ?_⟩
    cases i with
    | zero =>
      cases j with
      | zero =>
        rw [(c.extendZero_bounds_first h).1, (c.extendZero_bounds_first h).2, T_cons_zero]
        exact sat_zero_pair.2 rfl
      | succ j =>
        rw [(c.extendZero_bounds_zero h (by omega)).1, (c.extendZero_bounds_zero h (by omega)).2, T_cons_first,
          zero_add]
        exact hb 0 j (by omega) (by omega)
    | succ i =>
      obtain ⟨j, rfl⟩ : ∃ j', j = j' + 1 := ⟨j - 1, by omega⟩
      rw [(c.extendZero_bounds_succ h (i := i) (by omega)).1, (c.extendZero_bounds_succ h (i := i) (by omega)).2,
        T_cons_succ]
      exact hb i j (by omega) (by omega)

/-! ### Canonical conditions -/

/-- `Holds` only reads the entries off the diagonal. -/
theorem holds_congr {a b : TimedCondition} (hd : a.zone.dim = b.zone.dim)
    (h : ∀ i j, i ≠ j → a.zone.val i j = b.zone.val i j) (d : List ℚ) : a.Holds d ↔ b.Holds d := by
  have hs : a.size = b.size := by unfold size; rw [hd]
  have hu : ∀ i j, i ≤ j → a.upper i j = b.upper i j ∧ a.lower i j = b.lower i j := by
    intro i j hij
    unfold upper lower
    rw [hs]
    split
    · exact ⟨h _ _ (by omega), h _ _ (by omega)⟩
    · exact ⟨h _ _ (by omega), h _ _ (by omega)⟩
  unfold Holds
  rw [hs]
  refine and_congr_right fun _ => ?_
  constructor
  · intro g i j hij hj; rw [← (hu i j hij).1, ← (hu i j hij).2]; exact g i j hij hj
  · intro g i j hij hj; rw [(hu i j hij).1, (hu i j hij).2]; exact g i j hij hj

theorem accV_addBack' {d : List ℚ} (hd : d ≠ []) (q : ℚ) {i : ℕ} (hi : i < d.length) :
    accV (TimedWord.addBack d q) i = accV d i + q := by
  obtain ⟨x, l, rfl⟩ : ∃ x l, d = l ++ [x] := by
    rcases List.eq_nil_or_concat d with h | ⟨l, x, h⟩
    · exact absurd h hd
    · exact ⟨x, l, by simpa using h⟩
  simp only [List.length_append, List.length_cons, List.length_nil] at hi
  have e : TimedWord.addBack (l ++ [x]) q = l ++ [x + q] := by simp [TimedWord.addBack]
  rw [e, ElementaryLanguage.accV_append _ _ (by omega), ElementaryLanguage.accV_append _ _ (by omega)]
  ring

/-- Removing the upper bounds of `T_{i,N}` lets time pass at the end. -/
theorem removeUpperBound_holds {c : TimedCondition} (hc : c.Canonical) (d : List ℚ) :
    c.removeUpperBound.Holds d ↔ ∃ d' q, 0 ≤ q ∧ c.Holds d' ∧ d = TimedWord.addBack d' q := by
  have hz := hc.normClosed
  obtain ⟨u, hu⟩ := hc.nonempty
  have hu' : c.zone.norm.Mem u := (norm_sat _ hc.diagNN _).2 hu
  have key : c.removeUpperBound.Holds d ↔ (TimedCondition.mk c.zone.norm.elapse).Holds d := by
    refine holds_congr (a := c.removeUpperBound) (b := ⟨c.zone.norm.elapse⟩) rfl (fun i j hij => ?_) d
    simp only [removeUpperBound, elapse]
    by_cases hj : j = 0
    · subst hj
      simp [show 1 ≤ i by omega]
    · simp [hj, norm, hij]
  have hdn : c.zone.norm.elapse.DiagNN :=
    (elapse_sound c.zone.norm u 0 le_rfl hu').diagNN
  rw [key, holds_iff_mem ⟨c.zone.norm.elapse⟩ hc.1 hdn, elapse_mem _ hz ⟨u, hu'⟩]
  have hsz : (TimedCondition.mk c.zone.norm.elapse).size = c.size := rfl
  have hp : 1 ≤ c.size := by have := hc.1; unfold size; omega
  rw [hsz]
  constructor
  · rintro ⟨hl, q, hq, hm⟩
    have hne : d ≠ [] := by intro e; rw [e] at hl; simp at hl; omega
    refine ⟨TimedWord.addBack d (-q), q, hq, ?_, ?_⟩
    · rw [holds_iff_mem _ hc.1 hc.diagNN]
      refine ⟨by rw [TimedWord.addBack_length _ _ hne, hl], ?_⟩
      have := (norm_sat _ hc.diagNN _).1 hm
      refine this.congr fun i hi => ?_
      cases i with
      | zero => rfl
      | succ i =>
        simp only [ext_succ, Valuation.shift]
        rw [accV_addBack' hne _ (by unfold size at hl; omega)]
    · obtain ⟨x, l, rfl⟩ : ∃ x l, d = l ++ [x] := by
        rcases List.eq_nil_or_concat d with h | ⟨l, x, h⟩
        · exact absurd h hne
        · exact ⟨x, l, by simpa using h⟩
      simp [TimedWord.addBack]
  · rintro ⟨d', q, hq, hd', rfl⟩
    rw [holds_iff_mem _ hc.1 hc.diagNN] at hd'
    obtain ⟨hl, hm⟩ := hd'
    have hne : d' ≠ [] := by intro e; rw [e] at hl; simp at hl; omega
    refine ⟨by rw [TimedWord.addBack_length _ _ hne, hl], q, hq, ?_⟩
    refine ((norm_sat _ hc.diagNN _).2 hm).congr fun i hi => ?_
    cases i with
    | zero => rfl
    | succ i =>
      simp only [ext_succ, Valuation.shift]
      rw [accV_addBack' hne _ (by simp only [norm_dim] at hi; unfold size at hl; omega)]
      ring

/-- Every value allowed by the two bounds of a sum of a canonical condition is taken. -/
theorem Canonical.realize {c : TimedCondition} (hc : c.Canonical) {i j : ℕ} (hij : i ≤ j) (hj : j < c.size) (q : ℚ)
    (h1 : Bound.Sat q (c.upper i j)) (h2 : Bound.Sat (-q) (c.lower i j)) : ∃ d, c.Holds d ∧ T d i j = q := by
  have hd := hc.1
  have hne : i + 1 ≠ c.eidx j := (eidx_ne hij).symm
  have hlt := eidx_lt hj
  have hi : i + 1 < c.zone.dim := by unfold size at hj; omega
  rw [upper_eq] at h1
  rw [lower_eq] at h2
  obtain ⟨v, hv, e⟩ := Zone.realize _ hc.normClosed (norm_diagNN _) (i := i + 1) (j := c.eidx j) hi hlt hne q
    (by rwa [norm_val_ne _ hne]) (by rwa [norm_val_ne _ hne.symm])
  have hv' := (norm_sat _ hc.diagNN _).1 hv
  refine ⟨delays v c.size, ?_, ?_⟩
  · rw [holds_iff_mem _ hc.1 hc.diagNN]
    exact ⟨by simp, mem_delays hv'⟩
  · rw [T_eq _ hij, accV_delays _ _ (by omega), ← e]
    unfold eidx
    split
    · rw [accV_ge _ (by simp; omega)]; rfl
    · rw [accV_delays _ _ (by omega)]; rfl

/-- Below every value allowed by the upper bound of a sum there is a larger or equal one that is taken. -/
theorem Canonical.realize_above {c : TimedCondition} (hc : c.Canonical) {i j : ℕ} (hij : i ≤ j) (hj : j < c.size) (q : ℚ)
    (h1 : Bound.Sat q (c.upper i j)) : ∃ d, c.Holds d ∧ q ≤ T d i j := by
  have hd := hc.1
  have hne : i + 1 ≠ c.eidx j := (eidx_ne hij).symm
  have hlt := eidx_lt hj
  have hi : i + 1 < c.zone.dim := by unfold size at hj; omega
  rw [upper_eq] at h1
  obtain ⟨v, hv, e⟩ := Zone.realize_above _ hc.normClosed (norm_diagNN _) (i := i + 1) (j := c.eidx j) hi hlt hne q
    (by rwa [norm_val_ne _ hne])
  have hv' := (norm_sat _ hc.diagNN _).1 hv
  refine ⟨delays v c.size, ?_, ?_⟩
  · rw [holds_iff_mem _ hc.1 hc.diagNN]
    exact ⟨by simp, mem_delays hv'⟩
  · rw [T_eq _ hij, accV_delays _ _ (by omega)]
    refine e.trans (le_of_eq ?_)
    unfold eidx
    split
    · rw [accV_ge _ (by simp; omega)]; rfl
    · rw [accV_delays _ _ (by omega)]; rfl

theorem Canonical.realize_below {c : TimedCondition} (hc : c.Canonical) {i j : ℕ} (hij : i ≤ j) (hj : j < c.size) (q : ℚ)
    (h1 : Bound.Sat (-q) (c.lower i j)) : ∃ d, c.Holds d ∧ T d i j ≤ q := by
  have hd := hc.1
  have hne : i + 1 ≠ c.eidx j := (eidx_ne hij).symm
  have hlt := eidx_lt hj
  have hi : i + 1 < c.zone.dim := by unfold size at hj; omega
  rw [lower_eq] at h1
  obtain ⟨v, hv, e⟩ := Zone.realize_above _ hc.normClosed (norm_diagNN _) (i := c.eidx j) (j := i + 1) hlt hi hne.symm (-q)
    (by rwa [norm_val_ne _ hne.symm])
  have hv' := (norm_sat _ hc.diagNN _).1 hv
  refine ⟨delays v c.size, ?_, ?_⟩
  · rw [holds_iff_mem _ hc.1 hc.diagNN]
    exact ⟨by simp, mem_delays hv'⟩
  · rw [T_eq _ hij, accV_delays _ _ (by omega)]
    have : accV (delays v c.size) (j + 1) = v.ext (c.eidx j) := by
      unfold eidx
      split
      · rw [accV_ge _ (by simp; omega)]; rfl
      · rw [accV_delays _ _ (by omega)]; rfl
    rw [this]
    simp only [ext_succ] at e
    linarith

/-- A sum is always 0 iff both bounds say so. -/
theorem Canonical.zero_iff {c : TimedCondition} (hc : c.Canonical) {i j : ℕ} (hij : i ≤ j) (hj : j < c.size) :
    (c.upper i j = .fin 0 true ∧ c.lower i j = .fin 0 true) ↔ ∀ d, c.Holds d → T d i j = 0 := by
  constructor
  · rintro ⟨h1, h2⟩ d hd
    have := hd.2 i j hij hj
    rw [h1, h2] at this
    exact sat_zero_pair.1 this
  · intro h
    obtain ⟨v, hv⟩ := hc.nonempty
    have hd0 : c.Holds (delays v c.size) := by
      rw [holds_iff_mem _ hc.1 hc.diagNN]; exact ⟨by simp, mem_delays hv⟩
    have s0 := hd0.2 i j hij hj
    rw [h _ hd0] at s0
    constructor
    · cases hu : c.upper i j with
      | inf =>
        obtain ⟨d, hd, hq⟩ := hc.realize_above hij hj 1 (by rw [hu]; trivial)
        rw [h d hd] at hq; linarith
      | fin k s =>
        have hs := s0.1
        rw [hu] at hs
        have hk : 0 ≤ k := by cases s <;> simp [Bound.Sat] at hs <;> linarith
        rcases hk.lt_or_eq with hk | hk
        · obtain ⟨d, hd, hq⟩ := hc.realize_above hij hj (k / 2) (by
            rw [hu]; cases s <;> simp only [Bound.Sat] <;> linarith)
          rw [h d hd] at hq; linarith
        · subst hk
          cases s
          · simp [Bound.Sat] at hs
          · rfl
    · cases hu : c.lower i j with
      | inf =>
        obtain ⟨d, hd, hq⟩ := hc.realize_below hij hj (-1) (by rw [hu]; trivial)
        rw [h d hd] at hq; linarith
      | fin k s =>
        have hs := s0.2
        rw [hu] at hs
        have hk : 0 ≤ k := by cases s <;> simp [Bound.Sat] at hs <;> linarith
        rcases hk.lt_or_eq with hk | hk
        · obtain ⟨d, hd, hq⟩ := hc.realize_below hij hj (-(k / 2)) (by
            rw [hu]; cases s <;> simp only [Bound.Sat] <;> linarith)
          rw [h d hd] at hq; linarith
        · subst hk
          cases s
          · simp [Bound.Sat] at hs
          · rfl

/-- The bound of a sum is attained iff it is not strict. -/
theorem Canonical.attained_iff {c : TimedCondition} (hc : c.Canonical) {i j : ℕ} (hij : i ≤ j) (hj : j < c.size) :
    secondOf (c.upper i j) = true ↔ ∃ d, c.Holds d ∧ ∀ d', c.Holds d' → T d' i j ≤ T d i j := by
  constructor
  · intro h
    cases hu : c.upper i j with
    | inf => rw [hu] at h; simp [secondOf] at h
    | fin k s =>
      rw [hu] at h
      simp only [secondOf] at h
      subst h
      obtain ⟨d, hd, hq⟩ := hc.realize_above hij hj k (by rw [hu]; exact le_rfl)
      refine ⟨d, hd, fun d' hd' => ?_⟩
      have := (hd'.2 i j hij hj).1
      rw [hu] at this
      exact le_trans this hq
  · rintro ⟨d, hd, hm⟩
    cases hu : c.upper i j with
    | inf =>
      obtain ⟨d', hd', hq⟩ := hc.realize_above hij hj (T d i j + 1) (by rw [hu]; trivial)
      have := hm d' hd'
      linarith
    | fin k s =>
      cases s with
      | true => rfl
      | false =>
        have h1 := (hd.2 i j hij hj).1
        rw [hu] at h1
        simp only [Bound.Sat] at h1
        obtain ⟨d', hd', hq⟩ := hc.realize_above hij hj ((T d i j + k) / 2) (by
          rw [hu]; simp only [Bound.Sat]; linarith)
        have := hm d' hd'
        linarith

/-! ### `constrain` -/

/-- One iteration of the loop of `constrain`. -/
def nip (d : List ℚ) (c : TimedCondition) (i : ℕ) : TimedCondition :=
  (c.restrictLower i i (.fin (-d.getD i 0) true) false).restrictUpper i i (.fin (d.getD i 0) true) false

@[simp] theorem nip_size (d c i) : (nip d c i).size = c.size := by simp [nip]
@[simp] theorem nip_dim (d c i) : (nip d c i).zone.dim = c.zone.dim := by simp [nip]
@[simp] theorem nip_eidx (d c i k) : (nip d c i).eidx k = c.eidx k := by simp [nip]

theorem foldl_nip (d : List ℚ) (l : List ℕ) (c : TimedCondition) (hl : ∀ i ∈ l, i < c.size)
    (w : ℕ → ℚ) : (l.foldl (nip d) c).zone.Sat w ↔
      c.zone.Sat w ∧ ∀ i ∈ l, w (i + 1) - w (c.eidx i) = d.getD i 0 := by
  induction l generalizing c with
  | nil => simp
  | cons a l ih =>
    have ha := hl a (by simp)
    rw [List.foldl_cons, ih _ (by intro i hi; simpa using hl i (by simp [hi]))]
    have : (nip d c a).zone.Sat w ↔ c.zone.Sat w ∧ w (a + 1) - w (c.eidx a) = d.getD a 0 := by
      unfold nip
      rw [restrictUpper_sat _ (le_refl a) (by simpa using ha), restrictLower_sat _ (le_refl a) ha]
      simp only [restrictLower_eidx, Bound.sat_true]
      constructor
      · rintro ⟨⟨h1, h2⟩, h3⟩; exact ⟨h1, by linarith⟩
      · rintro ⟨h1, h2⟩; exact ⟨⟨h1, by linarith⟩, by linarith⟩
    rw [this]
    simp [and_assoc]

@[simp] theorem foldl_nip_dim (d : List ℚ) (l : List ℕ) (c : TimedCondition) :
    (l.foldl (nip d) c).zone.dim = c.zone.dim := by
  induction l generalizing c with
  | nil => rfl
  | cons a l ih => rw [List.foldl_cons, ih]; simp

theorem foldl_nip_canonical (d : List ℚ) (n : ℕ) {c : TimedCondition} (hc : c.Canonical) {v : Valuation}
    (h : ((List.range n).foldl (nip d) c).zone.Mem v) : ((List.range n).foldl (nip d) c).Canonical := by
  cases n with
  | zero => exact hc
  | succ n =>
    rw [List.range_succ, List.foldl_append] at h ⊢
    simp only [List.foldl_cons, List.foldl_nil] at h ⊢
    have h2 : 2 ≤ ((List.range n).foldl (nip d) c).zone.dim := by simpa using hc.1
    generalize (List.range n).foldl (nip d) c = c' at h h2 ⊢
    unfold nip at h ⊢
    rw [restrictUpper_eq] at h ⊢
    exact canonical_canonize (by simpa using h2) ((canonize_mem _ _).1 h)

theorem foldl_nip_holds (p : List ℚ) (n : ℕ) {c : TimedCondition} (hc : c.Canonical) (hn : n ≤ c.size) {d0 : List ℚ}
    (h0 : c.Holds d0) (he : ∀ i < n, d0.getD i 0 = p.getD i 0) :
    ((List.range n).foldl (nip p) c).Canonical ∧
    ∀ d, ((List.range n).foldl (nip p) c).Holds d ↔ c.Holds d ∧ ∀ i < n, d.getD i 0 = p.getD i 0 := by
  have h2 := hc.1
  have hl : ∀ i ∈ List.range n, i < c.size := by intro i hi; rw [List.mem_range] at hi; omega
  have key : ∀ d, d.length = c.size → (((List.range n).foldl (nip p) c).zone.Mem (accV d) ↔
      c.zone.Mem (accV d) ∧ ∀ i < n, d.getD i 0 = p.getD i 0) := by
    intro d hd
    show Zone.Sat _ _ ↔ _
    rw [foldl_nip _ _ _ hl]
    refine and_congr_right fun _ => ?_
    simp only [List.mem_range]
    refine forall₂_congr fun i hi => ?_
    rw [ext_eidx hd (by omega), ext_succ, accV_step d (by omega)]
    constructor <;> intro h <;> linarith
  obtain ⟨hl0, hm0⟩ := (holds_iff_mem c h2 hc.diagNN d0).1 h0
  have hcan := foldl_nip_canonical p n hc ((key d0 hl0).2 ⟨hm0, he⟩)
  refine ⟨hcan, fun d => ?_⟩
  rw [holds_iff_mem _ hcan.1 hcan.diagNN, holds_iff_mem c h2 hc.diagNN]
  have hs : ((List.range n).foldl (nip p) c).size = c.size := by unfold size; simp
  rw [hs]
  constructor
  · rintro ⟨h1, h3⟩; exact ⟨⟨h1, ((key d h1).1 h3).1⟩, ((key d h1).1 h3).2⟩
  · rintro ⟨⟨h1, h3⟩, h4⟩; exact ⟨h1, (key d h1).2 ⟨h3, h4⟩⟩

end TimedCondition
end LearnTA
