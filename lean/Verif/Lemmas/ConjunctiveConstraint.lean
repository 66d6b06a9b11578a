import Verif.Spec.ConjunctiveConstraint
import Verif.Lemmas.Constraint

/-!
# Conjunctions of inequalities as vectors
-/

namespace LearnTA.ConjIneq

open IntBound

/-- The upper bound, or none. -/
def UpOk (q : ℚ) (b : IntBound) : Prop := maxValue ≤ b.fst ∨ UpSat q b

theorem holds_iff (a : ConjIneq) (v : Valuation) :
    a.Holds v ↔ ∀ i < a.dim, UpOk (v i) (a.up i) ∧ UpSat (-v i) (a.low i) := Iff.rfl

theorem UpOk.mono {q : ℚ} {a b : IntBound} (h : UpOk q a) (hab : a ≤ b) : UpOk q b := by
  rcases h with h | h
  · left
    induction a using rec' with | h c s
    induction b using rec' with | h c' s'
    simp only [mk_le_mk, fst_mk] at hab h ⊢
    omega
  · exact .inr (h.mono hab)

theorem upOk_min {q : ℚ} {a b : IntBound} : UpOk q (min a b) ↔ UpOk q a ∧ UpOk q b := by
  constructor
  · intro h; exact ⟨h.mono (min_le_left _ _), h.mono (min_le_right _ _)⟩
  · rintro ⟨h1, h2⟩
    rcases min_choice a b with h | h <;> rw [h] <;> assumption

theorem upSat_min {q : ℚ} {a b : IntBound} : UpSat q (min a b) ↔ UpSat q a ∧ UpSat q b := by
  constructor
  · intro h; exact ⟨h.mono (min_le_left _ _), h.mono (min_le_right _ _)⟩
  · rintro ⟨h1, h2⟩
    rcases min_choice a b with h | h <;> rw [h] <;> assumption

theorem upOk_toBound {q : ℚ} {c : Constraint} (hc : c.c < maxValue) : UpOk q c.toBound ↔ UpSat q c.toBound := by
  unfold UpOk
  have : c.toBound.fst = c.c := by unfold Constraint.toBound; split <;> rfl
  rw [this]
  constructor
  · rintro (h | h)
    · omega
    · exact h
  · exact .inr

theorem addConstraint_holds (a : ConjIneq) (c : Constraint) (hx : c.x < a.dim) (hc : c.c < maxValue) (v : Valuation) :
    (a.addConstraint c).Holds v ↔ a.Holds v ∧ c.Holds v := by
  rw [Constraint.holds_iff_bound, lowSat_iff, holds_iff, holds_iff]
  unfold addConstraint
  by_cases h : c.isUpperBound = true
  · simp only [if_pos h]
    rw [← upOk_toBound hc]
    constructor
    · intro hh
      refine ⟨fun i hi => ⟨?_, (hh i hi).2⟩, ?_⟩
      · have := (hh i hi).1
        by_cases e : i = c.x
        · subst e; rw [Function.update_self, upOk_min] at this; exact this.1
        · rwa [Function.update_of_ne e] at this
      · have := (hh c.x hx).1
        rw [Function.update_self, upOk_min] at this; exact this.2
    · rintro ⟨h1, h2⟩ i hi
      refine ⟨?_, (h1 i hi).2⟩
      by_cases e : i = c.x
      · subst e; rw [Function.update_self, upOk_min]; exact ⟨(h1 _ hi).1, h2⟩
      · rw [Function.update_of_ne e]; exact (h1 i hi).1
  · simp only [if_neg h]
    constructor
    · intro hh
      refine ⟨fun i hi => ⟨(hh i hi).1, ?_⟩, ?_⟩
      · have := (hh i hi).2
        by_cases e : i = c.x
        · subst e; rw [Function.update_self, upSat_min] at this; exact this.1
        · rwa [Function.update_of_ne e] at this
      · have := (hh c.x hx).2
        rw [Function.update_self, upSat_min] at this; exact this.2
    · rintro ⟨h1, h2⟩ i hi
      refine ⟨(h1 i hi).1, ?_⟩
      by_cases e : i = c.x
      · subst e; rw [Function.update_self, upSat_min]; exact ⟨(h1 _ hi).2, h2⟩
      · rw [Function.update_of_ne e]; exact (h1 i hi).2

theorem trivial_holds (dim : ℕ) {v : Valuation} (hv : v.Nonneg) : (trivial dim).Holds v := by
  intro i hi
  refine ⟨.inl le_rfl, ?_⟩
  have := hv i
  simp [trivial, Respects, this]

theorem ofConstraint_holds (c : Constraint) (dim : ℕ) (hx : c.x < dim) (hc : c.c < maxValue) {v : Valuation}
    (hv : v.Nonneg) : (ofConstraint c dim).Holds v ↔ c.Holds v := by
  rw [Constraint.holds_iff_bound, lowSat_iff, holds_iff]
  unfold ofConstraint assign
  have ht := trivial_holds dim hv
  rw [holds_iff] at ht
  by_cases h : c.isUpperBound = true
  · simp only [if_pos h]
    rw [← upOk_toBound hc]
    constructor
    · intro hh
      have := (hh c.x hx).1
      rwa [Function.update_self] at this
    · intro h2 i hi
      refine ⟨?_, (ht i hi).2⟩
      by_cases e : i = c.x
      · subst e; rwa [Function.update_self]
      · rw [Function.update_of_ne e]; exact (ht i hi).1
  · simp only [if_neg h]
    constructor
    · intro hh
      have := (hh c.x hx).2
      rwa [Function.update_self] at this
    · intro h2 i hi
      refine ⟨(ht i hi).1, ?_⟩
      by_cases e : i = c.x
      · subst e; rwa [Function.update_self]
      · rw [Function.update_of_ne e]; exact (ht i hi).2

theorem inter_holds (a b : ConjIneq) (h : a.dim = b.dim) (v : Valuation) :
    (a.inter b).Holds v ↔ a.Holds v ∧ b.Holds v := by
  simp only [holds_iff, inter, upOk_min, upSat_min, ← h]
  constructor
  · intro hh; exact ⟨fun i hi => ⟨(hh i hi).1.1, (hh i hi).2.1⟩, fun i hi => ⟨(hh i hi).1.2, (hh i hi).2.2⟩⟩
  · rintro ⟨h1, h2⟩ i hi; exact ⟨⟨(h1 i hi).1, (h2 i hi).1⟩, (h1 i hi).2, (h2 i hi).2⟩

theorem isSatisfiable_of_holds {a : ConjIneq} (hs : a.Small) {v : Valuation} (h : a.Holds v) : a.isSatisfiable = true := by
  unfold isSatisfiable
  rw [List.all_eq_true]
  intro i hi
  rw [List.mem_range] at hi
  obtain ⟨h1, h2⟩ := (holds_iff a v).1 h i hi
  have h3 := hs i hi
  rw [decide_eq_true_eq]
  unfold addBound
  rw [mk_le_mk]
  generalize a.up i = u at h1
  generalize a.low i = l at h2 h3 ⊢
  induction u using rec' with | h u us
  induction l using rec' with | h l ls
  simp only [fst_mk, snd_mk, UpOk] at *
  rcases h1 with h1 | h1
  · left; omega
  · cases us <;> cases ls <;> simp only [UpSat, fst_mk, snd_mk, if_true, Bool.false_eq_true, if_false] at h1 h2
    · left; have : (0 : ℚ) < ((u + l : ℤ) : ℚ) := by push_cast; linarith
      exact_mod_cast this
    · left; have : (0 : ℚ) < ((u + l : ℤ) : ℚ) := by push_cast; linarith
      exact_mod_cast this
    · left; have : (0 : ℚ) < ((u + l : ℤ) : ℚ) := by push_cast; linarith
      exact_mod_cast this
    · have : (0 : ℚ) ≤ ((u + l : ℤ) : ℚ) := by push_cast; linarith
      have : 0 ≤ u + l := by exact_mod_cast this
      rcases this.lt_or_eq with h | h
      · exact .inl h
      · exact .inr ⟨h, le_rfl⟩

theorem holds_of_isSatisfiable {a : ConjIneq} (hn : a.Nonneg) (h : a.isSatisfiable = true) :
    ∃ v : Valuation, v.Nonneg ∧ a.Holds v := by
  unfold isSatisfiable at h
  rw [List.all_eq_true] at h
  have key : ∀ i, ∃ q : ℚ, 0 ≤ q ∧ (i < a.dim → UpOk q (a.up i) ∧ UpSat (-q) (a.low i)) := by
    intro i
    by_cases hi : i < a.dim
    · have h1 := h i (List.mem_range.2 hi)
      have h2 := hn i hi
      rw [decide_eq_true_eq] at h1
      unfold addBound at h1
      rw [mk_le_mk] at h1
      generalize a.up i = u at *
      generalize a.low i = l at *
      induction u using rec' with | h u us
      induction l using rec' with | h l ls
      simp only [fst_mk, snd_mk, mk_le_mk] at *
      have hl : (l : ℚ) ≤ 0 := by
        have : l ≤ 0 := by omega
        exact_mod_cast this
      rcases h1 with h1 | ⟨h1, h3⟩
      · have h1' : (0 : ℚ) < (u : ℚ) + l := by exact_mod_cast h1
        refine ⟨((u : ℚ) - l) / 2, by linarith, fun _ => ⟨.inr ?_, ?_⟩⟩
        · cases us <;> simp [UpSat] <;> linarith
        · cases ls <;> simp [UpSat] <;> linarith
      · have h3 : us = true ∧ ls = true := by revert h3; clear * -; revert us ls; decide
        obtain ⟨rfl, rfl⟩ := h3
        have h1' : (0 : ℚ) = (u : ℚ) + l := by exact_mod_cast h1
        refine ⟨u, by linarith, fun _ => ⟨.inr ?_, ?_⟩⟩
        · simp [UpSat]
        · simp [UpSat]; linarith
    · exact ⟨0, le_rfl, fun h => absurd h hi⟩
  choose f hf using key
  exact ⟨f, fun i => (hf i).1, (holds_iff _ _).2 fun i hi => (hf i).2 hi⟩

theorem asConstraints_holds (a : ConjIneq) {v : Valuation} (hv : v.Nonneg) : a.asConstraints.Holds v ↔ a.Holds v := by
  unfold asConstraints
  rw [Guard.holds_append, holds_iff]
  have h1 : Guard.Holds ((List.range a.dim).filterMap fun i =>
      if maxValue ≤ (a.up i).fst then none
      else some (if (a.up i).snd then (⟨i, .le, (a.up i).fst⟩ : Constraint) else ⟨i, .lt, (a.up i).fst⟩)) v ↔
      ∀ i < a.dim, UpOk (v i) (a.up i) := by
    unfold Guard.Holds
    simp only [List.mem_filterMap, List.mem_range]
    have one : ∀ i, (¬ maxValue ≤ (a.up i).fst →
        Constraint.Holds (if (a.up i).snd then (⟨i, .le, (a.up i).fst⟩ : Constraint) else ⟨i, .lt, (a.up i).fst⟩) v) ↔
        UpOk (v i) (a.up i) := by
      intro i
      unfold UpOk
      by_cases h : maxValue ≤ (a.up i).fst
      · simp [h]
      · cases hs : (a.up i).snd <;> simp [h, hs, UpSat, Constraint.Holds]
    constructor
    · intro hh i hi
      rw [← one]
      intro hm
      exact hh _ ⟨i, hi, by rw [if_neg hm]⟩
    · rintro hh c ⟨i, hi, hc⟩
      by_cases hm : maxValue ≤ (a.up i).fst
      · rw [if_pos hm] at hc; simp at hc
      · rw [if_neg hm, Option.some.injEq] at hc
        rw [← hc]
        exact (one i).2 (hh i hi) hm
  have h2 : Guard.Holds ((List.range a.dim).filterMap fun i =>
      if IntBound.mk 0 true ≤ a.low i then none
      else some (if (a.low i).snd then (⟨i, .ge, -(a.low i).fst⟩ : Constraint) else ⟨i, .gt, -(a.low i).fst⟩)) v ↔
      ∀ i < a.dim, UpSat (-v i) (a.low i) := by
    unfold Guard.Holds
    simp only [List.mem_filterMap, List.mem_range]
    have one : ∀ i, (¬ IntBound.mk 0 true ≤ a.low i →
        Constraint.Holds (if (a.low i).snd then (⟨i, .ge, -(a.low i).fst⟩ : Constraint) else ⟨i, .gt, -(a.low i).fst⟩) v) ↔
        UpSat (-v i) (a.low i) := by
      intro i
      by_cases h : IntBound.mk 0 true ≤ a.low i
      · have : UpSat (-v i) (a.low i) := by
          refine UpSat.mono ?_ h
          have := hv i
          simp [UpSat, this]
        simp [h, this]
      · simp only [h, not_false_eq_true, forall_const]
        cases hs : (a.low i).snd <;> simp [hs, UpSat, Constraint.Holds] <;> constructor <;> intro <;> linarith
    constructor
    · intro hh i hi
      rw [← one]
      intro hm
      exact hh _ ⟨i, hi, by rw [if_neg hm]⟩
    · rintro hh c ⟨i, hi, hc⟩
      by_cases hm : IntBound.mk 0 true ≤ a.low i
      · rw [if_pos hm] at hc; simp at hc
      · rw [if_neg hm, Option.some.injEq] at hc
        rw [← hc]
        exact (one i).2 (hh i hi) hm
  rw [h1, h2]
  constructor
  · rintro ⟨h1, h2⟩ i hi; exact ⟨h1 i hi, h2 i hi⟩
  · intro h; exact ⟨fun i hi => (h i hi).1, fun i hi => (h i hi).2⟩

theorem includes_iff (a b : ConjIneq) : a.includes b = true ↔ ∀ i < a.dim, b.up i ≤ a.up i ∧ b.low i ≤ a.low i := by
  unfold includes
  simp [List.all_eq_true]

theorem includes_sound {a b : ConjIneq} (hd : a.dim = b.dim) (h : a.includes b = true) {v : Valuation} (hb : b.Holds v) :
    a.Holds v := by
  rw [includes_iff] at h
  rw [holds_iff] at hb ⊢
  intro i hi
  have hb := hb i (hd ▸ hi)
  exact ⟨hb.1.mono (h i hi).1, hb.2.mono (h i hi).2⟩

/-- The upper bounds are at most the value for "none". -/
def UpNormal (a : ConjIneq) : Prop := ∀ i < a.dim, a.up i ≤ IntBound.mk maxValue false

/-- One clock: a value of the satisfiable bounds `u`, `l` which is above the bound `u'`. -/
theorem above {u l u' : IntBound} (h : IntBound.mk 0 true ≤ addBound u l) (hl : l ≤ IntBound.mk 0 true)
    (hu : u ≤ IntBound.mk maxValue false) (hlt : u' < u) : ∃ q : ℚ, 0 ≤ q ∧ UpOk q u ∧ UpSat (-q) l ∧ ¬ UpOk q u' := by
  induction u using rec' with | h u us
  induction u' using rec' with | h u' us'
  induction l using rec' with | h l ls
  unfold addBound at h
  simp only [fst_mk, snd_mk, mk_le_mk, mk_lt_mk, UpOk] at *
  have hl0 : (l : ℚ) ≤ 0 := by
    have : l ≤ 0 := by omega
    exact_mod_cast this
  have hu' : ¬ maxValue ≤ u' := by
    intro hm
    rcases hlt with h1 | ⟨h1, h2⟩
    · omega
    · have e : u = maxValue := by omega
      rcases hu with h3 | ⟨_, h3⟩
      · omega
      · have : us = false := by revert h3; clear * -; revert us; decide
        subst this
        revert h2; clear * -; revert us'; decide
  have notUp : ∀ q : ℚ, ((u' : ℚ) < q ∨ ((u' : ℚ) ≤ q ∧ us' = false)) → ¬ (maxValue ≤ u' ∨ UpSat q (IntBound.mk u' us')) := by
    rintro q hq (h1 | h1)
    · exact hu' h1
    · cases us' <;> simp only [UpSat, fst_mk, snd_mk, if_true, Bool.false_eq_true, if_false] at h1 hq <;>
        rcases hq with hq | ⟨hq, _⟩ <;> first | linarith | contradiction
  rcases h with h | ⟨h, h3⟩
  · have hq : (0 : ℚ) < (u : ℚ) + l := by exact_mod_cast h
    rcases hlt with h1 | ⟨h1, h2⟩
    · have h1q : (u' : ℚ) < u := by exact_mod_cast h1
      have a1 := le_max_left (u' : ℚ) (-l)
      have a2 := le_max_right (u' : ℚ) (-l)
      have a3 : max (u' : ℚ) (-l) < u := max_lt h1q (by linarith)
      refine ⟨(max (u' : ℚ) (-l) + u) / 2, by linarith, .inr ?_, ?_, notUp _ (.inl (by linarith))⟩
      · cases us <;> simp [UpSat] <;> linarith
      · cases ls <;> simp [UpSat] <;> linarith
    · have e : us = true ∧ us' = false := by revert h2; clear * -; revert us us'; decide
      obtain ⟨rfl, rfl⟩ := e
      subst h1
      refine ⟨u', by linarith, .inr (by simp [UpSat]), ?_, notUp _ (.inr ⟨le_rfl, rfl⟩)⟩
      cases ls <;> simp [UpSat] <;> linarith
  · have h3 : us = true ∧ ls = true := by revert h3; clear * -; revert us ls; decide
    obtain ⟨rfl, rfl⟩ := h3
    have hq : (0 : ℚ) = (u : ℚ) + l := by exact_mod_cast h
    refine ⟨u, by linarith, .inr (by simp [UpSat]), by simp [UpSat]; linarith, notUp _ ?_⟩
    rcases hlt with h1 | ⟨h1, h2⟩
    · left; exact_mod_cast h1
    · right
      have e : us' = false := by revert h2; clear * -; revert us'; decide
      exact ⟨by rw [h1], e⟩

/-- One clock: a value of the satisfiable bounds `u`, `l` which is below the lower bound `l'`. -/
theorem below {u l l' : IntBound} (h : IntBound.mk 0 true ≤ addBound u l) (hl : l ≤ IntBound.mk 0 true)
    (hlt : l' < l) : ∃ q : ℚ, 0 ≤ q ∧ UpOk q u ∧ UpSat (-q) l ∧ ¬ UpSat (-q) l' := by
  induction u using rec' with | h u us
  induction l' using rec' with | h l' ls'
  induction l using rec' with | h l ls
  unfold addBound at h
  simp only [fst_mk, snd_mk, mk_le_mk, mk_lt_mk, UpOk] at *
  have hl0 : (l : ℚ) ≤ 0 := by
    have : l ≤ 0 := by omega
    exact_mod_cast this
  have notUp : ∀ q : ℚ, ((l' : ℚ) < q ∨ ((l' : ℚ) ≤ q ∧ ls' = false)) → ¬ UpSat q (IntBound.mk l' ls') := by
    rintro q hq h1
    cases ls' <;> simp only [UpSat, fst_mk, snd_mk, if_true, Bool.false_eq_true, if_false] at h1 hq <;>
      rcases hq with hq | ⟨hq, _⟩ <;> first | linarith | contradiction
  rcases h with h | ⟨h, h3⟩
  · have hq : (0 : ℚ) < (u : ℚ) + l := by exact_mod_cast h
    rcases hlt with h1 | ⟨h1, h2⟩
    · have h1q : (l' : ℚ) < l := by exact_mod_cast h1
      have a1 := le_max_left (l' : ℚ) (-u)
      have a2 := le_max_right (l' : ℚ) (-u)
      have a3 : max (l' : ℚ) (-u) < l := max_lt h1q (by linarith)
      refine ⟨-((max (l' : ℚ) (-u) + l) / 2), by linarith, .inr ?_, ?_, notUp _ (.inl (by linarith))⟩
      · cases us <;> simp [UpSat] <;> linarith
      · cases ls <;> simp [UpSat] <;> linarith
    · have e : ls = true ∧ ls' = false := by revert h2; clear * -; revert ls ls'; decide
      obtain ⟨rfl, rfl⟩ := e
      subst h1
      refine ⟨-l', by linarith, .inr ?_, by simp [UpSat], notUp _ (.inr ⟨by simp, rfl⟩)⟩
      cases us <;> simp [UpSat] <;> linarith
  · have h3 : us = true ∧ ls = true := by revert h3; clear * -; revert us ls; decide
    obtain ⟨rfl, rfl⟩ := h3
    have hq : (0 : ℚ) = (u : ℚ) + l := by exact_mod_cast h
    refine ⟨-l, by linarith, .inr (by simp [UpSat]; linarith), by simp [UpSat], notUp _ ?_⟩
    rcases hlt with h1 | ⟨h1, h2⟩
    · left; simp only [neg_neg]; exact_mod_cast h1
    · right
      have e : ls' = false := by revert h2; clear * -; revert ls'; decide
      exact ⟨by rw [h1]; simp, e⟩

theorem includes_complete {a b : ConjIneq} (hd : a.dim = b.dim) (hb : b.isSatisfiable = true) (hn : b.Nonneg)
    (hu : b.UpNormal) (h : ∀ v : Valuation, v.Nonneg → b.Holds v → a.Holds v) : a.includes b = true := by
  rw [includes_iff]
  obtain ⟨v0, h0, hv0⟩ := holds_of_isSatisfiable hn hb
  unfold isSatisfiable at hb
  simp only [List.all_eq_true, List.mem_range, decide_eq_true_eq] at hb
  have key : ∀ i < a.dim, ∀ q : ℚ, 0 ≤ q → UpOk q (b.up i) → UpSat (-q) (b.low i) → UpOk q (a.up i) ∧ UpSat (-q) (a.low i) := by
    intro i hi q hq h1 h2
    have := h (Function.update v0 i q) (by
      intro j
      by_cases e : j = i
      · subst e; simpa using hq
      · rw [Function.update_of_ne e]; exact h0 j) (by
      rw [holds_iff] at hv0 ⊢
      intro j hj
      by_cases e : j = i
      · subst e; simpa using ⟨h1, h2⟩
      · rw [Function.update_of_ne e]; exact hv0 j hj)
    have := (holds_iff _ _).1 this i hi
    simpa using this
  intro i hi
  have hi' : i < b.dim := hd ▸ hi
  constructor
  · by_contra hlt
    obtain ⟨q, h1, h2, h3, h4⟩ := above (hb i hi') (hn i hi') (hu i hi') (not_le.1 hlt)
    exact h4 (key i hi q h1 h2 h3).1
  · by_contra hlt
    obtain ⟨q, h1, h2, h3, h4⟩ := below (hb i hi') (hn i hi') (not_le.1 hlt)
    exact h4 (key i hi q h1 h2 h3).2

theorem prune_sub {kept rest : List ConjIneq} {a : ConjIneq} (h : a ∈ prune kept rest) : a ∈ kept ∨ a ∈ rest := by
  induction rest generalizing kept with
  | nil => exact .inl h
  | cons it rest ih =>
    unfold prune at h
    split at h
    · rcases ih h with h | h <;> simp [h]
    · rcases ih h with h | h
      · simp only [List.mem_append, List.mem_singleton] at h
        rcases h with h | h <;> simp [h]
      · simp [h]

theorem prune_holds {n : ℕ} {kept rest : List ConjIneq} (h1 : ∀ a ∈ kept, a.dim = n) (h2 : ∀ a ∈ rest, a.dim = n)
    (v : Valuation) : (∃ a ∈ prune kept rest, a.Holds v) ↔ ∃ a ∈ kept ++ rest, a.Holds v := by
  induction rest generalizing kept with
  | nil => simp [prune]
  | cons it rest ih =>
    unfold prune
    split
    · rename_i h
      rw [ih h1 fun a ha => h2 a (by simp [ha])]
      simp only [Bool.or_eq_true, List.any_eq_true] at h
      constructor
      · rintro ⟨g, hg, hv⟩
        exact ⟨g, by simp only [List.mem_append, List.mem_cons] at *; tauto, hv⟩
      · rintro ⟨g, hg, hv⟩
        simp only [List.mem_append, List.mem_cons] at hg
        have hit := h2 it (by simp)
        rcases hg with hg | rfl | hg
        · exact ⟨g, by simp [hg], hv⟩
        · rcases h with ⟨g', hg', hw⟩ | ⟨g', hg', hw⟩
          · exact ⟨g', by simp [hg'], includes_sound ((h2 g' (by simp [hg'])).trans hit.symm) hw hv⟩
          · exact ⟨g', by simp [hg'], includes_sound ((h1 g' hg').trans hit.symm) hw hv⟩
        · exact ⟨g, by simp [hg], hv⟩
    · rw [ih (by intro a ha; rcases List.mem_append.1 ha with ha | ha
                 · exact h1 a ha
                 · rw [List.mem_singleton.1 ha]; exact h2 it (by simp)) fun a ha => h2 a (by simp [ha])]
      simp

@[simp] theorem addConstraint_dim (a : ConjIneq) (c : Constraint) : (a.addConstraint c).dim = a.dim := by
  unfold addConstraint; split <;> rfl

@[simp] theorem ofConstraint_dim (c : Constraint) (n : ℕ) : (ofConstraint c n).dim = n := by
  unfold ofConstraint assign trivial; split <;> rfl

theorem small_min {a b : IntBound} {m : ℤ} (ha : m < a.fst) (hb : m < b.fst) : m < (min a b).fst := by
  rcases min_choice a b with h | h <;> rw [h] <;> assumption

theorem toBound_fst (c : Constraint) : c.toBound.fst = c.c := by unfold Constraint.toBound; split <;> rfl

theorem addConstraint_small {a : ConjIneq} (ha : a.Small) {c : Constraint} (hc : c.c < maxValue) : (a.addConstraint c).Small := by
  intro i hi
  rw [addConstraint_dim] at hi
  unfold addConstraint
  split
  · exact ha i hi
  · simp only
    by_cases e : i = c.x
    · subst e
      rw [Function.update_self]
      refine small_min (ha _ hi) ?_
      show -maxValue < -c.toBound.fst
      rw [toBound_fst]; omega
    · rw [Function.update_of_ne e]; exact ha i hi

theorem ofConstraint_small {n : ℕ} {c : Constraint} (hc : c.c < maxValue) : (ofConstraint c n).Small := by
  intro i _
  unfold ofConstraint assign trivial
  split
  · simp [maxValue]
  · simp only
    by_cases e : i = c.x
    · subst e
      rw [Function.update_self]
      show -maxValue < -c.toBound.fst
      rw [toBound_fst]; omega
    · rw [Function.update_of_ne e]; simp [maxValue]

open Guard in
theorem negateFold_holds (n : ℕ) (ds : List (List Constraint)) (acc : List ConjIneq) {v : Valuation}
    (hd : ∀ d ∈ ds, d ≠ [] ∧ ∀ c ∈ d, c.c < maxValue ∧ c.x < n) (hacc : ∀ a ∈ acc, a.dim = n ∧ a.Small) :
    (∀ a ∈ (ds.foldl (negateStep n) (false, acc)).2, a.dim = n ∧ a.Small) ∧
    ((∃ a ∈ (ds.foldl (negateStep n) (false, acc)).2, a.Holds v) ↔
      (∃ a ∈ acc, a.Holds v) ∧ ∀ d ∈ ds, Clause.Holds d v) := by
  induction ds generalizing acc with
  | nil => exact ⟨hacc, by simp⟩
  | cons d ds ih =>
    obtain ⟨hne, hdc⟩ := hd d (by simp)
    have he : d.isEmpty = false := by cases d <;> simp_all
    have hstep : negateStep n (false, acc) d = (false, prune [] (d.flatMap fun c => acc.filterMap fun conj =>
        if (conj.addConstraint c).isSatisfiable then some (conj.addConstraint c) else none)) := by
      simp [negateStep, he]
    set new := d.flatMap fun c => acc.filterMap fun conj =>
        if (conj.addConstraint c).isSatisfiable then some (conj.addConstraint c) else none with hnew
    have hmem : ∀ a, a ∈ new ↔ ∃ c ∈ d, ∃ b ∈ acc, (b.addConstraint c).isSatisfiable = true ∧ b.addConstraint c = a := by
      intro a
      rw [hnew]
      simp only [List.mem_flatMap, List.mem_filterMap, Option.ite_none_right_eq_some, Option.some.injEq]
    have hall : ∀ a ∈ new, a.dim = n ∧ a.Small := by
      intro a ha
      obtain ⟨c, hc, b, hb, _, rfl⟩ := (hmem a).1 ha
      exact ⟨by rw [addConstraint_dim]; exact (hacc b hb).1, addConstraint_small (hacc b hb).2 (hdc c hc).1⟩
    rw [List.foldl_cons, hstep]
    obtain ⟨k1, k2⟩ := ih (prune [] new) (fun d' h' => hd d' (by simp [h'])) (by
      intro a ha
      rcases prune_sub ha with h | h
      · simp at h
      · exact hall a h)
    refine ⟨k1, k2.trans ?_⟩
    rw [prune_holds (n := n) (by simp) (fun a ha => (hall a ha).1), List.nil_append]
    have : (∃ a ∈ new, a.Holds v) ↔ (∃ a ∈ acc, a.Holds v) ∧ Clause.Holds d v := by
      constructor
      · rintro ⟨a, ha, hv⟩
        obtain ⟨c, hc, b, hb, _, rfl⟩ := (hmem a).1 ha
        rw [addConstraint_holds b c (by rw [(hacc b hb).1]; exact (hdc c hc).2) (hdc c hc).1] at hv
        exact ⟨⟨b, hb, hv.1⟩, c, hc, hv.2⟩
      · rintro ⟨⟨b, hb, h1⟩, c, hc, h2⟩
        have hh := (addConstraint_holds b c (by rw [(hacc b hb).1]; exact (hdc c hc).2) (hdc c hc).1 v).2 ⟨h1, h2⟩
        exact ⟨_, (hmem _).2 ⟨c, hc, b, hb, isSatisfiable_of_holds (addConstraint_small (hacc b hb).2 (hdc c hc).1) hh, rfl⟩, hh⟩
    rw [this]
    simp [and_assoc]

theorem le_foldl_dim (g : Guard) (d : ℕ) : d ≤ g.foldl (fun d c => max d (1 + c.x)) d ∧
    ∀ c ∈ g, c.x < g.foldl (fun d c => max d (1 + c.x)) d := by
  induction g generalizing d with
  | nil => simp
  | cons c g ih =>
    obtain ⟨h1, h2⟩ := ih (max d (1 + c.x))
    rw [List.foldl_cons]
    refine ⟨by omega, fun c' hc' => ?_⟩
    rcases List.mem_cons.1 hc' with rfl | h
    · omega
    · exact h2 c' h

theorem lt_dimension (dnf : List Guard) {g : Guard} (hg : g ∈ dnf) {c : Constraint} (hc : c ∈ g) : c.x < dimension dnf := by
  unfold dimension
  have key : ∀ (l : List Guard) (d : ℕ), d ≤ l.foldl (fun d g => g.foldl (fun d c => max d (1 + c.x)) d) d ∧
      ∀ g ∈ l, ∀ c ∈ g, c.x < l.foldl (fun d g => g.foldl (fun d c => max d (1 + c.x)) d) d := by
    intro l
    induction l with
    | nil => simp
    | cons g l ih =>
      intro d
      rw [List.foldl_cons]
      obtain ⟨h1, h2⟩ := le_foldl_dim g d
      obtain ⟨h3, h4⟩ := ih (g.foldl (fun d c => max d (1 + c.x)) d)
      refine ⟨h1.trans h3, fun g' hg' c hc => ?_⟩
      rcases List.mem_cons.1 hg' with rfl | h
      · exact lt_of_lt_of_le (h2 c hc) h3
      · exact h4 g' h c hc
  exact (key dnf 0).2 g hg c hc

open Guard in
theorem negate_holds (dnf : List Guard) (hne : dnf ≠ []) (hd : ∀ g ∈ dnf, g ≠ []) (hs : ∀ g ∈ dnf, SmallGuard g)
    {v : Valuation} (hv : v.Nonneg) : DNF.Holds (negate dnf) v ↔ ¬ DNF.Holds dnf v := by
  have hcl : ∀ g ∈ dnf, negateAll g ≠ [] ∧ ∀ c ∈ negateAll g, c.c < maxValue ∧ c.x < dimension dnf := by
    intro g hg
    refine ⟨by simpa [negateAll] using hd g hg, fun c hc => ?_⟩
    obtain ⟨c', hc', rfl⟩ := List.mem_map.1 hc
    have h1 := hs g hg c' hc'
    have h2 := lt_dimension dnf hg hc'
    rcases c' with ⟨x, o, k⟩
    cases o <;> exact ⟨h1, h2⟩
  have hres : DNF.Holds (negate dnf) v ↔
      ∃ a ∈ ((dnf.map negateAll).foldl (negateStep (dimension dnf)) (true, [])).2, a.Holds v := by
    unfold negate DNF.Holds
    simp only [List.mem_map, exists_exists_and_eq_and]
    exact exists_congr fun a => and_congr_right fun _ => asConstraints_holds a hv
  rw [hres]
  generalize dimension dnf = n at hcl
  cases dnf with
  | nil => exact absurd rfl hne
  | cons g dnf =>
    have hg := hcl g (by simp)
    have he : (negateAll g).isEmpty = false := by
      cases h : negateAll g
      · exact absurd h hg.1
      · rfl
    rw [List.map_cons, List.foldl_cons, show negateStep n (true, []) (negateAll g) =
      (false, (negateAll g).map fun c => ofConstraint c n) by simp [negateStep, he]]
    obtain ⟨_, h⟩ := negateFold_holds (v := v) n (dnf.map negateAll) ((negateAll g).map fun c => ofConstraint c n)
      (by
        intro d hd'
        obtain ⟨g', hg', rfl⟩ := List.mem_map.1 hd'
        exact hcl g' (by simp [hg']))
      (by
        intro a ha
        obtain ⟨c, hc, rfl⟩ := List.mem_map.1 ha
        exact ⟨by simp, ofConstraint_small (hg.2 c hc).1⟩)
    rw [h]
    have h1 : (∃ a ∈ (negateAll g).map fun c => ofConstraint c n, a.Holds v) ↔ ¬ g.Holds v := by
      rw [← negateAll_clause]
      simp only [List.mem_map, exists_exists_and_eq_and, Clause.Holds]
      exact exists_congr fun c => and_congr_right fun hc => ofConstraint_holds c n (hg.2 c hc).2 (hg.2 c hc).1 hv
    rw [h1]
    simp only [List.mem_map, forall_exists_index, and_imp, forall_apply_eq_imp_iff₂, negateAll_clause, DNF.Holds,
      List.mem_cons]
    push Not
    simp

end LearnTA.ConjIneq
