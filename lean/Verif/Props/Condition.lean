import Verif.Lemmas.ConditionEdit
import Verif.Props.ElementaryLanguage

/-!
# Properties of the editing operations and tests of timed conditions (C78)
-/

namespace LearnTA.Props

open LearnTA TimedCondition

/-! ## C78 -/

/-- C78: appending an action to a condition (the discrete successor): the delays before the action satisfy the old
condition and no time has passed since. -/
theorem C78_append_action (c : TimedCondition) (h : 2 ≤ c.zone.dim) (d : List ℚ) (e : ℚ) :
    c.extendN.Holds (d ++ [e]) ↔ c.Holds d ∧ e = 0 := c.extendN_holds h d e

/-- C78: prepending an action (the discrete predecessor): the first delay is 0, the others satisfy the old condition. -/
theorem C78_prepend_action (c : TimedCondition) (h : 2 ≤ c.zone.dim) (d : List ℚ) (e : ℚ) :
    c.extendZero.Holds (e :: d) ↔ e = 0 ∧ c.Holds d := c.extendZero_holds h d e

example : exCond.extendN.Holds [1, 1, 0] ∧ ¬ exCond.extendN.Holds [1, 1, 1] ∧
    exCond.extendZero.Holds [0, 1, 1] ∧ ¬ exCond.extendZero.Holds [1, 1, 1] := by
  have h2 : 2 ≤ exCond.zone.dim := exCond_canonical.1
  have hx : exCond.Holds [1, 1] := by
    have := (C21_contains_exact exLang exLang_wf exCond_canonical.diagNN ⟨[97], [1, 1]⟩ rfl).1 (by decide +kernel)
    exact this.2
  refine ⟨(C78_append_action exCond h2 [1, 1] 0).2 ⟨hx, rfl⟩, fun h => ?_, (C78_prepend_action exCond h2 [1, 1] 0).2 ⟨rfl, hx⟩,
    fun h => ?_⟩
  · exact one_ne_zero ((C78_append_action exCond h2 [1, 1] 1).1 h).2
  · exact one_ne_zero ((C78_prepend_action exCond h2 [1, 1] 1).1 h).1

/-- C78: taking back an appended action. -/
theorem C78_take_back (c : TimedCondition) (h : 2 ≤ c.zone.dim) (d : List ℚ) :
    c.extendN.removeN.size = c.size ∧ (c.extendN.removeN.Holds d ↔ c.Holds d) := by
  have hs : c.extendN.removeN.size = c.size := by
    simp only [size, removeN, extendN]; omega
  refine ⟨hs, ?_⟩
  unfold Holds
  rw [hs]
  refine and_congr_right fun _ => forall_congr' fun i => forall_congr' fun j => ?_
  refine imp_congr_right fun hij => imp_congr_right fun hj => ?_
  have hd : c.zone.dim = c.size + 1 := by unfold size; omega
  have e : c.extendN.removeN.upper i j = c.upper i j ∧ c.extendN.removeN.lower i j = c.lower i j := by
    unfold upper lower
    rw [hs]
    have e1 : i + 1 ≠ c.zone.dim := by omega
    have e0 : 0 ≠ c.zone.dim := by omega
    split
    · simp [removeN, extendN, e1, e0]
    · have e2 : j + 2 ≠ c.zone.dim := by omega
      simp [removeN, extendN, e1, e2]
  rw [e.1, e.2]

/-- C78: removing the upper bounds lets any time pass at the end, and nothing else. -/
theorem C78_remove_upper_bounds {c : TimedCondition} (hc : c.Canonical) (d : List ℚ) :
    c.removeUpperBound.Holds d ↔ ∃ d' q, 0 ≤ q ∧ c.Holds d' ∧ d = TimedWord.addBack d' q :=
  removeUpperBound_holds hc d

/-- C78: removing the equality upper bounds drops exactly the non-strict upper bounds of the sums up to the end. -/
theorem C78_remove_equality_bounds (c : TimedCondition) (h : 2 ≤ c.zone.dim) (d : List ℚ) :
    c.removeEqualityUpperBound.Holds d ↔ d.length = c.size ∧
      ∀ i j, i ≤ j → j < c.size → Bound.Sat (-T d i j) (c.lower i j) ∧
        ((∃ k, j = c.size - 1 ∧ c.upper i j = .fin k true) ∨ Bound.Sat (T d i j) (c.upper i j)) := by
  have hs : c.removeEqualityUpperBound.size = c.size := rfl
  unfold Holds
  rw [hs]
  refine and_congr_right fun _ => forall_congr' fun i => forall_congr' fun j => ?_
  refine imp_congr_right fun hij => imp_congr_right fun hj => ?_
  have hl : c.removeEqualityUpperBound.lower i j = c.lower i j := by
    unfold lower
    rw [hs]
    split <;> simp [removeEqualityUpperBound]
  rw [hl, and_comm]
  refine and_congr_right fun _ => ?_
  unfold upper
  rw [hs]
  by_cases e : j = c.size - 1
  · simp only [if_pos e]
    simp only [removeEqualityUpperBound]
    cases hv : c.zone.val (i + 1) 0 with
    | inf => simp [Zone.secondOf, hv]
    | fin k s => cases s <;> simp [Zone.secondOf, hv, e, Bound.Sat]
  · simp only [if_neg e]
    simp [removeEqualityUpperBound, e]

/-- C78: the test for a continuous prefix is false exactly if no time can have passed after the last action. -/
theorem C78_hasPrefix {c : TimedCondition} (hc : c.Canonical) :
    c.hasPrefix = false ↔ ∀ d, c.Holds d → d.getLast? = some 0 := by
  have h2 := hc.1
  have hp : 1 ≤ c.size := by unfold size; omega
  have h := hc.zero_iff (i := c.size - 1) (j := c.size - 1) le_rfl (by omega)
  have e : ∀ d, c.Holds d → (T d (c.size - 1) (c.size - 1) = 0 ↔ d.getLast? = some 0) := by
    intro d hd
    have hl := hd.1
    have hne : d ≠ [] := by rintro rfl; simp at hl; omega
    obtain ⟨l, x, rfl⟩ : ∃ l x, d = l ++ [x] := ⟨_, _, (List.dropLast_append_getLast hne).symm⟩
    have : c.size - 1 = l.length := by simp at hl; omega
    rw [this, T_append_last]
    simp
  unfold hasPrefix
  simp only [Bool.not_eq_false', Bool.and_eq_true, decide_eq_true_eq]
  rw [h]
  exact forall_congr' fun d => imp_congr_right fun hd => e d hd

/-- C78: the test for a continuous suffix is false exactly if no time can pass before the first action. -/
theorem C78_hasSuffix {c : TimedCondition} (hc : c.Canonical) :
    c.hasSuffix = false ↔ ∀ d, c.Holds d → d.head? = some 0 := by
  have h2 := hc.1
  have hp : 1 ≤ c.size := by unfold size; omega
  have h := hc.zero_iff (i := 0) (j := 0) le_rfl (by omega)
  have e : ∀ d, c.Holds d → (T d 0 0 = 0 ↔ d.head? = some 0) := by
    intro d hd
    have hl := hd.1
    cases d with
    | nil => simp at hl; omega
    | cons x d => rw [T_cons_zero]; simp
  unfold hasSuffix
  simp only [Bool.not_eq_false', Bool.and_eq_true, decide_eq_true_eq]
  rw [h]
  exact forall_congr' fun d => imp_congr_right fun hd => e d hd

/-- C78: `hasEqualityN` tells whether the time since some event has a maximum in the condition. -/
theorem C78_hasEqualityN {c : TimedCondition} (hc : c.Canonical) :
    c.hasEqualityN = true ↔ ∃ i < c.size, ∃ d, c.Holds d ∧
      ∀ d', c.Holds d' → T d' i (c.size - 1) ≤ T d i (c.size - 1) := by
  unfold hasEqualityN
  simp only [List.any_eq_true, List.mem_range]
  refine exists_congr fun i => and_congr_right fun hi => ?_
  rw [← hc.attained_iff (by omega) (by omega)]
  unfold upper
  rw [if_pos rfl]

/-- C78: `isPoint` tells whether the time since the event `i` is the same in all words of the condition. -/
theorem C78_isPoint {c : TimedCondition} (hc : c.Canonical) {i : ℕ} (hi : i < c.size) :
    c.isPoint i = true ↔ ∃ q, ∀ d, c.Holds d → T d i (c.size - 1) = q := by
  unfold TimedCondition.isPoint Bound.isPoint
  constructor
  · intro h
    cases hu : c.upper i (c.size - 1) with
    | inf => rw [hu] at h; simp at h
    | fin u us =>
      cases hl : c.lower i (c.size - 1) with
      | inf => rw [hu, hl] at h; simp at h
      | fin l ls =>
        rw [hu, hl] at h
        simp only [Bool.and_eq_true, decide_eq_true_eq, beq_iff_eq] at h
        obtain ⟨⟨h1, rfl⟩, rfl⟩ := h
        refine ⟨u, fun d hd => ?_⟩
        have := hd.2 i (c.size - 1) (by omega) (by omega)
        rw [hu, hl] at this
        simp only [Bound.Sat] at this
        linarith [this.1, this.2]
  · rintro ⟨q, hq⟩
    obtain ⟨v, hv⟩ := hc.nonempty
    have hd0 : c.Holds (delays v c.size) := by
      rw [holds_iff_mem _ hc.1 hc.diagNN]; exact ⟨by simp, mem_delays hv⟩
    have s0 := hd0.2 i (c.size - 1) (by omega) (by omega)
    rw [hq _ hd0] at s0
    have up : c.upper i (c.size - 1) = .fin q true := by
      cases hu : c.upper i (c.size - 1) with
      | inf =>
        obtain ⟨d, hd, h⟩ := hc.realize_above (i := i) (j := c.size - 1) (by omega) (by omega) (q + 1) (by rw [hu]; trivial)
        rw [hq d hd] at h; linarith
      | fin k s =>
        have hs := s0.1
        rw [hu] at hs
        have hk : q ≤ k := by cases s <;> simp [Bound.Sat] at hs <;> linarith
        rcases hk.lt_or_eq with hk | hk
        · obtain ⟨d, hd, h⟩ := hc.realize_above (i := i) (j := c.size - 1) (by omega) (by omega) ((q + k) / 2) (by
            rw [hu]; cases s <;> simp only [Bound.Sat] <;> linarith)
          rw [hq d hd] at h; linarith
        · subst hk
          cases s
          · simp [Bound.Sat] at hs
          · rfl
    have lo : c.lower i (c.size - 1) = .fin (-q) true := by
      cases hu : c.lower i (c.size - 1) with
      | inf =>
        obtain ⟨d, hd, h⟩ := hc.realize_below (i := i) (j := c.size - 1) (by omega) (by omega) (q - 1) (by rw [hu]; trivial)
        rw [hq d hd] at h; linarith
      | fin k s =>
        have hs := s0.2
        rw [hu] at hs
        have hk : -q ≤ k := by cases s <;> simp [Bound.Sat] at hs <;> linarith
        rcases hk.lt_or_eq with hk | hk
        · obtain ⟨d, hd, h⟩ := hc.realize_below (i := i) (j := c.size - 1) (by omega) (by omega) ((q - k) / 2) (by
            rw [hu]; cases s <;> simp only [Bound.Sat] <;> linarith)
          rw [hq d hd] at h; linarith
        · subst hk
          cases s
          · simp [Bound.Sat] at hs
          · rfl
    rw [up, lo]
    simp

/-- C78: the guard made from a condition admits exactly those values of the clocks that each occur as the time since the
event in some word of the condition: it is the smallest guard that admits the condition. -/
theorem C78_toGuard {c : TimedCondition} (hc : c.Canonical) (hi : c.Integral) (v : Valuation) (hv : v.Nonneg) :
    Guard.Holds c.toGuard v ↔ ∀ i < c.size, ∃ d, c.Holds d ∧ T d i (c.size - 1) = v i := by
  have h2 := hc.1
  have hd : c.zone.dim = c.size + 1 := by unfold size; omega
  have key : Guard.Holds c.toGuard v ↔ ∀ i < c.size,
      Bound.Sat (v i) (c.upper i (c.size - 1)) ∧ Bound.Sat (-v i) (c.lower i (c.size - 1)) := by
    unfold Guard.Holds toGuard
    simp only [List.mem_flatMap, List.mem_range, List.mem_append]
    have one : ∀ i < c.size, (∀ x ∈ (match c.lower i (c.size - 1) with
          | .inf => ([] : Guard)
          | .fin l ls =>
            if Bound.fin l ls = Bound.fin 0 true then []
            else [⟨i, if ls then .ge else .gt, -⌈l⌉⟩]), Constraint.Holds x v) ↔
          Bound.Sat (-v i) (c.lower i (c.size - 1)) := by
      intro i hi'
      have hint : Bound.IsInt (c.lower i (c.size - 1)) := by
        unfold lower; rw [if_pos rfl]; exact hi _ (by omega) _ (by omega)
      cases hl : c.lower i (c.size - 1) with
      | inf => simp [Bound.Sat]
      | fin l ls =>
        rw [hl] at hint
        obtain ⟨n, rfl⟩ := hint
        by_cases e : Bound.fin (n : ℚ) ls = .fin 0 true
        · rw [Bound.fin.injEq] at e
          have hn : (n : ℚ) = 0 := e.1
          have := hv i
          simp [e.2, hn, Bound.Sat, this]
        · simp only [if_neg e, List.mem_singleton, forall_eq]
          cases ls <;> simp only [Constraint.Holds, Bound.Sat, Int.ceil_intCast, Int.cast_neg] <;>
            constructor <;> intro h <;> simp at h ⊢ <;> linarith
    have two : ∀ i < c.size, (∀ x ∈ (match c.upper i (c.size - 1) with
          | .inf => ([] : Guard)
          | .fin u us => [⟨i, if us then .le else .lt, ⌊u⌋⟩]), Constraint.Holds x v) ↔
          Bound.Sat (v i) (c.upper i (c.size - 1)) := by
      intro i hi'
      have hint : Bound.IsInt (c.upper i (c.size - 1)) := by
        unfold upper; rw [if_pos rfl]; exact hi _ (by omega) _ (by omega)
      cases hl : c.upper i (c.size - 1) with
      | inf => simp [Bound.Sat]
      | fin l ls =>
        rw [hl] at hint
        obtain ⟨n, rfl⟩ := hint
        cases ls <;> simp [Constraint.Holds, Bound.Sat]
    constructor
    · intro h i hi'
      exact ⟨(two i hi').1 fun x hx => h x ⟨i, hi', .inr hx⟩, (one i hi').1 fun x hx => h x ⟨i, hi', .inl hx⟩⟩
    · rintro h x ⟨i, hi', hx | hx⟩
      · exact (one i hi').2 (h i hi').2 x hx
      · exact (two i hi').2 (h i hi').1 x hx
  rw [key]
  constructor
  · intro h i hi'
    exact hc.realize (by omega) (by omega) _ (h i hi').1 (h i hi').2
  · intro h i hi'
    obtain ⟨d, hd', e⟩ := h i hi'
    rw [← e]
    exact hd'.2 i _ (by omega) (by omega)

example : exCond.hasPrefix = true ∧ exCond.extendN.hasPrefix = false ∧ exCond.extendZero.hasSuffix = false ∧
    exCond.hasEqualityN = true ∧ exCond.isPoint 0 = false := by decide +kernel
example : exCond.toGuard = [⟨0, .gt, 1⟩, ⟨0, .le, 3⟩, ⟨1, .le, 2⟩] := by decide +kernel

/-- C78: constraining an elementary language by a prefix of one of its words keeps exactly the words whose delays
before the actions of the prefix are those of the prefix. -/
theorem C78_constrain (e : ElementaryLanguage) (hc : e.cond.Canonical) (p : TimedWord) (hp : p.wordSize ≤ e.cond.size)
    (w0 : TimedWord) (h0 : e.Mem w0) (h0p : ∀ i < p.wordSize, w0.durations.getD i 0 = p.durations.getD i 0) :
    (e.constrain p).cond.Canonical ∧
    ∀ w, (e.constrain p).Mem w ↔ e.Mem w ∧ ∀ i < p.wordSize, w.durations.getD i 0 = p.durations.getD i 0 := by
  obtain ⟨h1, h2⟩ := foldl_nip_holds p.durations p.wordSize hc hp h0.2 h0p
  refine ⟨h1, fun w => ?_⟩
  have h2 := h2 w.durations
  unfold ElementaryLanguage.Mem
  show _ ∧ TimedCondition.Holds _ _ ↔ _
  unfold ElementaryLanguage.constrain
  rw [and_assoc]
  exact and_congr_right fun _ => h2

example : (exLang.constrain ⟨[97], [1, 0]⟩).Mem ⟨[97], [1, 1]⟩ ∧ exLang.Mem ⟨[97], [1/2, 1]⟩ ∧
    ¬ (exLang.constrain ⟨[97], [1, 0]⟩).Mem ⟨[97], [1/2, 1]⟩ := by
  have hm : ∀ w : TimedWord, w.WF → (exLang.contains w = true ↔ exLang.Mem w) :=
    fun w hw => C21_contains_exact exLang exLang_wf exCond_canonical.diagNN w hw
  have h1 : exLang.Mem ⟨[97], [1, 1]⟩ := (hm _ (by unfold TimedWord.WF; rfl)).1 (by decide +kernel)
  have h2 : exLang.Mem ⟨[97], [1/2, 1]⟩ := (hm _ (by unfold TimedWord.WF; rfl)).1 (by decide +kernel)
  obtain ⟨_, h⟩ := C78_constrain exLang exCond_canonical ⟨[97], [1, 0]⟩ (by decide) _ h1 (by
    intro i hi
    have : i = 0 := by simp only [TimedWord.wordSize, List.length_singleton] at hi; omega
    subst this; rfl)
  refine ⟨(h _).2 ⟨h1, ?_⟩, h2, fun hh => ?_⟩
  · intro i hi
    have : i = 0 := by simp only [TimedWord.wordSize, List.length_singleton] at hi; omega
    subst this; rfl
  · have := ((h _).1 hh).2 0 (by decide)
    norm_num at this

/-- C78: the test for simple bounds: they describe one point or an open unit interval. -/
theorem C78_isSimple (u l : Bound) : Bound.isSimple u l = true ↔
    ∃ c : ℚ, (∀ q, (Bound.Sat q u ∧ Bound.Sat (-q) l) ↔ q = c) ∨
      (∀ q, (Bound.Sat q u ∧ Bound.Sat (-q) l) ↔ c < q ∧ q < c + 1) := by
  unfold Bound.isSimple Bound.isPoint Bound.isUnitOpen
  constructor
  · intro h
    cases u with
    | inf => simp at h
    | fin u us =>
      cases l with
      | inf => simp at h
      | fin l ls =>
        simp only [Bool.or_eq_true, Bool.and_eq_true, decide_eq_true_eq, Bool.not_eq_true'] at h
        rcases h with ⟨⟨h1, rfl⟩, rfl⟩ | ⟨⟨h1, rfl⟩, rfl⟩
        · refine ⟨u, .inl fun q => ?_⟩
          simp only [Bound.Sat]
          constructor
          · rintro ⟨a, b⟩; linarith
          · rintro rfl; exact ⟨le_rfl, by linarith⟩
        · refine ⟨-l, .inr fun q => ?_⟩
          simp only [Bound.Sat]
          constructor
          · rintro ⟨a, b⟩; exact ⟨by linarith, by linarith⟩
          · rintro ⟨a, b⟩; exact ⟨by linarith, by linarith⟩
  · rintro ⟨c, h⟩
    cases u with
    | inf =>
      cases l with
      | inf =>
        rcases h with h | h
        · have := (h (c + 1)).1 (by simp [Bound.Sat]); linarith
        · have := (h (c + 1)).1 (by simp [Bound.Sat]); linarith [this.2]
      | fin l ls =>
        have big : ∀ q, -l < q → Bound.Sat q .inf ∧ Bound.Sat (-q) (.fin l ls) := by
          intro q hq
          refine ⟨trivial, ?_⟩
          cases ls <;> simp only [Bound.Sat] <;> linarith
        have m := big (max (-l) (c + 1) + 1) (by linarith [le_max_left (-l) (c + 1)])
        have e := le_max_right (-l) (c + 1)
        rcases h with h | h
        · have := (h _).1 m; linarith
        · have := ((h _).1 m).2; linarith
    | fin u us =>
      cases l with
      | inf =>
        have big : ∀ q, q < u → Bound.Sat q (.fin u us) ∧ Bound.Sat (-q) .inf := by
          intro q hq
          refine ⟨?_, trivial⟩
          cases us <;> simp only [Bound.Sat] <;> linarith
        have m := big (min u c - 1) (by linarith [min_le_left u c])
        have e := min_le_right u c
        rcases h with h | h
        · have := (h _).1 m; linarith
        · have := ((h _).1 m).1; linarith
      | fin l ls =>
        have mid : ∀ q, -l < q → q < u → Bound.Sat q (.fin u us) ∧ Bound.Sat (-q) (.fin l ls) := by
          intro q h1 h2
          cases us <;> cases ls <;> simp only [Bound.Sat] <;> constructor <;> linarith
        have ins : ∀ q, Bound.Sat q (.fin u us) ∧ Bound.Sat (-q) (.fin l ls) → -l ≤ q ∧ q ≤ u := by
          rintro q ⟨h1, h2⟩
          cases us <;> cases ls <;> simp only [Bound.Sat] at h1 h2 <;> constructor <;> linarith
        simp only [Bool.or_eq_true, Bool.and_eq_true, decide_eq_true_eq, Bool.not_eq_true']
        rcases h with h | h
        · left
          have hc := (h c).2 rfl
          have hb := ins c hc
          have he : -l = u := by
            by_contra hne
            have hlt : -l < u := lt_of_le_of_ne (hb.1.trans hb.2) hne
            have a := (h _).1 (mid ((-l + u) / 2) (by linarith) (by linarith))
            have b := (h _).1 (mid ((-l + (-l + u) / 2) / 2) (by linarith) (by linarith))
            linarith
          have e1 : c = u := by linarith [hb.1, hb.2]
          subst e1
          refine ⟨⟨he, ?_⟩, ?_⟩
          · cases us
            · exact absurd hc.1 (by simp [Bound.Sat])
            · rfl
          · cases ls
            · exact absurd hc.2 (by simp [Bound.Sat]; linarith)
            · rfl
        · right
          have m := ins _ ((h (c + 1 / 2)).2 ⟨by linarith, by linarith⟩)
          have e1 : u = c + 1 := by
            rcases lt_trichotomy u (c + 1) with g | g | g
            · have := ins _ ((h ((max u c + c + 1) / 2)).2 ⟨by
                have := le_max_right u c; linarith, by have : max u c < c + 1 := max_lt g (by linarith); linarith⟩)
              have a := le_max_left u c
              have b : max u c < c + 1 := max_lt g (by linarith)
              linarith [this.2]
            · exact g
            · have := ((h (c + 1)).1 (mid _ (by linarith [m.1]) g)).2; linarith
          have e2 : -l = c := by
            rcases lt_trichotomy (-l) c with g | g | g
            · have := ((h c).1 (mid _ g (by linarith))).1; linarith
            · exact g
            · have := ins _ ((h ((min (-l) (c + 1) + c) / 2)).2 ⟨by
                have : c < min (-l) (c + 1) := lt_min g (by linarith); linarith, by
                have := min_le_right (-l) (c + 1); linarith⟩)
              have a := min_le_left (-l) (c + 1)
              have b : c < min (-l) (c + 1) := lt_min g (by linarith)
              linarith [this.1]
          refine ⟨⟨by linarith, ?_⟩, ?_⟩
          · cases us
            · rfl
            · exact absurd ((h u).1 ⟨by simp [Bound.Sat], by
                cases ls <;> simp only [Bound.Sat] <;> linarith⟩).2 (by linarith)
          · cases ls
            · rfl
            · exact absurd ((h (-l)).1 ⟨by cases us <;> simp only [Bound.Sat] <;> linarith, by simp [Bound.Sat]⟩).1 (by linarith)

example : Bound.isSimple (.fin 3 false) (.fin (-2) false) = true ∧ Bound.isSimple (.fin 3 true) (.fin (-2) false) = false ∧
    Bound.isSimple (.fin 3 true) (.fin (-3) true) = true := by decide +kernel

end LearnTA.Props
