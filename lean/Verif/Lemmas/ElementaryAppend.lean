import Verif.Lemmas.Elementary

/-!
# Concatenation of timed conditions
-/

namespace LearnTA
open Zone
namespace TimedCondition

/-- The matrix of `append` before it is canonized. -/
def appendZone (a b : TimedCondition) : Zone :=
  let A := a.zone
  let B := b.zone
  let N := a.size
  let M := b.size
  ⟨N + M, fun i j =>
    if i ≤ N then
      if j ≤ N then
        if i = 0 then
          if j = 0 then A.val 0 0
          else A.val 0 j + B.val 0 1
        else if j = 0 then A.val i 0 + B.val 1 0
        else A.val i j
      else if i = 0 then B.val 0 (j - N + 1)
      else A.val i 0 + B.val 1 (j - N + 1)
    else if j ≤ N then
      if j = 0 then B.val (i - N + 1) 0
      else A.val 0 j + B.val (i - N + 1) 1
    else B.val (i - N + 1) (j - N + 1)⟩

theorem append_eq (a b : TimedCondition) : a.append b = ⟨(appendZone a b).canonize⟩ := rfl

@[simp] theorem append_dim (a b : TimedCondition) : (a.append b).zone.dim = a.size + b.size := by
  rw [append_eq]; simp [appendZone]

/-- Index of the second condition. -/
def bidx (N i : ℕ) : ℕ := if i = 0 then 0 else i - N + 1

/-- An index of the first condition. -/
def isA (N i : ℕ) : Prop := 1 ≤ i ∧ i ≤ N

instance (N i : ℕ) : Decidable (isA N i) := by unfold isA; infer_instance

theorem appendZone_val (a b : TimedCondition) (i j : ℕ) (h : i ≠ j) :
    (appendZone a b).val i j =
      if isA a.size i then
        if isA a.size j then a.zone.val i j
        else a.zone.val i 0 + b.zone.val 1 (bidx a.size j)
      else
        if isA a.size j then a.zone.val 0 j + b.zone.val (bidx a.size i) 1
        else b.zone.val (bidx a.size i) (bidx a.size j) := by
  unfold appendZone isA bidx
  simp only
  by_cases hi0 : i = 0 <;> by_cases hj0 : j = 0 <;> by_cases hiN : i ≤ a.size <;>
    by_cases hjN : j ≤ a.size <;>
    simp [hi0, hj0, hiN, hjN, Nat.one_le_iff_ne_zero] <;> (try omega)
  all_goals (simp_all)

theorem append_sat (a b : TimedCondition) (ha : a.Canonical) (hb : b.Canonical) (w : ℕ → ℚ) :
    (appendZone a b).Sat w ↔ ∃ q, a.zone.Sat (fun i => if i = 0 then q else w i) ∧
      b.zone.Sat (fun k => if k = 0 then w 0 else if k = 1 then q else w (a.size + k - 1)) := by
  have hN : a.size + 1 = a.zone.dim := by have := ha.1; unfold size; omega
  have hM : b.size + 1 = b.zone.dim := by have := hb.1; unfold size; omega
  have ha2 := ha.1
  have hb2 := hb.1
  have hdim : (appendZone a b).dim = a.size + b.size := rfl
  have hbidx : ∀ i, i < a.size + b.size → ¬ isA a.size i → bidx a.size i < b.zone.dim ∧
      bidx a.size i ≠ 1 := by
    intro i hi h; unfold bidx; unfold isA at h; split <;> omega
  have hwb : ∀ i, i < a.size + b.size → ¬ isA a.size i →
      (if bidx a.size i = 0 then w 0 else if bidx a.size i = 1 then 0 else w (a.size + bidx a.size i - 1)) = w i := by
    intro i hi h
    unfold bidx; unfold isA at h
    by_cases h0 : i = 0
    · simp [h0]
    · have e1 : i - a.size ≠ 0 := by omega
      have e2 : a.size + (i - a.size + 1) - 1 = i := by omega
      simp [h0, e1, e2]
  constructor
  · intro h
    obtain ⟨q, hq⟩ := Bound.exists_value (List.range (a.size + b.size)) w
      (fun i => if isA a.size i then a.zone.val 0 i else b.zone.val 1 (bidx a.size i))
      (fun i => if isA a.size i then a.zone.val i 0 else b.zone.val (bidx a.size i) 1) (by
        intro i hi j hj
        have hi : i < a.size + b.size := by simpa using hi
        have hj : j < a.size + b.size := by simpa using hj
        by_cases hij : i = j
        · subst hij
          rw [sub_self, Bound.sat_self_zero]
          by_cases hA : isA a.size i
          · simp only [hA, if_true]
            unfold isA at hA
            exact ha.2.1 i (by omega) 0 (by omega)
          · simp only [hA, if_false]
            exact hb.2.1 _ (hbidx i hi hA).1 1 (by omega)
        · have := h i hi j hj
          rw [appendZone_val a b i j hij] at this
          by_cases hA : isA a.size i <;> by_cases hB : isA a.size j <;>
            simp only [hA, hB, if_true, if_false] at this ⊢
          · unfold isA at hA hB
            exact this.mono (ha.2.2 i (by omega) j (by omega) 0 (by omega) hij)
          · exact this
          · rw [add_comm]; exact this
          · refine this.mono (hb.2.2 _ (hbidx i hi hA).1 _ (hbidx j hj hB).1 1 (by omega) ?_)
            unfold bidx; unfold isA at hA hB
            split <;> split <;> omega)
    refine ⟨q, ?_, ?_⟩
    · intro i hi j hj
      by_cases hij : i = j
      · subst hij; rw [sub_self, Bound.sat_self_zero]; exact ha.diagNN i hi
      by_cases hi0 : i = 0
      · subst hi0
        have hA : isA a.size j := by unfold isA; omega
        have := (hq j (by simp; unfold isA at hA; omega)).1
        simpa [hA, Ne.symm hij] using this
      · have hA : isA a.size i := by unfold isA; omega
        by_cases hj0 : j = 0
        · subst hj0
          have := (hq i (by simp; unfold isA at hA; omega)).2
          simpa [hA, hi0] using this
        · have hB : isA a.size j := by unfold isA; omega
          have := h i (by rw [hdim]; unfold isA at hA; omega) j (by rw [hdim]; unfold isA at hB; omega)
          rw [appendZone_val a b i j hij] at this
          simpa [hA, hB, hi0, hj0] using this
    · have hc : ∀ k < b.zone.dim, k ≠ 1 → ∃ i, i < a.size + b.size ∧ ¬ isA a.size i ∧ bidx a.size i = k ∧
          (if k = 0 then w 0 else if k = 1 then q else w (a.size + k - 1)) = w i := by
        intro k hk hk1
        by_cases hk0 : k = 0
        · exact ⟨0, by omega, by simp [isA], by simp [bidx, hk0], by simp [hk0]⟩
        · refine ⟨a.size + k - 1, by omega, by unfold isA; omega, ?_, by simp [hk0, hk1]⟩
          unfold bidx; split <;> omega
      intro i hi j hj
      by_cases hij : i = j
      · subst hij; rw [sub_self, Bound.sat_self_zero]; exact hb.diagNN i hi
      by_cases hi1 : i = 1
      · subst hi1
        obtain ⟨j', h1, h2, h3, h4⟩ := hc j hj (Ne.symm hij)
        have := (hq j' (by simpa using h1)).1
        simp only [h2, if_false, h3] at this
        simp only [h4]
        simpa using this
      · obtain ⟨i', h1, h2, h3, h4⟩ := hc i hi hi1
        by_cases hj1 : j = 1
        · subst hj1
          have := (hq i' (by simpa using h1)).2
          simp only [h2, if_false, h3] at this
          simp only [h4]
          simpa using this
        · obtain ⟨j', g1, g2, g3, g4⟩ := hc j hj hj1
          have hne : i' ≠ j' := by rintro rfl; exact hij (h3.symm.trans g3)
          have := h i' h1 j' g1
          rw [appendZone_val a b i' j' hne] at this
          simp only [h2, g2, if_false, h3, g3] at this
          simp only [h4, g4]
          exact this
  · rintro ⟨q, h1, h2⟩ i hi j hj
    rw [hdim] at hi hj
    have gB : ∀ i, i < a.size + b.size → ¬ isA a.size i →
        (if bidx a.size i = 0 then w 0 else if bidx a.size i = 1 then q
          else w (a.size + bidx a.size i - 1)) = w i := by
      intro i hi h
      have := hwb i hi h
      rw [if_neg (hbidx i hi h).2] at this ⊢
      exact this
    by_cases hij : i = j
    · subst hij
      rw [sub_self, Bound.sat_self_zero]
      unfold appendZone
      simp only
      split
      · split
        · exact ha.diagNN 0 (by omega)
        · exact ha.diagNN i (by omega)
      · exact hb.diagNN _ (by omega)
    · rw [appendZone_val a b i j hij]
      by_cases hA : isA a.size i <;> by_cases hB : isA a.size j <;>
        simp only [hA, hB, if_true, if_false]
      · unfold isA at hA hB
        have := h1 i (by omega) j (by omega)
        simpa [show i ≠ 0 by omega, show j ≠ 0 by omega] using this
      · have e1 := h1 i (by unfold isA at hA; omega) 0 (by omega)
        have e2 := h2 1 (by omega) _ (hbidx j hj hB).1
        simp only [gB j hj hB] at e2
        simp only [show i ≠ 0 by unfold isA at hA; omega, if_true, if_false] at e1
        have := e1.add e2
        simpa using this
      · have e1 := h1 0 (by omega) j (by unfold isA at hB; omega)
        have e2 := h2 _ (hbidx i hi hA).1 1 (by omega)
        simp only [gB i hi hA] at e2
        simp only [show j ≠ 0 by unfold isA at hB; omega, if_true, if_false] at e1
        have := e1.add e2
        have e : (q - w j) + (w i - q) = w i - w j := by ring
        simpa [e] using this
      · have := h2 _ (hbidx i hi hA).1 _ (hbidx j hj hB).1
        simpa only [gB i hi hA, gB j hj hB] using this

/-! ### Delays -/

/-- Concatenation of the delays of two timed words: the touching delays are added. -/
def glue (d1 d2 : List ℚ) : List ℚ := TimedWord.addBack d1 (d2.headD 0) ++ d2.tail

theorem eq_of_accV {d d' : List ℚ} (hl : d.length = d'.length)
    (h : ∀ i < d.length, accV d i = accV d' i) : d = d' := by
  apply List.ext_getElem hl
  intro i h1 h2
  have e1 := accV_step d h1
  have e2 := accV_step d' h2
  rw [h i h1] at e1
  have e3 : accV d (i + 1) = accV d' (i + 1) := by
    by_cases hi : i + 1 < d.length
    · exact h _ hi
    · rw [accV_ge d (by omega), accV_ge d' (by omega)]
  rw [e3, e2] at e1
  have : d'.getD i 0 = d.getD i 0 := by linarith
  simpa [List.getD, h1, h2] using this.symm

theorem glue_length {d1 d2 : List ℚ} (h1 : 1 ≤ d1.length) (h2 : 1 ≤ d2.length) :
    (glue d1 d2).length = d1.length + d2.length - 1 := by
  simp [glue, TimedWord.addBack]; omega

theorem accV_glue_left {d1 d2 : List ℚ} (h2 : 1 ≤ d2.length) {i : ℕ} (hi : i < d1.length) :
    accV (glue d1 d2) i = accV d1 i + accV d2 0 := by
  obtain ⟨x, l, rfl⟩ : ∃ x l, d1 = l ++ [x] := by
    rcases List.eq_nil_or_concat d1 with h | ⟨l, x, h⟩
    · subst h; simp at hi
    · exact ⟨x, l, by simpa using h⟩
  cases d2 with
  | nil => simp at h2
  | cons y r =>
    have hi : i ≤ l.length := by simpa [Nat.lt_succ_iff] using hi
    simp only [glue, TimedWord.addBack, List.dropLast_concat, List.headD_cons, List.tail_cons, accV,
      List.getLastD_concat, List.append_assoc]
    rw [List.drop_append_of_le_length hi, List.drop_append_of_le_length hi]
    simp; ring

theorem accV_glue_right {d1 d2 : List ℚ} (h1 : 1 ≤ d1.length) (h2 : 1 ≤ d2.length) {k : ℕ}
    (hk : 1 ≤ k) : accV (glue d1 d2) (d1.length + k - 1) = accV d2 k := by
  obtain ⟨x, l, rfl⟩ : ∃ x l, d1 = l ++ [x] := by
    rcases List.eq_nil_or_concat d1 with h | ⟨l, x, h⟩
    · subst h; simp at h1
    · exact ⟨x, l, by simpa using h⟩
  cases d2 with
  | nil => simp at h2
  | cons y r =>
    obtain ⟨k, rfl⟩ : ∃ k', k = k' + 1 := ⟨k - 1, by omega⟩
    simp only [glue, TimedWord.addBack, List.dropLast_concat, List.headD_cons, List.tail_cons, accV,
      List.getLastD_concat, List.length_append, List.length_singleton, List.drop_succ_cons]
    have e : l.length + 1 + (k + 1) - 1 = (l ++ [x + y]).length + k := by simp
    rw [e, List.drop_append, List.drop_eq_nil_of_le (by omega)]
    simp

theorem append_canonical (a b : TimedCondition) (ha : a.Canonical) (hb : b.Canonical) :
    (a.append b).Canonical := by
  have ha2 := ha.1
  have hb2 := hb.1
  obtain ⟨va, hva⟩ := ha.nonempty
  obtain ⟨vb, hvb⟩ := hb.nonempty
  rw [append_eq]
  have hN : a.size + 1 = a.zone.dim := by unfold size; omega
  have hM : b.size + 1 = b.zone.dim := by unfold size; omega
  have hs : (appendZone a b).Sat (fun i => if i = 0 then 0 else if i ≤ a.size then va (i - 1) + vb 0
      else vb (i - a.size)) := by
    rw [append_sat a b ha hb]
    refine ⟨vb 0, ?_, ?_⟩
    · have := hva.shift (-vb 0)
      refine this.congr fun i hi => ?_
      cases i with
      | zero => simp
      | succ i => simp [show i + 1 ≤ a.size by omega]
    · refine hvb.congr fun k hk => ?_
      by_cases h0 : k = 0
      · simp [h0]
      by_cases h1 : k = 1
      · simp [h1]
      · obtain ⟨k, rfl⟩ : ∃ k', k = k' + 2 := ⟨k - 2, by omega⟩
        have e : a.size + (k + 2) - 1 ≠ 0 := by omega
        have e2 : ¬ (a.size + (k + 2) - 1 ≤ a.size) := by omega
        have e3 : a.size + (k + 2) - 1 - a.size = k + 1 := by omega
        simp [e3, ext_succ]
  exact canonical_canonize (show 2 ≤ a.size + b.size by unfold size; omega) hs.toMem

theorem append_holds (a b : TimedCondition) (ha : a.Canonical) (hb : b.Canonical) (d : List ℚ) :
    (a.append b).Holds d ↔ ∃ d1 d2, a.Holds d1 ∧ b.Holds d2 ∧ d = glue d1 d2 := by
  have ha2 := ha.1
  have hb2 := hb.1
  have hN : a.size + 1 = a.zone.dim := by unfold size; omega
  have hM : b.size + 1 = b.zone.dim := by unfold size; omega
  have hsz : (a.append b).size = a.size + b.size - 1 := by
    conv_lhs => rw [size, append_dim]
  have hc := append_canonical a b ha hb
  have hsat : ∀ w, (a.append b).zone.Sat w ↔
      ∃ q, a.zone.Sat (fun i => if i = 0 then q else w i) ∧
      b.zone.Sat (fun k => if k = 0 then w 0 else if k = 1 then q else w (a.size + k - 1)) :=
    fun w => (canonize_sat _ w).trans (append_sat a b ha hb w)
  rw [holds_iff_mem _ hc.1 hc.diagNN, hsz]
  constructor
  · rintro ⟨hl, h⟩
    obtain ⟨q, h1, h2⟩ := (hsat _).1 h
    have h1' : a.zone.Mem (fun i => accV d i - q) := by
      refine (h1.shift q).congr fun i hi => ?_
      cases i <;> simp
    have h2' : b.zone.Mem (fun k => if k = 0 then q else accV d (a.size + k - 1)) := by
      refine h2.congr fun k hk => ?_
      cases k with
      | zero => simp
      | succ k =>
        cases k with
        | zero => simp
        | succ k =>
          have e : a.size + (k + 1 + 1) - 1 = a.size + (k + 1) - 1 + 1 := by omega
          simp [e]
    refine ⟨delays (fun i => accV d i - q) a.size,
      delays (fun k => if k = 0 then q else accV d (a.size + k - 1)) b.size, ?_, ?_, ?_⟩
    · rw [holds_iff_mem _ ha.1 ha.diagNN]
      exact ⟨by simp, mem_delays h1'⟩
    · rw [holds_iff_mem _ hb.1 hb.diagNN]
      exact ⟨by simp, mem_delays h2'⟩
    · have hlen : d.length = (glue (delays (fun i => accV d i - q) a.size)
          (delays (fun k => if k = 0 then q else accV d (a.size + k - 1)) b.size)).length := by
        rw [glue_length (by simp; omega) (by simp; omega)]; simpa using hl
      refine eq_of_accV hlen fun i hi => ?_
      by_cases hia : i < a.size
      · rw [accV_glue_left (by simp; omega) (by simpa using hia), accV_delays _ _ hia,
          accV_delays _ _ (by omega)]
        simp
      · have e : i = (delays (fun i => accV d i - q) a.size).length + (i - a.size + 1) - 1 := by
          simp; omega
        have e2 : a.size + (i - a.size + 1) - 1 = i := by omega
        conv_rhs => rw [e]
        rw [accV_glue_right (by simp; omega) (by simp; omega) (by omega), accV_delays _ _ (by omega)]
        simp [e2]
  · rintro ⟨d1, d2, h1, h2, rfl⟩
    rw [holds_iff_mem _ ha.1 ha.diagNN] at h1
    rw [holds_iff_mem _ hb.1 hb.diagNN] at h2
    obtain ⟨l1, h1⟩ := h1
    obtain ⟨l2, h2⟩ := h2
    refine ⟨by rw [glue_length (by omega) (by omega), l1, l2], ?_⟩
    refine (hsat _).2 ⟨accV d2 0, ?_, ?_⟩
    · have := h1.shift (-accV d2 0)
      refine this.congr fun i hi => ?_
      cases i with
      | zero => simp
      | succ i =>
        simp only [ext_succ, sub_neg_eq_add, Nat.succ_ne_zero, if_false]
        rw [accV_glue_left (by omega) (by omega)]
    · refine h2.congr fun k hk => ?_
      cases k with
      | zero => simp
      | succ k =>
        cases k with
        | zero => simp
        | succ k =>
          have e : a.size + (k + 1 + 1) - 1 = d1.length + (k + 1) - 1 + 1 := by omega
          simp only [ext_succ, Nat.succ_ne_zero, if_false, e, Nat.add_eq_right]
          rw [accV_glue_right (by omega) (by omega) (by omega)]

end TimedCondition
end LearnTA
