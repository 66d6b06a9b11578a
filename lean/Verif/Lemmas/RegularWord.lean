import Verif.Lemmas.ObservationTable5
import Verif.Spec.Backward

/-!
# Words whose regions can be moved backward
-/

namespace LearnTA
open TimedCondition

namespace BackwardRegional

theorem accumulateFront_length (t : ℚ) (d : List ℚ) : (accumulateFront t d).length = d.length := by
  induction d generalizing t with
  | nil => rfl
  | cons a d ih => simp [accumulateFront, ih]

theorem accumulateFront_get (t : ℚ) (d : List ℚ) (i : ℕ) (h : i < (accumulateFront t d).length) :
    (accumulateFront t d)[i] = t + T d 0 i := by
  induction d generalizing t i with
  | nil => simp [accumulateFront] at h
  | cons a d ih =>
    cases i with
    | zero => simp [accumulateFront, T]
    | succ i =>
      simp only [accumulateFront, List.getElem_cons_succ, ih]
      simp only [T, List.drop_zero, Nat.sub_zero, List.take_succ_cons, List.sum_cons]
      ring

theorem describes_neg {f : FractionalOrder} {v : ℕ → ℚ} (hP : f.Partition) (hD : f.Describes v) {q : ℚ}
    (hq : ∀ i < f.size, Int.fract (v i) = 0 ∨ Int.fract (v i) = q) : f.Describes fun i => -v i := by
  obtain ⟨qs, h1, h2⟩ := hD
  have hlt : ∀ g ∈ f.order, ∀ i ∈ g, i < f.size := by
    intro g hg i hi
    have := (hP.perm.mem_iff (a := i)).1 (List.mem_flatten.2 ⟨g, hg, hi⟩)
    simpa using this
  have hpos : ∀ x ∈ qs, 0 < x := fun x hx => List.rel_of_pairwise_cons h1 hx
  have hneg : ∀ x : ℚ, Int.fract x ≠ 0 → Int.fract (-x) = 1 - Int.fract x := fun x hx => Int.fract_neg hx
  have hzero : ∀ x : ℚ, Int.fract x = 0 → Int.fract (-x) = 0 := fun x hx => Int.fract_neg_eq_zero.2 hx
  cases ho : f.order with
  | nil => exact absurd ho hP.ne
  | cons g0 gs =>
    rw [ho] at h2
    cases h2 with
    | cons hg0 hgs =>
      have hne := hP.nonempty
      rw [ho] at hlt hne
      simp only [List.tail_cons] at hne
      cases hgs with
      | nil =>
        refine ⟨[], by simp, ?_⟩
        rw [ho]
        exact .cons (fun i hi => hzero _ (hg0 i hi)) .nil
      | @cons g1 q1 gs qs hg1 hgs =>
        cases hgs with
        | nil =>
          have hq1 := hpos q1 (by simp)
          obtain ⟨i, hi⟩ := List.exists_mem_of_ne_nil _ (hne g1 (by simp))
          have hlt1 := Int.fract_lt_one (v i)
          rw [hg1 i hi] at hlt1
          refine ⟨[1 - q1], by simpa using hlt1, ?_⟩
          rw [ho]
          refine .cons (fun i hi => hzero _ (hg0 i hi)) (.cons (fun i hi => ?_) .nil)
          rw [hneg _ (by rw [hg1 i hi]; exact hq1.ne'), hg1 i hi]
        | @cons g2 q2 gs qs hg2 hgs =>
          exfalso
          obtain ⟨i, hi⟩ := List.exists_mem_of_ne_nil _ (hne g1 (by simp))
          obtain ⟨j, hj⟩ := List.exists_mem_of_ne_nil _ (hne g2 (by simp))
          have e1 := hq i (hlt g1 (by simp) i hi)
          have e2 := hq j (hlt g2 (by simp) j hj)
          rw [hg1 i hi] at e1
          rw [hg2 j hj] at e2
          have p1 := hpos q1 (by simp)
          have p2 := hpos q2 (by simp)
          have hlt12 : q1 < q2 := by
            have := (List.pairwise_cons.1 (List.pairwise_cons.1 h1).2).1
            exact this q2 (by simp)
          rcases e1 with e1 | e1 <;> rcases e2 with e2 | e2 <;> subst_vars <;> linarith

theorem fromTimedWord_of (w : TimedWord) (hw : w.WF) (hf : w.OneFraction) :
    (fromTimedWord w).Of w.durations.length (negT w.durations) := by
  have hof := ForwardRegional.fromTimedWord_of w hw
  have hpos := hof.pos
  obtain ⟨g1, g2, g3⟩ := FractionalOrder.ofFractionalParts_spec (fun i => T w.durations 0 i) w.durations.length
    ((accumulateFront 0 w.durations).map fun q => q - ⌊q⌋) (by simp [accumulateFront_length]) (by
      intro i hi
      simp only [List.getElem_map, accumulateFront_get, zero_add]; rfl)
  obtain ⟨q, hq⟩ := hf
  have g4 := describes_neg g2 g3 (q := q) (by rw [g1]; exact hq)
  refine ⟨hpos, hw.symm, hof.dim, hof.diag, ?_, g1, g2, g4⟩
  have hd : (fromTimedWord w).cond.zone.dim = w.durations.length + 1 := hof.dim
  intro i hi j hj hij
  rw [hd] at hi hj
  rw [W_negT hpos rfl hi, W_negT hpos rfl hj]
  have := hof.region i (by rw [hof.dim]; exact hi) j (by rw [hof.dim]; exact hj) hij
  rw [show (fromTimedWord w).cond.zone.val i j = _ from this]
  congr 1; ring

theorem fromTimedWord_fine (w : TimedWord) (hw : w.WF) (hn : w.Nonneg) (hf : w.OneFraction) : (fromTimedWord w).Fine := by
  have hof := fromTimedWord_of w hw hf
  refine ⟨⟨_, _, hof, ?_, fun i hi => ?_⟩, (ofAccumulated_isRegion _).2.1⟩
  · have h0 := hof.pos
    cases hd : w.durations with
    | nil => simp [hd] at h0
    | cons a d =>
      have := hn a (by simp [hd])
      simpa [negT, T] using this
  · have := negT_step w.durations hi
    have := hn _ (List.getElem_mem hi)
    linarith

/-- The region of a word is regular if the sums of the first delays have at most one fractional part other than 0. -/
theorem fromTimedWord_regular (w : TimedWord) (hw : w.Legal) (hf : w.OneFraction) : (fromTimedWord w).Regular :=
  (fromTimedWord_fine w hw.wf hw.nonneg hf).regular hw.observable

end BackwardRegional
end LearnTA
