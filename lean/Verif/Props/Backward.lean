import Verif.Lemmas.RegularWord2

/-!
# C57 for regions of timed words
-/

namespace LearnTA.Props
open LearnTA TimedCondition

/-- A region made of a word by `predecessor`s in time and by actions. -/
theorem before_fine {w : TimedWord} (hw : w.WF) (hn : w.Nonneg) (hf : w.OneFraction) {L : BackwardRegional}
    (hL : (BackwardRegional.fromTimedWord w).Before L) : L.Fine :=
  (BackwardRegional.fromTimedWord_fine w hw hn hf).before hL

/-- C57 for regions made of the region of a timed word by any sequence of predecessors, if the sums of the first delays of the word
that are not integers all have the same fractional part: letting time pass before a word of the region leads to the
continuous predecessor, no other region is visited in between, and the two regions are disjoint. -/
theorem C57_oneFraction {w : TimedWord} (hw : w.WF) (hn : w.Nonneg) (hf : w.OneFraction) {L : BackwardRegional}
    (hL : (BackwardRegional.fromTimedWord w).Before L) {u : TimedWord} (hu : L.Mem u) :
    ¬ L.predecessor.Mem u ∧ ∃ δ : ℚ, 0 < δ ∧ L.predecessor.Mem (u.prependDelay δ) ∧
      ∀ e, 0 ≤ e → e ≤ δ → L.Mem (u.prependDelay e) ∨ L.predecessor.Mem (u.prependDelay e) := by
  obtain ⟨n, v, h1, _⟩ := (before_fine hw hn hf hL).region
  obtain ⟨g1, g2, g3⟩ := (h1.mem_iff u).1 hu
  obtain ⟨δ, a1, a2, a3⟩ := g3.predecessor
  refine ⟨fun hp => BackwardRegional.predecessor_disjoint g3 ((a2.mem_iff u).1 hp).2.2, δ, a1,
    (prependDelay_mem a2 g2 g1 δ).2 a2, fun e he0 he1 => ?_⟩
  rw [prependDelay_mem g3 g2 g1, prependDelay_mem a2 g2 g1]
  exact a3 e he0 he1

/-- The word `a` with the delays 3/10 and 1 is of this kind, and the region has three predecessors in a row. -/
example : (⟨[97], [3 / 10, 1]⟩ : TimedWord).OneFraction := by
  refine ⟨3 / 10, fun i hi => Or.inr ?_⟩
  have : i = 0 ∨ i = 1 := by simp at hi; omega
  rcases this with rfl | rfl
  · decide +kernel
  · decide +kernel

example : (BackwardRegional.fromTimedWord ⟨[97], [3 / 10, 1]⟩).predecessor.predecessor.predecessor.contains ⟨[97], [2, 1]⟩ = true := by
  decide +kernel

/-- C57: for the region of any other word this fails: some word of the region, or of its predecessor, does not come to the next
predecessor, however much time passes before it. -/
theorem C57_two_fractions {w : TimedWord} (hw : w.WF) (hf : ¬ w.OneFraction) :
    ∃ L : BackwardRegional, (BackwardRegional.fromTimedWord w).Before L ∧
      ∃ u, L.Mem u ∧ ∀ δ : ℚ, ¬ L.predecessor.Mem (u.prependDelay δ) :=
  BackwardRegional.not_next hw hf

/-- C57: so the predecessors of the region of a word, and of the regions made of it, are the next regions exactly if the sums of the
first delays of the word that are not integers all have the same fractional part. -/
theorem C57_exact {w : TimedWord} (hw : w.WF) (hn : w.Nonneg) :
    (∀ L, (BackwardRegional.fromTimedWord w).Before L → L.PredecessorNext) ↔ w.OneFraction := by
  constructor
  · intro h
    by_contra hf
    obtain ⟨L, hL, u, hu, hno⟩ := C57_two_fractions hw hf
    obtain ⟨-, δ, -, hδ, -⟩ := h L hL u hu
    exact hno δ hδ
  · exact fun hf L hL u hu => C57_oneFraction hw hn hf hL hu

/-- A word whose region cannot be moved backward. -/
example : ¬ (⟨[97], [3 / 10, 1 / 2]⟩ : TimedWord).OneFraction := by
  rintro ⟨q, hq⟩
  have h0 := hq 0 (by decide)
  have h1 := hq 1 (by decide)
  have e0 : Int.fract (TimedCondition.T [(3 : ℚ) / 10, 1 / 2] 0 0) = 3 / 10 := by decide +kernel
  have e1 : Int.fract (TimedCondition.T [(3 : ℚ) / 10, 1 / 2] 0 1) = 8 / 10 := by decide +kernel
  rw [show (⟨[97], [3 / 10, 1 / 2]⟩ : TimedWord).durations = [(3 : ℚ) / 10, 1 / 2] from rfl] at h0 h1
  rw [e0] at h0
  rw [e1] at h1
  rcases h0 with h | h
  · norm_num at h
  · subst h; norm_num at h1

end LearnTA.Props
