import Verif.Spec.ElementaryLanguage

/-!
# Words whose regions can be moved backward
-/

namespace LearnTA
open TimedCondition

/-- The sums of the first delays that are not integers all have the same fractional part. -/
def TimedWord.OneFraction (w : TimedWord) : Prop :=
  ∃ q : ℚ, ∀ i < w.durations.length, Int.fract (T w.durations 0 i) = 0 ∨ Int.fract (T w.durations 0 i) = q

/-- Whenever time passes before a word of the region, the next region that is visited is its predecessor. -/
def BackwardRegional.PredecessorNext (L : BackwardRegional) : Prop :=
  ∀ u : TimedWord, L.Mem u → ¬ L.predecessor.Mem u ∧ ∃ δ : ℚ, 0 < δ ∧ L.predecessor.Mem (u.prependDelay δ) ∧
    ∀ e, 0 ≤ e → e ≤ δ → L.Mem (u.prependDelay e) ∨ L.predecessor.Mem (u.prependDelay e)

end LearnTA
