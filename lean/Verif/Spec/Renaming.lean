import Verif.Model.Renaming
import Verif.Spec.Juxtaposed
import Verif.Spec.TA

/-!
# Specification: clocks at the end of a timed word and their renaming
-/

namespace LearnTA

/-- The clocks at the end of a timed word: the clock `x` is the time from before the `x`-th delay to the
end. -/
def TimedWord.clocks (w : TimedWord) : Valuation := fun x => (w.durations.drop x).sum

/-- The value of the clock `x` is the same for all words of the language. -/
def ElementaryLanguage.Fixed (e : ElementaryLanguage) (x : ℕ) : Prop :=
  ∀ w w', e.Mem w → e.Mem w' → w.clocks x = w'.clocks x

/-- No clock of the second word is related to two clocks of the first. -/
def RenamingRelation.RightUnique (r : RenamingRelation) : Prop :=
  r.Pairwise fun p q => p.2 ≠ q.2

/-- No word of the language has a negative delay. -/
def ElementaryLanguage.Nonneg (e : ElementaryLanguage) : Prop :=
  ∀ w, e.Mem w → w.Nonneg

end LearnTA
