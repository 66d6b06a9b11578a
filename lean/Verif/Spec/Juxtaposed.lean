import Verif.Model.Juxtaposed
import Verif.Spec.Symbolic

/-!
# Specification: juxtaposed zones and the equivalence of prefixes
-/

namespace LearnTA

namespace JuxtaposedZone

/-- The valuation of the right zone in a juxtaposition of `M` left and `N` right variables, the last
`L` of which are common: the first `N - L` variables are stored after the left ones, the others are
the last `L` ones of the left zone. -/
def rightView (M N L : ℕ) (v : Valuation) : Valuation :=
  fun k => if k < N - L then v (M + k) else v (M - L + (k - (N - L)))

end JuxtaposedZone

/-- The renaming holds between a timed word and another one: for each of its pairs `(i, j)`, the time
from before the `i`-th delay of the first word to its end equals the time from before the `j`-th delay of
the second word to its end. -/
def RenamingRelation.Relates (r : RenamingRelation) (w w' : TimedWord) : Prop :=
  ∀ p ∈ r, (w.durations.drop p.1).sum = (w'.durations.drop p.2).sum

/-- `r` describes the words of the elementary language `e` that `f` accepts, by satisfiable conditions
that exclude each other.  This is what a symbolic membership query answers (`C41`). -/
structure IsCell (f : TimedWord → Bool) (e : ElementaryLanguage) (r : TimedConditionSet) : Prop where
  exact : ∀ w : TimedWord, w.word = e.word → (r.Holds w ↔ e.Mem w ∧ f w = true)
  apart : r.Pairwise fun c c' => ∀ d, ¬ (c.Holds d ∧ c'.Holds d)
  canonical : ∀ c ∈ r, c.Canonical ∧ c.size = e.cond.size

/-- A row of the observation table: one cell for each suffix. -/
def IsRow (f : TimedWord → Bool) (e : ElementaryLanguage) (suffixes : List ElementaryLanguage)
    (row : List TimedConditionSet) : Prop :=
  row.length = suffixes.length ∧
    ∀ i < suffixes.length, IsCell f (e.append (suffixes.getD i .empty)) (row.getD i [])

/-- The words `x` of `left · s` and `y` of `right · s` that a renaming `r` of the clocks at the end of
`left` and `right` identifies: after the actions of `left` and `right` everything happens at the same
distance from the end, and the clocks are related by `r` when the words end (and hence at any common time
before). -/
structure Comparable (left right s : ElementaryLanguage) (r : RenamingRelation) (x y : TimedWord) : Prop where
  inLeft : (left.append s).Mem x
  inRight : (right.append s).Mem y
  tail : x.durations.drop (left.word.length + 1) = y.durations.drop (right.word.length + 1)
  rel : r.Relates x y

/-- The renaming is about clocks of the two words. -/
def RenamingRelation.InRange (r : RenamingRelation) (left right : ElementaryLanguage) : Prop :=
  ∀ p ∈ r, p.1 ≤ left.word.length ∧ p.2 ≤ right.word.length

/-- An elementary language with a satisfiable condition of the right size. -/
structure ElementaryLanguage.Proper (e : ElementaryLanguage) : Prop where
  wf : e.WF
  canonical : e.cond.Canonical

end LearnTA
