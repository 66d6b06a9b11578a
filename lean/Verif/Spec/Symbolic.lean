import Verif.Model.Symbolic
import Verif.Spec.ElementaryLanguage
import Verif.Spec.TA

/-!
# Specification: regions of timed words and symbolic queries
-/

namespace LearnTA

/-- Two timed words are in the same region: the actions are the same, and all sums of consecutive
delays have the same integer parts and are integers at the same time. -/
def TimedWord.SameRegion (w w' : TimedWord) : Prop :=
  w.word = w'.word ∧ w.durations.length = w'.durations.length ∧
    ∀ i j, i ≤ j → j < w.durations.length →
      ⌊TimedCondition.T w.durations i j⌋ = ⌊TimedCondition.T w'.durations i j⌋ ∧
      ⌈TimedCondition.T w.durations i j⌉ = ⌈TimedCondition.T w'.durations i j⌉

/-- The conditions hold for a timed word: one of them does. -/
def TimedConditionSet.Holds (r : TimedConditionSet) (w : TimedWord) : Prop :=
  ∃ c ∈ r, TimedCondition.Holds c w.durations

/-- A language the learner asks for: the condition is satisfiable, with finite integer bounds, and the
actions are observable. -/
structure ElementaryLanguage.Queryable (e : ElementaryLanguage) : Prop where
  wf : e.WF
  canonical : e.cond.Canonical
  bounded : e.cond.Bounded
  integral : e.cond.Integral
  observable : ∀ a ∈ e.word, a ≠ unobservable

/-- `f` does not distinguish words of the language in the same region. -/
def ElementaryLanguage.Regional (e : ElementaryLanguage) (f : TimedWord → Bool) : Prop :=
  ∀ w w', e.Mem w → e.Mem w' → w.SameRegion w' → f w = f w'

/-- Clocks are only set to integers (or other clocks). -/
def TA.IntResets (A : TA) : Prop :=
  ∀ p ∈ A.states, ∀ a, ∀ t ∈ (A.loc p).next a, ∀ r ∈ t.resets, ∀ q, r.2 = .const q → ∃ n : ℤ, q = n

end LearnTA
