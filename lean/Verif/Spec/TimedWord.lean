import Verif.Model.TimedWord
import Mathlib.Algebra.BigOperators.Group.List.Basic

/-!
# Specification of timed words
-/

namespace LearnTA.TimedWord

/-- The class invariant: one more delay than actions (the assertion of the constructor). -/
def WF (u : TimedWord) : Prop := u.durations.length = u.word.length + 1

/-- No unobservable action occurs (true of every word made by the constructor). -/
def Observable (u : TimedWord) : Prop := ∀ a ∈ u.word, a ≠ unobservable

/-- The total time of the word. -/
def total (u : TimedWord) : ℚ := u.durations.sum

/-- The actions with their absolute times, for a sequence of actions each preceded by a delay. -/
def stampsFrom (t : ℚ) : List Action → List ℚ → List (Action × ℚ)
  | a :: as, d :: ds => (a, t + d) :: stampsFrom (t + d) as ds
  | _, _ => []

/-- The observable reading of a raw sequence `d₀ a₁ d₁ … aₙ dₙ`: the observable actions with their
absolute times, and the total duration. -/
def reading (word : List Action) (durations : List ℚ) : List (Action × ℚ) × ℚ :=
  ((stampsFrom 0 word durations).filter (·.1 ≠ unobservable), durations.sum)

end LearnTA.TimedWord
