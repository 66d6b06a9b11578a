import Verif.Model.Fixtures
import Verif.Spec.ZA
import Verif.Spec.Reconstruct

/-!
# Specification: the targets of the example programs
-/

namespace LearnTA

/-- What the learner and its oracles need of a target over `alphabet`. -/
structure TA.Learnable (alphabet : List Action) (A : TA) : Prop where
  wf : A.WF
  eps : A.EpsFree
  det : A.Deterministic
  init : A.init.length = 1
  inOrder : A.UpdatesInOrder
  consts : A.ConstResets
  over : A.Over alphabet

namespace Fixture

/-- The timed words of the "Unbalanced" benchmark: `a`, `b`, `c`, where the first two delays sum up to `scale` and so do the second
and the third. -/
def IsUnbalanced (scale : ℤ) (w : TimedWord) : Prop :=
  ∃ d₀ d₁ d₂ d₃ : ℚ, w.word = [act 'a', act 'b', act 'c'] ∧ w.durations = [d₀, d₁, d₂, d₃] ∧
    0 ≤ d₀ ∧ 0 ≤ d₁ ∧ 0 ≤ d₂ ∧ 0 ≤ d₃ ∧ d₀ + d₁ = scale ∧ d₁ + d₂ = scale

/-- In "Unbalanced loop", the `j`-th action (counted from 0) checks and resets the clock `c`. -/
def ChecksAt (states c j : ℕ) : Prop := ∃ k, 1 ≤ k ∧ j % states + 1 = loopInit c + k * loopLength c

open Classical in
/-- The time from the last action before the `j`-th that checks the clock `c` (or from the start) to the last action before the
`j`-th. -/
noncomputable def age (states : ℕ) (ds : List ℚ) (c : ℕ) : ℕ → ℚ
  | 0 => 0
  | j + 1 => if ChecksAt states c j then 0 else age states ds c j + ds.getD j 0

/-- The timed words of the "Unbalanced loop" benchmark: only `a`, and whenever an action checks a clock of the group `L`, the time
since the previous check of that clock (or since the start) is strictly between `L * scale` and `2 * L * scale`. -/
def IsUnbalancedLoop (states clocks : ℕ) (scale : ℤ) (w : TimedWord) : Prop :=
  (∀ a ∈ w.word, a = act 'a') ∧ w.Nonneg ∧ ∀ j < w.word.length, ∀ c < clocks, ChecksAt states c j →
    (loopLength c * scale : ℚ) < age states w.durations c j + w.durations.getD j 0 ∧
      age states w.durations c j + w.durations.getD j 0 < (2 * loopLength c * scale : ℚ)

end Fixture
end LearnTA
