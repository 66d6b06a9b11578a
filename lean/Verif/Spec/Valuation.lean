import Mathlib.Data.Rat.Defs
import Mathlib.Algebra.Order.Ring.Rat

/-!
# Specification: clock valuations

A clock valuation gives a value to every clock.  Time is rational.
-/

namespace LearnTA

/-- A clock valuation: the value of each clock.  (In the code: `std::vector<double>`; here total,
clocks that do not exist are never looked at.) -/
abbrev Valuation := ℕ → ℚ

/-- Clock values are never negative in a run. -/
def Valuation.Nonneg (v : Valuation) : Prop := ∀ i, 0 ≤ v i

/-- The valuation after `d` time units. -/
def Valuation.shift (v : Valuation) (d : ℚ) : Valuation := fun i => v i + d

/-- All clocks are zero. -/
def Valuation.zero : Valuation := fun _ => 0

end LearnTA
