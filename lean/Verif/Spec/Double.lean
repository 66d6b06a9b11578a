import Verif.Model.Double
import Mathlib.Algebra.Order.Field.Power

/-!
# What is assumed of floating-point arithmetic

The finite double-precision numbers, and rounding.
-/

namespace LearnTA
namespace Double

/-- The finite numbers of type `double`: `m * 2 ^ e` with 53 bits for `m`. -/
def IsDouble (q : ℚ) : Prop := ∃ m e : ℤ, |m| < 2 ^ 53 ∧ -1074 ≤ e ∧ e ≤ 971 ∧ q = m * (2 : ℚ) ^ e

/-- What C83 needs of rounding: numbers of type `double` are kept, small numbers vanish when they are added to the greatest number,
and numbers above the greatest one are not rounded below it.  IEEE 754 has these properties (`C83_ieee`). -/
structure Rounding (rnd : ℚ → ℚ) : Prop where
  exact : ∀ q, IsDouble q → rnd q = q
  absorb : ∀ c, |c| < 2 ^ 970 → rnd (dblMax + c) = dblMax ∧ rnd (-dblMax + c) = -dblMax
  overflow : ∀ q, dblMax ≤ q → dblMax ≤ rnd q

/-- How the code stores a bound: no bound is `(DBL_MAX, false)`. -/
def ofBound : Bound → DBound
  | .fin c s => pair c s
  | .inf => pair dblMax false

/-- The matrix of the code stores the zone. -/
structure Stores (d : DZone) (z : Zone) : Prop where
  dim : d.dim = z.dim
  val : ∀ i < z.dim, ∀ j < z.dim, d.val i j = ofBound (z.val i j)

/-- A matrix that stores the zone. -/
def ofZone (z : Zone) : DZone := ⟨z.dim, fun i j => ofBound (z.val i j)⟩

/-- The number is a multiple of `2 ^ -k` and at most `B`. -/
def Fine (k : ℕ) (B : ℚ) (q : ℚ) : Prop := (∃ m : ℤ, q * 2 ^ k = m) ∧ |q| ≤ B

/-- All bounds of the zone are such numbers (or there is no bound). -/
def FineZone (k : ℕ) (B : ℚ) (z : Zone) : Prop := ∀ i < z.dim, ∀ j < z.dim, ∀ c s, z.val i j = .fin c s → Fine k B c

end Double
end LearnTA
