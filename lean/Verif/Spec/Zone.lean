import Verif.Model.Zone
import Verif.Spec.Constraint
import Mathlib.Data.Finset.Range

/-!
# Specification: the set of valuations of a zone
-/

namespace LearnTA

/-- The values of the internal indices: index 0 is the constant 0, index `i+1` is clock `i`. -/
def Valuation.ext (v : Valuation) : ℕ → ℚ
  | 0 => 0
  | i + 1 => v i

namespace Zone

/-- `w` assigns numbers to the indices such that all the difference bounds hold. -/
def Sat (z : Zone) (w : ℕ → ℚ) : Prop :=
  ∀ i < z.dim, ∀ j < z.dim, Bound.Sat (w i - w j) (z.val i j)

/-- The valuation `v` belongs to the zone: all difference bounds hold. -/
def Mem (z : Zone) (v : Valuation) : Prop := z.Sat v.ext

/-- No bound is implied more tightly by two others (the triangle inequality): this is what the code
calls *canonical*. -/
def Closed (z : Zone) : Prop :=
  ∀ i < z.dim, ∀ j < z.dim, ∀ k < z.dim, z.val i j ≤ z.val i k + z.val k j

/-- Same matrix. -/
def Same (z z' : Zone) : Prop :=
  z.dim = z'.dim ∧ ∀ i < z.dim, ∀ j < z.dim, z.val i j = z'.val i j

/-- No renaming reads a clock that an earlier renaming of the list overwrites. -/
def NoReadAfterWrite : Resets → Prop
  | [] => True
  | p :: r => (∀ y, p.2 = .clock y → p.1 ≠ y → ∀ p' ∈ r, p'.2 ≠ .clock p.1) ∧ NoReadAfterWrite r

end Zone
end LearnTA
