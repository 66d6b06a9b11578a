import Verif.Model.ConjunctiveConstraint
import Verif.Spec.Constraint

/-!
# Specification: meaning of conjunctions of inequalities given as vectors
-/

namespace LearnTA.ConjIneq

/-- `q` respects the bound `(c, s)`: `q ≤ c` if `s` is true, otherwise `q < c`. -/
def Respects (q : ℚ) (b : IntBound) : Prop := if b.snd then q ≤ b.fst else q < b.fst

/-- The valuation satisfies the inequalities: for each clock the upper bound, where a constant from `maxValue` on means
that there is none, and the lower bound, which is stored negated. -/
def Holds (a : ConjIneq) (v : Valuation) : Prop :=
  ∀ i < a.dim, ((maxValue ≤ (a.up i).fst) ∨ Respects (v i) (a.up i)) ∧ Respects (-v i) (a.low i)

/-- All lower bounds are below `maxValue`. -/
def Small (a : ConjIneq) : Prop := ∀ i < a.dim, -maxValue < (a.low i).fst

/-- The lower bounds are at least 0. -/
def Nonneg (a : ConjIneq) : Prop := ∀ i < a.dim, a.low i ≤ IntBound.mk 0 true

/-- All constants of the guard are below `maxValue` (and not below `-maxValue`). -/
def SmallGuard (g : Guard) : Prop := ∀ c ∈ g, c.c < maxValue

end LearnTA.ConjIneq
