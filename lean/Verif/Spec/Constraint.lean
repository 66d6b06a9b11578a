import Verif.Model.Constraint

/-!
# Specification: meaning of constraints and guards
-/

namespace LearnTA

/-- The valuation `v` satisfies the inequality `g`. -/
def Constraint.Holds (g : Constraint) (v : Valuation) : Prop :=
  match g with
  | ⟨x, .lt, c⟩ => v x < c
  | ⟨x, .le, c⟩ => v x ≤ c
  | ⟨x, .ge, c⟩ => c ≤ v x
  | ⟨x, .gt, c⟩ => c < v x

/-- The valuation satisfies every constraint of the guard. -/
def Guard.Holds (g : Guard) (v : Valuation) : Prop := ∀ c ∈ g, c.Holds v

/-- The valuation satisfies one of the guards. -/
def DNF.Holds (d : List Guard) (v : Valuation) : Prop := ∃ g ∈ d, g.Holds v

/-- Every constant of the guard is below `INT_MAX`, the value that the code reserves for "no upper
bound". -/
def Guard.Small (g : Guard) : Prop := ∀ c ∈ g, c.c < intMax

instance (g : Guard) : Decidable g.Small := by unfold Guard.Small; infer_instance

end LearnTA
