import Verif.Spec.TA
import Verif.Spec.Constraint

/-!
# Vocabulary for the merging of adjacent guards
-/

namespace LearnTA
namespace Guard

/-- The guard holds for some clock values, and has at most one upper and one lower bound for each clock. -/
def Neat (g : Guard) : Prop :=
  (∃ v : Valuation, v.Nonneg ∧ g.Holds v) ∧ ∀ c ∈ g, ∀ d ∈ g, c.x = d.x → c.isUpperBound = d.isUpperBound → c = d

/-- The guards have the same constraints for all clocks but `x`. -/
def SameBut (x : ℕ) (g h : Guard) : Prop := ∀ c : Constraint, c.x ≠ x → (c ∈ g ↔ c ∈ h)

end Guard

namespace TA

/-- The guards of the automaton are neat, and those of the transitions of one state for one action differ for one clock only
(so always in an automaton with one clock). -/
def OneClockApart (A : TA) : Prop :=
  ∀ p ∈ A.states, ∀ a, ∃ x, ∀ t ∈ (A.loc p).next a, t.guard.Neat ∧ ∀ u ∈ (A.loc p).next a, t.guard.SameBut x u.guard

end TA
end LearnTA
