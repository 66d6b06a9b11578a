import Verif.Model.Merge
import Verif.Spec.Constraint

/-!
# Specification: relations between transitions
-/

namespace LearnTA
namespace Trans

/-- Every valuation that satisfies the guard of `x` satisfies that of `y`. -/
def Weaker (y x : Trans) : Prop := ∀ v : Valuation, x.guard.Holds v → y.guard.Holds v

/-- `y` has the target and the updates of `x` and a weaker guard. -/
def Relaxes (y x : Trans) : Prop := y.target = x.target ∧ y.resets = x.resets ∧ Weaker y x

end Trans
end LearnTA
