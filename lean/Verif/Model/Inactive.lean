import Verif.Model.Renaming

/-!
# Inactive clocks after a transition

Model of `ExternalTransitionMaker::inactiveClockVariables` (`/repo/include/external_transition_maker.hh:124-145`).
-/

namespace LearnTA
namespace RenamingRelation

/-- `inactiveClockVariables(renamingRelation, targetCondition)` (`/repo/include/external_transition_maker.hh:124-145`): the clocks
`0, …, size - 1` without the right variables, and of these the clocks that are not constrained to a point, with the absolute value of
the upper bound, converted to an integer.  `none` is an infinite bound, whose conversion is undefined.  Simplifications: the unordered
map is a list; indices are natural numbers, not `uint8_t`. -/
def inactiveClockVariables (r : RenamingRelation) (target : TimedCondition) : List (ℕ × Option ℕ) :=
  let lastClock := target.size - 1
  let inactiveClocks := r.rightVariables.foldl (fun l (x : ℕ) => l.filter fun y => y != x) (List.range target.size)
  (inactiveClocks.filter fun x => !Bound.isPoint (target.upper x lastClock) (target.lower x lastClock)).map fun x =>
    (x, (Zone.firstOf (target.upper x lastClock)).map fun b => ⌊|b|⌋₊)

end RenamingRelation
end LearnTA
