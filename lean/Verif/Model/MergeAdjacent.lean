import Verif.Model.Hypothesis

/-!
# Merging of adjacent transitions

Model of `TimedAutomaton::mergeAdjacentTransitions` (`/repo/include/timed_automaton.hh:326-343`).
-/

namespace LearnTA
namespace TA

/-- `mergeAdjacentTransitions` (`/repo/include/timed_automaton.hh:327-343`): the loops for a state and an action are those of
`generateHypothesis` (`Trans.mergeAdjacent`).  The states are changed in place and the automaton is returned. -/
def mergeAdjacentTransitions (A : TA) : TA :=
  { A with loc := fun q => if q ∈ A.states then
      { A.loc q with next := fun a => Trans.mergeAdjacent ((A.loc q).next a).length ((A.loc q).next a) } else A.loc q }

end TA
end LearnTA
