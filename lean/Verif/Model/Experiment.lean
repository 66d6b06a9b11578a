import Verif.Model.Learner
import Verif.Model.Runner

/-!
# The experiments

Model of `class ExperimentRunner` (`/repo/examples/experiment_runner.hh`), the code shared by the example programs: the
target automaton is the system under learning, and the equivalence oracle is a memo around a chain of the given test
words and the comparison with the complement of the target.  Not modelled: logging, `printStatistics` and the clock.
-/

namespace LearnTA
namespace Experiment

/-- The fields of `ExperimentRunner` (`/repo/examples/experiment_runner.hh:27-29`). -/
structure Config where
  alphabet : List Action
  target : TA
  testWords : List TimedWord

/-- `pushTestWord` (`/repo/examples/experiment_runner.hh:32-34`). -/
def Config.pushTestWord (c : Config) (w : TimedWord) : Config := { c with testWords := c.testWords ++ [w] }

/-- The complement of the target (`/repo/examples/experiment_runner.hh:43-45`); `none` if the zone construction needs more
than `rounds` rounds. -/
def complement (c : Config) (zones : HashOrder) (rounds : ℕ) : Option TA :=
  (c.target.complement c.alphabet).simplifyStrong.simplifyWithZones zones rounds

/-- The members of the chain (`/repo/examples/experiment_runner.hh:51-63`): the test words, and the comparison with the
complement, of which only the counter of the queries changes. -/
inductive Member where
  | tests (o : ByTest)
  | compare (eqQueryCount : ℕ)

/-- `findCounterExample` of the members, `Cm` is the complement. -/
def call (c : Config) (Cm : TA) (zones : HashOrder) (rounds fuel : ℕ) : EqCall Member
  | .tests o, H => (o.findCounterExample fuel H).map fun r => (.tests r.1, r.2)
  | .compare k, H => (ComplementOracle.findCounterExample c.target Cm c.alphabet zones rounds H).map fun r =>
      (.compare (k + 1), r)

/-- The equivalence oracle given to the learner (`/repo/examples/experiment_runner.hh:51-65`). -/
def oracle (c : Config) (Cm : TA) (zones : HashOrder) (rounds fuel : ℕ) : EqCall (List Member × ByTest) :=
  memoCall (chainCall (call c Cm zones rounds fuel)) fuel

/-- The oracle before the first query (`/repo/examples/experiment_runner.hh:51-65`). -/
def startOracle (c : Config) : List Member × ByTest :=
  ([.tests (c.testWords.foldl ByTest.pushBack ⟨[], c.target, 0⟩), .compare 0], ⟨[], c.target, 0⟩)

/-- `run` (`/repo/examples/experiment_runner.hh:41-79`): the automaton that is learned, the oracle afterwards, and the
table.  `n` bounds the number of hypotheses. -/
def run (c : Config) (env : Env Runner) (henv : ObsTable.HypEnv) (zones : HashOrder) (rounds fuel n : ℕ) :
    Except Fail ((TA × (List Member × ByTest)) × ObsTable Runner) :=
  match complement c zones rounds with
  | none => .error .diverge
  | some Cm =>
    match ObsTable.create env c.alphabet (Runner.start c.target) with
    | .error x => .error x
    | .ok T => (ObsTable.learn env henv zones rounds (oracle c Cm zones rounds fuel) n (startOracle c)).run T

end Experiment
end LearnTA
