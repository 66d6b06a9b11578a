import Verif.Model.Experiment
import Verif.Spec.Oracle
import Verif.Spec.ZA
import Verif.Spec.TimedWord
import Verif.Spec.TA

/-!
# Specification: experiments
-/

namespace LearnTA
namespace Experiment

/-- `run`, with a record of the hypotheses and of the answers of the equivalence oracle. -/
def loggedRun (c : Config) (env : Env Runner) (henv : ObsTable.HypEnv) (zones : HashOrder) (rounds fuel n : ℕ) :
    Except Fail ((TA × (List Member × ByTest) × List (TA × Option TimedWord)) × ObsTable Runner) :=
  match complement c zones rounds with
  | none => .error .diverge
  | some Cm =>
    match ObsTable.create env c.alphabet (Runner.start c.target) with
    | .error x => .error x
    | .ok T => (ObsTable.learn env henv zones rounds (Learner.logged (oracle c Cm zones rounds fuel)) n
        (startOracle c, [])).run T

/-- A target that can be learned: a well-formed deterministic automaton without unobservable transitions, with one initial
state, over an alphabet of distinct characters below 127, whose updates do not read a clock after writing it. -/
structure Config.Ok (c : Config) : Prop where
  wf : c.target.WF
  eps : c.target.EpsFree
  det : c.target.deterministic = true
  init : c.target.init.length = 1
  ordered : c.target.ResetsOrdered
  over : c.target.Over c.alphabet
  nodup : c.alphabet.Nodup
  observable : unobservable ∉ c.alphabet
  chars : ∀ a ∈ c.alphabet, a.val < 127
  words : ∀ w ∈ c.testWords, w.WF ∧ w.Observable ∧ w.Nonneg

end Experiment
end LearnTA
