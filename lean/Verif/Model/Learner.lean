import Verif.Model.Hypothesis

/-!
# The learner

Model of `/repo/include/learner.hh` with the observation table of `Model/ObservationTable` (`Model/Oracle` has the same loop
for an arbitrary table).
-/

namespace LearnTA
namespace ObsTable
variable {σ Ω : Type}

/-- `Learner::run` (`/repo/include/learner.hh:28-55`) from a given table on: `eq` is the equivalence oracle with its state,
`zones` the orders of iteration in `simplifyWithZones` and `rounds` a bound on its rounds; the first argument after these
bounds the number of hypotheses.  The result is the hypothesis that is returned and the state of the equivalence oracle;
the table is the state of the monad. -/
def learn (env : Env σ) (henv : HypEnv) (zones : HashOrder) (rounds : ℕ) (eq : EqCall Ω) : ℕ → Ω → TableM σ (TA × Ω)
  | 0, _ => throw .fuel
  | n + 1, e => do
    refine env env.fuel
    let T ← get
    match generateHypothesis env henv T with
    | .error x => throw x
    | .ok H0 =>
      match H0.simplifyStrong.simplifyWithZones zones rounds with
      | none => throw .diverge
      | some H =>
        match eq e H with
        | none => throw .diverge
        | some (e, none) => pure (H, e)
        | some (e, some w) => do
          handleCEX env w
          learn env henv zones rounds eq n e

end ObsTable
end LearnTA
