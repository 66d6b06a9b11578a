import Verif.Model.Oracle
import Verif.Spec.TimedWord

/-!
# Specification: oracles
-/

namespace LearnTA

/-- The two simulated systems give different answers to the query `w`. -/
def Differ (A H : TA) (fuel : ℕ) (w : TimedWord) : Prop :=
  ∃ r r' x y, Runner.answerQuery A fuel (Runner.start A) w = some (r, x) ∧
    Runner.answerQuery H fuel (Runner.start H) w = some (r', y) ∧ x ≠ y

/-- The two simulated systems give the same answer to the query `w`. -/
def Agree (A H : TA) (fuel : ℕ) (w : TimedWord) : Prop :=
  ∃ r r' x, Runner.answerQuery A fuel (Runner.start A) w = some (r, x) ∧
    Runner.answerQuery H fuel (Runner.start H) w = some (r', x)

/-- The oracle `ask`, with a record of the words it was asked for, in order. -/
def recorded {σ : Type} (ask : σ → TimedWord → σ × Bool) :
    σ × List TimedWord → TimedWord → (σ × List TimedWord) × Bool := fun s w =>
  (((ask s.1 w).1, s.2 ++ [w]), (ask s.1 w).2)

namespace ByTest

/-- A test word or a counterexample derived from it. -/
def Derived (w c : TimedWord) : Prop :=
  c = w ∨ ∃ i, i < w.word.length ∧ (c = ⟨w.word.take i, w.durations.take (i + 1)⟩ ∨
    c = ⟨w.word.take (i + 1), w.durations.take (i + 1) ++ [0]⟩)

end ByTest

/-- `o'` is what is left of the object `o` after calls with the hypotheses `hs`. -/
inductive EqCall.After {Ω : Type} (call : EqCall Ω) : Ω → List TA → Ω → Prop where
  | nil (o) : After call o [] o
  | cons {o o' o'' H hs r} (h : call o H = some (o', r)) (t : After call o' hs o'') :
      After call o (H :: hs) o''

/-- Every counterexample `w` returned for a hypothesis `H`, after any history of calls, satisfies
`P H w`. -/
def EqCall.Sound {Ω : Type} (call : EqCall Ω) (P : TA → TimedWord → Prop) (o : Ω) : Prop :=
  ∀ hs o', EqCall.After call o hs o' → ∀ H o'' w, call o' H = some (o'', some w) → P H w

namespace Learner
variable {τ σ : Type}

/-- The oracle, with a record of the queries and the answers. -/
def logged (eq : EqCall σ) : EqCall (σ × List (TA × Option TimedWord)) := fun s H =>
  (eq s.1 H).map fun r => ((r.1, s.2 ++ [(H, r.2)]), r.2)

/-- The table, with a record of the counterexamples it was given. -/
def loggedTable (T : Table τ) : Table (τ × List TimedWord) where
  close t := ((T.close t.1).1, t.2) |> (·, (T.close t.1).2)
  consistent t := ((T.consistent t.1).1, t.2) |> (·, (T.consistent t.1).2)
  exteriorConsistent t := ((T.exteriorConsistent t.1).1, t.2) |> (·, (T.exteriorConsistent t.1).2)
  timeSaturate t := ((T.timeSaturate t.1).1, t.2) |> (·, (T.timeSaturate t.1).2)
  generateHypothesis t := (((T.generateHypothesis t.1).1, t.2), (T.generateHypothesis t.1).2)
  handleCEX t w := (T.handleCEX t.1 w, t.2 ++ [w])

end Learner
end LearnTA
