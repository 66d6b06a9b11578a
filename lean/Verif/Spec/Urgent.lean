import Verif.Spec.TA

/-!
# Specification: urgent runs

Runs in which an unobservable transition is taken as soon as its guard holds while time passes.
-/

namespace LearnTA
namespace TA

/-- From the first configuration the second one is reached when `d` time units pass and every unobservable transition is taken
at the first moment at which its guard holds.  No transition is taken if no time is left. -/
inductive Urgent (A : TA) : Config → ℚ → Config → Prop
  | done (c : Config) : Urgent A c 0 c
  | wait (c : Config) (d : ℚ) : 0 < d →
      (∀ t ∈ (A.loc c.loc).next unobservable, ∀ e, 0 ≤ e → e ≤ d → ¬ t.guard.Holds (c.val.shift e)) →
      Urgent A c d ⟨c.loc, c.val.shift d⟩
  | take (c : Config) (d e : ℚ) (t : Trans) (c' : Config) : 0 < d → 0 ≤ e → e ≤ d →
      t ∈ (A.loc c.loc).next unobservable → t.guard.Holds (c.val.shift e) →
      (∀ e', 0 ≤ e' → e' < e → ¬ t.guard.Holds (c.val.shift e')) →
      Urgent A ⟨t.target, t.resets.apply (c.val.shift e)⟩ (d - e) c' → Urgent A c d c'

/-- Urgent runs over actions and the delays after them. -/
inductive UrgentRun (A : TA) : Config → List Action → List ℚ → Config → Prop
  | nil (c : Config) : UrgentRun A c [] [] c
  | cons (c : Config) (a : Action) (d : ℚ) (as : List Action) (ds : List ℚ) (t : Trans) (c1 c2 : Config) :
      t ∈ (A.loc c.loc).next a → t.guard.Holds c.val → Urgent A ⟨t.target, t.resets.apply c.val⟩ d c1 →
      UrgentRun A c1 as ds c2 → UrgentRun A c (a :: as) (d :: ds) c2

/-- An urgent run of the timed word from an initial state with clocks 0 leads to an accepting state. -/
def UrgentAccepts (A : TA) (w : TimedWord) : Prop :=
  ∃ q ∈ A.init, ∃ d ds, w.durations = d :: ds ∧ ∃ c1 c2, Urgent A ⟨q, Valuation.zero⟩ d c1 ∧
    UrgentRun A c1 w.word ds c2 ∧ (A.loc c2.loc).isMatch = true

/-- A state has at most one unobservable transition; its guard is a non-empty conjunction of constraints `x ≥ c`. -/
def EpsSimple (A : TA) : Prop :=
  ∀ p ∈ A.states, ((A.loc p).next unobservable).length ≤ 1 ∧
    ∀ t ∈ (A.loc p).next unobservable, t.guard ≠ [] ∧ ∀ c ∈ t.guard, c.odr = .ge

end TA
end LearnTA
