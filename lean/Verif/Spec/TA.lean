import Verif.Model.TA
import Verif.Spec.Constraint
import Verif.Spec.TimedWord

/-!
# Specification: the timed language of an automaton

The standard semantics of timed automata with silent moves: a configuration is a location with a
clock valuation; time may pass, an enabled transition may be taken.
-/

namespace LearnTA

/-- A configuration. -/
structure Config where
  loc : ℕ
  val : Valuation

/-- What an observer sees: time passing and actions. -/
inductive Event where
  | delay (d : ℚ)
  | act (a : Action)
  deriving DecidableEq

/-- `d₀ a₁ d₁ … aₙ dₙ` as a sequence of events. -/
def eventsOf : List Action → List ℚ → List Event
  | a :: as, d :: ds => .delay d :: .act a :: eventsOf as ds
  | _, d :: _ => [.delay d]
  | _, [] => []

/-- The events of a timed word. -/
def TimedWord.events (w : TimedWord) : List Event := eventsOf w.word w.durations

/-- All delays are non-negative. -/
def TimedWord.Nonneg (w : TimedWord) : Prop := ∀ d ∈ w.durations, 0 ≤ d

namespace TA

/-- `A.Steps c es c'`: from `c` the automaton can reach `c'` while the events `es` are observed.
A silent transition is taken without being observed, a delay can be interrupted by it. -/
inductive Steps (A : TA) : Config → List Event → Config → Prop where
  | nil (c) : Steps A c [] c
  | eps {c es c'} (t : Trans) (ht : t ∈ (A.loc c.loc).next unobservable)
      (hg : t.guard.Holds c.val) (h : Steps A ⟨t.target, t.resets.apply c.val⟩ es c') :
      Steps A c es c'
  | delay {c es c'} (d : ℚ) (hd : 0 ≤ d) (h : Steps A ⟨c.loc, c.val.shift d⟩ es c') :
      Steps A c (.delay d :: es) c'
  | split {c es c'} (d1 d2 : ℚ) (h1 : 0 ≤ d1) (h2 : 0 ≤ d2)
      (h : Steps A c (.delay d1 :: .delay d2 :: es) c') : Steps A c (.delay (d1 + d2) :: es) c'
  | act {c es c'} (a : Action) (ha : a ≠ unobservable) (t : Trans)
      (ht : t ∈ (A.loc c.loc).next a) (hg : t.guard.Holds c.val)
      (h : Steps A ⟨t.target, t.resets.apply c.val⟩ es c') : Steps A c (.act a :: es) c'

/-- A single step of a run. -/
inductive Micro where
  | delay (d : ℚ)
  | eps (t : Trans)
  | act (a : Action) (t : Trans)

/-- A run as a sequence of single steps. -/
inductive MRun (A : TA) : Config → List Micro → Config → Prop where
  | nil (c) : MRun A c [] c
  | delay {c ms c'} (d : ℚ) (hd : 0 ≤ d) (h : MRun A ⟨c.loc, c.val.shift d⟩ ms c') :
      MRun A c (.delay d :: ms) c'
  | eps {c ms c'} (t : Trans) (ht : t ∈ (A.loc c.loc).next unobservable)
      (hg : t.guard.Holds c.val) (h : MRun A ⟨t.target, t.resets.apply c.val⟩ ms c') :
      MRun A c (.eps t :: ms) c'
  | act {c ms c'} (a : Action) (ha : a ≠ unobservable) (t : Trans)
      (ht : t ∈ (A.loc c.loc).next a) (hg : t.guard.Holds c.val)
      (h : MRun A ⟨t.target, t.resets.apply c.val⟩ ms c') : MRun A c (.act a t :: ms) c'

/-- The timed word is accepted: some run on it from an initial state, all clocks zero, ends in an
accepting state. -/
def Accepts (A : TA) (w : TimedWord) : Prop :=
  ∃ q ∈ A.init, ∃ c, A.Steps ⟨q, Valuation.zero⟩ w.events c ∧ (A.loc c.loc).isMatch = true

/-- No dangling pointers: the initial states and all targets of transitions are states of the
automaton. -/
def Closed (A : TA) : Prop :=
  (∀ q ∈ A.init, q ∈ A.states) ∧
  ∀ p ∈ A.states, ∀ a, ∀ t ∈ (A.loc p).next a, t.target ∈ A.states

/-- Every clock occurring in the automaton exists. -/
def ClocksExist (A : TA) : Prop :=
  ∀ p ∈ A.states, ∀ a, ∀ t ∈ (A.loc p).next a,
    (∀ c ∈ t.guard, c.x < A.clockSize) ∧
    (∀ r ∈ t.resets, r.1 < A.clockSize ∧ ∀ y, r.2 = .clock y → y < A.clockSize)

/-- Clocks are never set to a negative number. -/
def NonnegResets (A : TA) : Prop :=
  ∀ p ∈ A.states, ∀ a, ∀ t ∈ (A.loc p).next a, ∀ r ∈ t.resets, ∀ q, r.2 = .const q → 0 ≤ q

/-- The constants of the guards are below `INT_MAX`. -/
def SmallGuards (A : TA) : Prop :=
  ∀ p ∈ A.states, ∀ a, ∀ t ∈ (A.loc p).next a, t.guard.Small

/-- What the code assumes of an automaton. -/
structure WF (A : TA) : Prop where
  nodup : A.states.Nodup
  closed : A.Closed
  clocks : A.ClocksExist
  resets : A.NonnegResets
  small : A.SmallGuards

/-- No unobservable transitions. -/
def EpsFree (A : TA) : Prop := ∀ p ∈ A.states, (A.loc p).next unobservable = []

/-- No two different entries of the transition list of one state and action are enabled by the same
valuation of non-negative clock values. -/
def Deterministic (A : TA) : Prop :=
  ∀ p ∈ A.states, ∀ a, ((A.loc p).next a).Pairwise fun t u =>
    ∀ v : Valuation, v.Nonneg → ¬ (t.guard.Holds v ∧ u.guard.Holds v)

/-- The runner can simulate the automaton: there is exactly one initial state, or no state at all
(the empty automaton, which simplification may leave). -/
def Startable (A : TA) : Prop := A.init.length = 1 ∨ A.states = []

/-- Weaker than `Deterministic`: all transitions for one action that are enabled together have the
same effect. -/
def Confluent (A : TA) : Prop :=
  ∀ p ∈ A.states, ∀ a, ∀ t ∈ (A.loc p).next a, ∀ u ∈ (A.loc p).next a, ∀ v : Valuation, v.Nonneg →
    t.guard.Holds v → u.guard.Holds v → t.target = u.target ∧ t.resets = u.resets

end TA
end LearnTA
