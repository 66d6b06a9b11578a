import Verif.Model.ZoneAutomaton
import Verif.Spec.TA
import Verif.Spec.Zone

/-!
# Specification: zone automata
-/

namespace LearnTA

/-- A path of the zone automaton, with the actions and transitions on it. -/
inductive ZA.Path (za : ZA) : ℕ → List (Action × Trans) → ℕ → Prop where
  | nil (p) : Path za p [] p
  | cons {p l q} (a : Action) (t : Trans) (j : ℕ) (h : (t, j) ∈ (za.loc p).next a)
      (hp : Path za j l q) : Path za p ((a, t) :: l) q

/-- No dangling pointers in the zone automaton. -/
def ZA.Closed (za : ZA) : Prop :=
  (∀ q ∈ za.init, q ∈ za.states) ∧
  ∀ p ∈ za.states, ∀ a, ∀ e ∈ (za.loc p).next a, e.2 ∈ za.states

/-- The hash map of each state is iterated with the actions that have a transition in ascending order. -/
def HashOrder.Ascending (o : HashOrder) (A : TA) : Prop :=
  ∀ p ∈ A.states, ((o.acts (A.loc p)).filter fun a => !((A.loc p).next a).isEmpty).Pairwise (· < ·)

namespace TA

/-- Only actions of the alphabet occur. -/
def Over (alphabet : List Action) (A : TA) : Prop :=
  ∀ p ∈ A.states, ∀ a, (A.loc p).next a ≠ [] → a ∈ alphabet

/-- The transitions taken in a run, with their actions. -/
def discrete : List Micro → List (Action × Trans)
  | [] => []
  | .delay _ :: ms => discrete ms
  | .eps t :: ms => (unobservable, t) :: discrete ms
  | .act a t :: ms => (a, t) :: discrete ms

/-- A configuration is reachable: some run from an initial state, all clocks zero, ends in it. -/
def Reach (A : TA) (c : Config) : Prop :=
  ∃ q ∈ A.init, ∃ ms, A.MRun ⟨q, Valuation.zero⟩ ms c

/-- What `Zone::applyResets` needs to do the same as the simultaneous update: no clock is updated
twice and no renaming reads a clock that an earlier one overwrites. -/
def ResetsOrdered (A : TA) : Prop :=
  ∀ p ∈ A.states, ∀ a, ∀ t ∈ (A.loc p).next a,
    (t.resets.map Prod.fst).Nodup ∧ Zone.NoReadAfterWrite t.resets

/-- `maxConstraints` bounds the constants each clock is compared with, also after it has been copied
to another clock. -/
def MaxOK (A : TA) : Prop :=
  (∀ m ∈ A.maxC, 0 ≤ m) ∧
  ∀ p ∈ A.states, ∀ a, ∀ t ∈ (A.loc p).next a,
    (∀ c ∈ t.guard, c.c ≤ A.maxC.getD c.x 0) ∧
    (∀ r ∈ t.resets, ∀ y, r.2 = .clock y → A.maxC.getD r.1 0 ≤ A.maxC.getD y 0)

end TA

/-- The values of the clocks below `n` are equal or both above the threshold `m`. -/
def Valuation.Near (m : ℕ → ℚ) (n : ℕ) (v v' : Valuation) : Prop :=
  ∀ x < n, v x = v' x ∨ (m x < v x ∧ m x < v' x)

end LearnTA
