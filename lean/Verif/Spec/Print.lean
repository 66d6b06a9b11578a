import Verif.Model.Print
import Verif.Spec.TA

/-!
# Specification: printed automata
-/

namespace LearnTA

/-- The number has at most six significant decimal digits. -/
def SixDigits (q : ℚ) : Prop := ∃ m e : ℤ, |m| < 10 ^ 6 ∧ q = m * (10 : ℚ) ^ e

namespace TA

/-- Every constant assigned to a clock has at most six significant digits. -/
def ShortConstants (A : TA) : Prop :=
  ∀ p ∈ A.states, ∀ a, ∀ t ∈ (A.loc p).next a, ∀ r ∈ t.resets, ∀ q, r.2 = .const q → SixDigits q

/-- `keys p` lists the actions for which the state `p` has transitions. -/
def KeysOf (A : TA) (keys : ℕ → List Action) : Prop :=
  ∀ p ∈ A.states, ∀ a, (A.loc p).next a ≠ [] → a ∈ keys p

/-- The automaton has a transition from its `i`-th to its `j`-th state. -/
def HasEdge (A : TA) (i j : ℕ) (a : Action) (g : Guard) (r : Resets) : Prop :=
  ∃ p q, A.states[i]? = some p ∧ A.states[j]? = some q ∧ ⟨q, r, g⟩ ∈ (A.loc p).next a

/-- The two automata are the same up to the names of the states (and `maxConstraints`): their states correspond to each other in the
order of the lists. -/
structure SamePicture (A B : TA) : Prop where
  size : A.states.length = B.states.length
  init : ∀ i p q : ℕ, A.states[i]? = some p → B.states[i]? = some q → (p ∈ A.init ↔ q ∈ B.init)
  accepting : ∀ i p q : ℕ, A.states[i]? = some p → B.states[i]? = some q → (A.loc p).isMatch = (B.loc q).isMatch
  edges : ∀ i j a g r, A.HasEdge i j a g r ↔ B.HasEdge i j a g r

end TA
end LearnTA
