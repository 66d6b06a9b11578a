import Verif.Spec.ZA

/-!
# Specification: reconstruction of timed words from symbolic runs
-/

namespace LearnTA

/-- Carrying out the updates one after the other is the same as carrying them out at once: each
clock is written once, and no update reads a clock that itself or an earlier one writes. -/
def Resets.InOrder (r : Resets) : Prop :=
  (r.map Prod.fst).Nodup ∧ r.Pairwise (fun p q => q.2 ≠ .clock p.1) ∧ ∀ p ∈ r, p.2 ≠ .clock p.1

instance (r : Resets) : Decidable r.InOrder :=
  inferInstanceAs (Decidable ((r.map Prod.fst).Nodup ∧
    r.Pairwise (fun p q => q.2 ≠ .clock p.1) ∧ ∀ p ∈ r, p.2 ≠ .clock p.1))

namespace TA

/-- The run that takes the given transitions with the given delays before them (and the remaining
delay after them). -/
def timed : List (Action × Trans) → List ℚ → List Micro
  | (a, t) :: l, d :: ds =>
    .delay d :: (if a = unobservable then .eps t else .act a t) :: timed l ds
  | [], d :: _ => [.delay d]
  | _, [] => []

/-- All updates of the automaton are in order. -/
def UpdatesInOrder (A : TA) : Prop :=
  ∀ p ∈ A.states, ∀ a, ∀ t ∈ (A.loc p).next a, t.resets.InOrder

/-- No guard of the automaton is strict. -/
def NonStrict (A : TA) : Prop :=
  ∀ p ∈ A.states, ∀ a, ∀ t ∈ (A.loc p).next a, ∀ c ∈ t.guard, c.odr = .ge ∨ c.odr = .le

/-- Clocks are only set to integers (or to the value of another clock). -/
def IntegerResets (A : TA) : Prop :=
  ∀ p ∈ A.states, ∀ a, ∀ t ∈ (A.loc p).next a, ∀ r ∈ t.resets, ∀ q, r.2 = .const q → ∃ k : ℤ, q = k

/-- Clocks are only set to integers. -/
def ConstResets (A : TA) : Prop :=
  ∀ p ∈ A.states, ∀ a, ∀ t ∈ (A.loc p).next a, ∀ r ∈ t.resets, ∃ k : ℤ, r.2 = .const k

end TA

end LearnTA
