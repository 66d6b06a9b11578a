import Verif.Spec.ObservationTable

/-!
# Specification: languages that forget long waits
-/

namespace LearnTA

/-- After a wait of more than `K` at the end of `w`, it does not matter how long the wait was, and of what comes before and after only
the regions matter. -/
def Forgetful (f : TimedWord → Bool) (K : ℕ) : Prop :=
  ∀ w w' u u' : TimedWord, w.Legal → w'.Legal → u.Legal → u'.Legal → w.SameRegion w' → u.SameRegion u' →
    ∀ δ ε : ℚ, (K : ℚ) < δ → (K : ℚ) < ε → f ((w.appendDelay δ).append u) = f ((w'.appendDelay ε).append u')

/-- The constants in the guards are at most `K`. -/
def TA.GuardsUpTo (A : TA) (K : ℕ) : Prop :=
  ∀ p ∈ A.states, ∀ a, ∀ t ∈ (A.loc p).next a, ∀ c ∈ t.guard, c.c ≤ K

end LearnTA
