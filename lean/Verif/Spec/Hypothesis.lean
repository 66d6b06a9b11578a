import Verif.Model.Hypothesis
import Verif.Spec.ObservationTable
import Verif.Spec.TA

/-!
# Specification of the construction of a hypothesis
-/

namespace LearnTA
namespace ObsTable
variable {σ : Type}

/-- The iteration over the map of `InternalTransitionMaker` visits each entry once.  Nothing is assumed of the other parts
of the environment. -/
def HypEnv.Lawful (henv : HypEnv) : Prop := ∀ m, (henv.orderMap m).Perm m

/-- The constants in the guards of the elements of `P` are below `INT_MAX`. -/
def SmallPrefixes (T : ObsTable σ) : Prop :=
  ∀ i ∈ T.pIndices, ∀ p, T.prefixes[i]? = some p → p.cond.toGuard.Small

/-- Acceptance changes by the passing of time alone: from some prefix of `P` to its time successor. -/
def TurnsWithTime (f : TimedWord → Bool) (T : ObsTable σ) : Prop :=
  ∃ i ∈ T.pIndices, ∃ p, T.prefixes[i]? = some p ∧ ∃ u w, p.toElementaryLanguage.Mem u ∧
    p.successor.toElementaryLanguage.Mem w ∧ f u ≠ f w

/-- A renaming that the table records for a prefix outside of `P` and one in `P` relates two words of these that `f` treats
differently when they are continued by `s`. -/
def BadMerge (f : TimedWord → Bool) (T : ObsTable σ) (s : TimedWord) : Prop :=
  ∃ (i j : ℕ) (p q : ForwardRegional) (r : RenamingRelation), i ∉ T.pIndices ∧ j ∈ T.pIndices ∧ T.prefixes[i]? = some p ∧
    T.prefixes[j]? = some q ∧ T.getRelation i j = some r ∧ ∃ u u', p.toElementaryLanguage.Mem u ∧ q.toElementaryLanguage.Mem u' ∧
      r.Relates u u' ∧ f (u.append s) ≠ f (u'.append s)

/-- Some end of `s` shows that a merging is wrong. -/
def Wrong (f : TimedWord → Bool) (T : ObsTable σ) (s : TimedWord) : Prop :=
  ∃ x t : TimedWord, x.Legal ∧ t.Legal ∧ s = x.append t ∧ BadMerge f T t

end ObsTable
end LearnTA
