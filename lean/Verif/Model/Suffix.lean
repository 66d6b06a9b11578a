import Verif.Model.ElementaryLanguage

/-!
# The suffix of a region after a beginning

Model of `ForwardRegionalElementaryLanguage::suffix` (`/repo/include/forward_regional_elementary_language.hh:138-177`).
-/

namespace LearnTA
namespace ForwardRegional

/-- The loop that fills `suffixDurationsFractional` (`/repo/include/forward_regional_elementary_language.hh:163-169`); `f` is the
previous entry (0 before the first one). -/
def suffixFractional (f : ℚ) : List ℚ → List ℚ
  | [] => []
  | d :: ds => (f + d - ⌊f + d⌋) :: suffixFractional (f + d - ⌊f + d⌋) ds

/-- `suffixDurations` (`/repo/include/forward_regional_elementary_language.hh:150-159`). -/
def suffixDurations (L p : ForwardRegional) : List ℚ :=
  let prefixWord := p.sample
  let fullWord := (L.constrain prefixWord).sample
  TimedWord.subFront (fullWord.durations.drop p.word.length) (prefixWord.durations.getLastD 0)

/-- `suffix` (`/repo/include/forward_regional_elementary_language.hh:145-177`).  The assertions are not modelled. -/
def suffix (L p : ForwardRegional) : BackwardRegional :=
  let ds := L.suffixDurations p
  let forward := fromTimedWord (TimedWord.make (L.word.drop p.word.length) ds)
  ⟨⟨forward.word, forward.cond⟩, .ofFractionalParts (suffixFractional 0 ds)⟩

end ForwardRegional
end LearnTA
