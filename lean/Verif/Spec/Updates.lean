import Verif.Spec.Zone

/-!
# Updates of clocks one after the other
-/

namespace LearnTA
namespace Resets

/-- Performs the copies of the list one after the other, each of them reading the clocks as they are then, and the assignments of
numbers after them. -/
def oneByOne (r : Resets) (v : Valuation) : Valuation :=
  let copied := r.foldl (fun u p => match p.2 with
    | .clock y => Function.update u p.1 (u y)
    | .const _ => u) v
  r.foldl (fun u p => match p.2 with
    | .const q => Function.update u p.1 q
    | .clock _ => u) copied

end Resets
end LearnTA
