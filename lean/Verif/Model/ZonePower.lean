import Verif.Model.Zone

/-!
# The juxtaposition operator of zones

Model of `Zone::operator^` (`/repo/include/zone.hh:207-221`), which no other function calls.
-/

namespace LearnTA
namespace Zone

/-- The matrix before `canonize` (`/repo/include/zone.hh:208-217`): `top(N + O)` is a matrix of `N + O` columns, although `N` and
`O` are numbers of clocks.  The blocks that are copied later win.  Both zones have a clock; for a right zone without clocks the
sizes of the blocks are below zero. -/
def powerMatrix (z another : Zone) : Zone where
  dim := (z.dim - 1) + (another.dim - 1)
  val := fun i j =>
    if i ≤ z.dim - 1 ∧ j ≤ z.dim - 1 then z.val i j
    else if j = 0 then another.val (i - (z.dim - 1)) 0
    else if i = 0 then another.val 0 (j - (z.dim - 1))
    else if z.dim - 1 ≤ i ∧ z.dim - 1 ≤ j then another.val (i - (z.dim - 1) + 1) (j - (z.dim - 1) + 1)
    else .inf

/-- `operator^` (`/repo/include/zone.hh:207-221`). -/
def power (z another : Zone) : Zone := (powerMatrix z another).canonize

end Zone
end LearnTA
