import Mathlib.Data.Rat.Floor
import Mathlib.Data.List.Sort

/-!
# Orders on the fractional parts

Model of `/repo/include/fractional_order.hh`.
-/

namespace LearnTA

/-- `class FractionalOrder` (`/repo/include/fractional_order.hh:24-28`): groups of variables with
equal fractional parts, in increasing order; the first group has fractional part 0 and may be
empty.  Variables are `ℕ` instead of `uint8_t`. -/
structure FractionalOrder where
  order : List (List ℕ)
  size : ℕ
  deriving DecidableEq, Repr

namespace FractionalOrder

/-- `FractionalOrder()` (`/repo/include/fractional_order.hh:30-33`). -/
def init : FractionalOrder := ⟨[[0]], 1⟩

/-- Comparison of `std::pair<double, ClockVariables>`, used by `std::sort`
(`/repo/include/fractional_order.hh:48`). -/
def pairLe (a b : ℚ × ℕ) : Prop := a.1 < b.1 ∨ (a.1 = b.1 ∧ a.2 ≤ b.2)

instance : DecidableRel pairLe := fun a b => by unfold pairLe; infer_instance

/-- Loop body of the constructor (`/repo/include/fractional_order.hh:51-58`); the state is
`(currentFractionalPart, order)`. -/
def groupStep (s : ℚ × List (List ℕ)) (p : ℚ × ℕ) : ℚ × List (List ℕ) :=
  if s.1 = p.1 then (s.1, s.2.dropLast ++ [s.2.getLastD [] ++ [p.2]])
  else (p.1, s.2 ++ [[p.2]])

/-- `FractionalOrder(fractionalParts)` (`/repo/include/fractional_order.hh:42-61`).  `std::sort` is
an insertion sort: the pairs are distinct, so the sorted sequence is unique. -/
def ofFractionalParts (fs : List ℚ) : FractionalOrder :=
  ⟨((fs.zipIdx.insertionSort pairLe).foldl groupStep (0, [[]])).2, fs.length⟩

/-- `std::swap(order.front(), order.back())`. -/
def swapEnds : List (List ℕ) → List (List ℕ)
  | [] => []
  | [a] => [a]
  | a :: b :: r => (b :: r).getLastD [] :: ((b :: r).dropLast ++ [a])

/-- `successorVariables` (`/repo/include/fractional_order.hh:66-72`). -/
def successorVariables (f : FractionalOrder) : List ℕ :=
  if (f.order.headD []).isEmpty then f.order.getLastD [] else f.order.headD []

/-- `successor` and `successorAssign` (`/repo/include/fractional_order.hh:77-103`). -/
def successor (f : FractionalOrder) : FractionalOrder :=
  if (f.order.headD []).isEmpty then { f with order := (swapEnds f.order).dropLast }
  else { f with order := [] :: f.order }

/-- `predecessorVariables` (`/repo/include/fractional_order.hh:108-120`). -/
def predecessorVariables (f : FractionalOrder) : List ℕ :=
  if (f.order.headD []).isEmpty then f.order.tail.headD [] else f.order.headD []

/-- `predecessor` (`/repo/include/fractional_order.hh:125-137`). -/
def predecessor (f : FractionalOrder) : FractionalOrder :=
  if (f.order.headD []).isEmpty then { f with order := f.order.tail }
  else { f with order := swapEnds (f.order ++ [[]]) }

/-- `extendN` (`/repo/include/fractional_order.hh:142-146`). -/
def extendN (f : FractionalOrder) : FractionalOrder :=
  ⟨(f.order.headD [] ++ [f.size]) :: f.order.tail, f.size + 1⟩

/-- `removeN` (`/repo/include/fractional_order.hh:153-160`). -/
def removeN (f : FractionalOrder) : FractionalOrder :=
  ⟨(f.order.headD []).dropLast :: f.order.tail, f.size - 1⟩

/-- `extendZero` (`/repo/include/fractional_order.hh:165-176`). -/
def extendZero (f : FractionalOrder) : FractionalOrder :=
  let o := f.order.map (·.map (· + 1))
  ⟨(0 :: o.headD []) :: o.tail, f.size + 1⟩

end FractionalOrder
end LearnTA
