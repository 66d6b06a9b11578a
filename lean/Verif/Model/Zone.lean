import Verif.Model.Bound
import Verif.Model.Constraint

/-!
# Zones (difference bound matrices)

Model of `/repo/include/zone.hh`.
-/

namespace LearnTA

/-- The right-hand side of a clock update, `std::variant<double, ClockVariables>`
(`/repo/include/timed_automaton.hh`, `TATransition::Resets`). -/
inductive Upd where
  | const (q : ℚ)
  | clock (y : ℕ)
  deriving DecidableEq, Repr

/-- A list of clock updates (`TATransition::Resets`). -/
abbrev Resets := List (ℕ × Upd)

/-- `struct Zone` (`/repo/include/zone.hh:24-31`): a square matrix of bounds of size `dim`
(`value.cols()`); index 0 is the constant zero, index `i+1` is clock `i`; the entry `(i,j)` bounds
`x_i - x_j`.  The entries outside of `dim × dim` do not exist in the code and are never relevant.
The normalisation constants `M` and `maxConstraints` are arguments of the functions using them. -/
structure Zone where
  dim : ℕ
  val : ℕ → ℕ → Bound

namespace Zone

/-- `Zone::zero(size)` (`/repo/include/zone.hh:71-79`). Simplification: the function-local `static`
cache returns the same matrix. -/
def zero (size : ℕ) : Zone := ⟨size, fun _ _ => .fin 0 true⟩

/-- `Zone::top(size)` (`/repo/include/zone.hh:84-92`). -/
def top (size : ℕ) : Zone := ⟨size, fun _ _ => .inf⟩

/-- Assignment to one matrix entry. -/
def set (z : Zone) (i j : ℕ) (b : Bound) : Zone :=
  { z with val := fun i' j' => if i' = i ∧ j' = j then b else z.val i' j' }

/-- One iteration of `close1`: the row assignment at `/repo/include/zone.hh:263`.  The scalar
`value(i, x)` is read before the row is written and the row is computed coefficient-wise. -/
def closeRow (x : ℕ) (z : Zone) (i : ℕ) : Zone :=
  { z with val := fun i' j =>
      if i' = i then min (z.val i j) (z.val x j + z.val i x) else z.val i' j }

/-- `Zone::close1` (`/repo/include/zone.hh:261-268`), with the internal index. -/
def close1 (z : Zone) (x : ℕ) : Zone := (List.range z.dim).foldl (closeRow x) z

/-- `Zone::canonize` (`/repo/include/zone.hh:314-318`). -/
def canonize (z : Zone) : Zone := (List.range z.dim).foldl close1 z

/-- `Zone::isSatisfiableNoCanonize` (`/repo/include/zone.hh:333-335`): the least coefficient of
`value + valueᵀ` is at least `(0, true)`. -/
def isSatisfiableNoCanonize (z : Zone) : Bool :=
  (List.range z.dim).all fun i => (List.range z.dim).all fun j =>
    decide (Bound.fin 0 true ≤ z.val i j + z.val j i)

/-- The answer of `Zone::isSatisfiable` (`/repo/include/zone.hh:323-326`); the zone itself becomes
`canonize z`. -/
def isSatisfiable (z : Zone) : Bool := (canonize z).isSatisfiableNoCanonize

/-- `Zone::tighten(x, y, c)` (`/repo/include/zone.hh:95-101`), given the internal indices (after
`x++`, `y++`; the external `-1` is the internal 0). -/
def tighten (z : Zone) (x y : ℕ) (c : Bound) : Zone :=
  ((z.set x y (min (z.val x y) c)).close1 x).close1 y

/-- `Zone::tighten(const Constraint &)` (`/repo/include/zone.hh:104-123`). -/
def tightenC (z : Zone) (g : Constraint) : Zone :=
  match g.odr with
  | .ge => z.tighten 0 (g.x + 1) (.fin (-g.c) true)
  | .gt => z.tighten 0 (g.x + 1) (.fin (-g.c) false)
  | .le => z.tighten (g.x + 1) 0 (.fin g.c true)
  | .lt => z.tighten (g.x + 1) 0 (.fin g.c false)

/-- `Zone::tighten(const std::vector<Constraint> &)` (`/repo/include/zone.hh:126-130`). -/
def tightenG (z : Zone) (g : Guard) : Zone := g.foldl tightenC z

/-- `Zone::unconstrain` (`/repo/include/zone.hh:283-288`), external clock index. -/
def unconstrain (z : Zone) (x : ℕ) : Zone :=
  { z with val := fun i j => if i = x + 1 ∨ j = x + 1 then .inf else z.val i j }

/-- `Zone::reset` (`/repo/include/zone.hh:271-278`), external clock index: after the two entries
are set, column `x` (except its first entry) becomes column 0, then row `x` (except its first
entry) becomes row 0. -/
def reset (z : Zone) (x : ℕ) : Zone :=
  let z1 := (z.set 0 (x + 1) (.fin 0 true)).set (x + 1) 0 (.fin 0 true)
  let z2 : Zone := { z1 with val := fun i j => if j = x + 1 ∧ 1 ≤ i then z1.val i 0 else z1.val i j }
  { z2 with val := fun i j => if i = x + 1 ∧ 1 ≤ j then z2.val 0 j else z2.val i j }

/-- `Zone::elapse` (`/repo/include/zone.hh:295-298`). -/
def elapse (z : Zone) : Zone :=
  { z with val := fun i j => if j = 0 then .inf else z.val i j }

/-- `Zone::reverseElapse` (`/repo/include/zone.hh:307-309`). -/
def reverseElapse (z : Zone) : Zone :=
  { z with val := fun i j => if i = 0 then .fin 0 true else z.val i j }

/-- First loop body of `Zone::applyResets` (`/repo/include/zone.hh:134-141`). -/
def applyRenaming (z : Zone) (r : ℕ × Upd) : Zone :=
  match r.2 with
  | .clock y =>
    if r.1 ≠ y then
      (((z.unconstrain r.1).set (r.1 + 1) (y + 1) (.fin 0 true)).set (y + 1) (r.1 + 1)
        (.fin 0 true)).canonize
    else z
  | .const _ => z

/-- Second loop body of `Zone::applyResets` (`/repo/include/zone.hh:143-150`). -/
def applyConst (z : Zone) (r : ℕ × Upd) : Zone :=
  match r.2 with
  | .const q =>
    (((z.unconstrain r.1).set 0 (r.1 + 1) (.fin (-q) true)).set (r.1 + 1) 0 (.fin q true)).canonize
  | .clock _ => z

/-- `Zone::applyResets` (`/repo/include/zone.hh:132-151`): first the renamings, in order, then the
constant assignments, in order. -/
def applyResets (z : Zone) (r : Resets) : Zone := r.foldl applyConst (r.foldl applyRenaming z)

/-- `Zone::operator&&` and `Zone::operator&=` (`/repo/include/zone.hh:182-202`); equal dimensions
are a precondition (asserted in the code). -/
def inter (z z' : Zone) : Zone :=
  canonize { z with val := fun i j => min (z.val i j) (z'.val i j) }

/-- `Zone::abstractize` (`/repo/include/zone.hh:347-356`) with threshold `M.first = m`. -/
def abstractize (z : Zone) (m : ℚ) : Zone :=
  { z with val := fun i j =>
      if z.val i j > .fin m true then .inf
      else if z.val i j < .fin (-m) false then .fin (-m) false
      else z.val i j }

/-- `b.first > m`, where the bound `inf` is `DBL_MAX`. -/
def firstGt (b : Bound) (m : ℚ) : Bool :=
  match b with
  | .fin c _ => decide (c > m)
  | .inf => true

/-- `-b.first > m`, where the bound `inf` is `DBL_MAX` (so `-DBL_MAX > m` is false). -/
def negFirstGt (b : Bound) (m : ℚ) : Bool :=
  match b with
  | .fin c _ => decide (-c > m)
  | .inf => false

/-- Inner loop body of `Zone::extrapolate` (`/repo/include/zone.hh:372-380`). -/
def extrapolateInner (maxC : ℕ → ℚ) (i : ℕ) (z : Zone) (j : ℕ) : Zone :=
  if firstGt (z.val (i + 1) (j + 1)) (maxC i) then z.set (i + 1) (j + 1) .inf
  else if negFirstGt (z.val 0 (i + 1)) (maxC i) then z.set (i + 1) (j + 1) .inf
  else if negFirstGt (z.val 0 (j + 1)) (maxC j) then z.set (i + 1) (j + 1) .inf
  else z

/-- Outer loop body of `Zone::extrapolate` (`/repo/include/zone.hh:366-381`). -/
def extrapolateOuter (maxC : ℕ → ℚ) (n : ℕ) (z : Zone) (i : ℕ) : Zone :=
  let z1 := if firstGt (z.val (i + 1) 0) (maxC i) then z.set (i + 1) 0 .inf else z
  let z2 := if negFirstGt (z1.val 0 (i + 1)) (maxC i) then z1.set 0 (i + 1) (.fin (-maxC i) false)
    else z1
  (List.range n).foldl (extrapolateInner maxC i) z2

/-- `Zone::extrapolate` (`/repo/include/zone.hh:364-383`); `n = maxConstraints.size()`, which is the
number of clocks. -/
def extrapolate (z : Zone) (maxC : ℕ → ℚ) : Zone :=
  (List.range (z.dim - 1)).foldl (extrapolateOuter maxC (z.dim - 1)) z

/-- `Zone::includes` (`/repo/include/zone.hh:397-399`): the coefficient-wise maximum of the two
matrices is this matrix. Equal dimensions are a precondition (an Eigen assertion in the code). -/
def includes (z z' : Zone) : Bool :=
  (List.range z.dim).all fun i => (List.range z.dim).all fun j =>
    decide (max (z.val i j) (z'.val i j) = z.val i j)

/-- `Zone::operator==` (`/repo/include/zone.hh:406-408`). -/
def beq (z z' : Zone) : Bool :=
  z.dim == z'.dim && (List.range z.dim).all fun i => (List.range z.dim).all fun j =>
    decide (z.val i j = z'.val i j)

/-- `Zone::strictEqual` (`/repo/include/zone.hh:425-428`): equality up to the diagonal. -/
def strictEqual (z z' : Zone) : Bool :=
  (List.range z.dim).all fun i => (List.range z.dim).all fun j =>
    decide (i = j ∨ z.val i j = z'.val i j)

/-- First component of a bound; `DBL_MAX` for `inf` is modelled by `none`. -/
def firstOf : Bound → Option ℚ
  | .fin c _ => some c
  | .inf => none

/-- Second component of a bound. -/
def secondOf : Bound → Bool
  | .fin _ s => s
  | .inf => false

/-- `std::max(lower, -b.first + v)`; with `b.first = DBL_MAX` the second argument is about
`-DBL_MAX`. -/
def sampleLower (lower : ℚ) (b : Bound) (v : ℚ) : ℚ :=
  match b with
  | .fin c _ => max lower (-c + v)
  | .inf => lower

/-- `std::min(upper, b.first + v)` where `none` is `DBL_MAX`. -/
def sampleUpper (upper : Option ℚ) (b : Bound) (v : ℚ) : Option ℚ :=
  match upper, b with
  | none, .fin c _ => some (c + v)
  | some u, .fin c _ => some (min u (c + v))
  | u, .inf => u

/-- The value chosen for clock `i` in `Zone::sample` (`/repo/include/zone.hh:232-254`) given the
values `vs` of the clocks before it.  `z` is already canonical. -/
def sampleClock (z : Zone) (vs : List ℚ) : ℚ :=
  let i := vs.length
  let lowerBound := z.val 0 (i + 1)
  let upperBound := z.val (i + 1) 0
  if Bound.isPoint upperBound lowerBound then (firstOf upperBound).getD 0
  else
    let lower0 : ℚ := match lowerBound with
      | .fin c _ => max 0 (-c)
      | .inf => 0
    let lower := (vs.zipIdx).foldl (fun l p => sampleLower l (z.val (p.2 + 1) (i + 1)) p.1) lower0
    let upper := (vs.zipIdx).foldl (fun u p => sampleUpper u (z.val (i + 1) (p.2 + 1)) p.1)
      (firstOf upperBound)
    if secondOf lowerBound then lower
    else match upper with
      | none => lower + 1 / 2
      | some u => if u - lower > 1 / 2 then lower + 1 / 2 else (lower + u) * (1 / 2)

/-- `Zone::sample` (`/repo/include/zone.hh:226-258`). -/
def sample (z : Zone) : List ℚ :=
  (List.range (z.dim - 1)).foldl (fun vs _ => vs ++ [sampleClock z.canonize vs]) []

end Zone
end LearnTA
