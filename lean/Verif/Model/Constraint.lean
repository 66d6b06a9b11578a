import Verif.Spec.Valuation
import Verif.Model.Bound
import Mathlib.Data.Prod.Lex
import Mathlib.Order.Lattice
import Mathlib.Algebra.Order.Ring.Int

/-!
# Clock constraints and guards

Model of `/repo/include/constraint.hh`.
-/

namespace LearnTA

/-- `Constraint::Order` (`/repo/include/constraint.hh:33-35`). -/
inductive COrder where
  | lt | le | ge | gt
  deriving DecidableEq, Repr

/-- `struct Constraint` (`/repo/include/constraint.hh:32-39`): clock, comparison, constant.
Clocks are `ℕ` instead of `uint8_t`, constants `ℤ` instead of `int`. -/
structure Constraint where
  x : ℕ
  odr : COrder
  c : ℤ
  deriving DecidableEq, Repr

/-- A guard is a conjunction of constraints (`std::vector<Constraint>`). -/
abbrev Guard := List Constraint

/-- `std::numeric_limits<int>::max()`. -/
def intMax : ℤ := 2147483647

/-- `IntBounds = std::pair<int, bool>` with its lexicographic order
(`/repo/include/constraint.hh:29`). -/
abbrev IntBound := ℤ ×ₗ Bool

/-- The pair `(c, s)`. -/
def IntBound.mk (c : ℤ) (s : Bool) : IntBound := toLex (c, s)

/-- First component of the pair. -/
def IntBound.fst (b : IntBound) : ℤ := (ofLex b).1
/-- Second component of the pair. -/
def IntBound.snd (b : IntBound) : Bool := (ofLex b).2

/-- `operator-` on bounds (`/repo/include/bounds.hh:44-46`). -/
def IntBound.neg (b : IntBound) : IntBound := IntBound.mk (-b.fst) b.snd

namespace Constraint

/-- `Constraint::satisfy(double)` (`/repo/include/constraint.hh:41-53`). -/
def satisfyD (g : Constraint) (d : ℚ) : Bool :=
  match g.odr with
  | .lt => decide (d < g.c)
  | .le => decide (d ≤ g.c)
  | .gt => decide (d > g.c)
  | .ge => decide (d ≥ g.c)

/-- `Constraint::satisfy(std::vector<double>)` (`/repo/include/constraint.hh:55-57`). -/
def satisfy (g : Constraint) (v : Valuation) : Bool := g.satisfyD (v g.x)

/-- `Constraint::isUpperBound` (`/repo/include/constraint.hh:75-77`). -/
def isUpperBound (g : Constraint) : Bool := g.odr == .le || g.odr == .lt

/-- `Constraint::toBound` (`/repo/include/constraint.hh:129-140`). -/
def toBound (g : Constraint) : IntBound :=
  match g.odr with
  | .le | .ge => IntBound.mk g.c true
  | .lt | .gt => IntBound.mk g.c false

/-- `Constraint::toDBMBound` (`/repo/include/constraint.hh:143-156`). The code returns a `double`
pair; the values are integers. -/
def toDBMBound (g : Constraint) : IntBound :=
  match g.odr with
  | .le => IntBound.mk g.c true
  | .ge => IntBound.mk (-g.c) true
  | .lt => IntBound.mk g.c false
  | .gt => IntBound.mk (-g.c) false

/-- `Constraint::isWeaker` (`/repo/include/constraint.hh:85-95`). -/
def isWeaker (this another : Constraint) : Bool :=
  if this.x != another.x then false
  else (this.isUpperBound == another.isUpperBound) &&
    decide (another.toDBMBound ≤ this.toDBMBound)

/-- `Constraint::negate` (`/repo/include/constraint.hh:97-110`). -/
def negate (g : Constraint) : Constraint :=
  match g.odr with
  | .lt => ⟨g.x, .ge, g.c⟩
  | .le => ⟨g.x, .gt, g.c⟩
  | .gt => ⟨g.x, .le, g.c⟩
  | .ge => ⟨g.x, .lt, g.c⟩

/-- `Constraint::lowerBoundDurationToSatisfy` (`/repo/include/constraint.hh:112-127`).
`none` is the bound `(-inf, false)` (no delay works); otherwise the result is `(-d, s)` where `d`
is the infimum of the delays and `s` tells if it is attained. -/
def lowerBoundDurationToSatisfy (g : Constraint) (v : Valuation) : Option Bound :=
  match g.odr with
  | .lt | .le => if v g.x ≤ g.c then some (.fin 0 true) else none
  | .ge => some (min (.fin 0 true) (.fin (-g.c + v g.x) true))
  | .gt => some (min (.fin 0 true) (.fin (-g.c + v g.x) false))

end Constraint

namespace Guard

/-- All constraints of a guard are satisfied (the test used by the runner,
`/repo/include/timed_automaton_runner.hh`, and by `conjunctive` readings everywhere). -/
def satisfy (g : Guard) (v : Valuation) : Bool := g.all (·.satisfy v)

/-- `isWeaker` on guards (`/repo/include/constraint.hh:178-184`). -/
def isWeaker (left right : Guard) : Bool :=
  left.all fun l => right.any fun r => l.isWeaker r

/-- `widen` (`/repo/include/constraint.hh:240-247`): remove lower bounds. -/
def widen (g : Guard) : Guard :=
  g.filter fun c => !(c.odr == .ge || c.odr == .gt)

/-- `negateAll` (`/repo/include/constraint.hh:249-257`). -/
def negateAll (g : Guard) : List Constraint := g.map Constraint.negate

/-- `conjunction` (`/repo/include/constraint.hh:259-266`). -/
def conjunction (left right : Guard) : Guard := left ++ right

/-- The pair of vectors computed by `toBounds`: `size` is their common length; the entries at
positions `≥ size` are never read. -/
structure BoundsVec where
  size : ℕ
  upper : ℕ → IntBound
  lower : ℕ → IntBound

/-- Initial state of the loop of `toBounds`; fresh entries have the defaults of
`/repo/include/constraint.hh:277-278`. -/
def BoundsVec.init : BoundsVec where
  size := 0
  upper _ := IntBound.mk intMax false
  lower _ := IntBound.mk 0 true

/-- One iteration of the loop of `toBounds` (`/repo/include/constraint.hh:283-296`), including
`resizeBounds` (`:271-281`). -/
def BoundsVec.step (b : BoundsVec) (g : Constraint) : BoundsVec :=
  let size := max b.size (g.x + 1)
  let bound := g.toBound
  if g.isUpperBound then
    if b.upper g.x > bound then
      { b with size, upper := Function.update b.upper g.x bound }
    else { b with size }
  else
    if (b.lower g.x).neg > bound.neg then
      { b with size, lower := Function.update b.lower g.x bound }
    else { b with size }

/-- `toBounds` (`/repo/include/constraint.hh:268-299`). -/
def toBounds (g : Guard) : BoundsVec := g.foldl BoundsVec.step BoundsVec.init

/-- `satisfiable` (`/repo/include/constraint.hh:321-333`). -/
def satisfiable (g : Guard) : Bool :=
  let b := toBounds g
  (List.range b.size).all fun i =>
    !(decide ((b.lower i).fst > (b.upper i).fst) ||
      (decide ((b.lower i).fst = (b.upper i).fst) && !((b.lower i).snd && (b.upper i).snd)))

/-- `simplify` (`/repo/include/constraint.hh:335-361`). -/
def simplify (g : Guard) : Guard :=
  let b := toBounds g
  ((List.range b.size).filterMap fun i =>
    if b.lower i ≠ IntBound.mk 0 true then
      some (if (b.lower i).snd then ⟨i, .ge, (b.lower i).fst⟩ else ⟨i, .gt, (b.lower i).fst⟩)
    else none) ++
  ((List.range b.size).filterMap fun i =>
    if b.upper i ≠ IntBound.mk intMax false then
      some (if (b.upper i).snd then ⟨i, .le, (b.upper i).fst⟩ else ⟨i, .lt, (b.upper i).fst⟩)
    else none)

/-- `isPoint`/`isUnitOpen` on integer bounds (`/repo/include/bounds.hh:17-33`), with the lower
bound already negated as in the call in `simpleVariables`. -/
def isSimpleInt (upper negLower : IntBound) : Bool :=
  (decide (-negLower.fst = upper.fst) && upper.snd && negLower.snd) ||
  (decide (-negLower.fst + 1 = upper.fst) && !upper.snd && !negLower.snd)

/-- `simpleVariables` (`/repo/include/constraint.hh:306-319`). -/
def simpleVariables (g : Guard) : List ℕ :=
  let b := toBounds g
  (List.range b.size).filter fun i => isSimpleInt (b.upper i) (b.lower i).neg

/-- `lowerBoundDurationToSatisfy` on guards (`/repo/include/constraint.hh:363-372`):
`*min_element` of the constraints' bounds.  The outer `none` is the undefined behaviour of
dereferencing `end()` for an empty guard; inner `none` is `(-inf,false)`, the smallest bound. -/
def lowerBoundDurationToSatisfy (g : Guard) (v : Valuation) : Option (Option Bound) :=
  match g with
  | [] => none
  | c :: cs => some (cs.foldl
      (fun acc c' => do
        let a ← acc
        let b ← c'.lowerBoundDurationToSatisfy v
        pure (min a b))
      (c.lowerBoundDurationToSatisfy v))

/-- The erase loop at the end of one round of `negate`
(`/repo/include/constraint.hh:417-427`): `kept` are the elements before the iterator, the second
argument the elements from the iterator on. -/
def pruneWeaker : List Guard → List Guard → List Guard
  | kept, [] => kept
  | kept, it :: rest =>
    if rest.any (fun cs => isWeaker cs it) || kept.any (fun cs => isWeaker cs it) then
      pruneWeaker kept rest
    else pruneWeaker (kept ++ [it]) rest

/-- One round of the CNF-to-DNF loop of `negate` (`/repo/include/constraint.hh:397-430`); the
state is `(initial, dnfNegated)`. -/
def negateStep (s : Bool × List Guard) (disjunct : List Constraint) : Bool × List Guard :=
  if disjunct.isEmpty then s
  else if s.1 then (false, disjunct.map fun c => [c])
  else (false, pruneWeaker [] (disjunct.flatMap fun c =>
    s.2.filterMap fun conj =>
      let cj := conj ++ [c]
      if satisfiable cj then some (simplify cj) else none))

/-- `negate` on DNF guards (`/repo/include/constraint.hh:389-433`). -/
def negateDNF (dnf : List Guard) : List Guard :=
  ((dnf.map negateAll).foldl negateStep (true, [])).2

/-- The map of `unionHull`: key `(clock, isUpper)`, value DBM bound.  An association list with
unique keys stands for `boost::unordered_map`. -/
abbrev HullMap := List ((ℕ × Bool) × IntBound)

/-- Inner loop body of `unionHull` (`/repo/include/constraint.hh:445-457`). -/
def hullInsert (initial : Bool) (m : HullMap) (c : Constraint) : HullMap :=
  let key := (c.x, c.isUpperBound)
  match m.lookup key with
  | none => if initial then m ++ [(key, c.toDBMBound)] else m
  | some _ => m.map fun p => if p.1 = key then (p.1, max p.2 c.toDBMBound) else p

/-- One guard of `unionHull` (`/repo/include/constraint.hh:443-467`). -/
def hullStep (s : Bool × HullMap) (g : Guard) : Bool × HullMap :=
  let m := g.foldl (hullInsert s.1) s.2
  (false, m.filter fun p => g.any fun c => decide ((c.x, c.isUpperBound) = p.1))

/-- The final conversion of `unionHull` (`/repo/include/constraint.hh:469-488`). -/
def hullConstraint (p : (ℕ × Bool) × IntBound) : Constraint :=
  if p.1.2 then
    if p.2.snd then ⟨p.1.1, .le, p.2.fst⟩ else ⟨p.1.1, .lt, p.2.fst⟩
  else
    if p.2.snd then ⟨p.1.1, .ge, -p.2.fst⟩ else ⟨p.1.1, .gt, -p.2.fst⟩

/-- `unionHull` (`/repo/include/constraint.hh:440-496`). The order of the result (hash order in
the code) is the order of first insertion. -/
def unionHull (guards : List Guard) : Guard :=
  (guards.foldl hullStep (true, [])).2.map hullConstraint

/-- `addUpperBound` (`/repo/include/constraint.hh:505-525`). For each clock with exactly one
constraint, which is a lower bound, add `x < c + 1` (the branch for `le` cannot be taken because
a lower bound is never `le`).  The order of the additions is hash order in the code, order of
first occurrence here. -/
def addUpperBound (g : Guard) : Guard :=
  g ++ g.filterMap fun c =>
    if (g.filter fun d => d.x = c.x).length = 1 ∧ c.isUpperBound = false then
      some ⟨c.x, .lt, c.c + 1⟩
    else none

end Guard
end LearnTA
