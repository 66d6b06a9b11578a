import Verif.Model.ElementaryLanguage
import Verif.Model.Runner
import Verif.Model.Print

/-!
# Double precision

The other modules of the model compute with rational numbers where the code computes with `double`, and have one value `inf` where
the code has `std::numeric_limits<double>::max()`.  Here the functions of `/repo/include/zone.hh`,
`/repo/include/elementary_language.hh`, `/repo/include/timed_word.hh` and `/repo/include/timed_automaton_runner.hh` are modelled once
more, with the result of every addition, subtraction and multiplication rounded by a function `rnd`, and with the pairs of a number
and a flag that the code has.  Property C83 compares the two.

Simplifications: an infinite result is a number beyond `dblMax`; `NaN` and the sign of zero are not modelled.
-/

namespace LearnTA
namespace Double

/-- `std::numeric_limits<double>::max()`. -/
def dblMax : ℚ := (2 ^ 53 - 1) * 2 ^ 971

/-- IEEE 754 rounding of a positive number to 53 significant bits, ties to even; a subnormal number has fewer bits.  An infinite
result is `2 ^ 1024`. -/
def ieeePos (q : ℚ) : ℚ :=
  let e := max (-1074) (Int.log 2 q - 52)
  min (2 ^ 1024) (Print.roundEven (q / (2 : ℚ) ^ e) * (2 : ℚ) ^ e)

/-- The rounding of the processor (to nearest, ties to even). -/
def ieee (q : ℚ) : ℚ := if 0 < q then ieeePos q else if q < 0 then -ieeePos (-q) else 0

/-- `Bounds = std::pair<double, bool>` (`/repo/include/bounds.hh:12`), with the lexicographic order of pairs. -/
abbrev DBound := ℚ ×ₗ Bool

/-- A pair. -/
def pair (c : ℚ) (s : Bool) : DBound := toLex (c, s)

/-- `operator+` on `Bounds` (`/repo/include/bounds.hh:36-38`). -/
def plus (rnd : ℚ → ℚ) (a b : DBound) : DBound := pair (rnd ((ofLex a).1 + (ofLex b).1)) ((ofLex a).2 && (ofLex b).2)

/-- `isPoint(upperBound, lowerBound)` (`/repo/include/bounds.hh:17-22`). -/
def isPoint (u l : DBound) : Bool := decide (-(ofLex l).1 = (ofLex u).1) && (ofLex u).2 && (ofLex l).2

/-- The matrix of `struct Zone` (`/repo/include/zone.hh:24-31`). -/
structure DZone where
  dim : ℕ
  val : ℕ → ℕ → DBound

namespace DZone

/-- The value of "no bound" (`/repo/include/zone.hh:89`). -/
def infinity : DBound := pair dblMax false

/-- Assignment to one matrix entry. -/
def set (z : DZone) (i j : ℕ) (b : DBound) : DZone :=
  { z with val := fun i' j' => if i' = i ∧ j' = j then b else z.val i' j' }

/-- One iteration of `close1` (`/repo/include/zone.hh:263`). -/
def closeRow (rnd : ℚ → ℚ) (x : ℕ) (z : DZone) (i : ℕ) : DZone :=
  { z with val := fun i' j => if i' = i then min (z.val i j) (plus rnd (z.val x j) (z.val i x)) else z.val i' j }

/-- `Zone::close1` (`/repo/include/zone.hh:261-268`). -/
def close1 (rnd : ℚ → ℚ) (z : DZone) (x : ℕ) : DZone := (List.range z.dim).foldl (closeRow rnd x) z

/-- `Zone::canonize` (`/repo/include/zone.hh:314-318`). -/
def canonize (rnd : ℚ → ℚ) (z : DZone) : DZone := (List.range z.dim).foldl (close1 rnd) z

/-- `Zone::isSatisfiableNoCanonize` (`/repo/include/zone.hh:333-335`). -/
def isSatisfiableNoCanonize (rnd : ℚ → ℚ) (z : DZone) : Bool :=
  (List.range z.dim).all fun i => (List.range z.dim).all fun j => decide (pair 0 true ≤ plus rnd (z.val i j) (z.val j i))

/-- `Zone::isSatisfiable` (`/repo/include/zone.hh:323-326`). -/
def isSatisfiable (rnd : ℚ → ℚ) (z : DZone) : Bool := (canonize rnd z).isSatisfiableNoCanonize rnd

/-- `Zone::tighten(x, y, c)` (`/repo/include/zone.hh:95-101`), with the internal indices. -/
def tighten (rnd : ℚ → ℚ) (z : DZone) (x y : ℕ) (c : DBound) : DZone :=
  ((z.set x y (min (z.val x y) c)).close1 rnd x).close1 rnd y

/-- `Zone::tighten(const Constraint &)` (`/repo/include/zone.hh:104-123`). -/
def tightenC (rnd : ℚ → ℚ) (z : DZone) (g : Constraint) : DZone :=
  match g.odr with
  | .ge => z.tighten rnd 0 (g.x + 1) (pair (-g.c) true)
  | .gt => z.tighten rnd 0 (g.x + 1) (pair (-g.c) false)
  | .le => z.tighten rnd (g.x + 1) 0 (pair g.c true)
  | .lt => z.tighten rnd (g.x + 1) 0 (pair g.c false)

/-- `Zone::tighten(const std::vector<Constraint> &)` (`/repo/include/zone.hh:126-130`). -/
def tightenG (rnd : ℚ → ℚ) (z : DZone) (g : Guard) : DZone := g.foldl (tightenC rnd) z

/-- `Zone::unconstrain` (`/repo/include/zone.hh:283-288`). -/
def unconstrain (z : DZone) (x : ℕ) : DZone :=
  { z with val := fun i j => if i = x + 1 ∨ j = x + 1 then infinity else z.val i j }

/-- `Zone::elapse` (`/repo/include/zone.hh:295-298`). -/
def elapse (z : DZone) : DZone := { z with val := fun i j => if j = 0 then infinity else z.val i j }

/-- First loop body of `Zone::applyResets` (`/repo/include/zone.hh:134-141`). -/
def applyRenaming (rnd : ℚ → ℚ) (z : DZone) (r : ℕ × Upd) : DZone :=
  match r.2 with
  | .clock y =>
    if r.1 ≠ y then
      (((z.unconstrain r.1).set (r.1 + 1) (y + 1) (pair 0 true)).set (y + 1) (r.1 + 1) (pair 0 true)).canonize rnd
    else z
  | .const _ => z

/-- Second loop body of `Zone::applyResets` (`/repo/include/zone.hh:143-150`). -/
def applyConst (rnd : ℚ → ℚ) (z : DZone) (r : ℕ × Upd) : DZone :=
  match r.2 with
  | .const q => (((z.unconstrain r.1).set 0 (r.1 + 1) (pair (-q) true)).set (r.1 + 1) 0 (pair q true)).canonize rnd
  | .clock _ => z

/-- `Zone::applyResets` (`/repo/include/zone.hh:132-151`). -/
def applyResets (rnd : ℚ → ℚ) (z : DZone) (r : Resets) : DZone := r.foldl (applyConst rnd) (r.foldl (applyRenaming rnd) z)

/-- `Zone::operator&&` (`/repo/include/zone.hh:182-202`). -/
def inter (rnd : ℚ → ℚ) (z z' : DZone) : DZone := canonize rnd { z with val := fun i j => min (z.val i j) (z'.val i j) }

/-- Inner loop body of `Zone::extrapolate` (`/repo/include/zone.hh:372-380`). -/
def extrapolateInner (maxC : ℕ → ℚ) (i : ℕ) (z : DZone) (j : ℕ) : DZone :=
  if (ofLex (z.val (i + 1) (j + 1))).1 > maxC i then z.set (i + 1) (j + 1) infinity
  else if -(ofLex (z.val 0 (i + 1))).1 > maxC i then z.set (i + 1) (j + 1) infinity
  else if -(ofLex (z.val 0 (j + 1))).1 > maxC j then z.set (i + 1) (j + 1) infinity
  else z

/-- Outer loop body of `Zone::extrapolate` (`/repo/include/zone.hh:366-381`). -/
def extrapolateOuter (maxC : ℕ → ℚ) (n : ℕ) (z : DZone) (i : ℕ) : DZone :=
  let z1 := if (ofLex (z.val (i + 1) 0)).1 > maxC i then z.set (i + 1) 0 infinity else z
  let z2 := if -(ofLex (z1.val 0 (i + 1))).1 > maxC i then z1.set 0 (i + 1) (pair (-maxC i) false) else z1
  (List.range n).foldl (extrapolateInner maxC i) z2

/-- `Zone::extrapolate` (`/repo/include/zone.hh:364-383`). -/
def extrapolate (z : DZone) (maxC : ℕ → ℚ) : DZone :=
  (List.range (z.dim - 1)).foldl (extrapolateOuter maxC (z.dim - 1)) z

/-- `Zone::includes` (`/repo/include/zone.hh:397-399`). -/
def includes (z z' : DZone) : Bool :=
  (List.range z.dim).all fun i => (List.range z.dim).all fun j => decide (max (z.val i j) (z'.val i j) = z.val i j)

/-- `Zone::operator==` (`/repo/include/zone.hh:406-408`). -/
def beq (z z' : DZone) : Bool :=
  z.dim == z'.dim && (List.range z.dim).all fun i => (List.range z.dim).all fun j => decide (z.val i j = z'.val i j)

/-- `Zone::strictEqual` (`/repo/include/zone.hh:425-428`). -/
def strictEqual (z z' : DZone) : Bool :=
  (List.range z.dim).all fun i => (List.range z.dim).all fun j => decide (i = j ∨ z.val i j = z'.val i j)

/-- The value chosen for clock `i` in `Zone::sample` (`/repo/include/zone.hh:232-254`) given the values `vs` of the clocks before
it. -/
def sampleClock (rnd : ℚ → ℚ) (z : DZone) (vs : List ℚ) : ℚ :=
  let i := vs.length
  let lowerBound := z.val 0 (i + 1)
  let upperBound := z.val (i + 1) 0
  if isPoint upperBound lowerBound then (ofLex upperBound).1
  else
    let lower := (vs.zipIdx).foldl (fun l p => max l (rnd (-(ofLex (z.val (p.2 + 1) (i + 1))).1 + p.1)))
      (max 0 (-(ofLex lowerBound).1))
    let upper := (vs.zipIdx).foldl (fun u p => min u (rnd ((ofLex (z.val (i + 1) (p.2 + 1))).1 + p.1))) (ofLex upperBound).1
    if (ofLex lowerBound).2 then lower
    else if rnd (upper - lower) > 1 / 2 then rnd (lower + 1 / 2) else rnd (rnd (lower + upper) * (1 / 2))

/-- `Zone::sample` (`/repo/include/zone.hh:226-258`). -/
def sample (rnd : ℚ → ℚ) (z : DZone) : List ℚ :=
  (List.range (z.dim - 1)).foldl (fun vs _ => vs ++ [sampleClock rnd (z.canonize rnd) vs]) []

/-- `TimedCondition::getLowerBound(i, j)` (`/repo/include/timed_condition.hh:219-227`). -/
def lower (z : DZone) (i j : ℕ) : DBound := if j = z.dim - 1 - 1 then z.val 0 (i + 1) else z.val (j + 2) (i + 1)

/-- `TimedCondition::getUpperBound(i, j)` (`/repo/include/timed_condition.hh:232-240`). -/
def upper (z : DZone) (i j : ℕ) : DBound := if j = z.dim - 1 - 1 then z.val (i + 1) 0 else z.val (i + 1) (j + 2)

end DZone

/-- `durations.back() += q`. -/
def addBack (rnd : ℚ → ℚ) (l : List ℚ) (q : ℚ) : List ℚ := l.dropLast ++ [rnd (l.getLastD 0 + q)]

/-- Loop body of the constructor of `TimedWord` (`/repo/include/timed_word.hh:42-49`). -/
def absorbStep (rnd : ℚ → ℚ) (s : List Action × List ℚ) (p : Action × ℚ) : List Action × List ℚ :=
  if p.1 ≠ unobservable then (s.1 ++ [p.1], s.2 ++ [p.2]) else (s.1, addBack rnd s.2 p.2)

/-- `TimedWord(word, durations)` (`/repo/include/timed_word.hh:37-52`). -/
def makeWord (rnd : ℚ → ℚ) (word : List Action) (durations : List ℚ) : TimedWord :=
  let r := (word.zip durations.tail).foldl (absorbStep rnd) ([], [durations.headD 0])
  ⟨r.1, r.2⟩

/-- The inner loop of `ElementaryLanguage::sample` (`/repo/include/elementary_language.hh:127-134`); the state is
`(sum, lower, upper)`. -/
def sampleInner (rnd : ℚ → ℚ) (c : DZone) (durations : List ℚ) (i : ℕ) (s : ℚ × ℚ × ℚ) (j : ℕ) : ℚ × ℚ × ℚ :=
  let sum := rnd (s.1 + durations.getD j 0)
  (sum, max s.2.1 (rnd (-(ofLex (c.lower j i)).1 - sum)), min s.2.2 (rnd ((ofLex (c.upper j i)).1 - sum)))

/-- The duration chosen in one iteration of `sample` (`/repo/include/elementary_language.hh:118-138`), after the durations `ds`. -/
def sampleStep (rnd : ℚ → ℚ) (c : DZone) (ds : List ℚ) : ℚ :=
  let i := ds.length
  if isPoint (c.upper i i) (c.lower i i) then (ofLex (c.upper i i)).1
  else
    let r := (List.range i).reverse.foldl (sampleInner rnd c ds i) (0, -(ofLex (c.lower i i)).1, (ofLex (c.upper i i)).1)
    rnd (rnd (r.2.1 + r.2.2) * (1 / 2))

/-- The durations of `sample` (`/repo/include/elementary_language.hh:114-138`), for `n` iterations. -/
def sampleDurations (rnd : ℚ → ℚ) (c : DZone) (n : ℕ) : List ℚ :=
  (List.range n).foldl (fun ds _ => ds ++ [sampleStep rnd c ds]) []

/-- `ElementaryLanguage::sample` (`/repo/include/elementary_language.hh:114-143`) of a word and a condition. -/
def sampleWord (rnd : ℚ → ℚ) (word : List Action) (c : DZone) : TimedWord :=
  makeWord rnd word (sampleDurations rnd c (word.length + 1))

/-- `step(double)` of the runner (`/repo/include/timed_automaton_runner.hh:107-161`), for automata without unobservable transitions. -/
def stepDelay (rnd : ℚ → ℚ) (A : TA) (r : Runner) (d : ℚ) : Runner × Bool :=
  if A.states.isEmpty then (r, false)
  else match r.loc with
    | none => (r, false)
    | some p =>
      if d = 0 then (r, (A.loc p).isMatch)
      else ({ r with val := fun x => rnd (r.val x + d) }, (A.loc p).isMatch)

/-- The loop of `SULMembershipOracle::answerQuery` (`/repo/include/membership_oracle.hh:43-46`). -/
def runFrom (rnd : ℚ → ℚ) (A : TA) (r : Runner) (result : Bool) : List Action → List ℚ → Runner × Bool
  | a :: as, d :: ds => let p := stepDelay rnd A (Runner.stepAct A r a).1 d; runFrom rnd A p.1 p.2 as ds
  | _, _ => (r, result)

/-- `SULMembershipOracle::answerQuery` (`/repo/include/membership_oracle.hh:39-51`) with a `TimedAutomatonRunner` for an automaton
without unobservable transitions. -/
def answerQuery (rnd : ℚ → ℚ) (A : TA) (r : Runner) (w : TimedWord) : Runner × Bool :=
  let p := stepDelay rnd A (Runner.pre A r) (w.durations.headD 0)
  let q := runFrom rnd A p.1 p.2 w.word w.durations.tail
  (Runner.post A q.1, q.2)

end Double
end LearnTA
