import Verif.Model.Zone
import Mathlib.Algebra.Order.Floor.Defs
import Mathlib.Data.Rat.Floor

/-!
# Timed conditions

Model of `/repo/include/timed_condition.hh`.
-/

namespace LearnTA

/-- `class TimedCondition` (`/repo/include/timed_condition.hh:19-26`): a zone over
`x_i = T_{i,N} = τ_i + … + τ_N` (internal index `i + 1`; the internal index 0 is the constant 0). -/
structure TimedCondition where
  zone : Zone

namespace TimedCondition

/-- `TimedCondition()` and `TimedCondition::empty()` (`/repo/include/timed_condition.hh:29`, `79-84`):
`τ_0 = 0`. -/
def empty : TimedCondition := ⟨Zone.zero 2⟩

/-- `size` (`/repo/include/timed_condition.hh:89-91`): the number of variables. -/
def size (c : TimedCondition) : ℕ := c.zone.dim - 1

/-- The loop bounds `for i < n, for j = i + 1 .. n - 1` of `isSimple`
(`/repo/include/timed_condition.hh:98-111`). -/
def isSimple (c : TimedCondition) : Bool :=
  (List.range c.zone.dim).all fun i => (List.range c.zone.dim).all fun j =>
    if i < j then
      Bound.isPoint (c.zone.val i j) (c.zone.val j i) ||
        Bound.isUnitOpen (c.zone.val i j) (c.zone.val j i)
    else true

/-- `getLowerBound(i, j)` (`/repo/include/timed_condition.hh:219-227`). -/
def lower (c : TimedCondition) (i j : ℕ) : Bound :=
  if j = c.size - 1 then c.zone.val 0 (i + 1) else c.zone.val (j + 2) (i + 1)

/-- `getUpperBound(i, j)` (`/repo/include/timed_condition.hh:232-240`). -/
def upper (c : TimedCondition) (i j : ℕ) : Bound :=
  if j = c.size - 1 then c.zone.val (i + 1) 0 else c.zone.val (i + 1) (j + 2)

/-- `restrictLowerBound(i, j, b, force)` (`/repo/include/timed_condition.hh:247-256`). -/
def restrictLower (c : TimedCondition) (i j : ℕ) (b : Bound) (force : Bool) : TimedCondition :=
  if j = c.size - 1 then
    ⟨(c.zone.set 0 (i + 1) (if force then b else min b (c.zone.val 0 (i + 1)))).canonize⟩
  else
    ⟨(c.zone.set (j + 2) (i + 1)
      (if force then b else min b (c.zone.val (j + 2) (i + 1)))).canonize⟩

/-- `restrictUpperBound(i, j, b, force)` (`/repo/include/timed_condition.hh:263-272`). -/
def restrictUpper (c : TimedCondition) (i j : ℕ) (b : Bound) (force : Bool) : TimedCondition :=
  if j = c.size - 1 then
    ⟨(c.zone.set (i + 1) 0 (if force then b else min b (c.zone.val (i + 1) 0))).canonize⟩
  else
    ⟨(c.zone.set (i + 1) (j + 2)
      (if force then b else min b (c.zone.val (i + 1) (j + 2)))).canonize⟩

/-- `concreteDifference` (`/repo/include/timed_condition.hh:42-43`, `66-67`): the value of
`T_{i,j}`. -/
def concreteDifference (acc : List ℚ) (i j : ℕ) : ℚ :=
  acc.getD i 0 - (if j + 1 < acc.length then acc.getD (j + 1) 0 else 0)

/-- Loop body of the constructor (`/repo/include/timed_condition.hh:41-51`). -/
def regionStep (acc : List ℚ) (i : ℕ) (c : TimedCondition) (j : ℕ) : TimedCondition :=
  let d := concreteDifference acc i j
  if (⌊d⌋ : ℚ) = d then
    (c.restrictUpper i j (.fin d true) true).restrictLower i j (.fin (-d) true) true
  else
    (c.restrictUpper i j (.fin (⌊d⌋ + 1) false) true).restrictLower i j (.fin (-⌊d⌋) false) true

/-- `TimedCondition(accumulatedDuration)` (`/repo/include/timed_condition.hh:37-53`): the simple
timed condition of concrete values of `T_{i,N}`. -/
def ofAccumulated (acc : List ℚ) : TimedCondition :=
  (List.range acc.length).foldl
    (fun c i => (List.range' i (acc.length - i)).foldl (regionStep acc i) c)
    ⟨Zone.top (acc.length + 1)⟩

/-- Loop body of `makeExact` (`/repo/include/timed_condition.hh:65-70`). -/
def exactStep (acc : List ℚ) (i : ℕ) (c : TimedCondition) (j : ℕ) : TimedCondition :=
  let d := concreteDifference acc i j
  (c.restrictUpper i j (.fin d true) true).restrictLower i j (.fin (-d) true) true

/-- `makeExact(accumulatedDuration)` (`/repo/include/timed_condition.hh:61-74`). -/
def makeExact (acc : List ℚ) : TimedCondition :=
  (List.range acc.length).foldl
    (fun c i => (List.range' i (acc.length - i)).foldl (exactStep acc i) c)
    ⟨Zone.top (acc.length + 1)⟩

/-- `operator+` (`/repo/include/timed_condition.hh:152-186`).  The entries are written by blocks;
here each entry of the result is given by the block that writes it last, plus the additions made to
it.  `A` is this condition with `N` variables, `B` the other one with `M`; the index `k > N` of
the result is the index `k - N + 1` of `B`. -/
def append (a b : TimedCondition) : TimedCondition :=
  let A := a.zone
  let B := b.zone
  let N := a.size
  let M := b.size
  ⟨Zone.canonize ⟨N + M, fun i j =>
    if i ≤ N then
      if j ≤ N then
        if i = 0 then
          if j = 0 then A.val 0 0            -- block (0,0,N+1,N+1)
          else A.val 0 j + B.val 0 1         -- the same, then the last addition
        else if j = 0 then A.val i 0 + B.val 1 0
        else A.val i j
      else if i = 0 then B.val 0 (j - N + 1)
      else A.val i 0 + B.val 1 (j - N + 1)
    else if j ≤ N then
      if j = 0 then B.val (i - N + 1) 0
      else A.val 0 j + B.val (i - N + 1) 1
    else B.val (i - N + 1) (j - N + 1)⟩⟩

/-- `convexHull` and `convexHullAssign` (`/repo/include/timed_condition.hh:277-286`): the
coefficient-wise maximum. Equal dimensions are a precondition (an Eigen assertion). -/
def convexHull (a b : TimedCondition) : TimedCondition :=
  ⟨{ a.zone with val := fun i j => max (a.zone.val i j) (b.zone.val i j) }⟩

/-- The `while` loop of `enumerate` (`/repo/include/timed_condition.hh:319-334`) without its body:
the pairs `(lowerBound, currentUpperBound)` it passes to the restrictions.  The first argument is
fuel; `splitBounds` gives enough. -/
def splitLoop (upper : Bound) : ℕ → ℚ → Bool → Bound → List (Bound × Bound)
  | 0, _, _, _ => []
  | n + 1, l, ls, cur =>
    if cur ≤ upper then
      (.fin l ls, cur) ::
        (if ls then splitLoop upper n l false (.fin (-l + 1) false)
        else splitLoop upper n (l - 1) true (.fin (-l + 1) true))
    else []

/-- The bounds of the pieces made by `enumerate` (`/repo/include/timed_condition.hh:318-334`).  With
an infinite bound the loop does not end; this is `none`. -/
def splitBounds (lower upper : Bound) : Option (List (Bound × Bound)) :=
  match lower, upper with
  | .fin l ls, .fin u us =>
    some (splitLoop (.fin u us) ((2 * ⌊u + l⌋ + 3).toNat) l ls
      (if ls then .fin (-l) true else .fin (-l + 1) false))
  | _, _ => none

/-- `push_back` to one of the two lists of `enumerate` (`/repo/include/timed_condition.hh:330-334`). -/
def enumPut (acc : List TimedCondition × List TimedCondition) (c : TimedCondition) :
    List TimedCondition × List TimedCondition :=
  if c.isSimple then (acc.1 ++ [c], acc.2) else (acc.1, acc.2 ++ [c])

/-- The loop body of `enumerate` for one condition (`/repo/include/timed_condition.hh:308-336`);
the accumulator is `(simpleConditions, nextConditions)`. -/
def enumOne (i j : ℕ) (acc : List TimedCondition × List TimedCondition) (c : TimedCondition) :
    Option (List TimedCondition × List TimedCondition) :=
  if c.isSimple then some (acc.1 ++ [c], acc.2)
  else if Bound.isPoint (c.upper i j) (c.lower i j) || Bound.isUnitOpen (c.upper i j) (c.lower i j) then
    some (acc.1, acc.2 ++ [c])
  else (splitBounds (c.lower i j) (c.upper i j)).map fun ps =>
    ps.foldl (fun acc p =>
      enumPut acc ((c.restrictLower i j p.1 false).restrictUpper i j p.2 false)) acc

/-- The two outer loops of `enumerate` (`/repo/include/timed_condition.hh:305-342`); the state is
`(simpleConditions, currentConditions)`.  The early `return` with no condition left changes
nothing. -/
def enumPair (s : List TimedCondition × List TimedCondition) (p : ℕ × ℕ) :
    Option (List TimedCondition × List TimedCondition) :=
  s.2.foldlM (enumOne p.1 p.2) (s.1, [])

/-- The pairs `(i, j)`, `i ≤ j`, in the order of the loops. -/
def pairs (n : ℕ) : List (ℕ × ℕ) :=
  (List.range n).flatMap fun i => (List.range' i (n - i)).map fun j => (i, j)

/-- `enumerate` (`/repo/include/timed_condition.hh:299-344`); `none` if it does not terminate. -/
def enumerate (c : TimedCondition) : Option (List TimedCondition) :=
  if c.isSimple then some [c]
  else ((pairs c.size).foldlM enumPair ([], [c])).map (·.1)

/-- Body of the loop of `successor` (`/repo/include/timed_condition.hh:370-382`). -/
def succStep (z : Zone) (i : ℕ) : Zone :=
  if Zone.secondOf (z.val 0 (i + 1)) then
    (z.set (i + 1) 0 (match z.val (i + 1) 0 with | .fin c _ => .fin (c + 1) false | .inf => .inf)).set
      0 (i + 1) (match z.val 0 (i + 1) with | .fin c _ => .fin c false | .inf => .inf)
  else
    (z.set (i + 1) 0 (match z.val (i + 1) 0 with | .fin c _ => .fin c true | .inf => .inf)).set
      0 (i + 1) (match z.val 0 (i + 1) with | .fin c _ => .fin (c - 1) true | .inf => .inf)

/-- `successor(variables)` and `successorAssign(variables)`
(`/repo/include/timed_condition.hh:367-406`). -/
def successor (c : TimedCondition) (vars : List ℕ) : TimedCondition := ⟨vars.foldl succStep c.zone⟩

/-- `removeEqualityUpperBoundAssign` (`/repo/include/timed_condition.hh:411-420`). -/
def removeEqualityUpperBound (c : TimedCondition) : TimedCondition :=
  ⟨{ c.zone with val := fun i j =>
      if 1 ≤ i ∧ j = 0 ∧ Zone.secondOf (c.zone.val i j) then .inf else c.zone.val i j }⟩

/-- `removeUpperBoundAssign` (`/repo/include/timed_condition.hh:425-430`). -/
def removeUpperBound (c : TimedCondition) : TimedCondition :=
  ⟨{ c.zone with val := fun i j => if 1 ≤ i ∧ j = 0 then .inf else c.zone.val i j }⟩

/-- The update of a pair of bounds `(upper, lower)` in `predecessor`
(`/repo/include/timed_condition.hh:442-450`). -/
def growBounds (u l : Bound) : Bound × Bound :=
  if Bound.isPoint u l then
    (match u with | .fin c _ => .fin (c + 1) false | .inf => .inf,
     match l with | .fin c _ => .fin c false | .inf => .inf)
  else
    (match u with | .fin c _ => .fin c true | .inf => .inf,
     match l with | .fin c _ => .fin (c - 1) true | .inf => .inf)

/-- The update of a pair of bounds `(upper, lower)` in `prefix` and `suffix`
(`/repo/include/timed_condition.hh:466-474`, `490-498`). -/
def shrinkBounds (u l : Bound) : Bound × Bound :=
  if Bound.isPoint u l then
    (match u with | .fin c _ => .fin c false | .inf => .inf,
     match l with | .fin c _ => .fin (c + 1) false | .inf => .inf)
  else
    (match u with | .fin c _ => .fin (c - 1) true | .inf => .inf,
     match l with | .fin c _ => .fin c true | .inf => .inf)

/-- Set the entries `(p, q)` and `(q, p)` to the components of `f (val p q) (val q p)`. -/
def updatePair (f : Bound → Bound → Bound × Bound) (z : Zone) (p q : ℕ) : Zone :=
  (z.set p q (f (z.val p q) (z.val q p)).1).set q p (f (z.val p q) (z.val q p)).2

/-- `predecessor(variables)` (`/repo/include/timed_condition.hh:435-454`). -/
def predecessor (c : TimedCondition) (vars : List ℕ) : TimedCondition :=
  ⟨vars.foldl (fun z i => updatePair growBounds z 1 ((i + 2) % z.dim)) c.zone⟩

/-- `prefix(variables)` (`/repo/include/timed_condition.hh:459-478`). -/
def prefixT (c : TimedCondition) (vars : List ℕ) : TimedCondition :=
  ⟨vars.foldl (fun z i => updatePair shrinkBounds z (i + 1) 0) c.zone⟩

/-- `suffix(variables)` (`/repo/include/timed_condition.hh:483-502`). -/
def suffixT (c : TimedCondition) (vars : List ℕ) : TimedCondition :=
  ⟨vars.foldl (fun z i => updatePair shrinkBounds z 1 (if i = c.size - 1 then 0 else i + 2)) c.zone⟩

/-- `extendN` (`/repo/include/timed_condition.hh:507-518`): after the copies of column and row 0,
the corner entry is the entry `(0, 0)`. -/
def extendN (c : TimedCondition) : TimedCondition :=
  let z := c.zone
  let n := z.dim
  ⟨⟨n + 1, fun i j =>
    if i = n then (if j = n then z.val 0 0 else if j = 0 then .fin 0 true else z.val 0 j)
    else if j = n then (if i = 0 then .fin 0 true else z.val i 0)
    else z.val i j⟩⟩

/-- `removeN` (`/repo/include/timed_condition.hh:523-529`) and, by a TODO in the code, `removeZero`
(`535-541`). -/
def removeN (c : TimedCondition) : TimedCondition := ⟨{ c.zone with dim := c.zone.dim - 1 }⟩

/-- `hasEqualityN` (`/repo/include/timed_condition.hh:548-553`): one of the upper bounds of
`T_{i,N}` is non-strict. -/
def hasEqualityN (c : TimedCondition) : Bool :=
  (List.range c.size).any fun i => Zone.secondOf (c.zone.val (i + 1) 0)

/-- `extendZero` (`/repo/include/timed_condition.hh:558-573`): the indices are shifted by one, the
new index 1 is a copy of the index 2, and both are equal. The entry `(1, 1)` is a copy of `(2, 2)`,
and `(0, 0)` is the one of `top`. -/
def extendZero (c : TimedCondition) : TimedCondition :=
  let z := c.zone
  let s : ℕ → ℕ := fun i => if i = 0 then 0 else if i = 1 then 1 else i - 1
  ⟨⟨z.dim + 1, fun i j =>
    if i = 0 ∧ j = 0 then .inf
    else if i = 1 ∧ j = 2 then .fin 0 true
    else if i = 2 ∧ j = 1 then .fin 0 true
    else z.val (s i) (s j)⟩⟩

/-- `operator==` (`/repo/include/timed_condition.hh:592-594`). -/
def beq (a b : TimedCondition) : Bool := a.size == b.size && a.zone.strictEqual b.zone

/-- `toGuard` (`/repo/include/timed_condition.hh:603-633`): bounds of `T_{i,N}` as a guard over
`x_i`; the casts `int(·)` are exact on the integral bounds the conditions have (`⌊·⌋`/`⌈·⌉` are the
truncations of non-negative numbers). -/
def toGuard (c : TimedCondition) : Guard :=
  (List.range c.size).flatMap fun i =>
    (match c.lower i (c.size - 1) with
      | .inf => []
      | .fin l ls =>
        if Bound.fin l ls = .fin 0 true then []
        else [⟨i, if ls then .ge else .gt, -⌈l⌉⟩]) ++
    (match c.upper i (c.size - 1) with
      | .inf => []
      | .fin u us => [⟨i, if us then .le else .lt, ⌊u⌋⟩])

/-- `hasPrefix` (`/repo/include/timed_condition.hh:638-643`). -/
def hasPrefix (c : TimedCondition) : Bool :=
  !(decide (c.upper (c.size - 1) (c.size - 1) = .fin 0 true) &&
    decide (c.lower (c.size - 1) (c.size - 1) = .fin 0 true))

/-- `hasSuffix` (`/repo/include/timed_condition.hh:648-652`). -/
def hasSuffix (c : TimedCondition) : Bool :=
  !(decide (c.upper 0 0 = .fin 0 true) && decide (c.lower 0 0 = .fin 0 true))

/-- `includes` (`/repo/include/timed_condition.hh:657-659`). -/
def includes (a b : TimedCondition) : Bool := a.zone.includes b.zone

/-- `operator&&` (`/repo/include/timed_condition.hh:664-666`). -/
def inter (a b : TimedCondition) : TimedCondition := ⟨a.zone.inter b.zone⟩

/-- `operator bool` (`/repo/include/timed_condition.hh:678-680`). -/
def isSatisfiable (c : TimedCondition) : Bool := c.zone.isSatisfiable

/-- `isPoint(i)` (`/repo/include/timed_condition.hh:774-776`). -/
def isPoint (c : TimedCondition) (i : ℕ) : Bool :=
  Bound.isPoint (c.upper i (c.size - 1)) (c.lower i (c.size - 1))

end TimedCondition
end LearnTA
