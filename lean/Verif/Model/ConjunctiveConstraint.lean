import Verif.Model.Constraint

/-!
# Conjunctions of inequalities as vectors

Model of `/repo/include/conjunctive_constraint.hh`.  The file is compiled only if `NO_EIGEN_CONSTRAINT` is not defined
(`/repo/include/constraint.hh:18` defines it); it contains a second implementation of `negate`.
-/

namespace LearnTA

/-- `class ConjunctiveInequalities` (`/repo/include/conjunctive_constraint.hh:18-25`): `up` is the head, `low` the tail of
the vector `value`.  Entries from `dim` on are never read. -/
structure ConjIneq where
  dim : ℕ
  up : ℕ → IntBound
  low : ℕ → IntBound

namespace ConjIneq

/-- `maxValue` (`/repo/include/conjunctive_constraint.hh:28`). -/
def maxValue : ℤ := 1073741823

/-- The constructor without constraints (`/repo/include/conjunctive_constraint.hh:29-34`). -/
def trivial (dim : ℕ) : ConjIneq := ⟨dim, fun _ => .mk maxValue false, fun _ => .mk 0 true⟩

/-- The assignment of one bound in the constructors (`/repo/include/conjunctive_constraint.hh:42-47`, `57-62`). -/
def assign (a : ConjIneq) (c : Constraint) : ConjIneq :=
  if c.isUpperBound then { a with up := Function.update a.up c.x c.toBound }
  else { a with low := Function.update a.low c.x c.toBound.neg }

/-- The constructor from one constraint (`/repo/include/conjunctive_constraint.hh:36-48`). -/
def ofConstraint (c : Constraint) (dim : ℕ) : ConjIneq := (trivial dim).assign c

/-- The constructor from several constraints (`/repo/include/conjunctive_constraint.hh:50-64`). -/
def ofGuard (g : Guard) (dim : ℕ) : ConjIneq := g.foldl assign (trivial dim)

/-- `addConstraint` (`/repo/include/conjunctive_constraint.hh:66-74`). -/
def addConstraint (a : ConjIneq) (c : Constraint) : ConjIneq :=
  if c.isUpperBound then { a with up := Function.update a.up c.x (min (a.up c.x) c.toBound) }
  else { a with low := Function.update a.low c.x (min (a.low c.x) c.toBound.neg) }

/-- `operator&&` and `operator&=` (`/repo/include/conjunctive_constraint.hh:79-96`); the assertions require equal
dimensions. -/
def inter (a b : ConjIneq) : ConjIneq := ⟨a.dim, fun i => min (a.up i) (b.up i), fun i => min (a.low i) (b.low i)⟩

/-- `operator+` on bounds (`/repo/include/bounds.hh:36-38`). -/
def addBound (a b : IntBound) : IntBound := .mk (a.fst + b.fst) (a.snd && b.snd)

/-- `isSatisfiable` and `operator bool` (`/repo/include/conjunctive_constraint.hh:101-110`): the least sum is at least
`(0, true)`, that is, all are. -/
def isSatisfiable (a : ConjIneq) : Bool :=
  (List.range a.dim).all fun i => decide (IntBound.mk 0 true ≤ addBound (a.up i) (a.low i))

/-- `asConstraints` (`/repo/include/conjunctive_constraint.hh:115-137`). -/
def asConstraints (a : ConjIneq) : Guard :=
  ((List.range a.dim).filterMap fun i =>
    if maxValue ≤ (a.up i).fst then none
    else some (if (a.up i).snd then ⟨i, .le, (a.up i).fst⟩ else ⟨i, .lt, (a.up i).fst⟩)) ++
  ((List.range a.dim).filterMap fun i =>
    if IntBound.mk 0 true ≤ a.low i then none
    else some (if (a.low i).snd then ⟨i, .ge, -(a.low i).fst⟩ else ⟨i, .gt, -(a.low i).fst⟩))

/-- `includes` (`/repo/include/conjunctive_constraint.hh:142-144`). -/
def includes (a b : ConjIneq) : Bool :=
  (List.range a.dim).all fun i => decide (max (a.up i) (b.up i) = a.up i) && decide (max (a.low i) (b.low i) = a.low i)

/-- `operator==` (`/repo/include/conjunctive_constraint.hh:149-151`).  Comparing vectors of different sizes is an assertion violation
in Eigen; the model returns `false` and no claim speaks about this case. -/
def beq (a b : ConjIneq) : Bool :=
  decide (a.dim = b.dim) && (List.range a.dim).all fun i => decide (a.up i = b.up i) && decide (a.low i = b.low i)

/-- The erase loop of `negate` (`/repo/include/conjunctive_constraint.hh:186-196`), as `Guard.pruneWeaker`. -/
def prune : List ConjIneq → List ConjIneq → List ConjIneq
  | kept, [] => kept
  | kept, it :: rest =>
    if rest.any (fun a => a.includes it) || kept.any (fun a => a.includes it) then prune kept rest
    else prune (kept ++ [it]) rest

/-- One round of the loop of `negate` (`/repo/include/conjunctive_constraint.hh:167-199`). -/
def negateStep (dim : ℕ) (s : Bool × List ConjIneq) (disjunct : List Constraint) : Bool × List ConjIneq :=
  if disjunct.isEmpty then s
  else if s.1 then (false, disjunct.map fun c => ofConstraint c dim)
  else (false, prune [] (disjunct.flatMap fun c => s.2.filterMap fun conj =>
    if (conj.addConstraint c).isSatisfiable then some (conj.addConstraint c) else none))

/-- The dimension computed by `negate` (`/repo/include/conjunctive_constraint.hh:155-160`). -/
def dimension (dnf : List Guard) : ℕ := dnf.foldl (fun d g => g.foldl (fun d c => max d (1 + c.x)) d) 0

/-- `negate` (`/repo/include/conjunctive_constraint.hh:154-208`). -/
def negate (dnf : List Guard) : List Guard :=
  ((dnf.map Guard.negateAll).foldl (negateStep (dimension dnf)) (true, [])).2.map asConstraints

end ConjIneq
end LearnTA
