import Verif.Model.ElementaryLanguage
import Verif.Spec.Zone
import Verif.Spec.TimedWord
import Mathlib.Algebra.Order.Floor.Ring

/-!
# Specification: the meaning of timed conditions and elementary languages
-/

namespace LearnTA

namespace TimedCondition

/-- `T_{i,j} = τ_i + … + τ_j` for the delays `d = τ_0, τ_1, …`. -/
def T (d : List ℚ) (i j : ℕ) : ℚ := ((d.drop i).take (j + 1 - i)).sum

/-- The delays `d` satisfy the condition: every sum of consecutive delays respects its two bounds. -/
def Holds (c : TimedCondition) (d : List ℚ) : Prop :=
  d.length = c.size ∧ ∀ i j, i ≤ j → j < c.size →
    Bound.Sat (T d i j) (c.upper i j) ∧ Bound.Sat (-T d i j) (c.lower i j)

/-- There is at least one variable, opposite bounds are compatible, and the matrix is canonical: no
bound is implied more tightly by two others.  (The diagonal, which the code does not use, is only
required not to be negative.) -/
def Canonical (c : TimedCondition) : Prop :=
  2 ≤ c.zone.dim ∧
    (∀ i < c.zone.dim, ∀ j < c.zone.dim, 0 ≤ c.zone.val i j + c.zone.val j i) ∧
    ∀ i < c.zone.dim, ∀ j < c.zone.dim, ∀ k < c.zone.dim, i ≠ j →
      c.zone.val i j ≤ c.zone.val i k + c.zone.val k j

/-- Every bound is finite. -/
def Bounded (c : TimedCondition) : Prop :=
  ∀ i < c.zone.dim, ∀ j < c.zone.dim, i ≠ j → c.zone.val i j ≠ .inf

/-- The constant of the bound is an integer. -/
def _root_.LearnTA.Bound.IsInt : Bound → Prop
  | .fin c _ => ∃ n : ℤ, c = n
  | .inf => True

/-- Every finite entry of the matrix is an integer. -/
def Integral (c : TimedCondition) : Prop :=
  ∀ i < c.zone.dim, ∀ j < c.zone.dim, Bound.IsInt (c.zone.val i j)

/-- The condition is simple: every sum `T_{i,j}` is either fixed to an integer or ranges over an open
interval between consecutive integers. -/
def Simple (c : TimedCondition) : Prop :=
  ∀ i j, i ≤ j → j < c.size → ∃ n : ℤ,
    (c.upper i j = .fin n true ∧ c.lower i j = .fin (-n) true) ∨
    (c.upper i j = .fin (n + 1) false ∧ c.lower i j = .fin (-n) false)

end TimedCondition

namespace ElementaryLanguage

/-- The timed word belongs to the language. -/
def Mem (e : ElementaryLanguage) (w : TimedWord) : Prop :=
  w.word = e.word ∧ e.cond.Holds w.durations

/-- The class invariant (the assertion of the constructor). -/
def WF (e : ElementaryLanguage) : Prop := e.word.length + 1 = e.cond.size

end ElementaryLanguage

namespace FractionalOrder

/-- The groups are a partition of the variables `0, …, size - 1`: each variable occurs in exactly one
group and once; groups list their variables in increasing order, and only the first one may be
empty. -/
structure Partition (f : FractionalOrder) : Prop where
  ne : f.order ≠ []
  perm : f.order.flatten.Perm (List.range f.size)
  sorted : ∀ g ∈ f.order, g.Pairwise (· < ·)
  nonempty : ∀ g ∈ f.order.tail, g ≠ []

/-- The groups are the classes of variables with equal fractional parts of the values `v`, by
increasing fractional part, and the first group has fractional part 0. -/
def Describes (f : FractionalOrder) (v : ℕ → ℚ) : Prop :=
  ∃ qs : List ℚ, (0 :: qs).Pairwise (· < ·) ∧
    List.Forall₂ (fun g q => ∀ i ∈ g, Int.fract (v i) = q) f.order (0 :: qs)

/-- The orders made by the operations of the class, from the initial one.  `removeN` is only allowed
where the assertions of the code allow it: the last variable is in the first group, and it is not the
only variable. -/
inductive Built : FractionalOrder → Prop
  | init : Built init
  | successor {f : FractionalOrder} : Built f → Built f.successor
  | predecessor {f : FractionalOrder} : Built f → Built f.predecessor
  | extendN {f : FractionalOrder} : Built f → Built f.extendN
  | extendZero {f : FractionalOrder} : Built f → Built f.extendZero
  | removeN {f : FractionalOrder} : Built f → 1 < f.size → f.size - 1 ∈ f.order.headD [] → Built f.removeN

end FractionalOrder

namespace ForwardRegional

/-- The regions reachable from the empty word with zero delay by appending actions and letting time
pass. -/
inductive Reach : ForwardRegional → Prop
  | init : Reach init
  | action {L : ForwardRegional} (a : Action) : Reach L → Reach (L.successorAction a)
  | time {L : ForwardRegional} : Reach L → Reach L.successor

/-- One step of a chain of prefixes: `B` is a successor of `A`. -/
def Step (A B : ForwardRegional) : Prop := A.successor = B ∨ ∃ a, (A.successorAction a).beq B = true

end ForwardRegional

namespace BackwardRegional

/-- The regions reachable from the empty word with zero delay by prepending actions and letting time
pass before the word. -/
inductive Reach : BackwardRegional → Prop
  | init : Reach init
  | action {L : BackwardRegional} (a : Action) : Reach L → Reach (L.predecessorAction a)
  | time {L : BackwardRegional} : Reach L → Reach L.predecessor

end BackwardRegional

namespace TimedWord

/-- The word started `q` earlier: `q` more time passes before the first action. -/
def prependDelay (u : TimedWord) (q : ℚ) : TimedWord :=
  ⟨u.word, (u.durations.headD 0 + q) :: u.durations.tail⟩

end TimedWord
end LearnTA
