import Verif.Model.Neighbor
import Verif.Spec.Zone
import Verif.Spec.ElementaryLanguage

/-!
# Specification: what an observer of the precise clocks knows
-/

namespace LearnTA

/-- Both numbers are the same integer, or lie strictly between the same consecutive integers. -/
def SameInterval (x y : ℚ) : Prop := ⌊x⌋ = ⌊y⌋ ∧ ⌈x⌉ = ⌈y⌉

/-- The valuations `v` and `u` of `n` clocks agree up to the intervals of the clocks, of the differences of precise clocks and
of the differences of imprecise clocks.  Nothing is said about the difference of a precise and an imprecise clock. -/
structure Confusable (precise : Finset ℕ) (n : ℕ) (v u : Valuation) : Prop where
  clocks : ∀ i < n, SameInterval (v i) (u i)
  differences : ∀ i < n, ∀ j < n, (i ∈ precise ↔ j ∈ precise) → SameInterval (v i - v j) (u i - u j)

/-- The clocks of `precise` are in the same intervals. -/
def AgreeOn (precise : Finset ℕ) (v u : Valuation) : Prop := ∀ i ∈ precise, SameInterval (v i) (u i)

/-- The valuation `u` of the first `size` clocks may come from `w` by the updates, when only the intervals of the assigned
constants and of their differences are kept. -/
def Resets.After (r : Resets) (size : ℕ) (w u : Valuation) : Prop :=
  (∀ x < size, (∀ q, (x, .const q) ∈ r → SameInterval q (u x)) ∧ (∀ y, (x, .clock y) ∈ r → u x = w y) ∧
    ((∀ c, (x, c) ∉ r) → u x = w x)) ∧
  ∀ x < size, ∀ y < size, ∀ q p : ℚ, (x, .const q) ∈ r → (y, .const p) ∈ r → SameInterval (q - p) (u x - u y)

/-- The regional elementary languages that the public operations make. -/
inductive ForwardRegional.Built : ForwardRegional → Prop
  | init : Built .init
  | word {w : TimedWord} : w.WF → w.Observable → (∀ d ∈ w.durations, 0 ≤ d) → Built (.fromTimedWord w)
  | time {L : ForwardRegional} : Built L → Built L.successor
  | action {L : ForwardRegional} {a : Action} : a ≠ unobservable → Built L → Built (L.successorAction a)
  | resets {L L' : ForwardRegional} {word : List Action} {r : Resets} {size : ℕ} : Built L →
      (∀ a ∈ word, a ≠ unobservable) → (r.map Prod.fst).Nodup → (∀ (x : ℕ) (q : ℚ), (x, .const q) ∈ r → 0 ≤ q) →
      L.applyResets word r size = some L' → Built L'

/-- The objects made by the constructors and the successor functions, with any hash functions. -/
inductive Neighbors.Built : Neighbors → Prop
  | make {L : ForwardRegional} {P : Finset ℕ} {hash : ForwardRegional → ℕ} {fuel : ℕ} {N : Neighbors} : L.Built →
      (∀ x ∈ P, x < L.cond.size) → Neighbors.make hash fuel L P = .ok N → Built N
  | time {N N' : Neighbors} {hash : ForwardRegional → ℕ} {fuel : ℕ} : Built N → N.successor hash fuel = .ok N' → Built N'
  | action {N : Neighbors} {a : Action} : a ≠ unobservable → Built N → Built (N.successorAction a)

/-- The valuation lies in one of the neighbours. -/
def Neighbors.Covers (N : Neighbors) (u : Valuation) : Prop := ∃ L ∈ N.neighbors, L.cond.zone.Mem u

end LearnTA
