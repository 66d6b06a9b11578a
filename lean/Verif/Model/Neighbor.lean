import Verif.Model.Merge
import Verif.Model.Recognizable

/-!
# Elementary languages with their neighbours

Model of `/repo/include/neighbor_conditions.hh` and of the functions `applyResets` of
`/repo/include/timed_condition.hh` and `/repo/include/forward_regional_elementary_language.hh` that it uses.
-/

namespace LearnTA
namespace TimedCondition

/-- The bounds for an assigned constant: a point if it is an integer, else an open unit interval
(`/repo/include/timed_condition.hh:689-699`, `:723-733`).  The lower bound comes first. -/
def constantBounds (q : ℚ) : Bound × Bound :=
  if isIntegral q then (.fin (-q) true, .fin q true) else (.fin (-⌊q⌋) false, .fin ⌈q⌉ false)

/-- `restrictLowerBound` and `restrictUpperBound` with assignment, one after the other. -/
def assignBounds (c : TimedCondition) (i j : ℕ) (b : Bound × Bound) : TimedCondition :=
  (c.restrictLower i j b.1 true).restrictUpper i j b.2 true

/-- Loop body of `applyResets(resets)` (`/repo/include/timed_condition.hh:684-700`): `none` if a clock is copied (the
assertion fails). -/
def assignConstant (c : TimedCondition) (p : ℕ × Upd) : Option TimedCondition :=
  match p.2 with
  | .const q => some (assignBounds ⟨c.zone.unconstrain p.1⟩ p.1 (c.size - 1) (constantBounds q))
  | .clock _ => none

/-- `applyResets(resets)` (`/repo/include/timed_condition.hh:682-703`). -/
def applyConstants (c : TimedCondition) (r : Resets) : Option TimedCondition := r.foldlM assignConstant c

/-- The inner loop of `applyResets(resets, targetClockSize)` (`/repo/include/timed_condition.hh:734-750`): the differences
to the constants of the smaller clocks. -/
def relateConstant (x : ℕ) (q : ℚ) (c : TimedCondition) (p : ℕ × Upd) : TimedCondition :=
  match p.2 with
  | .const q2 => if p.1 < x then c.assignBounds p.1 (x - 1) (constantBounds (q2 - q)) else c
  | .clock _ => c

/-- Loop body of `applyResets(resets, targetClockSize)` (`/repo/include/timed_condition.hh:717-755`): the condition and the
renaming made so far. -/
def resetStep (size : ℕ) (r : Resets) (s : TimedCondition × RenamingRelation) (p : ℕ × Upd) :
    TimedCondition × RenamingRelation :=
  if size ≤ p.1 then s
  else match p.2 with
    | .const q => (r.foldl (relateConstant p.1 q) (s.1.assignBounds p.1 (size - 1) (constantBounds q)), s.2)
    | .clock y => (s.1, s.2 ++ [(y, p.1)])

/-- `applyResets(resets, targetClockSize)` (`/repo/include/timed_condition.hh:713-769`): `none` if a copied clock is out
of range (the matrix is accessed out of bounds). -/
def applyResets (c : TimedCondition) (r : Resets) (size : ℕ) : Option TimedCondition :=
  let s := r.foldl (resetStep size r) (⟨Zone.top (size + 1)⟩, [])
  let rel := s.2 ++ ((List.range size).filter fun x => !r.any fun p => p.1 == x).map fun x => (x, x)
  if rel.all fun p => decide (p.1 < c.size) then
    (((JuxtaposedZone.make c.zone s.1.zone).addRenaming rel).getRight).map TimedCondition.mk
  else none

end TimedCondition

namespace ForwardRegional

/-- `applyResets(resets)` (`/repo/include/forward_regional_elementary_language.hh:179-181`). -/
def applyConstants (L : ForwardRegional) (r : Resets) : Option ForwardRegional :=
  (L.cond.applyConstants r).map fun c => fromTimedWord (ElementaryLanguage.mk L.word c).sample

/-- `applyResets(newWord, resets, targetClockSize)`
(`/repo/include/forward_regional_elementary_language.hh:193-199`). -/
def applyResets (L : ForwardRegional) (newWord : List Action) (r : Resets) (size : ℕ) : Option ForwardRegional :=
  if newWord.length + 1 = size then
    (L.cond.applyResets r size).map fun c => fromTimedWord (ElementaryLanguage.mk newWord c).sample
  else none

end ForwardRegional

/-- `class NeighborConditions` (`/repo/include/neighbor_conditions.hh:31-39`). -/
structure Neighbors where
  original : ForwardRegional
  precise : Finset ℕ
  neighbors : List ForwardRegional
  clockSize : ℕ

namespace Neighbors

/-- The condition of the loop of `updateNeighborsWithContinuousSuccessors`
(`/repo/include/neighbor_conditions.hh:114-118`): no precise clock has passed the original. -/
def notBeyond (precise : Finset ℕ) (original L : ForwardRegional) : Bool :=
  decide (∀ x ∈ precise, L.cond.upper x (L.cond.size - 1) ≤ original.cond.upper x (original.cond.size - 1))

/-- The condition for a new neighbour (`/repo/include/neighbor_conditions.hh:119-128`): the precise clocks are where they
are in the original. -/
def samePrecise (precise : Finset ℕ) (original L : ForwardRegional) : Bool :=
  decide (∀ x ∈ precise,
    L.cond.lower x (L.cond.size - 1) = original.cond.lower x (original.cond.size - 1) ∧
    L.cond.upper x (L.cond.size - 1) = original.cond.upper x (original.cond.size - 1))

/-- The loop for one neighbour (`/repo/include/neighbor_conditions.hh:113-132`), with a bound on the iterations. -/
def collect (precise : Finset ℕ) (original : ForwardRegional) : ℕ → ForwardRegional → Except Fail (List ForwardRegional)
  | 0, _ => .error .fuel
  | n + 1, L =>
    if notBeyond precise original L then do
      let l ← collect precise original n L.successor
      pure (if samePrecise precise original L then L :: l else l)
    else pure []

/-- Sorting by the hash and `unique` (`/repo/include/neighbor_conditions.hh:135-138`).  Simplification: regions with the
same hash stay in order. -/
def arrange (hash : ForwardRegional → ℕ) (l : List ForwardRegional) : List ForwardRegional :=
  uniqueBy ForwardRegional.beq (l.insertionSort fun a b => hash a ≤ hash b)

/-- `updateNeighborsWithContinuousSuccessors` (`/repo/include/neighbor_conditions.hh:108-141`). -/
def update (hash : ForwardRegional → ℕ) (fuel : ℕ) (precise : Finset ℕ) (neighbors : List ForwardRegional)
    (original : ForwardRegional) : Except Fail (List ForwardRegional) := do
  let ls ← neighbors.mapM (collect precise original fuel)
  pure (arrange hash ls.flatten)

/-- Loop body of `makeNeighbors` over `j` (`/repo/include/neighbor_conditions.hh:217-224`). -/
def relateClocks (original : TimedCondition) (precise : Finset ℕ) (i : ℕ) (c : TimedCondition) (j : ℕ) : TimedCondition :=
  if decide (i ∈ precise) = decide (j ∈ precise) then
    (c.restrictLower i (j - 1) (original.lower i (j - 1)) false).restrictUpper i (j - 1) (original.upper i (j - 1)) false
  else c

/-- Loop body of `makeNeighbors` over `i` (`/repo/include/neighbor_conditions.hh:211-225`). -/
def keepClock (original : TimedCondition) (precise : Finset ℕ) (c : TimedCondition) (i : ℕ) : TimedCondition :=
  let n := original.size
  let c := (c.restrictLower i (n - 1) (original.lower i (n - 1)) false).restrictUpper i (n - 1)
    (original.upper i (n - 1)) false
  ((List.range n).filter fun j => decide (i < j)).foldl (relateClocks original precise i) c

/-- `neighborsCondition` (`/repo/include/neighbor_conditions.hh:210-225`). -/
def neighborsCondition (original : TimedCondition) (precise : Finset ℕ) : TimedCondition :=
  (List.range original.size).foldl (keepClock original precise) ⟨Zone.top (original.size + 1)⟩

/-- `makeNeighbors` (`/repo/include/neighbor_conditions.hh:204-235`). -/
def makeNeighbors (original : ForwardRegional) (precise : Finset ℕ) : Except Fail (List ForwardRegional) :=
  match (neighborsCondition original.cond precise).enumerate with
  | none => .error .diverge
  | some l => .ok (l.map fun c => .fromTimedWord (ElementaryLanguage.mk original.word c).sample)

/-- `addImplicitPreciseClocks` (`/repo/include/neighbor_conditions.hh:83-106`). -/
def withImplicit (original : TimedCondition) (precise : Finset ℕ) : Finset ℕ :=
  precise ∪ (Finset.range original.size).filter fun x => original.isPoint x = true

/-- The public constructors (`/repo/include/neighbor_conditions.hh:241-270`). -/
def make (hash : ForwardRegional → ℕ) (fuel : ℕ) (original : ForwardRegional) (precise : Finset ℕ) :
    Except Fail Neighbors := do
  let l ← makeNeighbors original precise
  let precise' := withImplicit original.cond precise
  let l' ← if precise' = ∅ then pure l else update hash fuel precise' l original
  pure ⟨original, precise', l', original.cond.size⟩

/-- `reconstruct` (`/repo/include/neighbor_conditions.hh:192-202`). -/
def reconstruct (hash : ForwardRegional → ℕ) (fuel : ℕ) (N : Neighbors) (precise : Finset ℕ) : Except Fail Neighbors :=
  make hash fuel N.original (precise.filter fun x => x ≤ N.original.word.length)

/-- `toOriginalGuard` (`/repo/include/neighbor_conditions.hh:286-289`). -/
def toOriginalGuard (N : Neighbors) : Guard := N.original.cond.toGuard

/-- `match` (`/repo/include/neighbor_conditions.hh:294-297`, `:313-316`). -/
def matchGuard (N : Neighbors) (g : Guard) : Bool := Guard.isWeaker g N.toOriginalGuard

/-- `precise` (`/repo/include/neighbor_conditions.hh:306-308`). -/
def isPrecise (N : Neighbors) : Bool := N.neighbors.length == 1

/-- `toRelaxedGuard` (`/repo/include/neighbor_conditions.hh:321-331`). -/
def toRelaxedGuard (N : Neighbors) : Guard := Guard.unionHull (N.neighbors.map fun L => L.cond.toGuard)

/-- `successor(action)` (`/repo/include/neighbor_conditions.hh:333-344`). -/
def successorAction (N : Neighbors) (a : Action) : Neighbors :=
  ⟨N.original.successorAction a, insert N.clockSize N.precise, N.neighbors.map fun L => L.successorAction a, N.clockSize + 1⟩

/-- `successor()` and `successorAssign()` (`/repo/include/neighbor_conditions.hh:346-356`). -/
def successor (hash : ForwardRegional → ℕ) (fuel : ℕ) (N : Neighbors) : Except Fail Neighbors := do
  let l ← update hash fuel N.precise N.neighbors N.original.successor
  pure ⟨N.original.successor, N.precise, l, N.clockSize⟩

/-- `impreciseClocks` (`/repo/include/neighbor_conditions.hh:363-373`). -/
def impreciseClocks (N : Neighbors) : List ℕ := (List.range N.clockSize).filter fun x => decide (x ∉ N.precise)

/-- `applyResets` (`/repo/include/neighbor_conditions.hh:397-414`): copying a clock calls `abort()` (or fails an assertion
before). -/
def applyConstants (N : Neighbors) (r : Resets) : Except Fail Neighbors :=
  match N.original.applyConstants r, N.neighbors.mapM fun L => L.applyConstants r with
  | some o, some l => .ok ⟨o, N.precise ∪ (r.map (·.1)).toFinset, l, N.clockSize⟩
  | _, _ => .error .abort

/-- `isInternal` (`/repo/include/neighbor_conditions.hh:419-424`). -/
def isInternal (N : Neighbors) (t : Trans) : Bool := decide (t.resets = [(N.clockSize, .const 0)])

/-- `std::string::resize(n, c)`. -/
def resizeWord (w : List Action) (n : ℕ) (a : Action) : List Action := w.take n ++ List.replicate (n - w.length) a

/-- `constructOriginalAfterTransition` (`/repo/include/neighbor_conditions.hh:426-446`).  Reading the last letter of an
empty word and a state without clocks are undefined. -/
def originalAfter (loc : ℕ → TAState) (N : Neighbors) (a : Action) (t : Trans) : Except Fail ForwardRegional :=
  if N.isInternal t then .ok (N.original.successorAction a)
  else
    let size := (loc t.target).usedClockSize
    match N.original.word.getLast? with
    | none => .error .undefined
    | some b =>
      if size = 0 then .error .undefined
      else match N.original.applyResets (resizeWord N.original.word (size - 1) b) t.resets size with
        | none => .error .undefined
        | some L => .ok L

/-- `preciseClocksAfterReset(transition)` (`/repo/include/neighbor_conditions.hh:185-187`). -/
def preciseAfter (loc : ℕ → TAState) (N : Neighbors) (t : Trans) : Finset ℕ :=
  preciseAfterReset (loc t.target).usedClockSize N.precise t.resets

/-- `makeAfterTransition` (`/repo/include/neighbor_conditions.hh:276-279`). -/
def makeAfter (hash : ForwardRegional → ℕ) (fuel : ℕ) (loc : ℕ → TAState) (N : Neighbors) (a : Action) (t : Trans) :
    Except Fail Neighbors := do
  let o ← originalAfter loc N a t
  make hash fuel o (N.preciseAfter loc t)

/-- `toOriginalValuation` (`/repo/include/neighbor_conditions.hh:378-380`). -/
def toOriginalValuation (N : Neighbors) : Option (List ℚ) := RenamingRelation.toValuation N.original.cond

end Neighbors
end LearnTA
