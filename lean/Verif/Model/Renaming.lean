import Verif.Model.Juxtaposed
import Verif.Model.Resets
import Mathlib.Data.List.Sort

/-!
# Renaming relations and the search for a renaming

Models of `/repo/include/renaming_relation.hh` and of the deterministic search in
`/repo/include/equivalence.hh`.
-/

namespace LearnTA

/-- `isPoint(i)` (`/repo/include/timed_condition.hh:774-776`): the value of the clock `i`, that is
`T_{i,N}`, is fixed. -/
def TimedCondition.pointAt (c : TimedCondition) (i : ℕ) : Bool :=
  Bound.isPoint (c.upper i (c.size - 1)) (c.lower i (c.size - 1))

/-- `std::unique` with the equality `same`: drop an element that is the same as the last kept one. -/
def uniqueBy {α : Type} (same : α → α → Bool) : List α → List α
  | [] => []
  | a :: l => a :: go a l
where
  go (a : α) : List α → List α
    | [] => []
    | b :: l => if same a b then go a l else b :: go b l

/-- `std::sort` and `erase(unique)` of numbers. -/
def sortUnique (l : List ℕ) : List ℕ := uniqueBy (fun a b => a == b) (l.insertionSort (· ≤ ·))

namespace RenamingRelation

/-- Loop body of `toValuation` (`/repo/include/renaming_relation.hh:26-39`).  The precondition is a
simple condition; `none` is an infinite bound. -/
def valStep (s : TimedCondition × List ℚ) (i : ℕ) : Option (TimedCondition × List ℚ) :=
  let n := s.1.size - 1
  match s.1.lower i n, s.1.upper i n with
  | .fin l ls, .fin u us =>
    if l = -u ∧ ls = true ∧ us = true then some (s.1, s.2 ++ [u])
    else
      let m := (u - l) / 2
      some ((s.1.restrictLower i n (.fin (-m) true) false).restrictUpper i n (.fin m true) false, s.2 ++ [m])
  | _, _ => none

/-- `toValuation` (`/repo/include/renaming_relation.hh:23-42`).  The numbers are rational; the code
uses `double`. -/
def toValuation (c : TimedCondition) : Option (List ℚ) :=
  ((List.range c.size).foldlM valStep (c, [])).map (·.2)

/-- `it->second = value` for the first entry with the key `x`
(`/repo/include/renaming_relation.hh:57-59`, `64`). -/
def setFirst (x : ℕ) (u : Upd) : Resets → Resets
  | [] => []
  | p :: r => if p.1 = x then (p.1, u) :: r else p :: setFirst x u r

/-- Loop body of `toReset` (`/repo/include/renaming_relation.hh:56-66`). -/
def resetStep (vals : List ℚ) (r : Resets) (x : ℕ) : Resets :=
  let q := vals.getD x 0
  if r.any (fun p => p.1 == x) then (if q = ⌊q⌋ then setFirst x (.const q) r else r)
  else r ++ [(x, .const q)]

/-- `toReset(source, target)` (`/repo/include/renaming_relation.hh:45-69`); `source` is not used. -/
def toReset (r : RenamingRelation) (target : TimedCondition) : Option Resets :=
  (toValuation target).map fun vals =>
    (List.range target.size).foldl (resetStep vals) (r.map fun p => (p.2, .clock p.1))

/-- `apply` (`/repo/include/renaming_relation.hh:72-85`): `none` is the exception of `at`.  The code
resizes to `target`, not `target + 1`.  A resized vector is filled with zeros (`T` is a number). -/
def applyTo (r : RenamingRelation) (value : List ℚ) : Option (List ℚ) :=
  r.foldlM (fun (v : List ℚ) p =>
    let v' := if v.length ≤ p.2 then v ++ List.replicate (p.2 - v.length) 0 else v
    if p.2 < v'.length ∧ p.1 < v'.length then some (v'.set p.2 (v'.getD p.1 0)) else none) value

/-- `rightVariables` (`/repo/include/renaming_relation.hh:92-100`). -/
def rightVariables (r : RenamingRelation) : List ℕ := sortUnique (r.map (·.2))

/-- `eraseLeft` (`/repo/include/renaming_relation.hh:105-107`). -/
def eraseLeft (r : RenamingRelation) (left : ℕ) : RenamingRelation := r.filter fun p => !(p.1 == left)

/-- `onlyTrivial` (`/repo/include/renaming_relation.hh:112-116`). -/
def onlyTrivial (r : RenamingRelation) (target : TimedCondition) : Bool := r.all fun p => target.pointAt p.2

/-- `containsAllTrivial` (`/repo/include/renaming_relation.hh:121-148`). -/
def containsAllTrivial (r : RenamingRelation) (source target : TimedCondition) : Bool :=
  (List.range target.size).all fun t =>
    let tu := target.upper t (target.size - 1)
    let tl := target.lower t (target.size - 1)
    if Bound.isPoint tu tl then
      let hasEqual := (List.range source.size).any fun s =>
        let su := source.upper s (source.size - 1)
        let sl := source.lower s (source.size - 1)
        Bound.isPoint su sl && decide (su = tu) && decide (sl = tl)
      if hasEqual then r.any fun p => p.2 == t else true
    else true

/-- `full` (`/repo/include/renaming_relation.hh:153-166`). -/
def full (r : RenamingRelation) (c : TimedCondition) : Bool :=
  (sortUnique (r.rightVariables ++ (List.range c.size).filter fun x => c.pointAt x)).length == c.size

/-- `hasImpreciseClocks` (`/repo/include/renaming_relation.hh:171-173`). -/
def hasImpreciseClocks (r : RenamingRelation) (target : TimedCondition) : Bool :=
  !r.isEmpty && !r.full target && !r.onlyTrivial target

/-- `impreciseClocks` (`/repo/include/renaming_relation.hh:178-190`). -/
def impreciseClocks (r : RenamingRelation) (target : TimedCondition) : List ℕ :=
  if r.hasImpreciseClocks target then
    (List.range target.size).filter fun x => !target.pointAt x && !r.any fun p => p.2 == x
  else []

/-- The order of `addImplicitConstraints` (`/repo/include/renaming_relation.hh:200-202`). -/
def rightLe (p q : ℕ × ℕ) : Bool := decide (p.2 < q.2) || (p.2 == q.2 && decide (p.1 ≤ q.1))

/-- `addImplicitConstraints` (`/repo/include/renaming_relation.hh:195-206`). -/
def addImplicitConstraints (r : RenamingRelation) (j : JuxtaposedZone) : RenamingRelation :=
  uniqueBy (fun p q => p.2 == q.2)
    ((r ++ (j.addRenaming r).makeRenaming).insertionSort fun p q => rightLe p q = true)

/-- `isRightUnique` (`/repo/include/renaming_relation.hh:218-220`). -/
def isRightUnique (r : RenamingRelation) : Bool := r.rightVariables.length == r.length

end RenamingRelation

namespace Equivalence

/-- The variables of `toGraph` (`/repo/include/equivalence.hh:150-157`). -/
structure GraphState where
  v1 : ℕ
  v2 : ℕ
  edges1 : ℕ → List ℕ
  edges2 : ℕ → List ℕ
  same1 : List ℕ
  same2 : List ℕ

/-- `push_back(x)` to all the given vectors. -/
def pushAll (e : ℕ → List ℕ) (keys : List ℕ) (x : ℕ) : ℕ → List ℕ :=
  keys.foldl (fun e k => Function.update e k (e k ++ [x])) e

/-- Loop body of `toGraph` (`/repo/include/equivalence.hh:159-187`); `a` and `b` are the upper bounds
of the two conditions, `N` is the number of variables of the left one. -/
def graphStep (a b : ℕ → Bound) (N : ℕ) (s : GraphState) : GraphState :=
  if a s.v1 = b s.v2 then
    let e1 := Function.update s.edges1 s.v1 (s.edges1 s.v1 ++ s.same2)
    let e2 := pushAll s.edges2 s.same2 s.v1
    let e2 := Function.update e2 s.v2 (e2 s.v2 ++ s.same1)
    let e1 := pushAll e1 s.same1 s.v2
    let e1 := Function.update e1 s.v1 (e1 s.v1 ++ [s.v2])
    let e2 := Function.update e2 s.v2 (e2 s.v2 ++ [s.v1])
    let s' : GraphState := ⟨s.v1, s.v2, e1, e2, s.same1 ++ [s.v1], s.same2 ++ [s.v2]⟩
    if s.v1 + 1 < N ∧ a s.v1 = a (s.v1 + 1) then { s' with v1 := s.v1 + 1 } else { s' with v2 := s.v2 + 1 }
  else if a s.v1 < b s.v2 then { s with same1 := [], same2 := [], v2 := s.v2 + 1 }
  else { s with same1 := [], same2 := [], v1 := s.v1 + 1 }

/-- The loop of `toGraph` (`/repo/include/equivalence.hh:158-188`), with fuel; `N + M` is enough since
each iteration increases `v1` or `v2` (proved: the loop condition is false at the end). -/
def graphLoop (a b : ℕ → Bound) (N M : ℕ) : ℕ → GraphState → GraphState
  | 0, s => s
  | n + 1, s => if s.v1 < N ∧ s.v2 < M then graphLoop a b N M n (graphStep a b N s) else s

/-- `toGraph` (`/repo/include/equivalence.hh:146-200`). -/
def toGraph (left right : TimedCondition) : List (List ℕ) × List (List ℕ) :=
  let N := left.size
  let M := right.size
  let s := graphLoop (fun i => left.upper i (N - 1)) (fun j => right.upper j (M - 1)) N M (N + M)
    ⟨0, 0, fun _ => [], fun _ => [], [], []⟩
  ((List.range N).map fun i => sortUnique (s.edges1 i), (List.range M).map fun j => sortUnique (s.edges2 j))

/-- The inner loop body of `generateDeterministicCandidates` (`/repo/include/equivalence.hh:230-252`):
the new candidates made from one candidate; `none` is `back()` of an empty vector (undefined
behaviour).  `binary_search` in an ascending vector is membership. -/
def extendCandidate (left right : TimedCondition) (leftConstrained rightConstrained edges : List ℕ) (j : ℕ)
    (c : RenamingRelation) : Option (List RenamingRelation) :=
  if 0 < j ∧ right.upper (j - 1) (j - 1) = .fin 0 true then
    c.getLast?.map fun p => [c ++ [(p.1, j)]]
  else
    let lowerBound := match c.getLast? with | none => 0 | some p => p.1 + 1
    let constrained := rightConstrained.contains j
    some ((edges.filter fun i => decide (lowerBound ≤ i) && (constrained == leftConstrained.contains i) &&
      (decide (i = 0) || decide (left.upper (i - 1) (i - 1) ≠ .fin 0 true))).map fun i => c ++ [(i, j)])

/-- The outer loop body (`/repo/include/equivalence.hh:224-252`). -/
def candidateStep (left right : TimedCondition) (leftConstrained rightConstrained : List ℕ)
    (graph : List (List ℕ)) (cs : List RenamingRelation) (j : ℕ) : Option (List RenamingRelation) :=
  if (graph.getD j []).isEmpty || Zone.secondOf (right.upper j (right.size - 1)) then some cs
  else (cs.mapM (extendCandidate left right leftConstrained rightConstrained (graph.getD j []) j)).map List.flatten

/-- The lexicographic order of pairs and of vectors of pairs (`std::sort` of the candidates). -/
def pairLt (p q : ℕ × ℕ) : Bool := decide (p.1 < q.1) || (p.1 == q.1 && decide (p.2 < q.2))

/-- See `pairLt`. -/
def relLe : List (ℕ × ℕ) → List (ℕ × ℕ) → Bool
  | [], _ => true
  | _ :: _, [] => false
  | p :: l, q :: m => pairLt p q || (p == q && relLe l m)

/-- `generateDeterministicCandidates` (`/repo/include/equivalence.hh:213-264`). -/
def generateDeterministicCandidates (left right : TimedCondition) (leftConstrained rightConstrained : List ℕ)
    (graph : List (List ℕ) × List (List ℕ)) : Option (List RenamingRelation) :=
  ((List.range right.size).foldlM (candidateStep left right leftConstrained rightConstrained graph.2) [[]]).map
    fun cs => uniqueBy (fun a b => a == b)
      (((cs ++ [[]]).filter fun r => !RenamingRelation.hasImpreciseClocks r right).insertionSort
        fun a b => relLe a b = true)

/-- `enum class CellStatus` (`/repo/include/equivalence.hh:273-277`). -/
inductive CellStatus
  | bottom | top | middle
  deriving DecidableEq

/-- `decideStatus` (`/repo/include/equivalence.hh:284-304`). -/
def decideStatus (cat : TimedCondition) (cell : TimedConditionSet) : CellStatus :=
  match cell with
  | [] => .bottom
  | [c] => if c.beq cat then .top else .middle
  | _ => .middle

/-- `TimedCondition::getStrictlyConstrainedVariables` (`/repo/include/timed_condition.hh:580-590`). -/
def strictlyConstrained (c original : TimedCondition) (n : ℕ) : List ℕ :=
  (List.range n).filter fun i =>
    (List.range c.zone.dim).any fun k =>
      decide (c.zone.val k (i + 1) ≠ original.zone.val k (i + 1)) ||
        decide (c.zone.val (i + 1) k ≠ original.zone.val (i + 1) k)

/-- One component of `makeConstrainedVariables` (`/repo/include/equivalence.hh:318-345`), with
`TimedConditionSet::getStrictlyConstrainedVariables` (`/repo/include/timed_condition_set.hh:117-127`). -/
def constrainedVariables (row : List TimedConditionSet) (cats : List TimedCondition) (n : ℕ) : List ℕ :=
  sortUnique ((List.range row.length).flatMap fun i =>
    (row.getD i []).flatMap fun c => strictlyConstrained c (cats.getD i .empty) n)

/-- `findDeterministicEquivalentRenaming` with precomputed concatenations
(`/repo/include/equivalence.hh:479-553`): `none` is undefined behaviour in the generation of candidates,
`some none` is `nullopt`.  The two `std::transform`s range over the concatenations. -/
def findDeterministicCat (left : ElementaryLanguage) (leftRow : List TimedConditionSet)
    (leftCat : List TimedCondition) (right : ElementaryLanguage) (rightRow : List TimedConditionSet)
    (rightCat : List TimedCondition) (suffixes : List ElementaryLanguage) : Option (Option RenamingRelation) :=
  if (leftCat.zipWith decideStatus leftRow) ≠ (rightCat.zipWith decideStatus rightRow) then some none
  else if equivalenceCat left leftRow leftCat right rightRow rightCat suffixes [] then some (some [])
  else
    let graph := toGraph left.cond right.cond
    let leftConstrained := constrainedVariables leftRow leftCat (left.word.length + 1)
    let rightConstrained := constrainedVariables rightRow rightCat (right.word.length + 1)
    let lr := JuxtaposedZone.make left.cond.zone right.cond.zone
    let ls := (List.range leftRow.length).map fun i => JuxtaposedZoneSet.makeRight (leftRow.getD i [])
      (rightCat.getD i .empty) (suffixes.getD i .empty).word.length
    let rs := (List.range leftRow.length).map fun i => JuxtaposedZoneSet.makeLeft (leftCat.getD i .empty)
      (rightRow.getD i []) (suffixes.getD i .empty).word.length
    (generateDeterministicCandidates left.cond right.cond leftConstrained rightConstrained graph).map fun cs =>
      (cs.map fun r => if r.isEmpty then r else RenamingRelation.addImplicitConstraints r lr).find? fun r =>
        equivalenceJux lr ls rs r

/-- `findDeterministicEquivalentRenaming` (`/repo/include/equivalence.hh:365-459`): the emptiness of the
cells is compared first, and the concatenations are made here. -/
def findDeterministic (left : ElementaryLanguage) (leftRow : List TimedConditionSet)
    (right : ElementaryLanguage) (rightRow : List TimedConditionSet)
    (suffixes : List ElementaryLanguage) : Option (Option RenamingRelation) :=
  if (leftRow.map List.isEmpty) ≠ (rightRow.map List.isEmpty) then some none
  else findDeterministicCat left leftRow (suffixes.map fun s => left.cond.append s.cond) right rightRow
    (suffixes.map fun s => right.cond.append s.cond) suffixes

end Equivalence
end LearnTA
