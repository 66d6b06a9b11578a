import Verif.Model.Symbolic

/-!
# Juxtaposed zones

Models of `/repo/include/juxtaposed_zone.hh`, `/repo/include/juxtaposed_zone_set.hh` and of
`equivalence` (`/repo/include/equivalence.hh`).
-/

namespace LearnTA

/-- Coefficient-wise minimum with the bounds `b` on the pairs of indices in `s`
(`block(...) = block(...).cwiseMin(...)`). -/
def Zone.minOn (z : Zone) (s : ℕ → ℕ → Bool) (b : ℕ → ℕ → Bound) : Zone :=
  { z with val := fun i j => if s i j then min (z.val i j) (b i j) else z.val i j }

/-- Assignment of the bounds `b` to the pairs of indices in `s` (`block(...) = ...`). -/
def Zone.assignOn (z : Zone) (s : ℕ → ℕ → Bool) (b : ℕ → ℕ → Bound) : Zone :=
  { z with val := fun i j => if s i j then b i j else z.val i j }

/-- `class JuxtaposedZone` (`/repo/include/juxtaposed_zone.hh:12-16`). -/
structure JuxtaposedZone where
  zone : Zone
  leftSize : ℕ
  rightSize : ℕ

namespace JuxtaposedZone

/-- `JuxtaposedZone(left, right)` (`/repo/include/juxtaposed_zone.hh:27-51`).  The function-local
`static` memo, keyed by the two zones, returns the same matrix. -/
def make (left right : Zone) : JuxtaposedZone :=
  let l := left.dim - 1
  let r := right.dim - 1
  ⟨Zone.canonize ⟨l + r + 1, fun i j =>
    if i ≤ l ∧ j ≤ l then left.val i j
    else if l < i ∧ l < j then right.val (i - l) (j - l)
    else if i = 0 then right.val 0 (j - l)
    else if j = 0 then right.val (i - l) 0
    else .inf⟩, l, r⟩

/-- `JuxtaposedZone(left, right, commonVariableSize)` (`/repo/include/juxtaposed_zone.hh:62-117`).
The names `M`, `N`, `L` are those of the code; memo as above.  The common variables are the indices
`M - L + 1, …, M`, which are `N - L + 1, …, N` in `right`; the unique variables of `right` are the
indices `M + 1, …, M + N - L`, which are `1, …, N - L` in `right`. -/
def makeCommon (left right : Zone) (L : ℕ) : JuxtaposedZone :=
  let M := left.dim - 1
  let N := right.dim - 1
  let common := fun k => decide (M - L + 1 ≤ k ∧ k < M - L + 1 + L)
  let uniq := fun k => decide (M + 1 ≤ k ∧ k < M + 1 + (N - L))
  -- the index in `right`
  let cR := fun k => k - (M - L + 1) + (N - L + 1)
  let uR := fun k => k - (M + 1) + 1
  -- copy the constraints in left (lines 84-87)
  let z0 : Zone := ⟨M + N - L + 1, fun i j => if i ≤ M ∧ j ≤ M then left.val i j else .inf⟩
  -- conjunction with the common part of right (lines 90-98)
  let z1 := z0.minOn (fun i j => common i && common j) (fun i j => right.val (cR i) (cR j))
  let z2 := z1.minOn (fun i j => i == 0 && common j) (fun _ j => right.val 0 (cR j))
  let z3 := z2.minOn (fun i j => common i && j == 0) (fun i _ => right.val (cR i) 0)
  let z4 := z3.canonize
  -- copy the constraints in right (lines 103-105)
  let z5 := z4.assignOn (fun i j => uniq i && uniq j) (fun i j => right.val (uR i) (uR j))
  let z6 := z5.assignOn (fun i j => i == 0 && uniq j) (fun _ j => right.val 0 (uR j))
  let z7 := z6.assignOn (fun i j => uniq i && j == 0) (fun i _ => right.val (uR i) 0)
  let z8 := z7.canonize
  -- conjunction with the constraints between the common and the unique part (lines 110-116)
  let z9 := z8.minOn (fun i j => uniq i && common j) (fun i j => right.val (uR i) (cR j))
  let z10 := z9.minOn (fun i j => common i && uniq j) (fun i j => right.val (cR i) (uR j))
  ⟨z10.canonize, M, N⟩

/-- The loop body of `addRenaming` without the bookkeeping
(`/repo/include/juxtaposed_zone.hh:137-140`). -/
def addPair (l : ℕ) (z : Zone) (p : ℕ × ℕ) : Zone :=
  let z' := z.set (p.1 + 1) (p.2 + l + 1) (min (z.val (p.1 + 1) (p.2 + l + 1)) (.fin 0 true))
  z'.set (p.2 + l + 1) (p.1 + 1) (min (z'.val (p.2 + l + 1) (p.1 + 1)) (.fin 0 true))

/-- `addRenaming` (`/repo/include/juxtaposed_zone.hh:127-146`): the bounds are set for all pairs,
then the matrix is closed with respect to the modified variables, in order. -/
def addRenaming (j : JuxtaposedZone) (r : List (ℕ × ℕ)) : JuxtaposedZone :=
  let z := r.foldl (addPair j.leftSize) j.zone
  { j with zone := (r.flatMap fun p => [p.1 + 1, p.2 + j.leftSize + 1]).foldl Zone.close1 z }

/-- `makeRenaming` (`/repo/include/juxtaposed_zone.hh:149-160`), in the order of the loops. -/
def makeRenaming (j : JuxtaposedZone) : List (ℕ × ℕ) :=
  (List.range j.leftSize).flatMap fun a => ((List.range j.rightSize).filter fun b =>
    decide (j.zone.val (a + 1) (b + j.leftSize + 1) = .fin 0 true) &&
      decide (j.zone.val (b + j.leftSize + 1) (a + 1) = .fin 0 true)).map fun b => (a, b)

/-- `getRight` (`/repo/include/juxtaposed_zone.hh:167-183`); `none` is `abort()`. -/
def getRight (j : JuxtaposedZone) : Option Zone :=
  if j.zone.dim - 1 ≠ j.leftSize + j.rightSize then none
  else some (Zone.canonize ⟨j.rightSize + 1, fun a b =>
    if 1 ≤ a ∧ 1 ≤ b then j.zone.val (j.leftSize + a) (j.leftSize + b)
    else if a = 0 ∧ 1 ≤ b then j.zone.val 0 (j.leftSize + b)
    else if 1 ≤ a ∧ b = 0 then j.zone.val (j.leftSize + a) 0
    else .inf⟩)

end JuxtaposedZone

/-- `class JuxtaposedZoneSet` (`/repo/include/juxtaposed_zone_set.hh:13-16`). -/
abbrev JuxtaposedZoneSet := List JuxtaposedZone

namespace JuxtaposedZoneSet

/-- `JuxtaposedZoneSet(left, right, commonVariableSize)` with a set on the left
(`/repo/include/juxtaposed_zone_set.hh:31-38`). -/
def makeRight (left : TimedConditionSet) (right : TimedCondition) (L : ℕ) : JuxtaposedZoneSet :=
  left.map fun c => JuxtaposedZone.makeCommon c.zone right.zone L

/-- `JuxtaposedZoneSet(left, right, commonVariableSize)` with a set on the right
(`/repo/include/juxtaposed_zone_set.hh:46-53`). -/
def makeLeft (left : TimedCondition) (right : TimedConditionSet) (L : ℕ) : JuxtaposedZoneSet :=
  right.map fun c => JuxtaposedZone.makeCommon left.zone c.zone L

/-- `addRenaming` (`/repo/include/juxtaposed_zone_set.hh:58-67`): unsatisfiable zones are erased. -/
def addRenaming (s : JuxtaposedZoneSet) (r : List (ℕ × ℕ)) : JuxtaposedZoneSet :=
  (s.map fun j => j.addRenaming r).filter fun j => j.zone.isSatisfiableNoCanonize

/-- `operator==` (`/repo/include/juxtaposed_zone_set.hh:74-81`). -/
def beq (s t : JuxtaposedZoneSet) : Bool :=
  s.length == t.length && s.all fun z => t.any fun z' => z.zone.strictEqual z'.zone

end JuxtaposedZoneSet

/-- `class RenamingRelation` (`/repo/include/renaming_relation.hh:16`): a vector of pairs. -/
abbrev RenamingRelation := List (ℕ × ℕ)

namespace Equivalence

/-- One iteration of the loop of `equivalence` (`/repo/include/equivalence.hh:94-102`); `mem…` are
the cells of the two rows, `…Cat` the conditions of the concatenations with the suffix. -/
def sameCell (r : RenamingRelation) (leftMem : TimedConditionSet) (leftCat : TimedCondition)
    (rightMem : TimedConditionSet) (rightCat : TimedCondition) (suffix : ElementaryLanguage) : Bool :=
  ((JuxtaposedZoneSet.makeRight leftMem rightCat suffix.word.length).addRenaming r).beq
    ((JuxtaposedZoneSet.makeLeft leftCat rightMem suffix.word.length).addRenaming r)

/-- `equivalence(left, leftRow, leftConcatenation, right, rightRow, rightConcatenation, suffixes,
renaming)` (`/repo/include/equivalence.hh:70-105`).  The loop runs over the indices of `leftRow`. -/
def equivalenceCat (left : ElementaryLanguage) (leftRow : List TimedConditionSet)
    (leftCat : List TimedCondition) (right : ElementaryLanguage) (rightRow : List TimedConditionSet)
    (rightCat : List TimedCondition) (suffixes : List ElementaryLanguage) (r : RenamingRelation) : Bool :=
  ((JuxtaposedZone.make left.cond.zone right.cond.zone).addRenaming r).zone.isSatisfiableNoCanonize &&
    (List.range leftRow.length).all fun i =>
      sameCell r (leftRow.getD i []) (leftCat.getD i .empty) (rightRow.getD i [])
        (rightCat.getD i .empty) (suffixes.getD i .empty)

/-- `equivalence(left, leftRow, right, rightRow, suffixes, renaming)`
(`/repo/include/equivalence.hh:22-62`): the concatenations are made in the loop. -/
def equivalence (left : ElementaryLanguage) (leftRow : List TimedConditionSet)
    (right : ElementaryLanguage) (rightRow : List TimedConditionSet)
    (suffixes : List ElementaryLanguage) (r : RenamingRelation) : Bool :=
  equivalenceCat left leftRow (suffixes.map fun s => (left.append s).cond) right rightRow
    (suffixes.map fun s => (right.append s).cond) suffixes r

/-- `equivalence(leftRightJuxtaposition, leftJuxtapositions, rightJuxtapositions, renaming)`
(`/repo/include/equivalence.hh:116-134`).  `std::equal` with two ranges compares the lengths. -/
def equivalenceJux (lr : JuxtaposedZone) (ls rs : List JuxtaposedZoneSet) (r : RenamingRelation) : Bool :=
  (lr.addRenaming r).zone.isSatisfiable &&
    (ls.length == rs.length && (ls.zip rs).all fun p => (p.1.addRenaming r).beq (p.2.addRenaming r))

end Equivalence
end LearnTA
