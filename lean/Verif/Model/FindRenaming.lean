import Verif.Model.Recognizable

/-!
# The general search for a renaming

Model of `findEquivalentRenaming` (`/repo/include/equivalence.hh:555-741`).
-/

namespace LearnTA.Equivalence

/-- `while (index < constrained.size() && constrained.at(index) <= bound) index++`
(`/repo/include/equivalence.hh:686-692`). -/
def skipTo (constrained : List ℕ) (index bound : ℕ) : ℕ :=
  index + ((constrained.drop index).takeWhile fun v => decide (v ≤ bound)).length

/-- The new candidates (`/repo/include/equivalence.hh:668-684`): for each edge and each candidate, the candidate, the candidate
with the edge, and the edge alone. -/
def combine (edges1 edges2 : List ℕ) (cs : List RenamingRelation) : List RenamingRelation :=
  edges2.flatMap fun v1 => edges1.flatMap fun v2 => cs.flatMap fun c => [c, c ++ [(v1, v2)], [(v1, v2)]]

/-- The loop that generates the candidates (`/repo/include/equivalence.hh:636-693`); each iteration increases an index, so the
number of constrained variables is enough fuel.  `back()` is of a list that was checked not to be empty. -/
def candidateLoop (g1 g2 : List (List ℕ)) (c1 c2 : List ℕ) : ℕ → ℕ → ℕ → List RenamingRelation → List RenamingRelation
  | 0, _, _, cs => cs
  | n + 1, i1, i2, cs =>
    if h : i1 < c1.length ∧ i2 < c2.length then
      let v1 := c1[i1]'h.1
      let v2 := c2[i2]'h.2
      let e1 := g1.getD v1 []
      let e2 := g2.getD v2 []
      if e1.isEmpty then candidateLoop g1 g2 c1 c2 n (i1 + 1) i2 cs
      else if e2.isEmpty then candidateLoop g1 g2 c1 c2 n i1 (i2 + 1) cs
      else if e1.contains v2 = false then
        if v2 ≤ e1.getLastD 0 then candidateLoop g1 g2 c1 c2 n i1 (i2 + 1) cs else candidateLoop g1 g2 c1 c2 n (i1 + 1) i2 cs
      else if e2.contains v1 = false then
        if v1 ≤ e2.getLastD 0 then candidateLoop g1 g2 c1 c2 n (i1 + 1) i2 cs else candidateLoop g1 g2 c1 c2 n i1 (i2 + 1) cs
      else candidateLoop g1 g2 c1 c2 n (skipTo c1 i1 (e2.getLastD 0)) (skipTo c2 i2 (e1.getLastD 0)) (combine e1 e2 cs)
    else cs

/-- `std::lower_bound` and the conditional insertion (`/repo/include/equivalence.hh:727-729`): `ok none` if the edge is there.
`std::lower_bound` needs the elements less than the edge to be in front; otherwise the behaviour is undefined. -/
def insertEdge (r : RenamingRelation) (e : ℕ × ℕ) : Except Fail (Option RenamingRelation) :=
  let before := r.takeWhile fun p => pairLt p e
  let after := r.dropWhile fun p => pairLt p e
  if after.any fun p => pairLt p e then .error .undefined
  else if after.head? = some e then .ok none
  else .ok (some (before ++ e :: after))

/-- The two inner loops (`/repo/include/equivalence.hh:723-737`) over the edges: the renaming found, or the new candidates. -/
def extendBy (accept : RenamingRelation → Bool) (c : RenamingRelation) :
    List (ℕ × ℕ) → List RenamingRelation → Except Fail (RenamingRelation ⊕ List RenamingRelation)
  | [], new => .ok (.inr new)
  | e :: es, new => do
    match ← insertEdge c e with
    | none => extendBy accept c es new
    | some r => if accept r then .ok (.inl r) else extendBy accept c es (new ++ [r])

/-- The last loop (`/repo/include/equivalence.hh:720-738`), with fuel. -/
def searchLoop (accept : RenamingRelation → Bool) (edges : List (ℕ × ℕ)) :
    ℕ → List RenamingRelation → Except Fail (Option RenamingRelation)
  | 0, _ => .error .fuel
  | _ + 1, [] => .ok none
  | n + 1, c :: cs => do
    match ← extendBy accept c edges [] with
    | .inl r => .ok (some r)
    | .inr new => searchLoop accept edges n (cs ++ new)

/-- `findEquivalentRenaming` (`/repo/include/equivalence.hh:578-743`).  The emptiness of the cells is compared in the loop that
collects the constrained variables (608-622), without other effects. -/
def findRenaming (fuel : ℕ) (left : ElementaryLanguage) (leftRow : List TimedConditionSet) (right : ElementaryLanguage)
    (rightRow : List TimedConditionSet) (suffixes : List ElementaryLanguage) : Except Fail (Option RenamingRelation) :=
  if equivalence left leftRow right rightRow suffixes [] then .ok (some [])
  else
    let graph := toGraph left.cond right.cond
    let leftCat := suffixes.map fun s => (left.append s).cond
    let rightCat := suffixes.map fun s => (right.append s).cond
    if leftRow.map List.isEmpty ≠ rightRow.map List.isEmpty then .ok none
    else
      let c1 := (constrainedVariables leftRow leftCat (left.word.length + 1)).filter fun v => !(graph.1.getD v []).isEmpty
      let c2 := (constrainedVariables rightRow rightCat (right.word.length + 1)).filter fun v => !(graph.2.getD v []).isEmpty
      let cs := candidateLoop graph.1 graph.2 c1 c2 (c1.length + c2.length) 0 0 [[]]
      let cs := uniqueBy (fun a b => a == b) (cs.insertionSort fun a b => relLe a b = true)
      let lr := JuxtaposedZone.make left.cond.zone right.cond.zone
      let cs := cs.map fun r => if r.isEmpty then r else RenamingRelation.addImplicitConstraints r lr
      let ls := (List.range leftRow.length).map fun i => JuxtaposedZoneSet.makeRight (leftRow.getD i [])
        (rightCat.getD i .empty) (suffixes.getD i .empty).word.length
      let rs := (List.range leftRow.length).map fun i => JuxtaposedZoneSet.makeLeft (leftCat.getD i .empty)
        (rightRow.getD i []) (suffixes.getD i .empty).word.length
      match cs.find? fun r => equivalenceJux lr ls rs r with
      | some r => .ok (some r)
      | none => searchLoop (equivalence left leftRow right rightRow suffixes)
          (c1.flatMap fun v1 => (graph.1.getD v1 []).map fun v2 => (v1, v2)) fuel cs

end LearnTA.Equivalence
