import Verif.Model.TA
import Mathlib.Data.Rat.Floor
import Mathlib.Data.Finset.Basic
import Mathlib.Data.Finset.Filter

/-!
# Merging of the transitions of a state

Model of the functions of `/repo/src/timed_automaton.cc:12-51,156-324` that make the transitions of a state deterministic,
and of the static functions of `/repo/include/neighbor_conditions.hh` that they use.
-/

namespace LearnTA

/-- The assigned constant is an integer (`/repo/include/neighbor_conditions.hh:160-161`). -/
def isIntegral (q : ℚ) : Bool := decide (q = ⌊q⌋)

/-- `NeighborConditions::preciseClocksAfterReset` (`/repo/include/neighbor_conditions.hh:147-180`); `size` is
`computeTargetClockSize`.  `std::unordered_set<ClockVariables>` is a finite set. -/
def preciseAfterReset (size : ℕ) (precise : Finset ℕ) (r : Resets) : Finset ℕ :=
  ((r.filter fun p => decide (p.1 < size) && (match p.2 with
    | .clock y => decide (y ∈ precise)
    | .const q => isIntegral q)).map (·.1)).toFinset ∪
  precise.filter fun x => x < size ∧ r.any (fun p => p.1 == x) = false

namespace TAState

/-- `NeighborConditions::computeClockSize` (`/repo/include/neighbor_conditions.hh:448-459`). -/
def usedClockSize (s : TAState) : ℕ :=
  (allActions.flatMap s.next).foldl (fun m t => t.guard.foldl (fun m c => max m (c.x + 1)) m) 0

end TAState

/-- `operator<=` of `std::vector<ClockVariables>`: the lexicographic order. -/
def lexLe : List ℕ → List ℕ → Bool
  | [], _ => true
  | _ :: _, [] => false
  | a :: as, b :: bs => if a < b then true else if b < a then false else lexLe as bs

namespace Trans

/-- `impreciseClocksAfterTransition` (`/repo/src/timed_automaton.cc:17-33`); the heap is needed for
`computeTargetClockSize` (`/repo/include/neighbor_conditions.hh:461-463`). -/
def impreciseAfter (loc : ℕ → TAState) (t : Trans) : List ℕ :=
  let size := (loc t.target).usedClockSize
  let precise := preciseAfterReset size (Guard.simpleVariables t.guard).toFinset t.resets
  (List.range size).filter fun i => decide (i ∉ precise)

/-- `mergeTransitions` (`/repo/src/timed_automaton.cc:43-49`). -/
def mergeTransitions (loc : ℕ → TAState) (left right : Trans) : Trans :=
  if lexLe (left.impreciseAfter loc) (right.impreciseAfter loc)
  then ⟨left.target, left.resets, Guard.unionHull [left.guard, right.guard]⟩
  else ⟨right.target, right.resets, Guard.unionHull [left.guard, right.guard]⟩

/-- `satisfiable(conjunction(it2->guard, it3->guard))` (`/repo/src/timed_automaton.cc:219`). -/
def overlap (t u : Trans) : Bool := Guard.satisfiable (Guard.conjunction t.guard u.guard)

/-- The loop of `removeTransitionsWithWeakerGuards` (`/repo/src/timed_automaton.cc:159-167`): the first list are the
transitions before the iterator. -/
def removeWeaker : List Trans → List Trans → List Trans
  | kept, [] => kept
  | kept, t :: ts =>
    if (kept ++ t :: ts).any fun u => decide (t ≠ u) && Guard.isWeaker u.guard t.guard && decide (u.target = t.target)
    then removeWeaker kept ts
    else removeWeaker (kept ++ [t]) ts

/-- What `*it2` becomes when it absorbs `*it3` in `mergeNondeterministicBranching(preciseClocks)`
(`/repo/src/timed_automaton.cc:263-317`).  `iter` is the set `preciseClocks` in the order of its iteration. -/
def combinePrecise (iter : List ℕ) (loc : ℕ → TAState) (t u : Trans) : Trans :=
  let p2 := Guard.simpleVariables t.guard
  let p3 := Guard.simpleVariables u.guard
  let all2 := iter.all fun x => decide (x ∈ p2)
  let all3 := iter.all fun x => decide (x ∈ p3)
  if all2 && !all3 then t
  else if !all2 && all3 then u
  else if all2 && all3 then mergeTransitions loc t u
  else
    match iter.find? fun x => decide (x ∈ p2) != decide (x ∈ p3) with
    | none =>
      if Guard.isWeaker u.guard t.guard then u
      else if !Guard.isWeaker t.guard u.guard then mergeTransitions loc t u
      else t
    | some x =>
      if Guard.isWeaker u.guard t.guard then u
      else if !Guard.isWeaker t.guard u.guard && !Guard.isWeaker u.guard t.guard then
        if decide (x ∈ p3) then ⟨u.target, u.resets, Guard.unionHull [t.guard, u.guard]⟩
        else { t with guard := Guard.unionHull [t.guard, u.guard] }
      else t

/-- `impreciseConstantAssignSize` (`/repo/include/timed_automaton.hh:166-175`). -/
def impreciseConstants (r : Resets) : ℕ :=
  r.countP fun p => match p.2 with
    | .const q => !isIntegral q
    | .clock _ => false

/-- `addPreciseConstantAssignments` (`/repo/include/timed_automaton.hh:121-140`) on the list of updates. -/
def addPreciseConstants (own other : Resets) : Resets :=
  other.foldl (fun m p =>
    let done := match m.lookup p.1 with
      | some (.const q) => isIntegral q
      | _ => false
    if done then m
    else match p.2 with
      | .const q => if isIntegral q then Resets.mapInsert m p else m
      | .clock _ => m) (Resets.asMap own)

/-- What `*it2` becomes when it absorbs `*it3` in `mergeNondeterministicBranchingWithSameTarget`
(`/repo/src/timed_automaton.cc:180-190`). -/
def combineSame (_loc : ℕ → TAState) (t u : Trans) : Trans :=
  { t with
    resets := if impreciseConstants t.resets < impreciseConstants u.resets then addPreciseConstants u.resets t.resets
      else addPreciseConstants t.resets u.resets
    guard := Guard.unionHull [t.guard, u.guard] }

end Trans

/-- The heap in which the transitions of the state `q` with the action `a` are `l`. -/
def setList (loc : ℕ → TAState) (q : ℕ) (a : Action) (l : List Trans) : ℕ → TAState :=
  Function.update loc q ((loc q).setNext a l)

/-- The loop over `it3` (`/repo/src/timed_automaton.cc:218-253`, `:174-195`, `:261-321`): `before` are the transitions before
`it2`, `t` is the one at `it2`, `mid` those between `it2` and `it3`, the last list those from `it3` on.  `combine` reads the
heap, in which the list is being changed. -/
def absorbWith (test : Trans → Trans → Bool) (combine : (ℕ → TAState) → Trans → Trans → Trans) (loc : ℕ → TAState)
    (q : ℕ) (a : Action) (before : List Trans) : Trans → List Trans → List Trans → Trans × List Trans
  | t, mid, [] => (t, mid)
  | t, mid, u :: us =>
    if test t u then
      absorbWith test combine loc q a before (combine (setList loc q a (before ++ t :: (mid ++ u :: us))) t u) mid us
    else absorbWith test combine loc q a before t (mid ++ [u]) us

/-- The loop over `it2` (`/repo/src/timed_automaton.cc:217-254`); the number bounds the iterations, the length of the list
is enough. -/
def mergeLoop (test : Trans → Trans → Bool) (combine : (ℕ → TAState) → Trans → Trans → Trans) (loc : ℕ → TAState)
    (q : ℕ) (a : Action) : List Trans → ℕ → List Trans → List Trans
  | before, 0, l => before ++ l
  | before, _ + 1, [] => before
  | before, n + 1, t :: ts =>
    let r := absorbWith test combine loc q a before t [] ts
    mergeLoop test combine loc q a (before ++ [r.1]) n r.2

/-- The loop over the actions (`/repo/src/timed_automaton.cc:216-255`); `acts` are the actions in the order of the hash
table. -/
def mergeState (test : Trans → Trans → Bool) (combine : (ℕ → TAState) → Trans → Trans → Trans) (acts : List Action)
    (loc : ℕ → TAState) (q : ℕ) : ℕ → TAState :=
  acts.foldl (fun l a => setList l q a (mergeLoop test combine l q a [] ((l q).next a).length ((l q).next a))) loc

/-- `TAState::mergeNondeterministicBranching()` (`/repo/src/timed_automaton.cc:215-256`).  Not modelled: the assertion that the
targets of two overlapping transitions agree on acceptance (line 228).  It is not reached for deterministic states
(`C69_deterministic`). -/
def mergeBranching (acts : List Action) (loc : ℕ → TAState) (q : ℕ) : ℕ → TAState :=
  mergeState Trans.overlap Trans.mergeTransitions acts loc q

/-- `TAState::mergeNondeterministicBranching(preciseClocks)` (`/repo/src/timed_automaton.cc:258-325`). -/
def mergeBranchingPrecise (iter : List ℕ) (acts : List Action) (loc : ℕ → TAState) (q : ℕ) : ℕ → TAState :=
  mergeState Trans.overlap (Trans.combinePrecise iter) acts loc q

/-- `TAState::mergeNondeterministicBranchingWithSameTarget()` (`/repo/src/timed_automaton.cc:171-198`). -/
def mergeBranchingSameTarget (acts : List Action) (loc : ℕ → TAState) (q : ℕ) : ℕ → TAState :=
  mergeState (fun t u => decide (t.target = u.target) && Trans.overlap t u) Trans.combineSame acts loc q

namespace TAState

/-- `TAState::removeTransitionsWithWeakerGuards` (`/repo/src/timed_automaton.cc:156-169`). -/
def removeTransitionsWithWeakerGuards (s : TAState) : TAState :=
  { s with next := fun a => Trans.removeWeaker [] (s.next a) }

/-- `TAState::needSplitting` (`/repo/src/timed_automaton.cc:200-213`): `simpleVariables` are compared as vectors. -/
def needSplitting (s : TAState) : Bool :=
  allActions.any fun a => go (s.next a)
where
  /-- The two loops over the transitions. -/
  go : List Trans → Bool
    | [] => false
    | t :: ts => ts.any (fun u => decide (t.target ≠ u.target) &&
        Guard.satisfiable (Guard.conjunction t.guard u.guard) &&
        decide (Guard.simpleVariables t.guard ≠ Guard.simpleVariables u.guard)) || go ts

end TAState
end LearnTA
