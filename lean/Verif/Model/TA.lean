import Verif.Model.Resets
import Verif.Model.TimedWord

/-!
# Timed automata

Model of `/repo/include/timed_automaton.hh`.  A state pointer (`TAState *`,
`std::shared_ptr<TAState>`) is an address in ℕ; the heap gives the content of each address.
-/

namespace LearnTA

/-- `struct TATransition` (`/repo/include/timed_automaton.hh:81-92`). -/
structure Trans where
  target : ℕ
  resets : Resets
  guard : Guard
  deriving DecidableEq

/-- `struct TAState` (`/repo/include/timed_automaton.hh:28-41`).  The map `next` is a total
function; an absent key is the empty list (no function of the code distinguishes the two). -/
structure TAState where
  isMatch : Bool
  next : Action → List Trans

/-- `struct TimedAutomaton` (`/repo/include/timed_automaton.hh:213-216`,
`/repo/include/common_types.hh:17-24`), with the heap its pointers point into. -/
structure TA where
  loc : ℕ → TAState
  states : List ℕ
  init : List ℕ
  maxC : List ℤ

/-- All values of `char`: iterating over the map `next` is iterating over these. -/
def allActions : List Action := List.finRange 256

namespace TAState

/-- `next[a] = ts`. -/
def setNext (s : TAState) (a : Action) (ts : List Trans) : TAState :=
  { s with next := Function.update s.next a ts }

/-- The loop of `TAState::deterministic` over one list of transitions
(`/repo/src/timed_automaton.cc:135-141`): `before` are the elements before the iterator. -/
def detFrom (before : List Trans) : List Trans → Bool
  | [] => true
  | t :: ts =>
    if before.any (fun u => Guard.satisfiable (Guard.conjunction u.guard t.guard)) then false
    else detFrom (before ++ [t]) ts

/-- `TAState::deterministic` (`/repo/src/timed_automaton.cc:132-145`). -/
def deterministic (s : TAState) : Bool := allActions.all fun a => detFrom [] (s.next a)

end TAState

namespace TA

/-- `clockSize` (`/repo/include/timed_automaton.hh:252-254`). -/
def clockSize (A : TA) : ℕ := A.maxC.length

/-- `TimedAutomaton::deterministic` (`/repo/include/timed_automaton.hh:660-662`). -/
def deterministic (A : TA) : Bool := A.states.all fun s => (A.loc s).deterministic

/-- Write the content of the address `p`. -/
def setLoc (A : TA) (p : ℕ) (s : TAState) : TA := { A with loc := Function.update A.loc p s }

/-- An address that is used by no state (the result of `std::make_shared<TAState>`). -/
def fresh (A : TA) : ℕ := A.states.foldr max 0 + 1

/-- `deepCopy` (`/repo/include/timed_automaton.hh:224-249`).  The copy of the state at position `i`
of `states` gets the new address `fresh + i`; `old2new` is the map of the code for lists of distinct
states.  The old states stay on the heap. -/
def old2new (A : TA) (p : ℕ) : ℕ := A.fresh + A.states.idxOf p

/-- `deepCopy`, see `old2new`. -/
def deepCopy (A : TA) : TA where
  loc p :=
    if A.fresh ≤ p then
      let s := A.loc (A.states.getD (p - A.fresh) 0)
      { s with next := fun a => (s.next a).map fun t => { t with target := A.old2new t.target } }
    else A.loc p
  states := (List.range A.states.length).map (A.fresh + ·)
  init := A.init.map A.old2new
  maxC := A.maxC

/-- The guards collected in `makeComplete` (`/repo/include/timed_automaton.hh:286-294` and
`:302-310`): an empty guard clears the list and leaves the loop. -/
def collectGuards (start : List Guard) (ts : List Trans) : List Guard :=
  if ts.any (fun t => t.guard.isEmpty) then [] else start ++ ts.map Trans.guard

/-- The body of the loop over the alphabet in `makeComplete`
(`/repo/include/timed_automaton.hh:297-319`). -/
def completeAction (sink : ℕ) (eps : List Guard) (s : TAState) (a : Action) : TAState :=
  if eps.isEmpty && (s.next a).isEmpty then s.setNext a [⟨sink, [], []⟩]
  else if !(s.next a).isEmpty then
    let dg := collectGuards eps (s.next a)
    if dg.isEmpty then s
    else s.setNext a (s.next a ++ (Guard.negateDNF dg).map fun g => ⟨sink, [], g⟩)
  else s

/-- The body of the loop over the states in `makeComplete`
(`/repo/include/timed_automaton.hh:283-320`). -/
def completeState (sink : ℕ) (alphabet : List Action) (s : TAState) : TAState :=
  alphabet.foldl (completeAction sink (collectGuards [] (s.next unobservable))) s

/-- `makeComplete` (`/repo/include/timed_automaton.hh:277-324`). -/
def makeComplete (A : TA) (alphabet : List Action) : TA :=
  let sink := A.fresh
  let A1 : TA := { A.setLoc sink ⟨false, fun _ => []⟩ with
    states := A.states ++ [sink]
    init := if A.init.isEmpty then [sink] else A.init }
  A1.states.foldl (fun B p => B.setLoc p (completeState sink alphabet (B.loc p))) A1

/-- `state->isMatch = !state->isMatch` for all states
(`/repo/include/timed_automaton.hh:267-269`). -/
def flipAll (A : TA) : TA :=
  A.states.foldl (fun B p => B.setLoc p { B.loc p with isMatch := !(B.loc p).isMatch }) A

/-- `complement` (`/repo/include/timed_automaton.hh:261-272`). -/
def complement (A : TA) (alphabet : List Action) : TA :=
  (A.deepCopy.makeComplete alphabet).flipAll

/-- The loop over one transition list in `simplifyTransitions`
(`/repo/include/timed_automaton.hh:351-360`); `kept` is `reducedTransitions`. -/
def reduceTrans (ts : List Trans) : List Trans :=
  ts.foldl (fun kept t =>
    if kept.any (fun u => decide (t.target = u.target) && decide (t.resets = u.resets) &&
        Guard.isWeaker u.guard t.guard) then kept
    else kept ++ [t]) []

/-- `simplifyTransitions` (`/repo/include/timed_automaton.hh:347-365`). -/
def simplifyTransitions (A : TA) : TA :=
  A.states.foldl (fun B p => B.setLoc p
    { B.loc p with next := fun a => reduceTrans ((B.loc p).next a) }) A

/-- The targets of all the transitions of a state. -/
def succs (A : TA) (p : ℕ) : List ℕ :=
  allActions.flatMap fun a => ((A.loc p).next a).map Trans.target

/-- The loop body of a breadth-first search (`/repo/include/timed_automaton.hh:380-386`,
`:461-466`): unvisited successors are marked and put at the end of the queue. -/
def bfsVisit (s : List ℕ × List ℕ) (q : ℕ) : List ℕ × List ℕ :=
  if q ∈ s.1 then s else (s.1 ++ [q], s.2 ++ [q])

/-- The `while` loop of a breadth-first search (`/repo/include/timed_automaton.hh:377-388`,
`:457-468`); the first list is the set of visited states, the second the queue.  `fuel` bounds the
number of iterations; the lemmas show that the queue is empty when it is used up. -/
def bfs (succ : ℕ → List ℕ) : ℕ → List ℕ × List ℕ → List ℕ × List ℕ
  | 0, s => s
  | fuel + 1, (visited, []) => (visited, [])
  | fuel + 1, (visited, p :: queue) => bfs succ fuel ((succ p).foldl bfsVisit (visited, queue))

/-- The first loop of `removeTriviallyUnreachableStates`
(`/repo/include/timed_automaton.hh:369-388`). Simplification: an initial state listed twice is
queued once. -/
def reachableStates (A : TA) : List ℕ :=
  (bfs A.succs (A.states.length + 1) (A.init.foldl bfsVisit ([], []))).1

/-- Resize to at least `x+1` entries, new entries are 0. -/
def growTo (m : List ℤ) (x : ℕ) : List ℤ := m ++ List.replicate (x + 1 - m.length) 0

/-- Guard part of `makeMaxConstants` (`/repo/include/timed_automaton.hh:639-644`). -/
def maxGuardStep (m : List ℤ) (c : Constraint) : List ℤ :=
  let m := growTo m c.x
  m.set c.x (max (m.getD c.x 0) c.c)

/-- Reset part of `makeMaxConstants` (`/repo/include/timed_automaton.hh:645-652`). -/
def maxResetStep (m : List ℤ) (r : ℕ × Upd) : List ℤ :=
  let m := growTo m r.1
  match r.2 with
  | .clock y => growTo m y
  | .const _ => m

/-- `makeMaxConstants` (`/repo/include/timed_automaton.hh:634-658`). -/
def makeMaxConstants (loc : ℕ → TAState) (states : List ℕ) : List ℤ :=
  states.foldl (fun m p => allActions.foldl (fun m a => ((loc p).next a).foldl (fun m t =>
    t.resets.foldl maxResetStep (t.guard.foldl maxGuardStep m)) m) m) []

/-- `removeTriviallyUnreachableStates` (`/repo/include/timed_automaton.hh:368-405`). -/
def removeTriviallyUnreachableStates (A : TA) : TA :=
  let r := A.reachableStates
  if r.length ≠ A.states.length then
    let st := A.states.filter (· ∈ r)
    { A with states := st, maxC := makeMaxConstants A.loc st }
  else A

/-- All the transitions of a state are self loops (`/repo/include/timed_automaton.hh:422-426`). -/
def onlySelfLoops (A : TA) (p : ℕ) : Bool :=
  allActions.all fun a => ((A.loc p).next a).all fun t => t.target == p

/-- `removeDeadLoop` (`/repo/include/timed_automaton.hh:408-430`). -/
def removeDeadLoop (A : TA) : TA :=
  (A.states.filter fun p => !(A.loc p).isMatch).foldl (fun B p =>
    if p ∈ B.init then B
    else if B.onlySelfLoops p then B.setLoc p { B.loc p with next := fun _ => [] } else B) A

/-- The states with a transition to `q` (`backwardEdges`,
`/repo/include/timed_automaton.hh:436-448`). -/
def preds (A : TA) (q : ℕ) : List ℕ := A.states.filter fun p => q ∈ A.succs p

/-- `liveStates` (`/repo/include/timed_automaton.hh:450-468`). -/
def liveStates (A : TA) : List ℕ :=
  (bfs A.preds (A.states.length + 1)
    ((A.states.filter fun p => (A.loc p).isMatch).foldl bfsVisit ([], []))).1

/-- Keep the transitions whose target satisfies `keep`. -/
def filterTrans (keep : ℕ → Bool) (s : TAState) : TAState :=
  { s with next := fun a => (s.next a).filter fun t => keep t.target }

/-- Removal of the states outside `live` with the transitions to them
(`/repo/include/timed_automaton.hh:473-494`, `/repo/src/timed_automaton.cc:73-93`). -/
def keepStates (A : TA) (live : List ℕ) : TA :=
  let A1 := { A with states := A.states.filter (· ∈ live), init := A.init.filter (· ∈ live) }
  A1.states.foldl (fun B p => B.setLoc p (filterTrans (· ∈ live) (B.loc p))) A1

/-- `removeTriviallyDeadStates` (`/repo/include/timed_automaton.hh:435-496`). -/
def removeTriviallyDeadStates (A : TA) : TA :=
  let live := A.liveStates
  if live.length ≠ A.states.length then A.keepStates live else A

/-- The loop body of `removeUselessTransitions` (`/repo/include/timed_automaton.hh:506-534`). -/
def removeUselessStep (A : TA) (p : ℕ) : TA :=
  if p ∈ A.init then A
  else if A.onlySelfLoops p then
    let A1 := { A with states := A.states.filter (· ≠ p) }
    A1.states.foldl (fun B q => B.setLoc q (filterTrans (· ≠ p) (B.loc q))) A1
  else A

/-- `removeUselessTransitions` (`/repo/include/timed_automaton.hh:499-537`). -/
def removeUselessTransitions (A : TA) : TA :=
  (A.states.filter fun p => !(A.loc p).isMatch).foldl removeUselessStep A

/-- Clocks read by one transition (`/repo/include/timed_automaton.hh:548-556`). -/
def transUsed (t : Trans) : List ℕ :=
  t.guard.map (·.x) ++ t.resets.filterMap fun r =>
    match r.2 with
    | .clock y => some y
    | .const _ => none

/-- The sorted list of the used clocks (`/repo/include/timed_automaton.hh:543-563`). -/
def usedClocks (A : TA) : List ℕ :=
  (List.range (A.clockSize)).filter fun x =>
    A.states.any fun p => allActions.any fun a => ((A.loc p).next a).any fun t => x ∈ transUsed t

/-- Renaming and deletion in one transition (`/repo/include/timed_automaton.hh:574-588`);
`used.idxOf x` is `clockRenaming.at(x)`. -/
def renameTrans (used : List ℕ) (t : Trans) : Trans where
  target := t.target
  guard := t.guard.map fun c => { c with x := used.idxOf c.x }
  resets := t.resets.filterMap fun r =>
    if r.1 ∈ used then
      some (used.idxOf r.1, match r.2 with
        | .clock y => .clock (used.idxOf y)
        | .const q => .const q)
    else none

/-- `removeUnusedClockVariables` (`/repo/include/timed_automaton.hh:542-597`).  Simplification: the
set of the used clocks is computed by scanning the existing clocks, all clocks that occur being
smaller than `clockSize` (otherwise the code throws at `:594`). -/
def removeUnusedClockVariables (A : TA) : TA :=
  let used := A.usedClocks
  let A1 := A.states.foldl (fun B p => B.setLoc p
    { B.loc p with next := fun a => ((B.loc p).next a).map (renameTrans used) }) A
  { A1 with maxC := used.map fun x => A.maxC.getD x 0 }

/-- `simplify` (`/repo/include/timed_automaton.hh:600-606`). -/
def simplify (A : TA) : TA :=
  A.simplifyTransitions.removeTriviallyUnreachableStates.removeUnusedClockVariables

/-- `simplifyStrong` (`/repo/include/timed_automaton.hh:613-622`). -/
def simplifyStrong (A : TA) : TA :=
  A.simplifyTransitions.removeTriviallyUnreachableStates.removeTriviallyDeadStates.removeDeadLoop
    |>.removeUselessTransitions.removeUnusedClockVariables

end TA
end LearnTA
