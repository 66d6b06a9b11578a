import Verif.Model.ObservationTable
import Verif.Model.Split

/-!
# The construction of a hypothesis

Model of `ObservationTable::generateHypothesis` (`/repo/include/observation_table.hh:789-1222`) with the parts of
`/repo/include/internal_transition_maker.hh`, `/repo/include/external_transition_maker.hh`,
`/repo/include/imprecise_clock_handler.hh`, `/repo/include/timed_automaton.hh`, `/repo/src/timed_automaton.cc` and
`/repo/include/constraint.hh` that it uses; the treatment of imprecise clocks is in `Verif.Model.Imprecise`, the splitting
of states in `Verif.Model.Split`, the merging of transitions in `Verif.Model.Merge`.
-/

namespace LearnTA
namespace Guard

/-- `enum class Kinds` without `DEFAULT` (`/repo/include/constraint.hh:568-574`). -/
inductive Kind
  | leftLower | rightLower | leftUpper | rightUpper
  deriving DecidableEq

/-- The upper bound used for the clock `i` of a guard that has none, if the other one has one
(`/repo/include/constraint.hh:538-545`). -/
def fillUpper (this other : BoundsVec) (i : ℕ) : IntBound :=
  if this.upper i = IntBound.mk intMax false ∧ other.upper i ≠ IntBound.mk intMax false then
    (if (this.lower i).snd then this.lower i else IntBound.mk ((this.lower i).fst + 1) (this.lower i).snd)
  else this.upper i

/-- The body of the first loop of `adjacent` (`/repo/include/constraint.hh:546-561`) after the test for equality:
`false` if the function returns. -/
def touching (lu ll ru rl : IntBound) : Bool :=
  if lu.fst = rl.fst then lu.snd != rl.snd
  else if ru.fst = ll.fst then ru.snd != ll.snd
  else false

/-- The kind of a different clock (`/repo/include/constraint.hh:578-603`). -/
def kindOf (lu ll ru rl : IntBound) : Option Kind :=
  if ll.snd then some .leftLower
  else if rl.snd then some .rightLower
  else if lu.snd then some .leftUpper
  else if ru.snd then some .rightUpper
  else none

/-- The second loop of `adjacent` (`/repo/include/constraint.hh:576-604`): all kinds are the same. -/
def sameKind : List Kind → Bool
  | [] => true
  | k :: ks => ks.all fun k' => k' == k

/-- `adjacent` (`/repo/include/constraint.hh:530-607`). -/
def adjacent (left right : Guard) : Bool :=
  let l := toBounds left
  let r := toBounds right
  if l.size ≠ r.size then false
  else
    let lu := fillUpper l r
    let ru := fillUpper r l
    let different := (List.range l.size).filter fun i => !(decide (lu i = ru i) && decide (l.lower i = r.lower i))
    if different.all fun i => touching (lu i) (l.lower i) (ru i) (r.lower i) then
      decide (different.length ≤ 1) ||
        sameKind (different.filterMap fun i => kindOf (lu i) (l.lower i) (ru i) (r.lower i))
    else false

end Guard

namespace Trans

/-- `mergeable` (`/repo/include/timed_automaton.hh:191-196`). -/
def mergeable (t u : Trans) : Bool :=
  if t.target ≠ u.target || !Guard.adjacent t.guard u.guard then false else decide (t.resets = u.resets)

/-- `merge` (`/repo/include/timed_automaton.hh:198-203`). -/
def merge (t u : Trans) : Trans := { u with guard := Guard.unionHull [u.guard, t.guard] }

/-- The inner loop of the merging of adjacent transitions (`/repo/include/observation_table.hh:1155-1162`): `t` is the
transition at `it`, the list are those from `it2` on; the result are `t` and those that remain. -/
def absorb (t : Trans) : List Trans → Trans × List Trans
  | [] => (t, [])
  | u :: us =>
    if t.mergeable u then absorb (t.merge u) us
    else
      let r := absorb t us
      (r.1, u :: r.2)

/-- The outer loop (`/repo/include/observation_table.hh:1154-1163`); the number bounds the iterations, the length of
the list is enough. -/
def mergeAdjacent : ℕ → List Trans → List Trans
  | 0, l => l
  | _ + 1, [] => []
  | n + 1, t :: ts =>
    let r := absorb t ts
    r.1 :: mergeAdjacent n r.2

/-- `std::sort` of the resets by the clock (`/repo/include/observation_table.hh:1147-1152`).  Simplification: entries for
the same clock stay in order. -/
def sortResets (t : Trans) : Trans := { t with resets := t.resets.insertionSort fun p q => p.1 ≤ q.1 }

end Trans

/-- `ExternalTransitionMaker::make` after one call of `add`
(`/repo/include/external_transition_maker.hh:68-119`): every maker is used for one transition. -/
def externalTransition (target : ℕ) (r : RenamingRelation) (source targetCond : TimedCondition) : Option Trans :=
  let j := (JuxtaposedZone.make source.zone targetCond.zone).addRenaming r
  let r' : RenamingRelation := uniqueBy (fun p q => p.2 == q.2)
    (j.makeRenaming.insertionSort fun p q => RenamingRelation.rightLe p q = true)
  (r'.toReset targetCond).map fun resets => ⟨target, Resets.clean resets, source.toGuard⟩

namespace ObsTable
variable {σ : Type}

/-- What is pushed to the `ImpreciseClockHandler`: a state, a prefix and the clocks related by the renaming. -/
abbrev Pending := List (ℕ × ForwardRegional × List ℕ)

/-- The order of the hash table in `InternalTransitionMaker`, the hash functions and hash tables of the later steps, and a
bound on the iterations of their loops. -/
structure HypEnv where
  orderMap : List (ℕ × List TimedCondition) → List (ℕ × List TimedCondition)
  hash : HashEnv
  fuel : ℕ

/-- `impreciseNeighbors.run()` (`/repo/include/observation_table.hh:1113`).  Simplification: the neighbours are made
here and not in `push`. -/
def relax (henv : HypEnv) (pending : Pending) (loc : ℕ → TAState) : Except Fail (ℕ → TAState) := do
  let l ← pending.mapM fun p => do
    let N ← Neighbors.make henv.hash.region henv.fuel p.2.1 p.2.2.toFinset
    pure (p.1, N)
  let s ← Imprecise.run henv.hash henv.fuel henv.fuel [] ⟨loc, l⟩
  pure s.loc

/-- `StateManager` (`/repo/include/observation_table.hh:792-823`) with the heap and `states`.  The address of a new
state is the number of states made before. -/
structure Build where
  loc : ℕ → TAState
  states : List ℕ
  toState : ℕ → Option ℕ
  toIndices : ℕ → List ℕ

namespace Build

/-- `StateManager::add` (`/repo/include/observation_table.hh:815-823`). -/
def add (B : Build) (q i : ℕ) : Build :=
  { B with
    toState := Function.update B.toState i (some q)
    toIndices := Function.update B.toIndices q (B.toIndices q ++ [i]) }

/-- `state->next[action]` is extended by the transitions. -/
def addTrans (B : Build) (q : ℕ) (a : Action) (ts : List Trans) : Build :=
  { B with loc := Function.update B.loc q ((B.loc q).setNext a ((B.loc q).next a ++ ts)) }

/-- `addState` (`/repo/include/observation_table.hh:843-850`). -/
def addState (B : Build) (i : ℕ) (m : Bool) : Build :=
  ({ B with
    loc := Function.update B.loc B.states.length ⟨m, fun _ => []⟩
    states := B.states ++ [B.states.length] }).add B.states.length i

end Build

/-- `at` of a map or a vector, or the end iterator of an unsuccessful search. -/
def need {α : Type} : Option α → Except Fail α
  | some a => .ok a
  | none => .error .undefined

/-- `mergeContinuousSuccessors` (`/repo/include/observation_table.hh:858-884`): the state is `q`; the number bounds the
iterations. -/
def mergeContinuous (T : ObsTable σ) (q : ℕ) : ℕ → ℕ → Build → Except Fail Build
  | 0, _, _ => .error .fuel
  | n + 1, source, B => do
    let next ← need (T.continuousSuccessors source)
    let m ← need (T.isMatch source)
    let m' ← need (T.isMatch next)
    if m ≠ m' then throw .abort
    let B' := B.add q next
    if T.inP next then mergeContinuous T q n next B' else pure B'

/-- `InternalTransitionMaker::add` (`/repo/include/internal_transition_maker.hh:36-59`). -/
def sourceAdd (m : List (ℕ × List TimedCondition)) (target : ℕ) (c : TimedCondition) :
    List (ℕ × List TimedCondition) :=
  setKey target ((m.lookup target).getD [] ++ [c]) m

/-- `InternalTransitionMaker::make` (`/repo/include/internal_transition_maker.hh:64-78`); the map is given in the order of
the iteration. -/
def internalTransitions (m : List (ℕ × List TimedCondition)) : List Trans :=
  m.flatMap fun p => p.2.map fun c => ⟨p.1, [(c.size, .const 0)], c.toGuard⟩

/-- The variables of the exploration (`/repo/include/observation_table.hh:886-901`). -/
structure Explore where
  build : Build
  boundaries : List (ℕ × Action)
  queue : List ℕ
  sourceMap : List (ℕ × List TimedCondition)

/-- The body of the loop over the indices of a state (`/repo/include/observation_table.hh:902-952`). -/
def visitIndex (T : ObsTable σ) (a : Action) (s : Explore) (i : ℕ) : Except Fail Explore :=
  match T.discreteSuccessors i a with
  | none => .ok s
  | some d =>
    if !T.inP d then .ok { s with boundaries := s.boundaries ++ [(i, a)] }
    else do
      let s ← if (s.build.toState d).isNone then do
          let m ← need (T.isMatch d)
          let p ← need T.prefixes[i]?
          let q := s.build.states.length
          pure { s with
            build := s.build.addState d m
            queue := s.queue ++ [q]
            sourceMap := sourceAdd s.sourceMap q p.cond }
        else pure s
      if (T.continuousSuccessors d).isSome then do
        let q ← need (s.build.toState d)
        let B ← mergeContinuous T q (T.prefixes.length + 1) d s.build
        pure { s with build := B }
      else pure s

/-- The body of the loop over the alphabet (`/repo/include/observation_table.hh:899-960`). -/
def visitAction (henv : HypEnv) (T : ObsTable σ) (q : ℕ) (indices : List ℕ) (s : Explore) (a : Action) :
    Except Fail Explore := do
  let s ← indices.foldlM (visitIndex T a) { s with sourceMap := [] }
  pure { s with build := s.build.addTrans q a (internalTransitions (henv.orderMap s.sourceMap)) }

/-- The exploration (`/repo/include/observation_table.hh:892-961`), with a bound on the iterations. -/
def explore (henv : HypEnv) (T : ObsTable σ) : ℕ → Explore → Except Fail Explore
  | 0, _ => .error .fuel
  | n + 1, s =>
    match s.queue with
    | [] => .ok s
    | q :: queue => do
      let s ← T.alphabet.foldlM (visitAction henv T q (s.build.toIndices q)) { s with queue := queue }
      explore henv T n s

/-- `char` as a number. -/
def charValue (a : Action) : ℤ := if a.val < 128 then a.val else a.val - 256

/-- The order of `discreteBoundaries`. -/
def boundaryLe (p q : ℕ × Action) : Bool :=
  decide (p.1 < q.1) || (p.1 == q.1 && decide (charValue p.2 ≤ charValue q.2))

/-- Sorting and `unique` of `discreteBoundaries` (`/repo/include/observation_table.hh:965-967`). -/
def sortBoundaries (l : List (ℕ × Action)) : List (ℕ × Action) :=
  uniqueBy (fun p q => p == q) (l.insertionSort fun p q => boundaryLe p q = true)

/-- `ImpreciseClockHandler::push` (`/repo/include/imprecise_clock_handler.hh:74-82`). -/
def pushImprecise (pending : Pending) (q : ℕ) (r : RenamingRelation) (p : ForwardRegional) : Pending :=
  if r.hasImpreciseClocks p.cond then pending ++ [(q, p, r.rightVariables)] else pending

/-- The body of the loop over `discreteBoundaries` (`/repo/include/observation_table.hh:968-1023`). -/
def externalStep (env : Env σ) (T : ObsTable σ) (s : Build × Pending) (b : ℕ × Action) :
    Except Fail (Build × Pending) := do
  let t ← need (T.discreteSuccessors b.1 b.2)
  if (s.1.toState t).isSome then pure s
  else if T.inP t then throw .undefined
  else
    let j ← need ((env.orderRow T t).find? fun j => T.inP j)
    let r ← need (T.getRelation t j)
    let source ← need T.prefixes[b.1]?
    let target ← need T.prefixes[j]?
    let r' := r.eraseLeft source.cond.size
    let q' ← need (s.1.toState j)
    let trans ← need (externalTransition q' r' source.cond target.cond)
    let B := s.1.add q' t
    let q ← need (B.toState b.1)
    pure (B.addTrans q b.2 [trans], pushImprecise s.2 q' r' target)

/-- The renaming made of resets (`/repo/include/observation_table.hh:1072-1078`). -/
def renamingOf (resets : Resets) : RenamingRelation :=
  resets.filterMap fun p => match p.2 with
    | .clock y => some (y, p.1)
    | .const _ => none

/-- The body of the loop over the alphabet for a self loop (`/repo/include/observation_table.hh:1052-1096`): `s` is the
time successor, `q` its state, which is also the one of `j`. -/
def selfLoopStep (env : Env σ) (T : ObsTable σ) (q j : ℕ) (jCond sCond : TimedCondition) (consts : Resets)
    (s : Build × Pending) (a : Action) : Except Fail (Build × Pending) := do
  let t ← need (((s.1.loc q).next a).find? fun t => Guard.isWeaker t.guard jCond.toGuard)
  let newReset := Resets.composition t.resets consts
  let r := renamingOf newReset
  let d ← need (T.discreteSuccessors j a)
  let pending ← if T.inP d then do
      let p ← need T.prefixes[d]?
      pure (pushImprecise s.2 t.target r p)
    else
      match (env.orderRow T d).find? fun k => T.inP k with
      | none => pure s.2
      | some k => do
        let p ← need T.prefixes[k]?
        pure (pushImprecise s.2 t.target r p)
  pure (s.1.addTrans q a [⟨t.target, newReset, sCond.removeUpperBound.toGuard⟩], pending)

/-- The body of the loop over `P` (`/repo/include/observation_table.hh:1026-1106`). -/
def exteriorStep (env : Env σ) (T : ObsTable σ) (s : Build × Pending) (p : ℕ) : Except Fail (Build × Pending) := do
  let c ← need (T.continuousSuccessors p)
  if T.inP c then pure s
  else
    let q ← need (s.1.toState c)
    let j ← need ((env.orderRow T c).find? fun j => T.inP j)
    let r ← need (T.getRelation c j)
    let qj ← need (s.1.toState j)
    let pj ← need T.prefixes[j]?
    let pc ← need T.prefixes[c]?
    let vals ← need (RenamingRelation.toValuation pj.cond)
    let pending := pushImprecise s.2 qj r pj
    if q = qj then
      T.alphabet.foldlM (selfLoopStep env T q j pj.cond pc.cond (vals.zipIdx.map fun v => (v.2, .const v.1)))
        (s.1, pending)
    else
      let trans ← need (externalTransition qj r pc.cond.removeUpperBound pj.cond)
      pure (s.1.addTrans q unobservable [trans], pending)

/-- The treatment of the transitions of one state at the end, before `mergeNondeterministicBranching`
(`/repo/include/observation_table.hh:1145-1186`). -/
def tidyState (s : TAState) : TAState :=
  { s with next := fun a =>
    let l := (s.next a).map Trans.sortResets
    let l := Trans.mergeAdjacent l.length l
    Trans.removeWeaker [] l }

/-- The treatment of the transitions of one state at the end (`/repo/include/observation_table.hh:1145-1188`). -/
def finishState (henv : HypEnv) (loc : ℕ → TAState) (q : ℕ) : ℕ → TAState :=
  let loc := Function.update loc q (tidyState (loc q))
  mergeBranching (henv.hash.acts (loc q)) loc q

/-- `generateHypothesis` (`/repo/include/observation_table.hh:832-1221`).  The states are made in the order of
`states`; reading from a map at a key that is not there is an error. -/
def generateHypothesis (env : Env σ) (henv : HypEnv) (T : ObsTable σ) : Except Fail TA := do
  let m ← need (T.isMatch 0)
  let B : Build := (⟨fun _ => ⟨false, fun _ => []⟩, [], fun _ => none, fun _ => []⟩ : Build).addState 0 m
  let B ← mergeContinuous T 0 (T.prefixes.length + 1) 0 B
  let s ← explore henv T (T.prefixes.length + 1) ⟨B, [], [0], []⟩
  let s1 ← (sortBoundaries s.boundaries).foldlM (externalStep env T) (s.build, [])
  let s2 ← (env.orderP T).foldlM (exteriorStep env T) s1
  let loc ← if s2.2.isEmpty then pure s2.1.loc else relax henv s2.2 s2.1.loc
  let states := s2.1.states
  let needSplit := states.filter fun q => (loc q).needSplitting
  let (loc, states, init) ← if needSplit.isEmpty then pure (loc, states, 0)
    else Split.run henv.hash henv.fuel loc states 0
  let loc := states.foldl (finishState henv) loc
  if (List.range T.prefixes.length).all fun i => (s2.1.toState i).isSome then
    pure (TA.simplify ⟨loc, states, [init], TA.makeMaxConstants loc states⟩)
  else throw .abort

end ObsTable
end LearnTA
