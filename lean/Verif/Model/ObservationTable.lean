import Verif.Model.Recognizable

/-!
# The timed observation table

Model of `/repo/include/observation_table.hh` (lines 39-815), without `renameConsistent` and
`optimizeTarget`, which the learner does not call.  The containers without order
(`unordered_set`, `unordered_map`) are iterated in the order given by `Env`; lookups in hash tables
keyed by languages may miss an equal key (see `SymOracle.query`).
-/

namespace LearnTA

/-- `class ObservationTable` (`/repo/include/observation_table.hh:43-61`, `165`).  The maps keyed by
indices are functions; the inner maps of `closedRelation` are association lists. -/
structure ObsTable (σ : Type) where
  oracle : SymOracle σ
  alphabet : List Action
  prefixes : List ForwardRegional
  suffixes : List BackwardRegional
  concatenations : List (List TimedCondition)
  pIndices : List ℕ
  closedRelation : ℕ → Option (List (ℕ × RenamingRelation))
  table : List (List TimedConditionSet)
  continuousSuccessors : ℕ → Option ℕ
  discreteSuccessors : ℕ → Action → Option ℕ
  distinguishedPrefix : List (ℕ × ℕ)
  columnCache : List ((ℕ × ℕ × BackwardRegional) × (ℕ × Bool))

/-- What the code leaves open: the system, and the behaviour of the hash tables.  `near` and `nearColumn`
say with which keys a lookup compares, `orderP` is the order of the iteration over `pIndices`, `orderRel`
over the keys of `closedRelation`, `orderRow` over the keys of an entry of it; `fuel` bounds the depth of the
recursion of `moveToP` and the iterations of the analysis of a counterexample. -/
structure Env (σ : Type) where
  ask : σ → TimedWord → σ × Bool
  near : SymOracle σ → ElementaryLanguage → ElementaryLanguage → Bool
  nearColumn : ObsTable σ → (ℕ × ℕ × BackwardRegional) → (ℕ × ℕ × BackwardRegional) → Bool
  orderP : ObsTable σ → List ℕ
  orderRel : ObsTable σ → List ℕ
  orderRow : ObsTable σ → ℕ → List ℕ
  fuel : ℕ

/-- Computations on the table. -/
abbrev TableM (σ α : Type) := StateT (ObsTable σ) (Except Fail) α

/-- `m[k] = v` on an association list. -/
def setKey {β : Type} (k : ℕ) (v : β) : List (ℕ × β) → List (ℕ × β)
  | [] => [(k, v)]
  | p :: l => if p.1 = k then (k, v) :: l else p :: setKey k v l

/-- `operator==` of `BackwardRegionalElementaryLanguage`
(`/repo/include/backward_regional_elementary_language.hh:124-127`). -/
def BackwardRegional.beq (L L' : BackwardRegional) : Bool :=
  L.word == L'.word && L.cond.beq L'.cond && L.frac == L'.frac

namespace ObsTable
variable {σ : Type}

/-- `at` of a vector or a map: an exception if there is no such element. -/
def lift {α : Type} : Option α → TableM σ α
  | some a => pure a
  | none => throw .undefined

/-- `memOracle->query` (`/repo/include/observation_table.hh:77`). -/
def query (env : Env σ) (e : ElementaryLanguage) : TableM σ TimedConditionSet := fun T =>
  match SymOracle.query env.ask (env.near T.oracle e) T.oracle e with
  | none => .error .diverge
  | some (o, r) => .ok (r, { T with oracle := o })

/-- The inner loop of `refreshTable` (`/repo/include/observation_table.hh:75-79`): the missing cells of
one row. -/
def fillCells (env : Env σ) (p : ForwardRegional) :
    List BackwardRegional → TableM σ (List TimedConditionSet × List TimedCondition)
  | [] => pure ([], [])
  | s :: ss => do
    let concatenation := p.toElementaryLanguage.append s.toElementaryLanguage
    let cell ← query env concatenation
    let rest ← fillCells env p ss
    pure (cell :: rest.1, concatenation.cond :: rest.2)

/-- The outer loop of `refreshTable` (`/repo/include/observation_table.hh:71-80`): the rows from the given
prefixes on.  The two vectors of vectors are resized to the number of prefixes; rows are never shrunk, since
no suffix is ever removed, and the two rows have equal lengths (both proved in `Lemmas/ObservationTable`). -/
def fillRows (env : Env σ) (suffixes : List BackwardRegional) :
    List ForwardRegional → List (List TimedConditionSet) → List (List TimedCondition) →
      TableM σ (List (List TimedConditionSet) × List (List TimedCondition))
  | [], _, _ => pure ([], [])
  | p :: ps, rows, cats => do
    let row := rows.headD []
    let cat := cats.headD []
    let new ← fillCells env p (suffixes.drop row.length)
    let rest ← fillRows env suffixes ps rows.tail cats.tail
    pure ((row ++ new.1) :: rest.1, (cat ++ new.2) :: rest.2)

/-- `refreshTable` (`/repo/include/observation_table.hh:68-81`). -/
def refreshTable (env : Env σ) : TableM σ Unit := do
  let T ← get
  let r ← fillRows env T.suffixes T.prefixes T.table T.concatenations
  modify fun T => { T with table := r.1, concatenations := r.2 }

/-- `inP` (`/repo/include/observation_table.hh:269-271`). -/
def inP (T : ObsTable σ) (i : ℕ) : Bool := T.pIndices.contains i

/-- `equivalence(...)` of the rows `i` and `j` of the table
(`/repo/include/observation_table.hh:155-157`, `334-337`, `612-614`). -/
def rowsEquivalent (T : ObsTable σ) (i j : ℕ) (r : RenamingRelation) : Option Bool := do
  let p ← T.prefixes[i]?
  let q ← T.prefixes[j]?
  let row ← T.table[i]?
  let row' ← T.table[j]?
  let cat ← T.concatenations[i]?
  let cat' ← T.concatenations[j]?
  pure (Equivalence.equivalenceCat p.toElementaryLanguage row cat q.toElementaryLanguage row' cat'
    (T.suffixes.map (·.toElementaryLanguage)) r)

/-- `closedRelation[i] = l`. -/
def putRelations (T : ObsTable σ) (i : ℕ) (l : List (ℕ × RenamingRelation)) : ObsTable σ :=
  { T with closedRelation := Function.update T.closedRelation i (some l) }

/-- `closedRelation[i][j] = r`. -/
def setRelation (T : ObsTable σ) (i j : ℕ) (r : RenamingRelation) : ObsTable σ :=
  T.putRelations i (setKey j r ((T.closedRelation i).getD []))

/-- `closedRelation[i].erase(j)`. -/
def eraseRelation (T : ObsTable σ) (i j : ℕ) : ObsTable σ :=
  T.putRelations i (((T.closedRelation i).getD []).filter fun p => !(p.1 == j))

/-- `closedRelation[i][j]`, if both keys are present. -/
def getRelation (T : ObsTable σ) (i j : ℕ) : Option RenamingRelation :=
  (T.closedRelation i).bind fun l => l.lookup j

/-- `equivalent(i, j)` (`/repo/include/observation_table.hh:129-140`). -/
def equivalent (i j : ℕ) : TableM σ (Option RenamingRelation) := do
  let T ← get
  let p ← lift T.prefixes[i]?
  let q ← lift T.prefixes[j]?
  let row ← lift T.table[i]?
  let row' ← lift T.table[j]?
  let cat ← lift T.concatenations[i]?
  let cat' ← lift T.concatenations[j]?
  let found ← lift (Equivalence.findDeterministicCat p.toElementaryLanguage row cat q.toElementaryLanguage row' cat'
    (T.suffixes.map (·.toElementaryLanguage)))
  match found with
  | some r => do
    modify fun T => T.setRelation i j r
    pure (some r)
  | none => do
    modify fun T => { T with distinguishedPrefix := (i, j) :: T.distinguishedPrefix }
    pure none

/-- `equivalentWithMemo(i, j)` (`/repo/include/observation_table.hh:142-163`).  The assertion
`!equivalent(i, j)` for a distinguished pair, which changes the table where assertions are enabled, is not
modelled. -/
def equivalentWithMemo (i j : ℕ) : TableM σ (Option RenamingRelation) := do
  let T ← get
  if T.distinguishedPrefix.contains (i, j) || T.distinguishedPrefix.contains (j, i) then pure none
  else
    match T.getRelation i j with
    | some r => do
      let b ← lift (T.rowsEquivalent i j r)
      if b then pure (some r) else equivalent i j
    | none => equivalent i j

/-- `moveToP(index)` (`/repo/include/observation_table.hh:94-127`), with its precondition and a bound on the
depth of the recursion. -/
def moveToP (env : Env σ) : ℕ → ℕ → TableM σ Unit
  | 0, _ => throw .fuel
  | n + 1, index => do
    let T ← get
    if T.inP index then throw .undefined
    let p ← lift T.prefixes[index]?
    let k := T.prefixes.length
    modify fun T => { T with
      pIndices := index :: T.pIndices
      prefixes := T.prefixes ++ T.alphabet.map (fun c => p.successorAction c) ++ [p.successor]
      discreteSuccessors := fun i c =>
        if i = index ∧ c ∈ T.alphabet then some (k + T.alphabet.idxOf c) else T.discreteSuccessors i c
      continuousSuccessors := Function.update T.continuousSuccessors index (some (k + T.alphabet.length)) }
    refreshTable env
    let r ← equivalentWithMemo (k + T.alphabet.length) index
    if r.isNone then moveToP env n (k + T.alphabet.length)

/-- The constructor (`/repo/include/observation_table.hh:301-308`). -/
def create (env : Env σ) (alphabet : List Action) (s : σ) : Except Fail (ObsTable σ) :=
  let T : ObsTable σ :=
    { oracle := .start s, alphabet := alphabet, prefixes := [.init], suffixes := [.init], concatenations := [],
      pIndices := [], closedRelation := fun _ => none, table := [], continuousSuccessors := fun _ => none,
      discreteSuccessors := fun _ _ => none, distinguishedPrefix := [], columnCache := [] }
  ((do moveToP env env.fuel 0; refreshTable env : TableM σ Unit).run T).map (·.2)

/-- `isMatch(i)` (`/repo/include/observation_table.hh:262-264`). -/
def isMatch (T : ObsTable σ) (i : ℕ) : Option Bool := do
  let row ← T.table[i]?
  let cell ← row[0]?
  pure (!cell.isEmpty)

/-- The confirmation of known relations in `close` (`/repo/include/observation_table.hh:332-347`): the keys
are the targets that remain to be considered; relations that are no evidence any more are erased. -/
def confirm (i : ℕ) : List ℕ → TableM σ Bool
  | [] => pure false
  | j :: js => do
    let T ← get
    let r ← lift (T.getRelation i j)
    let b ← lift (T.rowsEquivalent i j r)
    if b then
      if T.inP j then pure true else confirm i js
    else do
      modify fun T => T.eraseRelation i j
      confirm i js

/-- The search for a row of `P` in `close` (`/repo/include/observation_table.hh:326-362`). -/
def findTarget (env : Env σ) (i : ℕ) : TableM σ Bool := do
  let T ← get
  let found ← confirm i (env.orderRow T i)
  if found then pure true
  else
    let T ← get
    let found ← (env.orderP T).anyM fun j => do
      let c ← lift (T.continuousSuccessors j)
      if c = i then do
        let r ← equivalentWithMemo i j
        pure r.isSome
      else pure false
    if found then pure true
    else (env.orderP T).anyM fun j => do
      let r ← equivalentWithMemo i j
      pure r.isSome

/-- The loop of `close` (`/repo/include/observation_table.hh:318-374`) over the given indices. -/
def closeLoop (env : Env σ) : List ℕ → TableM σ Bool
  | [] => pure true
  | i :: is => do
    let T ← get
    if T.inP i then closeLoop env is
    else
      let found ← findTarget env i
      if found then closeLoop env is
      else do
        moveToP env env.fuel i
        refreshTable env
        pure false

/-- `close` (`/repo/include/observation_table.hh:317-414`); the assertions at the end are proved
(`C46_close`). -/
def close (env : Env σ) : TableM σ Bool := do
  let T ← get
  closeLoop env (List.range T.prefixes.length)

/-- `equivalent(i, j, newSuffix, renaming)` (`/repo/include/observation_table.hh:216-236`). -/
def remainsEquivalent (env : Env σ) (i j : ℕ) (s : BackwardRegional) (r : RenamingRelation) : TableM σ Bool := do
  let T ← get
  let p ← lift T.prefixes[i]?
  let row ← lift T.table[i]?
  let cat ← lift T.concatenations[i]?
  let e := p.toElementaryLanguage.append s.toElementaryLanguage
  let cell ← query env e
  let q ← lift T.prefixes[j]?
  let row' ← lift T.table[j]?
  let cat' ← lift T.concatenations[j]?
  let e' := q.toElementaryLanguage.append s.toElementaryLanguage
  let cell' ← query env e'
  pure (Equivalence.equivalenceCat p.toElementaryLanguage (row ++ [cell]) (cat ++ [e.cond]) q.toElementaryLanguage
    (row' ++ [cell']) (cat' ++ [e'.cond]) ((T.suffixes ++ [s]).map (·.toElementaryLanguage)) r)

/-- The search of `equivalent(i, j, newSuffix)` (`/repo/include/observation_table.hh:192-207`). -/
def searchExtended (env : Env σ) (i j : ℕ) (s : BackwardRegional) : TableM σ Bool := do
  let T ← get
  let p ← lift T.prefixes[i]?
  let row ← lift T.table[i]?
  let cat ← lift T.concatenations[i]?
  let e := p.toElementaryLanguage.append s.toElementaryLanguage
  let cell ← query env e
  let q ← lift T.prefixes[j]?
  let row' ← lift T.table[j]?
  let cat' ← lift T.concatenations[j]?
  let e' := q.toElementaryLanguage.append s.toElementaryLanguage
  let cell' ← query env e'
  let found ← lift (Equivalence.findDeterministicCat p.toElementaryLanguage (row ++ [cell]) (cat ++ [e.cond])
    q.toElementaryLanguage (row' ++ [cell']) (cat' ++ [e'.cond]) ((T.suffixes ++ [s]).map (·.toElementaryLanguage)))
  pure found.isSome

/-- `equivalentWithColumnCache[key] = (suffixes.size(), b)`
(`/repo/include/observation_table.hh:186`, `208`). -/
def storeColumn (T : ObsTable σ) (key : ℕ × ℕ × BackwardRegional) (b : Bool) : ObsTable σ :=
  { T with columnCache := (key, (T.suffixes.length, b)) :: T.columnCache }

/-- Equality of the keys of the column cache. -/
def keyEq (k k' : ℕ × ℕ × BackwardRegional) : Bool := k.1 == k'.1 && k.2.1 == k'.2.1 && k.2.2.beq k'.2.2

/-- `equivalent(i, j, newSuffix)` (`/repo/include/observation_table.hh:170-211`). -/
def equivalentColumn (env : Env σ) (i j : ℕ) (s : BackwardRegional) : TableM σ Bool := do
  let T ← get
  let key := (i, j, s)
  let cached := T.columnCache.find? fun p => env.nearColumn T key p.1 && keyEq p.1 key
  match cached.filter fun p => p.2.1 == T.suffixes.length with
  | some p => pure p.2.2
  | none => do
    let known ← match T.getRelation i j with
      | some r => remainsEquivalent env i j s r
      | none => pure false
    if known then do
      modify fun T => T.storeColumn key true
      pure true
    else do
      let b ← searchExtended env i j s
      modify fun T => T.storeColumn key b
      pure b

/-- `std::find_if_not` over the candidates for a new suffix
(`/repo/include/observation_table.hh:426-428`, `453-455`). -/
def findDistinguishing (env : Env σ) (i j : ℕ) : List BackwardRegional → TableM σ (Option BackwardRegional)
  | [] => pure none
  | s :: ss => do
    let b ← equivalentColumn env i j s
    if b then findDistinguishing env i j ss else pure (some s)

/-- `suffixes.emplace_back(newSuffix); refreshTable()`. -/
def addSuffix (env : Env σ) (s : BackwardRegional) : TableM σ Unit := do
  modify fun T => { T with suffixes := T.suffixes ++ [s] }
  refreshTable env

/-- `resolveDiscreteInconsistency` (`/repo/include/observation_table.hh:424-440`). -/
def resolveDiscrete (env : Env σ) (i j : ℕ) (a : Action) : TableM σ Unit := do
  let T ← get
  match ← findDistinguishing env i j (T.suffixes.map fun s => s.predecessorAction a) with
  | none => throw .abort
  | some s => addSuffix env s

/-- `resolveContinuousInconsistency` (`/repo/include/observation_table.hh:451-469`). -/
def resolveContinuous (env : Env σ) (i j : ℕ) : TableM σ Bool := do
  let T ← get
  match ← findDistinguishing env i j (T.suffixes.map fun s => s.predecessor) with
  | none => pure false
  | some s => do
    addSuffix env s
    pure true

/-- The loop over the alphabet in `consistent` (`/repo/include/observation_table.hh:530-539`); `true` if an
inconsistency was resolved. -/
def checkDiscrete (env : Env σ) (i j : ℕ) (as : List Action) : TableM σ Bool :=
  as.anyM fun a => do
    let T ← get
    let k ← lift (T.discreteSuccessors i a)
    let l ← lift (T.discreteSuccessors j a)
    let r ← equivalentWithMemo k l
    if r.isSome then pure false
    else do
      resolveDiscrete env i j a
      pure true

/-- The check of one pair in `consistent` (`/repo/include/observation_table.hh:525-546`); `true` if an
inconsistency was resolved. -/
def checkPair (env : Env σ) (i j : ℕ) : TableM σ Bool := do
  if i ≤ j then pure false
  else
    let T ← get
    let r ← equivalentWithMemo i j
    if r.isNone then pure false
    else
      let b ← checkDiscrete env i j T.alphabet
      if b then pure true
      else
        let k ← lift (T.continuousSuccessors i)
        let l ← lift (T.continuousSuccessors j)
        let r ← equivalentWithMemo k l
        if r.isSome then pure false else resolveContinuous env i j

/-- `consistent` (`/repo/include/observation_table.hh:522-550`). -/
def consistent (env : Env σ) : TableM σ Bool := do
  let T ← get
  let b ← (env.orderP T).anyM fun i => (env.orderP T).anyM fun j => checkPair env i j
  pure (!b)

/-- The loop over the new elements of `P` in `exteriorConsistent` and `timeSaturate`
(`/repo/include/observation_table.hh:579-581`, `629-631`). -/
def moveAll (env : Env σ) : List ℕ → TableM σ Unit
  | [] => pure ()
  | i :: is => do
    moveToP env env.fuel i
    moveAll env is

/-- The collecting loop of `exteriorConsistent` (`/repo/include/observation_table.hh:560-573`). -/
def exteriorCandidates (T : ObsTable σ) : List ℕ → Option (List ℕ)
  | [] => some []
  | p :: ps => do
    let s ← T.continuousSuccessors p
    let L ← T.prefixes[p]?
    let rest ← exteriorCandidates T ps
    pure (if T.inP s || L.cond.hasEqualityN then rest else s :: rest)

/-- `exteriorConsistent` (`/repo/include/observation_table.hh:557-584`). -/
def exteriorConsistent (env : Env σ) : TableM σ Bool := do
  let T ← get
  let new ← lift (T.exteriorCandidates (env.orderP T))
  if new.isEmpty then pure true
  else do
    moveAll env new
    refreshTable env
    pure false

/-- One iteration of the collecting loop of `timeSaturate`
(`/repo/include/observation_table.hh:598-622`): whether the successor is to be moved to `P`. -/
def saturateOne (p : ℕ) : TableM σ (Option ℕ) := do
  let T ← get
  let s ← lift (T.continuousSuccessors p)
  if T.inP s then pure none
  else
    let r ← equivalentWithMemo s p
    if r.isSome then
      let T ← get
      let r ← lift (T.getRelation s p)
      if r.isEmpty then do
        modify fun T => T.putRelations s [(p, r)]
        pure none
      else
        let b ← lift (T.rowsEquivalent s p [])
        if b then do
          modify fun T => T.putRelations s [(p, [])]
          pure none
        else pure (some s)
    else pure (some s)

/-- The collecting loop of `timeSaturate` (`/repo/include/observation_table.hh:597-623`). -/
def saturateCandidates : List ℕ → TableM σ (List ℕ)
  | [] => pure []
  | p :: ps => do
    let o ← saturateOne p
    let rest ← saturateCandidates ps
    pure (o.toList ++ rest)

/-- `timeSaturate` (`/repo/include/observation_table.hh:594-635`). -/
def timeSaturate (env : Env σ) : TableM σ Bool := do
  let T ← get
  let new ← saturateCandidates (env.orderP T)
  if new.isEmpty then pure true
  else do
    moveAll env new
    refreshTable env
    pure false

/-- The inner loop of `toRecognizable` (`/repo/include/observation_table.hh:501-510`) over the keys of
`closedRelation[i]`: the morphism from the row `i`, if any; other relations are erased. -/
def findMorphism (i : ℕ) : List ℕ → TableM σ (Option SingleMorphism)
  | [] => pure none
  | j :: js => do
    let T ← get
    let r ← if T.inP j then equivalentWithMemo i j else pure none
    if r.isSome then
      let T ← get
      let p ← lift T.prefixes[i]?
      let q ← lift T.prefixes[j]?
      let r ← lift (T.getRelation i j)
      pure (some ⟨p.toElementaryLanguage, q.toElementaryLanguage, r⟩)
    else do
      modify fun T => T.eraseRelation i j
      findMorphism i js

/-- The second loop of `toRecognizable` (`/repo/include/observation_table.hh:499-512`). -/
def findMorphisms (env : Env σ) : List ℕ → TableM σ (List SingleMorphism)
  | [] => pure []
  | i :: is => do
    let T ← get
    let o ← if T.inP i then pure none else findMorphism i (env.orderRow T i)
    let rest ← findMorphisms env is
    pure (o.toList ++ rest)

/-- `toRecognizable` (`/repo/include/observation_table.hh:485-515`). -/
def toRecognizable (env : Env σ) : TableM σ RecognizableLanguage := do
  let T ← get
  let inside := (List.range T.prefixes.length).filter fun i => T.inP i
  let P ← lift (inside.mapM fun i => T.prefixes[i]?)
  let matching ← lift (inside.mapM fun i => T.isMatch i)
  let morphisms ← findMorphisms env (env.orderRel T)
  pure ⟨P.map (·.toElementaryLanguage),
    ((P.zip matching).filter (·.2)).map (·.1.toElementaryLanguage), morphisms⟩

/-- The loop of `handleCEX` over the prefixes of the counterexample
(`/repo/include/observation_table.hh:726-741`); `none` if it returns, otherwise `updated`.  A prefix that is
not in the table violates an assertion (and is an index out of range otherwise). -/
def addPrefixes (env : Env σ) : List ForwardRegional → Bool → TableM σ (Option Bool)
  | [], updated => pure (some updated)
  | L :: Ls, updated => do
    let T ← get
    let i ← lift (T.prefixes.findIdx? fun p => p.beq L)
    if T.inP i then addPrefixes env Ls updated
    else do
      moveToP env env.fuel i
      let b ← close env
      if b then addPrefixes env Ls true else pure none

/-- `analyzeCEX(cex, *memOracle, …)` with the oracle of the table
(`/repo/include/observation_table.hh:718`). -/
def analyze (env : Env σ) (R : RecognizableLanguage) (w : TimedWord) : TableM σ (Option TimedWord) := fun T =>
  match CEX.analyze env.ask env.fuel R (T.suffixes.map (·.toElementaryLanguage)) T.oracle.mem w with
  | .error e => .error e
  | .ok (m, o) => .ok (o, { T with oracle := { T.oracle with mem := m } })

/-- `handleCEX` (`/repo/include/observation_table.hh:717-747`). -/
def handleCEX (env : Env σ) (w : TimedWord) : TableM σ Unit := do
  let R ← toRecognizable env
  match ← analyze env R w with
  | some s => addSuffix env (.fromTimedWord s)
  | none =>
    match ForwardRegional.prefixes env.fuel (.fromTimedWord w) with
    | none => throw .fuel
    | some ps =>
      match ← addPrefixes env ps false with
      | none => pure ()
      | some updated => if updated then pure () else throw .abort

/-- The body of the inner loop of `Learner::run` (`/repo/include/learner.hh:32-35`); a test is skipped after
one that changed the table. -/
def refineStep (env : Env σ) : TableM σ Bool := do
  let b ← close env
  if b then
    let b ← consistent env
    if b then
      let b ← exteriorConsistent env
      if b then timeSaturate env else pure false
    else pure false
  else pure false

/-- The inner loop of `Learner::run` (`/repo/include/learner.hh:31-37`), with a bound on the iterations. -/
def refine (env : Env σ) : ℕ → TableM σ Unit
  | 0 => throw .fuel
  | n + 1 => do
    let b ← refineStep env
    if b then pure () else refine env n

end ObsTable
end LearnTA
