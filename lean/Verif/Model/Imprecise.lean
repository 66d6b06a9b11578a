import Verif.Model.Neighbor

/-!
# Relaxation of guards for imprecise clocks

Model of `/repo/include/imprecise_clock_handler.hh`.
-/

namespace LearnTA

/-- What the code gets from the hash functions and hash tables of the handler: the hash of a region, the hash of a state
with its neighbours, the order of `state->next`, and the element `*impreciseNeighbors.begin()` (its position). -/
structure HashEnv where
  region : ForwardRegional → ℕ
  pair : ℕ × Neighbors → ℕ
  acts : TAState → List Action
  pick : List (ℕ × Neighbors) → ℕ
  clocks : Finset ℕ → List ℕ

namespace Imprecise

/-- `embedIfImprecise` (`/repo/include/imprecise_clock_handler.hh:135-149`). -/
def embedIfImprecise (r : Resets) (precise : Finset ℕ) (vals : List ℚ) : Resets :=
  (r.filter fun p => decide (p.1 ∈ precise)) ++
    ((List.range vals.length).filter fun x => decide (x ∉ precise)).map fun x => (x, .const (vals.getD x 0))

/-- The relaxed guard (`/repo/include/imprecise_clock_handler.hh:38-45`): without upper bounds if the guard has none. -/
def relaxedGuard (N : Neighbors) (g : Guard) : Guard :=
  if g.any Constraint.isUpperBound then N.toRelaxedGuard
  else N.toRelaxedGuard.filter fun c => !c.isUpperBound

/-- The loop over the transitions of one action: the new transitions, the new neighbours, `matchBounded` and `noMatch`. -/
structure Round where
  added : List Trans
  pushed : List (ℕ × Neighbors)
  matchBounded : Bool
  noMatch : Bool

/-- `handleOne` with the insertion of its result (`/repo/include/imprecise_clock_handler.hh:26-68`, `:112-116`). -/
def handleOne (h : HashEnv) (fuel : ℕ) (loc : ℕ → TAState) (N : Neighbors) (a : Action) (R : Round) (t : Trans) :
    Except Fail Round :=
  if N.matchGuard t.guard then
    let bounded := t.guard.any Constraint.isUpperBound
    let R := { R with matchBounded := R.matchBounded || bounded, noMatch := false }
    let g := relaxedGuard N t.guard
    if Guard.isWeaker g t.guard && !Guard.isWeaker t.guard g then do
      let after ← N.makeAfter h.region fuel loc a t
      match after.toOriginalValuation with
      | none => .error .undefined
      | some vals =>
        let precise := N.preciseAfter loc t
        let R := { R with added := R.added ++ [⟨t.target, embedIfImprecise t.resets precise vals, g⟩] }
        pure (if decide (precise = ∅) || after.isPrecise then R else { R with pushed := R.pushed ++ [(t.target, after)] })
    else .ok R
  else .ok R

/-- The variables of `run`: the heap, the pending pairs. -/
structure St where
  loc : ℕ → TAState
  pending : List (ℕ × Neighbors)

/-- The body of the loop over `state->next` (`/repo/include/imprecise_clock_handler.hh:108-127`).  `neighborSuccessor` (line 109) is not used by
the code and is not modelled. -/
def handleAction (h : HashEnv) (fuel : ℕ) (q : ℕ) (N : Neighbors) (s : St × Bool × Bool) (a : Action) :
    Except Fail (St × Bool × Bool) := do
  let R ← ((s.1.loc q).next a).foldlM (handleOne h fuel s.1.loc N a) ⟨[], [], s.2.1, s.2.2⟩
  pure (⟨setList s.1.loc q a ((s.1.loc q).next a ++ R.added), s.1.pending ++ R.pushed⟩, R.matchBounded, R.noMatch)

/-- The loop over the time successors (`/repo/include/imprecise_clock_handler.hh:102-129`), with a bound on the
iterations. -/
def follow (h : HashEnv) (fuel : ℕ) (q : ℕ) : ℕ → Neighbors → St → Bool → Except Fail St
  | 0, _, _, _ => .error .fuel
  | n + 1, N, s, noMatch => do
    let r ← (h.acts (s.loc q)).foldlM (handleAction h fuel q N) (s, false, noMatch)
    let N' ← N.successor h.region fuel
    if r.2.1 || r.2.2 then follow h fuel q n N' r.1 r.2.2 else pure r.1

/-- `run` (`/repo/include/imprecise_clock_handler.hh:87-132`), with a bound on the iterations; `visited` are the hashes
already seen. -/
def run (h : HashEnv) (fuel : ℕ) : ℕ → List ℕ → St → Except Fail St
  | 0, _, _ => .error .fuel
  | n + 1, visited, s =>
    match s.pending with
    | [] => .ok s
    | p :: ps =>
      let i := h.pick (p :: ps)
      let x := ((p :: ps)[i]?).getD p
      let s' : St := { s with pending := (p :: ps).eraseIdx (if i < ps.length + 1 then i else 0) }
      if h.pair x ∈ visited then run h fuel n visited s'
      else do
        let s2 ← follow h fuel x.1 fuel x.2 s' true
        run h fuel n (h.pair x :: visited) s2

/-- `push` (`/repo/include/imprecise_clock_handler.hh:74-82`).  Simplification: an element that is already in the set is
listed again; the second one is skipped because its hash has been seen. -/
def push (h : HashEnv) (fuel : ℕ) (pending : List (ℕ × Neighbors)) (q : ℕ) (r : RenamingRelation) (L : ForwardRegional) :
    Except Fail (List (ℕ × Neighbors)) :=
  if r.hasImpreciseClocks L.cond then do
    let N ← Neighbors.make h.region fuel L r.rightVariables.toFinset
    pure (pending ++ [(q, N)])
  else .ok pending

end Imprecise
end LearnTA
