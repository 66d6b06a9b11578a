import Verif.Model.Imprecise

/-!
# Splitting of states by their precise clocks

Model of `ObservationTable::splitStates` (`/repo/src/observation_table.cc:110-268`).
-/

namespace LearnTA
namespace Split

/-- `EnhancedState` (`/repo/src/observation_table.cc:111-114`): a state of the original automaton and the precise clocks
(a sorted vector, that is, a finite set). -/
abbrev Enhanced := ℕ × Finset ℕ

/-- `StateMap` (`/repo/src/observation_table.cc:123-128`) with the heap and the queue of the search.  `forward` is
`forwardMap`; `reverseMap` is read off it, because every new state is added once.  The address of the next new state is
`next`. -/
structure St where
  loc : ℕ → TAState
  states : List ℕ
  forward : List (Enhanced × ℕ)
  queue : List Enhanced
  next : ℕ

/-- `map(EnhancedState)` (`/repo/src/observation_table.cc:155-160`): `none` if the assertion fails. -/
def St.map (s : St) (e : Enhanced) : Option ℕ := s.forward.lookup e

/-- `map(State)` and `toOriginalState` (`/repo/src/observation_table.cc:162-171`). -/
def St.toOriginal (s : St) (q : ℕ) : Option ℕ := (s.forward.find? fun p => p.2 == q).map fun p => p.1.1

/-- The constructor of `StateMap` (`/repo/src/observation_table.cc:130-153`): copies of all states; the targets are the
copies (`fromOriginalState`, `:173-183`, whose assertion needs another state). -/
def start (loc : ℕ → TAState) (states : List ℕ) : Except Fail St :=
  let base := states.foldr max 0 + 1
  let copy := fun q => base + states.idxOf q
  if states.all fun q => allActions.all fun a => ((loc q).next a).all fun t =>
      decide (t.target ∈ states) && states.any fun p => p != t.target then
    .ok
      { loc := fun p =>
          match states[p - base]? with
          | some q => if base ≤ p then
              { loc q with next := fun a => ((loc q).next a).map fun t => { t with target := copy t.target } } else loc p
          | none => loc p
        states := states.map copy
        forward := states.map fun q => ((q, Finset.range (loc q).usedClockSize), copy q)
        queue := []
        next := base + states.length }
  else .error .undefined

/-- `make` (`/repo/src/observation_table.cc:193-205`): the state and its address. -/
def St.make (s : St) (e : Enhanced) : St × ℕ :=
  match s.map e with
  | some q => (s, q)
  | none =>
    ({ s with
      loc := Function.update s.loc s.next ⟨(s.loc e.1).isMatch, fun _ => []⟩
      states := s.states ++ [s.next]
      forward := s.forward ++ [(e, s.next)]
      next := s.next + 1 }, s.next)

/-- The body of the loop over the transitions if the target has not been visited
(`/repo/src/observation_table.cc:254-260`). -/
def discover (h : HashEnv) (s : St) (target : ℕ) (e : Enhanced) : St :=
  let m := s.make e
  let loc := Function.update m.1.loc m.2 { m.1.loc m.2 with next := (m.1.loc target).next }
  { m.1 with
    loc := mergeBranchingPrecise (h.clocks e.2) (h.acts (loc m.2)) loc m.2
    queue := m.1.queue ++ [e] }

/-- The loop over the transitions of the state `q` with the action `a` (`/repo/src/observation_table.cc:249-264`): `done` are
the transitions that have got their new target. -/
def rewire (h : HashEnv) (visited : List Enhanced) (precise : Finset ℕ) (q : ℕ) (a : Action) :
    St → List Trans → List Trans → Except Fail St
  | s, _, [] => .ok s
  | s, done, t :: ts =>
    match s.toOriginal t.target with
    | none => .error .undefined
    | some o =>
      let e : Enhanced := (o, preciseAfterReset (s.loc t.target).usedClockSize precise t.resets)
      let s1 := if e ∈ visited then s else discover h s t.target e
      match s1.map e with
      | none => .error .undefined
      | some n =>
        let t' : Trans := { t with target := n }
        rewire h visited precise q a { s1 with loc := setList s1.loc q a (done ++ t' :: ts) } (done ++ [t']) ts

/-- The search (`/repo/src/observation_table.cc:236-266`), with a bound on the iterations. -/
def search (h : HashEnv) : ℕ → List Enhanced → St → Except Fail St
  | 0, _, _ => .error .fuel
  | n + 1, visited, s =>
    match s.queue with
    | [] => .ok s
    | e :: queue =>
      match s.map e with
      | none => .error .undefined
      | some q =>
        let s := { s with queue := queue }
        if e ∈ visited then search h n visited s
        else do
          let s := { s with loc := mergeBranchingPrecise (h.clocks e.2) (h.acts (s.loc e.1)) s.loc e.1 }
          let s ← (h.acts (s.loc q)).foldlM
            (fun s a => rewire h (e :: visited) e.2 q a s [] ((s.loc q).next a)) s
          search h n (e :: visited) s

/-- `splitStates` (`/repo/src/observation_table.cc:209-268`): the heap, the states and the initial state. -/
def run (h : HashEnv) (fuel : ℕ) (loc : ℕ → TAState) (states : List ℕ) (init : ℕ) :
    Except Fail ((ℕ → TAState) × List ℕ × ℕ) := do
  let s ← start loc states
  let s' ← search h fuel [] { s with queue := [(init, {0})] }
  pure (s'.loc, s'.states, states.foldr max 0 + 1 + states.idxOf init)

end Split
end LearnTA
