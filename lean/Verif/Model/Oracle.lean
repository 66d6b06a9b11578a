import Verif.Model.Intersection
import Verif.Model.Runner
import Verif.Model.ZoneAutomaton
import Mathlib.Data.List.Dedup

/-!
# Oracles and the learner

Model of `/repo/include/membership_oracle.hh` (`MembershipOracleCache`),
`/repo/include/equivalence_oracle_by_test.hh`, `/repo/include/equivalence_oracle_by_random_test.hh`,
`/repo/include/equivalence_oracle_memo.hh`, `/repo/include/equivalance_oracle_chain.hh`,
`/repo/include/timed_automata_equivalence_oracle.hh`, `/repo/include/learner.hh`.
-/

namespace LearnTA

/-! ### The membership cache -/

/-- `class MembershipOracleCache` (`/repo/include/membership_oracle.hh:61-64`) around an oracle with
state `σ`; an association list with unique keys stands for `boost::unordered_map`. -/
structure MemCache (σ : Type) where
  oracle : σ
  cache : List (TimedWord × Bool)
  countNoCache : ℕ

namespace MemCache

/-- The constructor (`/repo/include/membership_oracle.hh:67`). -/
def start {σ : Type} (s : σ) : MemCache σ := ⟨s, [], 0⟩

/-- `answerQuery` (`/repo/include/membership_oracle.hh:69-79`). -/
def answerQuery {σ : Type} (ask : σ → TimedWord → σ × Bool) (c : MemCache σ) (w : TimedWord) :
    MemCache σ × Bool :=
  match c.cache.lookup w with
  | some b => ({ c with countNoCache := c.countNoCache + 1 }, b)
  | none =>
    let r := ask c.oracle w
    (⟨r.1, (w, r.2) :: c.cache, c.countNoCache + 1⟩, r.2)

/-- A sequence of queries with their answers. -/
def answerAll {σ : Type} (ask : σ → TimedWord → σ × Bool) (c : MemCache σ) :
    List TimedWord → MemCache σ × List Bool
  | [] => (c, [])
  | w :: ws =>
    let r := answerQuery ask c w
    let r' := answerAll ask r.1 ws
    (r'.1, r.2 :: r'.2)

end MemCache

/-! ### Equivalence oracles based on tests -/

namespace ByTest

/-- The first `n` actions with the `n + 1` delays around them
(`/repo/include/equivalence_oracle_by_test.hh:39-40`). -/
def prefixOf (w : TimedWord) (n : ℕ) : TimedWord :=
  TimedWord.make (w.word.take n) (w.durations.take (n + 1))

/-- The first `n + 1` actions, and no delay after the last one
(`/repo/include/equivalence_oracle_by_test.hh:46-48`). -/
def prefixZero (w : TimedWord) (n : ℕ) : TimedWord :=
  TimedWord.make (w.word.take (n + 1)) (w.durations.take (n + 1) ++ [0])

/-- The loop over one test word (`/repo/include/equivalence_oracle_by_test.hh:36-57`) from
position `i`, with the remaining actions and delays.  The outer `none` is divergence or undefined
behaviour of a runner (or an out-of-range index), the inner `none` is "no difference". -/
def testFrom (A H : TA) (fuel : ℕ) (w : TimedWord) (i : ℕ) (r h : Runner) :
    List Action → List ℚ → Option (Option TimedWord)
  | _, [] => none
  | [], d :: _ =>
    match Runner.stepDelay A fuel r d, Runner.stepDelay H fuel h d with
    | some (_, x), some (_, y) => some (if x ≠ y then some w else none)
    | _, _ => none
  | a :: as, d :: ds =>
    match Runner.stepDelay A fuel r d, Runner.stepDelay H fuel h d with
    | some (r, x), some (h, y) =>
      if x ≠ y then some (some (prefixOf w i))
      else
        let p := Runner.stepAct A r a
        let q := Runner.stepAct H h a
        if p.2 ≠ q.2 then some (some (prefixZero w i))
        else testFrom A H fuel w (i + 1) p.1 q.1 as ds
    | _, _ => none

/-- The loop over the test words (`/repo/include/equivalence_oracle_by_test.hh:33-58`).
Simplification: `pre` sets the runners back to the initial state, whatever happened before, so each
word is tested from fresh runners. -/
def findFrom (A H : TA) (fuel : ℕ) : List TimedWord → Option (Option TimedWord)
  | [] => some none
  | w :: ws =>
    match testFrom A H fuel w 0 (Runner.pre A (Runner.start A)) (Runner.pre H (Runner.start H))
        w.word w.durations with
    | none => none
    | some (some c) => some (some c)
    | some none => findFrom A H fuel ws

end ByTest

/-- `class EquivalenceOracleByTest` (`/repo/include/equivalence_oracle_by_test.hh:20-24`). -/
structure ByTest where
  words : List TimedWord
  automaton : TA
  eqQueryCount : ℕ

namespace ByTest

/-- `findCounterExample` (`/repo/include/equivalence_oracle_by_test.hh:29-61`). -/
def findCounterExample (o : ByTest) (fuel : ℕ) (H : TA) : Option (ByTest × Option TimedWord) :=
  (findFrom o.automaton H fuel o.words).map fun r =>
    ({ o with eqQueryCount := o.eqQueryCount + 1 }, r)

/-- `push_back` (`/repo/include/equivalence_oracle_by_test.hh:63-65`). -/
def pushBack (o : ByTest) (w : TimedWord) : ByTest := { o with words := o.words ++ [w] }

end ByTest

namespace RandomTest

/-- One random test (`/repo/include/equivalence_oracle_by_random_test.hh:49-75`): the draws of delays
and actions are an arbitrary input, the last delay is `last`. -/
def testFrom (A H : TA) (fuel : ℕ) (word : List Action) (durations : List ℚ) (r h : Runner)
    (last : ℚ) : List (ℚ × Action) → Option (Option TimedWord)
  | [] =>
    match Runner.stepDelay A fuel r last, Runner.stepDelay H fuel h last with
    | some (_, x), some (_, y) =>
      some (if x ≠ y then some (TimedWord.make word (durations ++ [last])) else none)
    | _, _ => none
  | (d, a) :: draws =>
    match Runner.stepDelay A fuel r d, Runner.stepDelay H fuel h d with
    | some (r, x), some (h, y) =>
      if x ≠ y then some (some (TimedWord.make word (durations ++ [d])))
      else
        let p := Runner.stepAct A r a
        let q := Runner.stepAct H h a
        if p.2 ≠ q.2 then some (some (TimedWord.make (word ++ [a]) (durations ++ [d, 0])))
        else testFrom A H fuel (word ++ [a]) (durations ++ [d]) p.1 q.1 last draws
    | _, _ => none

/-- `findCounterExample` (`/repo/include/equivalence_oracle_by_random_test.hh:39-78`) on given
draws, one entry per test. -/
def find (A H : TA) (fuel : ℕ) : List (List (ℚ × Action) × ℚ) → Option (Option TimedWord)
  | [] => some none
  | (draws, last) :: ts =>
    match testFrom A H fuel [] [] (Runner.pre A (Runner.start A)) (Runner.pre H (Runner.start H))
        last draws with
    | none => none
    | some (some c) => some (some c)
    | some none => find A H fuel ts

end RandomTest

/-! ### Combined oracles -/

/-- The method `findCounterExample` of `class EquivalenceOracle`
(`/repo/include/equivalence_oracle.hh:17-39`) on objects of a type `Ω`: the object afterwards and the
result; `none` is divergence or undefined behaviour.  The counters are part of the objects.  `Ω` may be
a sum type, so that one function stands for the virtual dispatch. -/
abbrev EqCall (Ω : Type) := Ω → TA → Option (Ω × Option TimedWord)

/-- The loop of the chain (`/repo/include/equivalance_oracle_chain.hh:24-30`). -/
def chainCall {Ω : Type} (call : EqCall Ω) : EqCall (List Ω)
  | [], _ => some ([], none)
  | o :: os, H =>
    match call o H with
    | none => none
    | some (o', some w) => some (o' :: os, some w)
    | some (o', none) => (chainCall call os H).map fun r => (o' :: r.1, r.2)

/-- `findCounterExample` of the memo (`/repo/include/equivalence_oracle_memo.hh:28-41`); `fuel` is for
the runners of the test-based oracle. -/
def memoCall {Ω : Type} (call : EqCall Ω) (fuel : ℕ) : EqCall (Ω × ByTest) := fun s H =>
  match s.2.findCounterExample fuel H with
  | none => none
  | some (t, some w) => some ((s.1, t), some w)
  | some (t, none) =>
    match call s.1 H with
    | none => none
    | some (o, some w) => some ((o, t.pushBack w), some w)
    | some (o, none) => some ((o, t), none)

/-! ### The oracle based on complements -/

namespace TA

/-- `addUpperBoundForUnobservableTransitions` (`/repo/include/timed_automaton.hh:664-667`,
`/repo/src/timed_automaton.cc:147-154`). -/
def addUpperBoundForUnobservableTransitions (A : TA) : TA :=
  A.states.foldl (fun B p => B.setLoc p { B.loc p with
    next := Function.update (B.loc p).next unobservable
      (((B.loc p).next unobservable).map fun t => { t with guard := Guard.addUpperBound t.guard }) }) A

/-- `liveTransitions` (`/repo/src/timed_automaton.cc:58-71`): the transition is on an edge, for an
action looked at by the loop, of a state of the zone automaton that stands for `p`. -/
def liveTrans (za : ZA) (p : ℕ) (a : Action) (t : Trans) : Bool :=
  za.states.any fun q => decide ((za.loc q).ta = p) && decide (a ∈ ZA.charActions) &&
    ((za.loc q).next a).any fun e => decide (e.1 = t)

/-- The part of `simplifyWithZones` after the zone construction
(`/repo/src/timed_automaton.cc:56-124`).  Simplification: a list without duplicates stands for the
set `liveStates`. -/
def keepLive (A : TA) (z : ZA) : TA :=
  let live := (z.states.map fun q => (z.loc q).ta).dedup
  let A1 := if live.length ≠ A.states.length then A.keepStates live else A
  A1.states.foldl (fun B p => B.setLoc p { B.loc p with
    next := fun a => ((B.loc p).next a).filter (liveTrans z p a) }) A1

/-- `simplifyWithZones` (`/repo/src/timed_automaton.cc:51-127`); `none` if the zone construction
needs more than `fuel` rounds. -/
def simplifyWithZones (A : TA) (o : HashOrder) (fuel : ℕ) : Option TA :=
  (ta2za A o false fuel).map fun za => A.keepLive za.removeDeadStates

end TA

namespace ComplementOracle

/-- `subset` (`/repo/include/timed_automata_equivalence_oracle.hh:30-46`) up to the call of
`ta2za`: the automaton given to it. -/
def subsetTA (complement H : TA) : TA :=
  (complement.intersection H).simplifyStrong.addUpperBoundForUnobservableTransitions

/-- `superset` (`/repo/include/timed_automata_equivalence_oracle.hh:51-68`) up to the call of
`ta2za`: the automaton given to it. -/
def supersetTA (target H : TA) (alphabet : List Action) : TA :=
  ((target.intersection (H.complement alphabet)).simplifyStrong
    |>.addUpperBoundForUnobservableTransitions).simplify

/-- `ta2za` with the early return, then `sampleWithMemo`
(`/repo/include/timed_automata_equivalence_oracle.hh:42-45`, `:64-67`); the outer `none` if more
than `fuel` rounds are needed. -/
def sampleOf (o : HashOrder) (fuel : ℕ) (A : TA) : Option (Option TimedWord) :=
  (ta2za A o true fuel).map fun za => za.sampleWithMemo.2

/-- `findCounterExample` (`/repo/include/timed_automata_equivalence_oracle.hh:85-126`).  The
assertions on the counterexample are not executed. -/
def findCounterExample (target complement : TA) (alphabet : List Action) (o : HashOrder) (fuel : ℕ)
    (H : TA) : Option (Option TimedWord) :=
  match sampleOf o fuel (subsetTA complement H) with
  | none => none
  | some (some w) => some (some w)
  | some none => sampleOf o fuel (supersetTA target H alphabet)

end ComplementOracle

/-! ### The learner -/

/-- What the learner uses of the observation table (`/repo/include/observation_table.hh`): arbitrary
functions on an arbitrary state. -/
structure Table (τ : Type) where
  close : τ → τ × Bool
  consistent : τ → τ × Bool
  exteriorConsistent : τ → τ × Bool
  timeSaturate : τ → τ × Bool
  generateHypothesis : τ → τ × TA
  handleCEX : τ → TimedWord → τ

namespace Learner

/-- One execution of the body of the inner loop (`/repo/include/learner.hh:32-35`): later tests are
skipped after one that changed the table. -/
def saturateStep {τ : Type} (T : Table τ) (t : τ) : τ × Bool :=
  let r := T.close t
  if !r.2 then (r.1, false)
  else
    let r := T.consistent r.1
    if !r.2 then (r.1, false)
    else
      let r := T.exteriorConsistent r.1
      if !r.2 then (r.1, false)
      else T.timeSaturate r.1

/-- The inner loop (`/repo/include/learner.hh:31-37`). -/
def saturate {τ : Type} (T : Table τ) : ℕ → τ → Option τ
  | 0, _ => none
  | fuel + 1, t =>
    let r := saturateStep T t
    if r.2 then some r.1 else saturate T fuel r.1

/-- `Learner::run` (`/repo/include/learner.hh:28-55`); `eq` is the equivalence oracle with state
`σ`, `post` the simplification of the hypothesis (`:41-43`, `simplifyStrong` and
`simplifyWithZones`).  `none` if more than `fuel` rounds are needed or the oracle diverges. -/
def run {τ σ : Type} (T : Table τ) (eq : EqCall σ) (post : TA → Option TA) :
    ℕ → τ → σ → Option (TA × τ × σ)
  | 0, _, _ => none
  | fuel + 1, t, s =>
    match saturate T fuel t with
    | none => none
    | some t1 =>
      let r := T.generateHypothesis t1
      match post r.2 with
      | none => none
      | some H =>
        match eq s H with
        | none => none
        | some (s', none) => some (H, r.1, s')
        | some (s', some w) => run T eq post fuel (T.handleCEX r.1 w) s'

end Learner
end LearnTA
