import Verif.Model.TA

/-!
# Executing an automaton

Model of `/repo/include/timed_automaton_runner.hh` and of `SULMembershipOracle`
(`/repo/include/membership_oracle.hh`).
-/

namespace LearnTA

/-- The mutable members of `TimedAutomatonRunner` (`/repo/include/timed_automaton_runner.hh:24-28`):
`loc = none` is the null pointer. -/
structure Runner where
  loc : Option ℕ
  val : Valuation
  numQueries : ℕ

namespace Runner

/-- The constructor (`/repo/include/timed_automaton_runner.hh:30-38`).  For the empty automaton the
pointer is not initialised in the code (and never read). -/
def start (A : TA) : Runner where
  loc := if A.states.isEmpty then none else A.init.head?
  val := Valuation.zero
  numQueries := 0

/-- `pre` (`/repo/include/timed_automaton_runner.hh:41-49`). -/
def pre (A : TA) (r : Runner) : Runner :=
  if A.states.isEmpty then { r with numQueries := r.numQueries + 1 }
  else { loc := A.init.head?, val := Valuation.zero, numQueries := r.numQueries + 1 }

/-- `post` (`/repo/include/timed_automaton_runner.hh:51-55`). -/
def post (_A : TA) (r : Runner) : Runner := r

/-- `step(char)` (`/repo/include/timed_automaton_runner.hh:80-105`). -/
def stepAct (A : TA) (r : Runner) (a : Action) : Runner × Bool :=
  if A.states.isEmpty then (r, false)
  else match r.loc with
    | none => (r, false)
    | some p =>
      match ((A.loc p).next a).find? (fun t => t.guard.satisfy r.val) with
      | some t => ({ r with loc := some t.target, val := t.resets.apply r.val },
          (A.loc t.target).isMatch)
      | none => ({ r with loc := none }, false)

/-- The comparison of two bounds `Bounds` where the inner `none` is `(-inf, false)`. -/
def ltOpt : Option Bound → Option Bound → Bool
  | _, none => false
  | none, some _ => true
  | some a, some b => decide (a < b)

/-- The unobservable transition chosen by `step(double)`
(`/repo/include/timed_automaton_runner.hh:121-137`): `std::min_element` by the bound, the first one
among equals, with its bound.  The result `none` stands for the undefined behaviour on an empty
guard. -/
def epsCandidate (v : Valuation) : List Trans → Option (Option (Trans × Option Bound))
  | [] => some none
  | t :: ts =>
    match t.guard.lowerBoundDurationToSatisfy v with
    | none => none
    | some b => ts.foldl (fun acc t' =>
        match acc, t'.guard.lowerBoundDurationToSatisfy v with
        | some (some (u, bu)), some b' =>
          if ltOpt b' bu then some (some (t', b')) else some (some (u, bu))
        | _, _ => none) (some (some (t, b)))

/-- `step(double)` (`/repo/include/timed_automaton_runner.hh:107-161`).  `fuel` bounds the number of
recursive calls; the result is `none` if the code recurses more often or its behaviour is
undefined.  `isfinite` holds for every bound in the model except for `(-inf, false)`. -/
def stepDelay (A : TA) : ℕ → Runner → ℚ → Option (Runner × Bool)
  | 0, _, _ => none
  | fuel + 1, r, d =>
    if A.states.isEmpty then some (r, false)
    else match r.loc with
      | none => some (r, false)
      | some p =>
        if d = 0 then some (r, (A.loc p).isMatch)
        else
          match epsCandidate r.val ((A.loc p).next unobservable) with
          | none => none
          | some (some (t, some (.fin m s))) =>
            if m ≤ 0 ∧ Bound.fin (-d) true ≤ Bound.fin m s then
              stepDelay A fuel
                { r with loc := some t.target, val := t.resets.apply (r.val.shift (-m)) }
                (d - (if m = 0 ∧ s = false then 1 / 10 ^ 10 else -m))
            else some ({ r with val := r.val.shift d }, (A.loc p).isMatch)
          | some _ => some ({ r with val := r.val.shift d }, (A.loc p).isMatch)

/-- The loop of `SULMembershipOracle::answerQuery`
(`/repo/include/membership_oracle.hh:43-46`). -/
def runFrom (A : TA) (fuel : ℕ) (r : Runner) (result : Bool) :
    List Action → List ℚ → Option (Runner × Bool)
  | a :: as, d :: ds =>
    match stepDelay A fuel (stepAct A r a).1 d with
    | none => none
    | some (r', res) => runFrom A fuel r' res as ds
  | _, _ => some (r, result)

/-- `SULMembershipOracle::answerQuery` (`/repo/include/membership_oracle.hh:39-51`) with a
`TimedAutomatonRunner` as the system. -/
def answerQuery (A : TA) (fuel : ℕ) (r : Runner) (w : TimedWord) : Option (Runner × Bool) :=
  match stepDelay A fuel (pre A r) (w.durations.headD 0) with
  | none => none
  | some (r', res) =>
    match runFrom A fuel r' res w.word w.durations.tail with
    | none => none
    | some (r'', res') => some (post A r'', res')

/-- One call of the public interface. -/
inductive Call where
  | pre | post
  | act (a : Action)
  | delay (d : ℚ)

/-- The effect of one call and what it returns (`none`: returns nothing). -/
def call (A : TA) (fuel : ℕ) (r : Runner) : Call → Option (Runner × Option Bool)
  | .pre => some (pre A r, none)
  | .post => some (post A r, none)
  | .act a => let p := stepAct A r a; some (p.1, some p.2)
  | .delay d => (stepDelay A fuel r d).map fun p => (p.1, some p.2)

/-- The effect of a sequence of calls, with all returned values. -/
def calls (A : TA) (fuel : ℕ) (r : Runner) : List Call → Option (Runner × List (Option Bool))
  | [] => some (r, [])
  | c :: cs =>
    match call A fuel r c with
    | none => none
    | some (r', o) => (calls A fuel r' cs).map fun p => (p.1, o :: p.2)

end Runner
end LearnTA
