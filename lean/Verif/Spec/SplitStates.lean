import Verif.Model.TA
import Verif.Spec.Constraint
import Verif.Model.Merge

/-!
# Specification: an automaton made of copies of the states of another one
-/

namespace LearnTA

/-- The states `states'` with the transitions `loc'` are copies of states of the automaton with the states `states` and the
transitions `loc`: `orig` gives the state of which a state is a copy. -/
structure IsSplit (loc : ℕ → TAState) (states : List ℕ) (init : ℕ) (loc' : ℕ → TAState) (states' : List ℕ) (init' : ℕ)
    (orig : ℕ → ℕ) : Prop where
  /-- The new states are distinct. -/
  nodup : states'.Nodup
  /-- They are new states. -/
  fresh : ∀ q ∈ states', q ∉ states
  /-- The initial state is a copy of the initial state. -/
  init_mem : init' ∈ states'
  start : orig init' = init
  /-- Each state is a copy of a state, with the same acceptance. -/
  state : ∀ q ∈ states', orig q ∈ states ∧ (loc' q).isMatch = (loc (orig q)).isMatch
  /-- No target is outside of the automaton. -/
  closed : ∀ q ∈ states', ∀ a, ∀ t' ∈ (loc' q).next a, t'.target ∈ states'
  /-- Each transition comes from one of the original state to the original target, with the same updates; its guard is
  weaker and mentions no other clock. -/
  origin : ∀ q ∈ states', ∀ a, ∀ t' ∈ (loc' q).next a, ∃ t ∈ (loc (orig q)).next a, orig t'.target = t.target ∧
    t'.resets = t.resets ∧ (∀ v : Valuation, t.guard.Holds v → t'.guard.Holds v) ∧
    ∀ c ∈ t'.guard, ∃ d ∈ t.guard, d.x = c.x
  /-- The transitions of the initial state are the original ones. -/
  initial : ∀ a, List.Forall₂ (fun t' t => orig t'.target = t.target ∧ t'.resets = t.resets ∧ t'.guard = t.guard)
    ((loc' init').next a) ((loc init).next a)

/-- The states reached from `q0` by transitions. -/
inductive Linked (loc : ℕ → TAState) (q0 : ℕ) : ℕ → Prop
  | start : Linked loc q0 q0
  | step {q : ℕ} {a : Action} {t : Trans} : Linked loc q0 q → t ∈ (loc q).next a → Linked loc q0 t.target

/-- The reached states of `loc'` are pairs of a state of `loc` and a set of precise clocks: `orig` and `prec` give the pair.
Initially the clock 0 is precise. -/
structure TracksPrecise (loc : ℕ → TAState) (loc' : ℕ → TAState) (init' : ℕ) (orig : ℕ → ℕ) (prec : ℕ → Finset ℕ) : Prop where
  init : prec init' = {0}
  /-- After a transition exactly those clocks (of the target) are precise whose values come from precise clocks or
  integers. -/
  step : ∀ q, Linked loc' init' q → ∀ a, ∀ t' ∈ (loc' q).next a, ∃ k ≤ (loc (orig t'.target)).usedClockSize,
    prec t'.target = preciseAfterReset k (prec q) t'.resets
  /-- No two reached states are the same pair. -/
  unique : ∀ p q, Linked loc' init' p → Linked loc' init' q → orig p = orig q → prec p = prec q → p = q

end LearnTA
