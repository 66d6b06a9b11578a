import Verif.Model.Imprecise
import Verif.Spec.Merge
import Verif.Spec.Neighbor

/-!
# Specification: what the relaxation of guards may change
-/

namespace LearnTA

/-- `y` has the target of `x` and a weaker guard, and it updates every clock as `x` does, or sets it to a constant, or leaves
it. -/
structure Trans.Embeds (y x : Trans) : Prop where
  target : y.target = x.target
  guard : ∀ v : Valuation, x.guard.Holds v → y.guard.Holds v
  updates : ∀ c, (∀ v, y.resets.apply v c = x.resets.apply v c) ∨ (∃ q, ∀ v, y.resets.apply v c = q) ∨
    ∀ v, y.resets.apply v c = v c

/-- The states keep their acceptance and their transitions; the new transitions, listed after them, come from them. -/
def Extends (loc loc' : ℕ → TAState) : Prop :=
  ∀ q, (loc' q).isMatch = (loc q).isMatch ∧ ∀ a, ∃ added, (loc' q).next a = (loc q).next a ++ added ∧
    ∀ t' ∈ added, ∃ t ∈ (loc q).next a, Trans.Embeds t' t

/-- The guard has an upper bound. -/
def Guard.Bounded (g : Guard) : Prop := ∃ c ∈ g, c.isUpperBound = true

/-- `After k N N'`: `k` times `successor()`. -/
inductive Neighbors.After (hash : ForwardRegional → ℕ) (fuel : ℕ) : ℕ → Neighbors → Neighbors → Prop
  | zero {N : Neighbors} : After hash fuel 0 N N
  | succ {N M N' : Neighbors} {k : ℕ} : N.successor hash fuel = .ok M → After hash fuel k M N' → After hash fuel (k + 1) N N'

/-- The transition `t` of `q` has been relaxed for `N`: its guard is already as weak as the relaxed guard, or `q` has a
transition with the relaxed guard, the target of `t`, the updates of `t` for the precise clocks, and the constants of the
original after the transition for the imprecise clocks.  Unless no clock is precise or nothing is imprecise after the
transition, the target is `seen` with the neighbours after the transition.  `loc1` is the automaton at the time of the
relaxation. -/
def Neighbors.RelaxedAt (hash : ForwardRegional → ℕ) (fuel : ℕ) (seen : ℕ × Neighbors → Prop) (loc loc' : ℕ → TAState) (q : ℕ)
    (N : Neighbors) (a : Action) (t : Trans) : Prop :=
  Guard.isWeaker t.guard (Imprecise.relaxedGuard N t.guard) = true ∨
    ∃ loc1 after vals, Extends loc loc1 ∧ Extends loc1 loc' ∧ N.makeAfter hash fuel loc1 a t = .ok after ∧
      after.toOriginalValuation = some vals ∧
      ⟨t.target, Imprecise.embedIfImprecise t.resets (N.preciseAfter loc1 t) vals, Imprecise.relaxedGuard N t.guard⟩ ∈
        (loc' q).next a ∧
      (N.preciseAfter loc1 t = ∅ ∨ after.isPrecise = true ∨ seen (t.target, after))

/-- The transitions of `q` that match `N` have been relaxed, if their relaxed guard is weaker. -/
def Neighbors.Relaxed (hash : ForwardRegional → ℕ) (fuel : ℕ) (seen : ℕ × Neighbors → Prop) (loc loc' : ℕ → TAState) (q : ℕ)
    (N : Neighbors) : Prop :=
  ∀ a, ∀ t ∈ (loc q).next a, N.matchGuard t.guard = true → Guard.isWeaker (Imprecise.relaxedGuard N t.guard) t.guard = true →
    N.RelaxedAt hash fuel seen loc loc' q a t

/-- The pair has been handled: the neighbours have been followed for `m` steps, the matching transitions have been relaxed,
some transition has matched, and at the end no matching transition has an upper bound. -/
def Imprecise.Handled (hash : ForwardRegional → ℕ) (fuel : ℕ) (seen : ℕ × Neighbors → Prop) (loc loc' : ℕ → TAState)
    (x : ℕ × Neighbors) : Prop :=
  ∃ m, (∀ k ≤ m, ∃ N, x.2.After hash fuel k N ∧ N.Relaxed hash fuel seen loc loc' x.1) ∧
    (∃ k ≤ m, ∃ N, x.2.After hash fuel k N ∧ ∃ a, ∃ t ∈ (loc' x.1).next a, N.matchGuard t.guard = true) ∧
    ∃ N, x.2.After hash fuel m N ∧ ∀ a, ∀ t ∈ (loc x.1).next a, N.matchGuard t.guard = true → ¬ t.guard.Bounded

end LearnTA
