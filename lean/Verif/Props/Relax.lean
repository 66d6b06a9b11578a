import Verif.Model.Hypothesis
import Verif.Props.Imprecise

/-!
# The relaxation of the transitions of a hypothesis (C73)
-/

namespace LearnTA.Props
open LearnTA Imprecise

/-- **C73** The relaxation that `generateHypothesis` performs on the regions with imprecise clocks that were pushed: it keeps the
acceptance and the transitions, and for each pushed region the state has been handled with its neighbours (or with a pair of the same
hash), and so have the targets of all relaxed transitions. -/
theorem C73_relax (henv : ObsTable.HypEnv) (hl : Lists henv.hash) (pending : ObsTable.Pending) (loc loc' : ℕ → TAState)
    (hr : ObsTable.relax henv pending loc = .ok loc') :
    Extends loc loc' ∧ ∃ H : List (ℕ × Neighbors),
      (∀ p ∈ pending, ∃ N, Neighbors.make henv.hash.region henv.fuel p.2.1 p.2.2.toFinset = .ok N ∧
        ∃ y ∈ H, henv.hash.pair y = henv.hash.pair (p.1, N)) ∧
      ∀ x ∈ H, Handled henv.hash.region henv.fuel (fun z => ∃ y ∈ H, henv.hash.pair y = henv.hash.pair z) loc loc' x := by
  unfold ObsTable.relax at hr
  simp only [bind, Except.bind] at hr
  split at hr
  · cases hr
  rename_i l hm
  split at hr
  · cases hr
  rename_i s hs
  cases hr
  obtain ⟨H, h1, h2⟩ := C73_handled henv.hash hl henv.fuel henv.fuel _ _ hs
  refine ⟨C73_extends henv.hash hl henv.fuel henv.fuel [] _ _ hs, H, fun p hp => ?_, h2⟩
  obtain ⟨y, hy, e⟩ := (mapM_ok hm).2 p hp
  cases hN : Neighbors.make henv.hash.region henv.fuel p.2.1 p.2.2.toFinset with
  | error x => rw [hN] at e; cases e
  | ok N =>
    rw [hN] at e
    cases e
    exact ⟨N, rfl, h1 _ hy⟩

/-- The hypotheses are met by a region with an imprecise clock and a state with a transition. -/
example : ∃ (henv : ObsTable.HypEnv) (pending : ObsTable.Pending) (loc loc' : ℕ → TAState),
    Lists henv.hash ∧ pending ≠ [] ∧ ObsTable.relax henv pending loc = .ok loc' := by
  let h : HashEnv := ⟨fun _ => 0, fun _ => 0, fun s => allActions.filter fun a => !(s.next a).isEmpty, fun _ => 0, fun _ => []⟩
  let henv : ObsTable.HypEnv := ⟨id, h, 20⟩
  let st : TAState := ⟨true, fun a => if a = 97 then [⟨0, [], []⟩] else []⟩
  let pending : ObsTable.Pending := [(0, .fromTimedWord ⟨[98], [1 / 4, 1 / 4]⟩, [0])]
  have hl : Lists h := by
    intro s a hs
    refine List.mem_filter.2 ⟨List.mem_finRange _, ?_⟩
    cases e : s.next a with
    | nil => exact absurd e hs
    | cons => rfl
  have hok : (ObsTable.relax henv pending fun _ => st).toOption.isSome = true := by decide +kernel
  cases e : ObsTable.relax henv pending fun _ => st with
  | error x => rw [e] at hok; cases hok
  | ok loc' => exact ⟨henv, pending, fun _ => st, loc', hl, by simp [pending], e⟩

end LearnTA.Props
