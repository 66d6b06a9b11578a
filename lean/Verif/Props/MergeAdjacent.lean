import Verif.Lemmas.MergeAdjacent2
import Verif.Props.TA

/-!
# Merging of adjacent transitions (C84)
-/

namespace LearnTA.Props
open LearnTA

/-- C84: the hull of two guards that are adjacent and differ for one clock only holds for exactly the clock values for which one
of the guards holds. -/
theorem C84_adjacent (g h : Guard) (hg : g.Neat) (hh : h.Neat) (hgs : g.Small) (hhs : h.Small) (x : ℕ) (hx : g.SameBut x h)
    (ha : Guard.adjacent g h = true) (v : Valuation) (hv : v.Nonneg) :
    (Guard.unionHull [h, g]).Holds v ↔ g.Holds v ∨ h.Holds v := by
  refine ⟨Guard.hull_adjacent hg hh hgs hhs hx ha v hv, ?_⟩
  rintro (h1 | h1)
  · exact C06_unionHull_contains _ g (by simp) v h1
  · exact C06_unionHull_contains _ h (by simp) v h1

/-- C84: no word is lost. -/
theorem C84_keeps (A : TA) (w : TimedWord) (h : A.Accepts w) : A.mergeAdjacentTransitions.Accepts w :=
  TA.mergeAdjacentTransitions_keeps h

/-- C84: the language stays the same if the guards of the transitions of one state for one action differ for one clock only. -/
theorem C84_language (A : TA) (hw : A.WF) (ho : A.OneClockApart) (w : TimedWord) :
    A.mergeAdjacentTransitions.Accepts w ↔ A.Accepts w :=
  ⟨TA.mergeAdjacentTransitions_exact hw ho, TA.mergeAdjacentTransitions_keeps⟩

/-- C84: in an automaton with one clock the guards differ for one clock only. -/
theorem C84_one_clock (A : TA) (hw : A.WF) (hc : A.clockSize ≤ 1)
    (hn : ∀ p ∈ A.states, ∀ a, ∀ t ∈ (A.loc p).next a, t.guard.Neat) (w : TimedWord) :
    A.mergeAdjacentTransitions.Accepts w ↔ A.Accepts w := by
  refine C84_language A hw (fun p hp a => ⟨0, fun t ht => ⟨hn p hp a t ht, fun u hu c hne => ?_⟩⟩) w
  refine iff_of_false (fun h => hne ?_) (fun h => hne ?_)
  · have := (hw.clocks p hp a t ht).1 c h
    omega
  · have := (hw.clocks p hp a u hu).1 c h
    omega

/-- Four transitions for one action, on `x = 0`, `0 < x < 1`, `x = 1` and `x > 2`. -/
def mergeA : TA where
  loc
    | 1 => ⟨false, fun a => if a = actA then [⟨2, [], [⟨0, .ge, 1⟩, ⟨0, .le, 1⟩]⟩, ⟨2, [], [⟨0, .gt, 0⟩, ⟨0, .lt, 1⟩]⟩,
      ⟨2, [], [⟨0, .le, 0⟩, ⟨0, .ge, 0⟩]⟩, ⟨2, [], [⟨0, .gt, 2⟩]⟩] else []⟩
    | _ => ⟨true, fun _ => []⟩
  states := [1, 2]
  init := [1]
  maxC := [2]

/-- The hypotheses of C84 are met by an automaton with one clock: three transitions are merged into one. -/
example : mergeA.WF ∧ mergeA.clockSize ≤ 1 ∧ (∀ p ∈ mergeA.states, ∀ a, ∀ t ∈ (mergeA.loc p).next a, t.guard.Neat) ∧
    ((mergeA.mergeAdjacentTransitions.loc 1).next actA).map (·.guard) = [[⟨0, .le, 1⟩, ⟨0, .ge, 0⟩], [⟨0, .gt, 2⟩]] := by
  refine ⟨wf_of_check (by decide +kernel), by decide, ?_, by decide +kernel⟩
  have key : ∀ p ∈ mergeA.states, ∀ a, ∀ t ∈ (mergeA.loc p).next a,
      (t.guard.satisfy (fun _ => 1) = true ∨ t.guard.satisfy (fun _ => 1/2) = true ∨ t.guard.satisfy (fun _ => 0) = true ∨
        t.guard.satisfy (fun _ => 3) = true) ∧
      ∀ c ∈ t.guard, ∀ d ∈ t.guard, c.x = d.x → c.isUpperBound = d.isUpperBound → c = d := by
    decide +kernel
  intro p hp a t ht
  obtain ⟨h1, h2⟩ := key p hp a t ht
  refine ⟨?_, h2⟩
  rcases h1 with h | h | h | h
  · exact ⟨fun _ => 1, fun _ => by norm_num, (Guard.satisfy_iff _ _).1 h⟩
  · exact ⟨fun _ => 1/2, fun _ => by norm_num, (Guard.satisfy_iff _ _).1 h⟩
  · exact ⟨fun _ => 0, fun _ => by norm_num, (Guard.satisfy_iff _ _).1 h⟩
  · exact ⟨fun _ => 3, fun _ => by norm_num, (Guard.satisfy_iff _ _).1 h⟩

/-- Two transitions whose guards differ for two clocks. -/
def mergeB : TA where
  loc
    | 1 => ⟨false, fun a => if a = actB then [⟨2, [(1, .const 0)], []⟩] else []⟩
    | 2 => ⟨false, fun a => if a = actA then [⟨3, [], [⟨0, .ge, 1⟩, ⟨0, .le, 1⟩, ⟨1, .ge, 1⟩, ⟨1, .le, 1⟩]⟩,
      ⟨3, [], [⟨0, .gt, 1⟩, ⟨0, .lt, 2⟩, ⟨1, .gt, 1⟩, ⟨1, .lt, 2⟩]⟩] else []⟩
    | _ => ⟨true, fun _ => []⟩
  states := [1, 2, 3]
  init := [1]
  maxC := [2, 2]

/-- C84: guards that differ for two clocks can be adjacent, and then words are added. -/
theorem C84_two_clocks_witness : mergeB.WF ∧ mergeB.EpsFree ∧ mergeB.deterministic = true ∧ mergeB.init.length = 1 ∧
    mergeB.mergeAdjacentTransitions.Accepts ⟨[actB, actA], [1/2, 1, 0]⟩ ∧ ¬ mergeB.Accepts ⟨[actB, actA], [1/2, 1, 0]⟩ := by
  have hw : mergeB.WF := wf_of_check (by decide +kernel)
  have he : mergeB.EpsFree := by unfold TA.EpsFree; decide +kernel
  have hd : mergeB.deterministic = true := by decide +kernel
  have hw' : mergeB.mergeAdjacentTransitions.WF := wf_of_check (by decide +kernel)
  have he' : mergeB.mergeAdjacentTransitions.EpsFree := by unfold TA.EpsFree; decide +kernel
  have hd' : mergeB.mergeAdjacentTransitions.deterministic = true := by decide +kernel
  have w1 : TimedWord.WF ⟨[actB, actA], [1/2, 1, 0]⟩ := by unfold TimedWord.WF; rfl
  have w2 : TimedWord.Observable ⟨[actB, actA], [1/2, 1, 0]⟩ := by
    intro a ha
    simp only [List.mem_cons, List.not_mem_nil, or_false] at ha
    rcases ha with rfl | rfl <;> decide +kernel
  have w3 : TimedWord.Nonneg ⟨[actB, actA], [1/2, 1, 0]⟩ := by
    intro d hd
    simp only [List.mem_cons, List.not_mem_nil, or_false] at hd
    rcases hd with rfl | rfl | rfl <;> norm_num
  refine ⟨hw, he, hd, rfl, ?_, ?_⟩
  · obtain ⟨r, b, e1, e2⟩ := C30_membership_exact _ hw' he' hd' (.inl rfl) 0 (Runner.start mergeB.mergeAdjacentTransitions)
      _ w1 w2 w3
    have : (Runner.answerQuery mergeB.mergeAdjacentTransitions 1 (Runner.start mergeB.mergeAdjacentTransitions)
      ⟨[actB, actA], [1/2, 1, 0]⟩).map (·.2) = some true := by decide +kernel
    rw [e1] at this
    simp only [Option.map_some, Option.some.injEq] at this
    exact e2.1 this
  · obtain ⟨r, b, e1, e2⟩ := C30_membership_exact _ hw he hd (.inl rfl) 0 (Runner.start mergeB) _ w1 w2 w3
    have : (Runner.answerQuery mergeB 1 (Runner.start mergeB) ⟨[actB, actA], [1/2, 1, 0]⟩).map (·.2) = some false := by
      decide +kernel
    rw [e1] at this
    simp only [Option.map_some, Option.some.injEq] at this
    intro h
    rw [e2.2 h] at this
    cases this

/-- C84: the result is well-formed, has no unobservable transition if there was none, and is still deterministic if the guards of the
transitions of one state for one action differ for one clock only.  (So membership queries about it are answered correctly, C30.) -/
theorem C84_deterministic (A : TA) (hw : A.WF) :
    A.mergeAdjacentTransitions.WF ∧ (A.EpsFree → A.mergeAdjacentTransitions.EpsFree) ∧
    (A.OneClockApart → A.deterministic = true → A.mergeAdjacentTransitions.deterministic = true) := by
  have hw' := TA.mergeAdjacentTransitions_wf hw
  refine ⟨hw', TA.mergeAdjacentTransitions_epsFree, fun ho hd => ?_⟩
  rw [TA.deterministic_iff _ hw'.small]
  exact TA.mergeAdjacentTransitions_deterministic hw ho ((TA.deterministic_iff _ hw.small).1 hd)

/-- The automaton `mergeA` is deterministic. -/
example : mergeA.deterministic = true := by decide +kernel

/-- `mergeB` with another transition to the state 1. -/
def mergeC : TA where
  loc
    | 2 => ⟨false, fun a => if a = actA then [⟨3, [], [⟨0, .ge, 1⟩, ⟨0, .le, 1⟩, ⟨1, .ge, 1⟩, ⟨1, .le, 1⟩]⟩,
      ⟨3, [], [⟨0, .gt, 1⟩, ⟨0, .lt, 2⟩, ⟨1, .gt, 1⟩, ⟨1, .lt, 2⟩]⟩,
      ⟨1, [], [⟨0, .gt, 1⟩, ⟨0, .lt, 2⟩, ⟨1, .ge, 1⟩, ⟨1, .le, 1⟩]⟩] else []⟩
    | p => mergeB.loc p
  states := [1, 2, 3]
  init := [1]
  maxC := [2, 2]

/-- C84: if they differ for two clocks, the result can be nondeterministic. -/
theorem C84_nondeterministic_witness : mergeC.WF ∧ mergeC.EpsFree ∧ mergeC.deterministic = true ∧
    mergeC.mergeAdjacentTransitions.deterministic = false := by
  refine ⟨wf_of_check (by decide +kernel), ?_, by decide +kernel, by decide +kernel⟩
  unfold TA.EpsFree; decide +kernel

end LearnTA.Props
