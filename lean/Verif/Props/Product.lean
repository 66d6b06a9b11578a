import Verif.Lemmas.Intersection
import Verif.Props.TA

/-!
# Properties of the product of two automata (C36)
-/

namespace LearnTA.Props

open LearnTA

/-- C36: the product accepts a timed word exactly when both automata accept it.  Unobservable
transitions are allowed in both. -/
theorem C36_product_language (A B : TA) (hA : A.WF) (hB : B.WF) (w : TimedWord) (hw : w.WF) :
    (A.intersection B).Accepts w ↔ A.Accepts w ∧ B.Accepts w :=
  TA.intersection_accepts hA.closed hB.closed hA.clocks w hw

/-- C36: the product is again an automaton the other functions can be applied to. -/
theorem C36_product_wf (A B : TA) (hA : A.WF) (hB : B.WF) : (A.intersection B).WF :=
  TA.intersection_wf hA hB

/-- C36: every state of the product stands for exactly one pair of states. -/
theorem C36_product_pairs (A B : TA) (p q p' q' : ℕ) (hp : p ∈ A.states) (hq : q ∈ B.states)
    (hp' : p' ∈ A.states) (hq' : q' ∈ B.states) :
    TA.prodAddr A B p q ∈ (A.intersection B).states ∧
    ((A.intersection B).loc (TA.prodAddr A B p q)).isMatch =
      ((A.loc p).isMatch && (B.loc q).isMatch) ∧
    (TA.prodAddr A B p q = TA.prodAddr A B p' q' → p = p' ∧ q = q') := by
  refine ⟨(TA.mem_intersection_states A B _).2 ⟨p, hp, q, hq, rfl⟩, ?_,
    TA.prodAddr_inj A B hp hq hp' hq'⟩
  rw [TA.intersection_loc A B hp hq]; rfl

/-- C36: without unobservable transitions in the components the product has none. -/
theorem C36_product_epsFree (A B : TA) (hA : A.EpsFree) (hB : B.EpsFree) :
    (A.intersection B).EpsFree := TA.intersection_epsFree hA hB

/-- An automaton that moves silently when its clock is at least 1 and then reads `a`. -/
def epsB : TA where
  loc
    | 1 => ⟨false, fun a => if a = unobservable then [⟨2, [(0, .const 0)], [⟨0, .ge, 1⟩]⟩] else []⟩
    | _ => ⟨true, fun a => if a = actA then [⟨2, [], [⟨0, .le, 0⟩]⟩] else []⟩
  states := [1, 2]
  init := [1]
  maxC := [5]

/-- The hypotheses are met by the product of the example automaton with one that has an
unobservable transition, and a word is accepted by both, hence by the product. -/
example : exA.WF ∧ epsB.WF ∧ (exA.intersection epsB).states.length = 8 ∧
    (exA.intersection epsB).Accepts ⟨[actA], [1, 1 / 2]⟩ := by
  have hA : exA.WF := exA_wf
  have hB : epsB.WF := wf_of_check (by decide +kernel)
  refine ⟨hA, hB, by decide +kernel, (C36_product_language _ _ hA hB _ (by rfl)).2 ⟨?_, ?_⟩⟩
  · refine ⟨1, by decide, _, .delay 1 (by norm_num) (.act actA (by decide)
      ⟨2, [(0, .const 0)], [⟨0, .le, 1⟩]⟩ (by decide +kernel) ?_
      (.delay (1 / 2) (by norm_num) (.nil _))), rfl⟩
    intro c hc
    simp only [List.mem_singleton] at hc
    subst hc
    simp [Constraint.Holds, Valuation.shift, Valuation.zero]
  · refine ⟨1, by decide, _, .delay 1 (by norm_num) (.eps ⟨2, [(0, .const 0)], [⟨0, .ge, 1⟩]⟩
      (by decide +kernel) ?_ (.act actA (by decide) ⟨2, [], [⟨0, .le, 0⟩]⟩ (by decide +kernel) ?_
      (.delay (1 / 2) (by norm_num) (.nil _)))), rfl⟩
    all_goals
      intro c hc
      simp only [List.mem_singleton] at hc
      subst hc
      simp [Constraint.Holds, Valuation.shift, Valuation.zero, Resets.apply, Upd.eval]

end LearnTA.Props
