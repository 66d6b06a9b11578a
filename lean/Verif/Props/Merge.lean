import Verif.Lemmas.Merge
import Verif.Lemmas.MergeUpdates
import Verif.Spec.Hypothesis

/-!
# Properties C69 and C70: merging of transitions, precise clocks after a transition
-/

namespace LearnTA.Props
open LearnTA

/-! ### C69: `mergeNondeterministicBranching`, `removeTransitionsWithWeakerGuards` -/

/-- **C69** After `mergeNondeterministicBranching` every valuation that enabled a transition with some action still enables
one with this action. -/
theorem C69_covered (acts : List Action) (loc : ℕ → TAState) (q : ℕ) (a : Action) {t : Trans} (ht : t ∈ (loc q).next a)
    {v : Valuation} (hv : t.guard.Holds v) : ∃ t' ∈ (mergeBranching acts loc q q).next a, t'.guard.Holds v := by
  obtain ⟨y, hy, h⟩ := (mergeState_relates (C := Trans.Weaker) (O := fun _ _ => True) .refl (fun _ _ _ h h' => h.trans h')
    (fun _ => trivial) (fun _ _ _ _ _ => trivial) (fun loc t u _ => Trans.mergeTransitions_weaker loc t u)
    (fun _ _ _ _ => Or.inl trivial) acts loc q).cover a t ht
  exact ⟨y, hy, h v hv⟩

/-- **C69** Every transition of the result has the target and the updates of a transition of the state, and is enabled
whenever that one was. -/
theorem C69_origin (acts : List Action) (loc : ℕ → TAState) (q : ℕ) (a : Action) {t' : Trans}
    (ht : t' ∈ (mergeBranching acts loc q q).next a) :
    ∃ t ∈ (loc q).next a, t'.target = t.target ∧ t'.resets = t.resets ∧ ∀ v, t.guard.Holds v → t'.guard.Holds v :=
  (mergeState_relates (C := Trans.Weaker) (O := Trans.Relaxes) .refl (fun _ _ _ h h' => h.trans h') .refl
    (fun _ _ _ h h' => h.trans h') (fun loc t u _ => Trans.mergeTransitions_weaker loc t u)
    (fun loc t u _ => Trans.mergeTransitions_relaxes loc t u) acts loc q).origin a t' ht

/-- **C69** The other states and the acceptance of the state do not change. -/
theorem C69_frame (acts : List Action) (loc : ℕ → TAState) (q : ℕ) :
    (∀ p, p ≠ q → mergeBranching acts loc q p = loc p) ∧ (mergeBranching acts loc q q).isMatch = (loc q).isMatch :=
  have h := mergeState_relates (C := Trans.Weaker) (O := Trans.Relaxes) .refl (fun _ _ _ h h' => h.trans h') .refl
    (fun _ _ _ h h' => h.trans h') (fun loc t u _ => Trans.mergeTransitions_weaker loc t u)
    (fun loc t u _ => Trans.mergeTransitions_relaxes loc t u) acts loc q
  ⟨h.others, h.isMatch⟩

/-- **C69** A deterministic state is left as it is. -/
theorem C69_deterministic (acts : List Action) (loc : ℕ → TAState) (q : ℕ) (hs : ∀ a, ∀ t ∈ (loc q).next a, t.guard.Small)
    (hd : ∀ a, ((loc q).next a).Pairwise fun t u => ∀ v : Valuation, v.Nonneg → ¬ (t.guard.Holds v ∧ u.guard.Holds v)) :
    mergeBranching acts loc q = loc :=
  mergeState_eq acts loc q fun a _ => Trans.disjoint_sat _ (hd a) (hs a)

/-- **C69** If one valuation enables all transitions of the action, they are merged into one. -/
theorem C69_common (acts : List Action) (loc : ℕ → TAState) (q : ℕ) {a : Action} (ha : a ∈ acts)
    (hne : (loc q).next a ≠ []) (hs : ∀ t ∈ (loc q).next a, t.guard.Small) {v : Valuation} (hv : v.Nonneg)
    (hh : ∀ t ∈ (loc q).next a, t.guard.Holds v) : ∃ t, (mergeBranching acts loc q q).next a = [t] := by
  obtain ⟨t, h, _⟩ := mergeBranching_all hv acts loc q hne (fun t ht => ⟨hs t ht, hh t ht⟩) ha
  exact ⟨t, h⟩

/-- A state with the transitions `l` for the action `a`. -/
def branch (a : Action) (l : List Trans) : TAState := ⟨false, fun b => if b = a then l else []⟩

/-- **C69** (limit) One pass does not make a state deterministic: the transition made by merging the first and the third one
overlaps the second one, which had been compared before. -/
theorem C69_nondeterministic_witness :
    let l : List Trans := [⟨0, [], [⟨0, .le, 1⟩]⟩, ⟨0, [(0, .const 0)], [⟨0, .gt, 1⟩, ⟨0, .lt, 2⟩]⟩, ⟨0, [], [⟨0, .lt, 2⟩]⟩]
    let s := mergeBranching [97] (fun _ => branch 97 l) 0 0
    s.next 97 = [⟨0, [], [⟨0, .lt, 2⟩]⟩, ⟨0, [(0, .const 0)], [⟨0, .gt, 1⟩, ⟨0, .lt, 2⟩]⟩] := by
  decide +kernel

/-- **C69** (limit) "We basically use the transition with less imprecise clocks after it" (the comment of the code) does not
hold: the lists of imprecise clocks are compared lexicographically.  Here the second transition has fewer imprecise clocks,
but its target and updates are dropped. -/
theorem C69_choice_witness :
    let s : TAState := branch 97 [⟨0, [], [⟨0, .le, 1⟩, ⟨1, .le, 1⟩, ⟨2, .le, 1⟩]⟩]
    let l : Trans := ⟨0, [(2, .const 0)], [⟨0, .le, 1⟩]⟩
    let r : Trans := ⟨1, [(0, .const 0), (2, .const 0)], [⟨0, .le, 1⟩]⟩
    (l.impreciseAfter fun _ => s) = [0, 1] ∧ (r.impreciseAfter fun _ => s) = [1] ∧
      (Trans.mergeTransitions (fun _ => s) l r).target = 0 := by
  decide +kernel

theorem lexLe_iff : ∀ a b : List ℕ, lexLe a b = true ↔ ¬ b < a
  | [], b => by simp [lexLe]
  | x :: a, [] => by simp [lexLe]
  | x :: a, y :: b => by
    unfold lexLe
    rw [List.cons_lt_cons_iff]
    by_cases h1 : x < y
    · rw [if_pos h1]
      simp only [true_iff, not_or, not_and]
      exact ⟨by omega, fun e => by omega⟩
    · rw [if_neg h1]
      by_cases h2 : y < x
      · rw [if_pos h2]; simp [h2]
      · rw [if_neg h2, lexLe_iff a b]
        have e : y = x := by omega
        simp [e]

/-- **C69** When two transitions are merged, the target and the updates are those of the second one exactly if the clocks that
it leaves imprecise come before those of the first one in the lexicographic order; so if only one of them leaves all clocks of
the target precise, it is this one that is kept. -/
theorem C69_choice (loc : ℕ → TAState) (l r : Trans) :
    ((Trans.mergeTransitions loc l r).target, (Trans.mergeTransitions loc l r).resets) =
      (if r.impreciseAfter loc < l.impreciseAfter loc then (r.target, r.resets) else (l.target, l.resets)) ∧
    (l.impreciseAfter loc = [] → (Trans.mergeTransitions loc l r).target = l.target ∧
      (Trans.mergeTransitions loc l r).resets = l.resets) ∧
    (l.impreciseAfter loc ≠ [] → r.impreciseAfter loc = [] → (Trans.mergeTransitions loc l r).target = r.target ∧
      (Trans.mergeTransitions loc l r).resets = r.resets) := by
  have key : ((Trans.mergeTransitions loc l r).target, (Trans.mergeTransitions loc l r).resets) =
      (if r.impreciseAfter loc < l.impreciseAfter loc then (r.target, r.resets) else (l.target, l.resets)) := by
    unfold Trans.mergeTransitions
    by_cases h : r.impreciseAfter loc < l.impreciseAfter loc
    · rw [if_pos h, if_neg (by rw [lexLe_iff]; exact not_not.2 h)]
    · rw [if_neg h, if_pos ((lexLe_iff _ _).2 h)]
  refine ⟨key, fun e => ?_, fun e e' => ?_⟩
  · rw [e, if_neg (by simp)] at key
    exact ⟨congrArg Prod.fst key, congrArg Prod.snd key⟩
  · rw [e', if_pos (by
      cases h : l.impreciseAfter loc with
      | nil => exact absurd h e
      | cons x xs => simp)] at key
    exact ⟨congrArg Prod.fst key, congrArg Prod.snd key⟩

/-- The hypotheses of `C69_common` are met by two overlapping transitions; what is left is one transition for both. -/
example :
    (mergeBranching [97] (fun _ => branch 97 [⟨0, [], [⟨0, .le, 1⟩]⟩, ⟨3, [], [⟨0, .ge, 1⟩, ⟨0, .le, 4⟩]⟩]) 0 0).next 97 =
      [⟨0, [], [⟨0, .le, 4⟩]⟩] := by
  decide +kernel

/-- **C69** `removeTransitionsWithWeakerGuards` keeps, for every transition, one with the same target that is enabled
whenever it was; what is left is a part of the transitions in their order, and no two different transitions with the same
target are left of which one has a weaker guard in the sense of `isWeaker`. -/
theorem C69_removeWeaker (s : TAState) (a : Action) :
    (∀ t ∈ s.next a, ∃ t' ∈ s.removeTransitionsWithWeakerGuards.next a, t'.target = t.target ∧
      ∀ v, t.guard.Holds v → t'.guard.Holds v) ∧
    (s.removeTransitionsWithWeakerGuards.next a).Sublist (s.next a) ∧
    (∀ t ∈ s.removeTransitionsWithWeakerGuards.next a, ∀ u ∈ s.removeTransitionsWithWeakerGuards.next a, t ≠ u →
      u.target = t.target → Guard.isWeaker u.guard t.guard = false) ∧
    s.removeTransitionsWithWeakerGuards.isMatch = s.isMatch :=
  ⟨fun t ht => Trans.removeWeaker_cover (s.next a) [] t (by simpa using ht),
    Trans.removeWeaker_sublist (s.next a) [],
    Trans.removeWeaker_incomparable (s.next a) [] (by simp), rfl⟩

/-- **C69** (limit) The updates are not compared: a transition with other updates is removed. -/
theorem C69_updates_witness :
    let t : Trans := ⟨1, [(0, .const 0)], [⟨0, .le, 1⟩]⟩
    let u : Trans := ⟨1, [], [⟨0, .le, 2⟩]⟩
    (branch 97 [t, u]).removeTransitionsWithWeakerGuards.next 97 = [u] := by
  decide +kernel

/-- **C69** `mergeNondeterministicBranching(preciseClocks)`: every transition of the result comes from one of the state,
with a weaker guard; deterministic states, other states and acceptance are left as they are. -/
theorem C69_precise (iter : List ℕ) (acts : List Action) (loc : ℕ → TAState) (q : ℕ) :
    (∀ a, ∀ t' ∈ (mergeBranchingPrecise iter acts loc q q).next a, ∃ t ∈ (loc q).next a,
      t'.target = t.target ∧ t'.resets = t.resets ∧ ∀ v, t.guard.Holds v → t'.guard.Holds v) ∧
    (∀ p, p ≠ q → mergeBranchingPrecise iter acts loc q p = loc p) ∧
    (mergeBranchingPrecise iter acts loc q q).isMatch = (loc q).isMatch ∧
    ((∀ a, ∀ t ∈ (loc q).next a, t.guard.Small) →
      (∀ a, ((loc q).next a).Pairwise fun t u => ∀ v : Valuation, v.Nonneg → ¬ (t.guard.Holds v ∧ u.guard.Holds v)) →
      mergeBranchingPrecise iter acts loc q = loc) := by
  have h := mergeState_relates (test := Trans.overlap) (combine := Trans.combinePrecise iter) (C := fun _ _ => True)
    (O := Trans.Relaxes) (fun _ => trivial) (fun _ _ _ _ _ => trivial) .refl (fun _ _ _ h h' => h.trans h')
    (fun _ _ _ _ => ⟨trivial, trivial⟩) (fun loc t u _ => Trans.combinePrecise_relaxes iter loc t u) acts loc q
  exact ⟨fun a t' ht' => h.origin a t' ht', h.others, h.isMatch,
    fun hs hd => mergeState_eq acts loc q fun a _ => Trans.disjoint_sat _ (hd a) (hs a)⟩

/-- **C69** (limit) `mergeNondeterministicBranching(preciseClocks)` may disable valuations: the transition that does not fix
the precise clock is dropped, with all the valuations that only it allowed. -/
theorem C69_precise_witness :
    let t : Trans := ⟨0, [], [⟨0, .ge, 1⟩, ⟨0, .le, 1⟩]⟩
    let u : Trans := ⟨0, [], [⟨0, .le, 5⟩]⟩
    (mergeBranchingPrecise [0] [97] (fun _ => branch 97 [t, u]) 0 0).next 97 = [t] ∧
      (mergeBranchingPrecise [0] [97] (fun _ => branch 97 [u, t]) 0 0).next 97 = [t] := by
  decide +kernel

/-- **C69** `mergeNondeterministicBranchingWithSameTarget`: every valuation that enabled a transition to some state enables
one to this state, and every transition of the result has the target of one of the state. -/
theorem C69_sameTarget (acts : List Action) (loc : ℕ → TAState) (q : ℕ) (a : Action) :
    (∀ t ∈ (loc q).next a, ∃ t' ∈ (mergeBranchingSameTarget acts loc q q).next a, t'.target = t.target ∧
      ∀ v, t.guard.Holds v → t'.guard.Holds v) ∧
    (∀ t' ∈ (mergeBranchingSameTarget acts loc q q).next a, ∃ t ∈ (loc q).next a, t'.target = t.target ∧
      ∀ v, t.guard.Holds v → t'.guard.Holds v) ∧
    (∀ p, p ≠ q → mergeBranchingSameTarget acts loc q p = loc p) ∧
    (mergeBranchingSameTarget acts loc q q).isMatch = (loc q).isMatch := by
  have hc : ∀ (loc : ℕ → TAState) (t u : Trans), (decide (t.target = u.target) && Trans.overlap t u) = true →
      ((Trans.combineSame loc t u).target = t.target ∧ Trans.Weaker (Trans.combineSame loc t u) t) ∧
      ((Trans.combineSame loc t u).target = u.target ∧ Trans.Weaker (Trans.combineSame loc t u) u) := by
    intro loc t u h
    simp only [Bool.and_eq_true, decide_eq_true_eq] at h
    exact ⟨⟨rfl, Trans.hull_weaker_left t u t.target _⟩, h.1, Trans.hull_weaker_right t u t.target _⟩
  have h := mergeState_relates (C := fun y x => y.target = x.target ∧ Trans.Weaker y x)
    (O := fun y x => y.target = x.target ∧ Trans.Weaker y x) (fun x => ⟨rfl, .refl x⟩)
    (fun _ _ _ h h' => ⟨h.1.trans h'.1, h.2.trans h'.2⟩) (fun x => ⟨rfl, .refl x⟩)
    (fun _ _ _ h h' => ⟨h.1.trans h'.1, h.2.trans h'.2⟩) hc (fun loc t u h => Or.inl (hc loc t u h).1) acts loc q
  exact ⟨h.cover a, h.origin a, h.others, h.isMatch⟩

/-- **C69** What becomes of the updates when two transitions with the same target are merged by
`mergeNondeterministicBranchingWithSameTarget`: those of the transition with more constants that are not integers are kept (the
first one's if there are equally many); a clock to which they do not assign an integer is assigned the one of the other
transition, if that has one. -/
theorem C69_sameTarget_updates (loc : ℕ → TAState) (t u : Trans) (ht : (t.resets.map Prod.fst).Nodup)
    (hu : (u.resets.map Prod.fst).Nodup) :
    let fractions (r : Resets) : ℕ :=
      (r.filter fun p => match p.2 with | .const q => q.den != 1 | .clock _ => false).length
    let own := if fractions t.resets < fractions u.resets then u.resets else t.resets
    let other := if fractions t.resets < fractions u.resets then t.resets else u.resets
    let r := (Trans.combineSame loc t u).resets
    ∀ (x : ℕ) (v : Valuation),
      (∀ n : ℤ, (x, .const n) ∈ own → r.apply v x = n) ∧
      (∀ n : ℤ, (∀ k : ℤ, (x, .const k) ∉ own) → (x, .const n) ∈ other → r.apply v x = n) ∧
      ((∀ k : ℤ, (x, .const k) ∉ own ∧ (x, .const k) ∉ other) → r.apply v x = own.apply v x) := by
  intro fractions own other r x v
  have hr : r = Trans.addPreciseConstants own other := by
    show (Trans.combineSame loc t u).resets = _
    unfold Trans.combineSame
    dsimp only
    rw [Trans.impreciseConstants_eq, Trans.impreciseConstants_eq]
    show (if fractions t.resets < fractions u.resets then _ else _) = _
    by_cases h : fractions t.resets < fractions u.resets
    · simp only [own, other, if_pos h]
    · simp only [own, other, if_neg h]
  have h1 : (own.map Prod.fst).Nodup := by
    by_cases h : fractions t.resets < fractions u.resets
    · simp only [own, if_pos h]; exact hu
    · simp only [own, if_neg h]; exact ht
  have h2 : (other.map Prod.fst).Nodup := by
    by_cases h : fractions t.resets < fractions u.resets
    · simp only [other, if_pos h]; exact ht
    · simp only [other, if_neg h]; exact hu
  have hx := Trans.addPrecise_upd own other h2 x
  rw [← hr] at hx
  have hnone : ∀ l : Resets, (l.map Prod.fst).Nodup → (∀ k : ℤ, (x, .const k) ∉ l) → Trans.fixedAt l x = none := by
    intro l hl hk
    cases h : Trans.fixedAt l x with
    | none => rfl
    | some a => obtain ⟨n, rfl, hm⟩ := (Trans.fixedAt_iff hl x a).1 h; exact absurd hm (hk n)
  refine ⟨fun n hn => ?_, fun n hk hn => ?_, fun hk => ?_⟩
  · rw [(Trans.fixedAt_iff h1 x (.const n)).2 ⟨n, rfl, hn⟩] at hx
    rw [Resets.apply_eq, hx]; rfl
  · rw [hnone own h1 hk, (Trans.fixedAt_iff h2 x (.const n)).2 ⟨n, rfl, hn⟩] at hx
    rw [Resets.apply_eq, hx]; rfl
  · rw [hnone own h1 fun k => (hk k).1, hnone other h2 fun k => (hk k).2] at hx
    rw [Resets.apply_eq, Resets.apply_eq, hx]; rfl

/-- The updates `x0 := 0.5, x1 := 3` and `x0 := 2, x1 := 4` become `x0 := 2, x1 := 3`. -/
example : (Trans.combineSame (fun _ => branch 97 []) ⟨1, [(0, .const (1/2)), (1, .const 3)], []⟩
    ⟨1, [(0, .const 2), (1, .const 4)], []⟩).resets = [(0, .const 2), (1, .const 3)] := by decide +kernel

/-! ### C70: precise clocks after a transition -/

/-- **C70** `preciseClocksAfterReset`: the clocks of the target whose values after the updates depend only on the precise
clocks, and that are not set to a constant that is not an integer. -/
theorem C70_exact (size : ℕ) (precise : Finset ℕ) (r : Resets) (hn : (r.map Prod.fst).Nodup) (x : ℕ) :
    x ∈ preciseAfterReset size precise r ↔
      x < size ∧ (∀ u v : Valuation, (∀ i ∈ precise, u i = v i) → r.apply u x = r.apply v x) ∧
        ∀ q : ℚ, (x, .const q) ∈ r → ∃ n : ℤ, q = n := by
  rw [mem_preciseAfterReset]
  constructor
  · rintro ⟨h1, ⟨c, hc, h2⟩ | ⟨h2, h3⟩⟩
    · refine ⟨h1, fun u v huv => ?_, fun q hq => ?_⟩
      · rw [Resets.apply_mem hn hc, Resets.apply_mem hn hc]
        cases c with
        | const q => rfl
        | clock y => exact huv y h2
      · have e : c = .const q := by
          have h := (List.nodup_map_iff_inj_on (List.Nodup.of_map _ hn)).1 hn _ hc _ hq rfl
          exact congrArg Prod.snd h
        subst e
        exact ⟨⌊q⌋, h2⟩
    · refine ⟨h1, fun u v huv => ?_, fun q hq => absurd hq (h3 _)⟩
      rw [Resets.apply_not_mem h3, Resets.apply_not_mem h3]
      exact huv x h2
  · rintro ⟨h1, h2, h3⟩
    refine ⟨h1, ?_⟩
    by_cases hx : ∃ c, (x, c) ∈ r
    · obtain ⟨c, hc⟩ := hx
      refine Or.inl ⟨c, hc, ?_⟩
      cases c with
      | const q =>
        obtain ⟨n, rfl⟩ := h3 q hc
        simp
      | clock y =>
        by_contra hy
        have := h2 (fun _ => 0) (fun i => if i = y then 1 else 0) (by
          intro i hi
          have : i ≠ y := fun e => hy (by dsimp only; rw [← e]; exact hi)
          simp [this])
        rw [Resets.apply_mem hn hc, Resets.apply_mem hn hc] at this
        simp [Upd.eval] at this
    · push Not at hx
      refine Or.inr ⟨?_, hx⟩
      by_contra hy
      have := h2 (fun _ => 0) (fun i => if i = x then 1 else 0) (by
        intro i hi
        have : i ≠ x := fun e => hy (by rw [← e]; exact hi)
        simp [this])
      rw [Resets.apply_not_mem hx, Resets.apply_not_mem hx] at this
      simp at this

/-- **C70** (limit) If a clock is updated twice, the list of updates may claim precision that the last update does not
give. -/
theorem C70_twice_witness : ∃ (r : Resets) (u v : Valuation), 0 ∈ preciseAfterReset 2 ∅ r ∧ r.apply u 0 ≠ r.apply v 0 := by
  refine ⟨[(0, .const 0), (0, .clock 1)], fun _ => 0, fun _ => 1, by decide +kernel, ?_⟩
  simp [Resets.apply, Upd.eval]

/-- The hypotheses are met: after `x0 := x1, x2 := 0.5, x3 := 2` with `x1` precise, the clocks `0`, `1` and `3` are
precise. -/
example : preciseAfterReset 5 {1} [(0, .clock 1), (2, .const (1/2)), (3, .const 2)] = {0, 1, 3} := by decide +kernel

end LearnTA.Props
