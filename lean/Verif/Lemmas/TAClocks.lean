import Verif.Lemmas.TAReach
import Mathlib.Data.List.Nodup

namespace LearnTA
namespace TA

/-! ### removeUnusedClockVariables -/

theorem removeUnused_eq (A : TA) (hn : A.states.Nodup) : A.removeUnusedClockVariables =
    { A with
      maxC := A.usedClocks.map fun x => A.maxC.getD x 0
      loc := fun p => if p ∈ A.states then
        { A.loc p with next := fun a => ((A.loc p).next a).map (renameTrans A.usedClocks) }
        else A.loc p } := by
  unfold removeUnusedClockVariables
  simp only
  rw [foldl_setLoc (fun s => { s with next := fun a => (s.next a).map (renameTrans A.usedClocks) })
    _ _ hn]

theorem mem_usedClocks (A : TA) (hc : A.ClocksExist) {p : ℕ} (hp : p ∈ A.states) {a : Action}
    {t : Trans} (ht : t ∈ (A.loc p).next a) {x : ℕ} (hx : x ∈ transUsed t) : x ∈ A.usedClocks := by
  unfold usedClocks
  simp only [List.mem_filter, List.mem_range, List.any_eq_true, decide_eq_true_eq]
  refine ⟨?_, p, hp, a, mem_allActions a, t, ht, hx⟩
  obtain ⟨h1, h2⟩ := hc p hp a t ht
  simp only [transUsed, List.mem_append, List.mem_map, List.mem_filterMap] at hx
  rcases hx with ⟨c, hcm, rfl⟩ | ⟨r, hr, hx⟩
  · exact h1 c hcm
  · rcases r with ⟨k, q | y⟩
    · simp at hx
    · simp at hx; subst hx
      exact (h2 _ hr).2 y rfl

/-- The valuation `w` has the values of the used clocks of `v` at their new indices. -/
def ClockRel (used : List ℕ) (v w : Valuation) : Prop := ∀ x ∈ used, w (used.idxOf x) = v x

theorem ClockRel.shift {used : List ℕ} {v w : Valuation} (h : ClockRel used v w) (d : ℚ) :
    ClockRel used (v.shift d) (w.shift d) := fun x hx => by
  simp [Valuation.shift, h x hx]

theorem renameTrans_resets {used : List ℕ} {v w : Valuation} (h : ClockRel used v w) (t : Trans)
    (hu : ∀ x ∈ transUsed t, x ∈ used) :
    ClockRel used (t.resets.apply v) ((renameTrans used t).resets.apply w) := by
  have hy : ∀ r ∈ t.resets, ∀ y, r.2 = .clock y → y ∈ used := by
    intro r hr y hy
    refine hu y ?_
    simp only [transUsed, List.mem_append, List.mem_filterMap]
    right
    exact ⟨r, hr, by rw [hy]⟩
  unfold Resets.apply renameTrans
  simp only
  have key : ∀ (rs : Resets) (v' w' : Valuation), (∀ r ∈ rs, ∀ y, r.2 = .clock y → y ∈ used) →
      ClockRel used v' w' →
      ClockRel used (rs.foldl (fun (v' : Valuation) p => Function.update v' p.1 (p.2.eval v)) v')
        ((rs.filterMap fun r => if r.1 ∈ used then
          some (used.idxOf r.1, match r.2 with
            | .clock y => Upd.clock (used.idxOf y)
            | .const q => Upd.const q) else none).foldl
          (fun (w' : Valuation) p => Function.update w' p.1 (p.2.eval w)) w') := by
    intro rs
    induction rs with
    | nil => intro v' w' _ hr; exact hr
    | cons r rs ih =>
      intro v' w' hrs hr
      rw [List.foldl_cons]
      by_cases hk : r.1 ∈ used
      · rw [List.filterMap_cons_some (b := (used.idxOf r.1, match r.2 with
            | .clock y => Upd.clock (used.idxOf y)
            | .const q => Upd.const q)) (by rw [if_pos hk]), List.foldl_cons]
        refine ih _ _ (fun r' hr' => hrs r' (by simp [hr'])) ?_
        intro x hx
        by_cases hxk : x = r.1
        · subst hxk
          simp only [Function.update_self]
          rcases hr2 : r.2 with q | y
          · rfl
          · simp only [Upd.eval]
            exact h y (hrs r (by simp) y hr2)
        · have : used.idxOf x ≠ used.idxOf r.1 := by
            intro e
            exact hxk ((List.idxOf_inj hx).1 e)
          rw [Function.update_of_ne hxk, Function.update_of_ne this]
          exact hr x hx
      · rw [List.filterMap_cons_none (by rw [if_neg hk])]
        refine ih _ _ (fun r' hr' => hrs r' (by simp [hr'])) ?_
        intro x hx
        have : x ≠ r.1 := by rintro rfl; exact hk hx
        rw [Function.update_of_ne this]
        exact hr x hx
  exact key t.resets v w hy h

theorem renameTrans_satisfy {used : List ℕ} {v w : Valuation} (h : ClockRel used v w) (t : Trans)
    (hu : ∀ x ∈ transUsed t, x ∈ used) :
    (renameTrans used t).guard.satisfy w = t.guard.satisfy v := by
  have hg : ∀ c ∈ t.guard, c.x ∈ used := fun c hc => hu c.x (by
    simp only [transUsed, List.mem_append, List.mem_map]; exact Or.inl ⟨c, hc, rfl⟩)
  simp only [renameTrans, Guard.satisfy, List.all_map]
  rw [Bool.eq_iff_iff, List.all_eq_true, List.all_eq_true]
  refine forall_congr' fun c => forall_congr' fun hc => ?_
  simp only [Function.comp, Constraint.satisfy, Constraint.satisfyD, h c.x (hg c hc)]

theorem constraint_lower_congr (c : Constraint) (x : ℕ) (v w : Valuation) (h : w x = v c.x) :
    Constraint.lowerBoundDurationToSatisfy { c with x := x } w =
      c.lowerBoundDurationToSatisfy v := by
  simp only [Constraint.lowerBoundDurationToSatisfy, h]

theorem renameTrans_lower {used : List ℕ} {v w : Valuation} (h : ClockRel used v w) (t : Trans)
    (hu : ∀ x ∈ transUsed t, x ∈ used) :
    (renameTrans used t).guard.lowerBoundDurationToSatisfy w =
      t.guard.lowerBoundDurationToSatisfy v := by
  have hg : ∀ c ∈ t.guard, c.x ∈ used := fun c hc => hu c.x (by
    simp only [transUsed, List.mem_append, List.mem_map]; exact Or.inl ⟨c, hc, rfl⟩)
  simp only [renameTrans]
  generalize t.guard = g at hg
  cases g with
  | nil => rfl
  | cons c cs =>
    simp only [List.map_cons, Guard.lowerBoundDurationToSatisfy, List.foldl_map]
    rw [constraint_lower_congr c _ v w (h _ (hg c (by simp)))]
    congr 1
    have : ∀ c ∈ cs, c.x ∈ used := fun c hc => hg c (by simp [hc])
    clear hg
    generalize c.lowerBoundDurationToSatisfy v = acc
    induction cs generalizing acc with
    | nil => rfl
    | cons d cs ih =>
      simp only [List.foldl_cons]
      rw [constraint_lower_congr d _ v w (h _ (this d (by simp)))]
      exact ih (fun c hc => this c (by simp [hc])) _

theorem removeUnused_sim (A : TA) (hw : A.WF) :
    Runner.Sim A A.removeUnusedClockVariables (renameTrans A.usedClocks)
      (fun c d => d.loc = c.loc ∧ c.loc ∈ A.states ∧ ClockRel A.usedClocks c.val d.val) := by
  rw [removeUnused_eq A hw.nodup]
  refine ⟨rfl, ?_, ?_, ?_, ?_, ?_, ?_, ?_⟩
  · intro _
    simp only
    cases h : A.init with
    | nil => simp
    | cons q l =>
      simp only [List.head?_cons]
      exact ⟨trivial, hw.closed.1 q (by simp [h]), fun x _ => rfl⟩
  · rintro c d q ⟨h1, h2, h3⟩; exact ⟨h1, h2, h3.shift q⟩
  · rintro c d ⟨h1, h2, h3⟩; rw [h1]; simp [h2]
  · rintro c d ⟨h1, h2, h3⟩ a; rw [h1]; simp [h2]
  · rintro c d ⟨h1, h2, h3⟩ a t ht
    exact renameTrans_satisfy h3 t fun x hx => mem_usedClocks A hw.clocks h2 ht hx
  · rintro c d ⟨h1, h2, h3⟩ t ht
    exact renameTrans_lower h3 t fun x hx => mem_usedClocks A hw.clocks h2 ht hx
  · rintro c d ⟨h1, h2, h3⟩ a t ht
    exact ⟨rfl, hw.closed.2 _ h2 a t ht,
      renameTrans_resets h3 t fun x hx => mem_usedClocks A hw.clocks h2 ht hx⟩

/-- A runner simulation gives equality of languages (in both directions). -/
theorem accepts_of_runnerSim {A B : TA} {f Q} (h : Runner.Sim A B f Q)
    (hi1 : ∀ q ∈ A.init, ∃ q' ∈ B.init, Q ⟨q, Valuation.zero⟩ ⟨q', Valuation.zero⟩)
    (hi2 : ∀ q' ∈ B.init, ∃ q ∈ A.init, Q ⟨q, Valuation.zero⟩ ⟨q', Valuation.zero⟩)
    (w : TimedWord) : B.Accepts w ↔ A.Accepts w := by
  constructor
  · apply accepts_of_sim (fun c d => Q d c) hi2
    · intro c d q hQ _; exact h.shift _ _ q hQ
    · intro c d hQ a t ht hg
      rw [h.next _ _ hQ] at ht
      obtain ⟨t0, ht0, rfl⟩ := List.mem_map.1 ht
      refine ⟨t0, ht0, ?_, h.jump _ _ hQ a t0 ht0⟩
      rw [← Guard.satisfy_iff, ← h.sat _ _ hQ a t0 ht0, Guard.satisfy_iff]; exact hg
    · intro c d hQ hm; rw [h.isMatch _ _ hQ]; exact hm
  · apply accepts_of_sim Q hi1
    · intro c d q hQ _; exact h.shift _ _ q hQ
    · intro c d hQ a t ht hg
      refine ⟨f t, ?_, ?_, h.jump _ _ hQ a t ht⟩
      · rw [h.next _ _ hQ]; exact List.mem_map_of_mem ht
      · rw [← Guard.satisfy_iff, h.sat _ _ hQ a t ht, Guard.satisfy_iff]; exact hg
    · intro c d hQ hm; rw [← h.isMatch _ _ hQ]; exact hm

theorem removeUnused_accepts (A : TA) (hw : A.WF) (w : TimedWord) :
    A.removeUnusedClockVariables.Accepts w ↔ A.Accepts w := by
  have hs := removeUnused_sim A hw
  refine accepts_of_runnerSim hs ?_ ?_ w
  · intro q hq
    refine ⟨q, ?_, rfl, hw.closed.1 q hq, fun _ _ => rfl⟩
    rw [removeUnused_eq A hw.nodup]; exact hq
  · intro q hq
    rw [removeUnused_eq A hw.nodup] at hq
    exact ⟨q, hq, rfl, hw.closed.1 q hq, fun _ _ => rfl⟩

theorem usedClocks_nodup (A : TA) : A.usedClocks.Nodup :=
  List.nodup_range.filter _

theorem removeUnused_wf (A : TA) (hw : A.WF) : A.removeUnusedClockVariables.WF := by
  have heq := removeUnused_eq A hw.nodup
  have hst : A.removeUnusedClockVariables.states = A.states := by rw [heq]
  have hnx : ∀ p ∈ A.states, ∀ a, (A.removeUnusedClockVariables.loc p).next a =
      ((A.loc p).next a).map (renameTrans A.usedClocks) := by
    intro p hp a; rw [heq]; simp [hp]
  have hcs : A.removeUnusedClockVariables.clockSize = A.usedClocks.length := by
    rw [heq]; simp [clockSize]
  refine ⟨by rw [hst]; exact hw.nodup, ⟨?_, ?_⟩, ?_, ?_, ?_⟩
  · rw [hst]; rw [heq]; exact hw.closed.1
  · intro p hp a t ht
    rw [hst] at hp ⊢
    rw [hnx p hp] at ht
    obtain ⟨t0, ht0, rfl⟩ := List.mem_map.1 ht
    exact hw.closed.2 p hp a t0 ht0
  · intro p hp a t ht
    rw [hst] at hp
    rw [hnx p hp] at ht
    obtain ⟨t0, ht0, rfl⟩ := List.mem_map.1 ht
    rw [hcs]
    have hu := fun x hx => mem_usedClocks A hw.clocks hp ht0 (x := x) hx
    constructor
    · intro c hc
      simp only [renameTrans, List.mem_map] at hc
      obtain ⟨c0, hc0, rfl⟩ := hc
      refine List.idxOf_lt_length_of_mem (hu _ ?_)
      simp only [transUsed, List.mem_append, List.mem_map]; exact Or.inl ⟨c0, hc0, rfl⟩
    · intro r hr
      simp only [renameTrans, List.mem_filterMap] at hr
      obtain ⟨r0, hr0, hr⟩ := hr
      split at hr
      · rename_i hmem
        simp only [Option.some.injEq] at hr
        subst hr
        refine ⟨List.idxOf_lt_length_of_mem hmem, ?_⟩
        intro y hy
        rcases hr2 : r0.2 with q | z
        · rw [hr2] at hy; simp at hy
        · rw [hr2] at hy; simp at hy; subst hy
          refine List.idxOf_lt_length_of_mem (hu z ?_)
          simp only [transUsed, List.mem_append, List.mem_filterMap]
          exact Or.inr ⟨r0, hr0, by rw [hr2]⟩
      · simp at hr
  · intro p hp a t ht r hr q hq
    rw [hst] at hp
    rw [hnx p hp] at ht
    obtain ⟨t0, ht0, rfl⟩ := List.mem_map.1 ht
    simp only [renameTrans, List.mem_filterMap] at hr
    obtain ⟨r0, hr0, hr⟩ := hr
    split at hr
    · simp only [Option.some.injEq] at hr
      subst hr
      rcases hr2 : r0.2 with q' | z
      · rw [hr2] at hq; simp at hq; subst hq
        exact hw.resets p hp a t0 ht0 r0 hr0 q' hr2
      · rw [hr2] at hq; simp at hq
    · simp at hr
  · intro p hp a t ht
    rw [hst] at hp
    rw [hnx p hp] at ht
    obtain ⟨t0, ht0, rfl⟩ := List.mem_map.1 ht
    intro c hc
    simp only [renameTrans, List.mem_map] at hc
    obtain ⟨c0, hc0, rfl⟩ := hc
    exact hw.small p hp a t0 ht0 c0 hc0

theorem removeUnused_deterministic (A : TA) (hw : A.WF) (hd : A.Deterministic) :
    A.removeUnusedClockVariables.Deterministic := by
  rw [removeUnused_eq A hw.nodup]
  intro p hp a
  simp only [show p ∈ A.states from hp, if_true, List.pairwise_map]
  refine (hd p hp a).imp_of_mem fun {t u} ht hu h w hv hg => ?_
  let v : Valuation := fun x => if x ∈ A.usedClocks then w (A.usedClocks.idxOf x) else 0
  have hrel : ClockRel A.usedClocks v w := fun x hx => by simp [v, hx]
  refine h v (fun x => ?_) ⟨?_, ?_⟩
  · simp only [v]
    split
    · exact hv _
    · exact le_refl _
  · rw [← Guard.satisfy_iff, ← renameTrans_satisfy hrel t fun x hx => mem_usedClocks A hw.clocks hp ht hx,
      Guard.satisfy_iff]
    exact hg.1
  · rw [← Guard.satisfy_iff, ← renameTrans_satisfy hrel u fun x hx => mem_usedClocks A hw.clocks hp hu hx,
      Guard.satisfy_iff]
    exact hg.2

theorem removeUnused_epsFree (A : TA) (hn : A.states.Nodup) (he : A.EpsFree) :
    A.removeUnusedClockVariables.EpsFree := by
  rw [removeUnused_eq A hn]
  intro p hp
  simp [show p ∈ A.states from hp, he p hp]

/-! ### deepCopy -/

theorem lt_fresh (A : TA) {p : ℕ} (hp : p ∈ A.states) : p < A.fresh := by
  unfold fresh
  generalize A.states = l at hp
  induction l with
  | nil => simp at hp
  | cons q l ih =>
    simp only [List.mem_cons] at hp
    simp only [List.foldr_cons]
    rcases hp with rfl | hp
    · omega
    · have := ih hp; omega

theorem deepCopy_loc (A : TA) {p : ℕ} (hp : p ∈ A.states) : A.deepCopy.loc (A.old2new p) =
    { A.loc p with next := fun a => ((A.loc p).next a).map fun t =>
      { t with target := A.old2new t.target } } := by
  have hi : A.states.idxOf p < A.states.length := List.idxOf_lt_length_of_mem hp
  have : A.states.getD (A.old2new p - A.fresh) 0 = p := by
    simp only [old2new, Nat.add_sub_cancel_left, List.getD_eq_getElem?_getD]
    rw [List.getElem?_eq_getElem hi]; simp
  simp only [deepCopy]
  rw [if_pos (by simp [old2new]), this]

theorem mem_deepCopy_states (A : TA) {q : ℕ} (hn : A.states.Nodup) :
    q ∈ A.deepCopy.states ↔ ∃ p ∈ A.states, q = A.old2new p := by
  simp only [deepCopy, List.mem_map, List.mem_range]
  constructor
  · rintro ⟨i, hi, rfl⟩
    refine ⟨A.states[i], List.getElem_mem hi, ?_⟩
    rw [old2new, hn.idxOf_getElem i hi]
  · rintro ⟨p, hp, rfl⟩
    exact ⟨A.states.idxOf p, List.idxOf_lt_length_of_mem hp, rfl⟩

theorem old2new_inj (A : TA) {p q : ℕ} (hp : p ∈ A.states) (h : A.old2new p = A.old2new q) :
    p = q := by
  simp only [old2new, Nat.add_left_cancel_iff] at h
  exact (List.idxOf_inj hp).1 h

theorem deepCopy_sim (A : TA) (hc : A.Closed) :
    Runner.Sim A A.deepCopy (fun t => { t with target := A.old2new t.target })
      (fun c d => d.loc = A.old2new c.loc ∧ c.loc ∈ A.states ∧ d.val = c.val) := by
  refine ⟨?_, ?_, ?_, ?_, ?_, ?_, ?_, ?_⟩
  · simp only [deepCopy]
    cases A.states <;> simp [List.range_succ]
  · intro _
    simp only [deepCopy]
    cases h : A.init with
    | nil => simp
    | cons q l =>
      simp only [List.head?_cons, List.map_cons]
      exact ⟨trivial, hc.1 q (by simp [h]), trivial⟩
  · rintro c d q ⟨h1, h2, h3⟩; exact ⟨h1, h2, by rw [h3]⟩
  · rintro c d ⟨h1, h2, h3⟩; rw [h1, deepCopy_loc A h2]
  · rintro c d ⟨h1, h2, h3⟩ a; rw [h1, deepCopy_loc A h2]
  · rintro c d ⟨h1, h2, h3⟩ a t ht; rw [h3]
  · rintro c d ⟨h1, h2, h3⟩ t ht; rw [h3]
  · rintro c d ⟨h1, h2, h3⟩ a t ht
    exact ⟨rfl, hc.2 _ h2 a t ht, by rw [h3]⟩

theorem deepCopy_accepts (A : TA) (hc : A.Closed) (w : TimedWord) :
    A.deepCopy.Accepts w ↔ A.Accepts w := by
  refine accepts_of_runnerSim (deepCopy_sim A hc) ?_ ?_ w
  · intro q hq
    exact ⟨A.old2new q, List.mem_map_of_mem hq, rfl, hc.1 q hq, rfl⟩
  · intro q hq
    simp only [deepCopy, List.mem_map] at hq
    obtain ⟨p, hp, rfl⟩ := hq
    exact ⟨p, hp, rfl, hc.1 p hp, rfl⟩

theorem deepCopy_next (A : TA) (hn : A.states.Nodup) {q : ℕ} (hq : q ∈ A.deepCopy.states)
    {a : Action} {t : Trans} (ht : t ∈ (A.deepCopy.loc q).next a) :
    ∃ p ∈ A.states, q = A.old2new p ∧ ∃ t0 ∈ (A.loc p).next a,
      t = { t0 with target := A.old2new t0.target } := by
  obtain ⟨p, hp, rfl⟩ := (mem_deepCopy_states A hn).1 hq
  rw [deepCopy_loc A hp] at ht
  obtain ⟨t0, ht0, rfl⟩ := List.mem_map.1 ht
  exact ⟨p, hp, rfl, t0, ht0, rfl⟩

theorem deepCopy_wf (A : TA) (hw : A.WF) : A.deepCopy.WF := by
  refine ⟨?_, ⟨?_, ?_⟩, ?_, ?_, ?_⟩
  · simp only [deepCopy]
    exact List.Nodup.map (fun a b h => by simpa using h) List.nodup_range
  · intro q hq
    simp only [deepCopy, List.mem_map] at hq
    obtain ⟨p, hp, rfl⟩ := hq
    exact (mem_deepCopy_states A hw.nodup).2 ⟨p, hw.closed.1 p hp, rfl⟩
  · intro q hq a t ht
    obtain ⟨p, hp, rfl, t0, ht0, rfl⟩ := deepCopy_next A hw.nodup hq ht
    exact (mem_deepCopy_states A hw.nodup).2 ⟨_, hw.closed.2 p hp a t0 ht0, rfl⟩
  · intro q hq a t ht
    obtain ⟨p, hp, rfl, t0, ht0, rfl⟩ := deepCopy_next A hw.nodup hq ht
    exact hw.clocks p hp a t0 ht0
  · intro q hq a t ht
    obtain ⟨p, hp, rfl, t0, ht0, rfl⟩ := deepCopy_next A hw.nodup hq ht
    exact hw.resets p hp a t0 ht0
  · intro q hq a t ht
    obtain ⟨p, hp, rfl, t0, ht0, rfl⟩ := deepCopy_next A hw.nodup hq ht
    exact hw.small p hp a t0 ht0

theorem deepCopy_epsFree (A : TA) (hn : A.states.Nodup) (he : A.EpsFree) : A.deepCopy.EpsFree := by
  intro q hq
  obtain ⟨p, hp, rfl⟩ := (mem_deepCopy_states A hn).1 hq
  rw [deepCopy_loc A hp]
  simp [he p hp]

theorem deepCopy_confluent (A : TA) (hn : A.states.Nodup) (hd : A.Confluent) :
    A.deepCopy.Confluent := by
  intro q hq a t ht u hu v hv h1 h2
  obtain ⟨p, hp, rfl⟩ := (mem_deepCopy_states A hn).1 hq
  rw [deepCopy_loc A hp] at ht hu
  obtain ⟨t0, ht0, rfl⟩ := List.mem_map.1 ht
  obtain ⟨u0, hu0, rfl⟩ := List.mem_map.1 hu
  obtain ⟨e1, e2⟩ := hd p hp a t0 ht0 u0 hu0 v hv h1 h2
  exact ⟨by simp [e1], e2⟩

theorem deepCopy_deterministic (A : TA) (hn : A.states.Nodup) (hd : A.Deterministic) :
    A.deepCopy.Deterministic := by
  intro q hq a
  obtain ⟨p, hp, rfl⟩ := (mem_deepCopy_states A hn).1 hq
  rw [deepCopy_loc A hp]
  simp only [List.pairwise_map]
  exact hd p hp a

end TA
end LearnTA
