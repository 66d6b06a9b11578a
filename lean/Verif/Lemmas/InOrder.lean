import Verif.Lemmas.Ordered
import Verif.Spec.Reconstruct

/-!
The assumptions of the reconstruction of words are kept by the functions that build its input.
-/

namespace LearnTA
namespace TA

theorem UpdatesInOrder.ordered {A : TA} (h : A.UpdatesInOrder) : A.ResetsOrdered := by
  intro p hp a t ht
  have h := h p hp a t ht
  refine ⟨h.1, ?_⟩
  have h2 := h.2.1
  clear ht h
  generalize t.resets = l at h2 ⊢
  induction l with
  | nil => trivial
  | cons r l ih =>
    rw [List.pairwise_cons] at h2
    exact ⟨fun _ _ _ p' hp' => h2.1 p' hp', ih h2.2⟩

theorem Sub.inOrder {A B : TA} (h : Sub B A) (ho : A.UpdatesInOrder) : B.UpdatesInOrder :=
  fun p hp a t ht => ho p (h.states.subset hp) a t ((h.next p hp a).subset ht)

theorem Sub.intResets {A B : TA} (h : Sub B A) (ho : A.IntegerResets) : B.IntegerResets :=
  fun p hp a t ht => ho p (h.states.subset hp) a t ((h.next p hp a).subset ht)

theorem removeUnused_inOrder (A : TA) (hw : A.WF) (ho : A.UpdatesInOrder) :
    A.removeUnusedClockVariables.UpdatesInOrder := by
  have hord := removeUnused_ordered A hw ho.ordered
  intro p hp a t ht
  refine ⟨(hord p hp a t ht).1, ?_⟩
  rw [removeUnused_eq A hw.nodup] at hp ht
  simp only at hp ht
  rw [if_pos hp] at ht
  simp only [List.mem_map] at ht
  obtain ⟨t, ht, rfl⟩ := ht
  obtain ⟨-, h2, h3⟩ := ho p hp a t ht
  have hinj : ∀ x y, x ∈ A.usedClocks → y ∈ A.usedClocks → A.usedClocks.idxOf x = A.usedClocks.idxOf y →
      x = y := fun x y hx hy h => (List.idxOf_inj hx).1 h
  have hread : ∀ r ∈ t.resets, ∀ z, r.2 = .clock z → z ∈ A.usedClocks := by
    intro r hr z hz
    refine mem_usedClocks A hw.clocks hp ht ?_
    simp only [transUsed, List.mem_append, List.mem_filterMap]
    exact .inr ⟨r, hr, by rw [hz]⟩
  -- what an update after the renaming says about the one before it
  have key : ∀ r ∈ t.resets, ∀ x ∈ A.usedClocks,
      (match r.2 with
        | .clock y => Upd.clock (A.usedClocks.idxOf y)
        | .const q => .const q) = .clock (A.usedClocks.idxOf x) → r.2 = .clock x := by
    intro r hr x hx h
    cases hz : r.2 with
    | const q => rw [hz] at h; cases h
    | clock z =>
      rw [hz] at h
      simp only [Upd.clock.injEq] at h
      rw [hinj z x (hread r hr z hz) hx h]
  refine ⟨?_, ?_⟩
  · refine List.pairwise_filterMap.2 (h2.imp_of_mem ?_)
    intro r s _ hs hrs r' hr' s' hs'
    simp only [Option.ite_none_right_eq_some, Option.some.injEq] at hr' hs'
    obtain ⟨hr1, rfl⟩ := hr'
    obtain ⟨-, rfl⟩ := hs'
    exact fun h => hrs (key s hs r.1 hr1 h)
  · intro r' hr'
    simp only [renameTrans, List.mem_filterMap, Option.ite_none_right_eq_some,
      Option.some.injEq] at hr'
    obtain ⟨r, hr, hr1, rfl⟩ := hr'
    exact fun h => h3 r hr (key r hr r.1 hr1 h)

theorem removeUnused_intResets (A : TA) (hw : A.WF) (ho : A.IntegerResets) :
    A.removeUnusedClockVariables.IntegerResets := by
  intro p hp a t ht
  rw [removeUnused_eq A hw.nodup] at hp ht
  simp only at hp ht
  rw [if_pos hp] at ht
  simp only [List.mem_map] at ht
  obtain ⟨t, ht, rfl⟩ := ht
  intro r' hr' q hq
  simp only [renameTrans, List.mem_filterMap, Option.ite_none_right_eq_some,
    Option.some.injEq] at hr'
  obtain ⟨r, hr, -, rfl⟩ := hr'
  refine ho p hp a t ht r hr q ?_
  cases h : r.2 with
  | const q' => rw [h] at hq; simpa using hq
  | clock z => rw [h] at hq; cases hq

theorem removeUnused_clocks {A B : TA} (hB : B.states.Nodup) (h : Sub B A) (hc : A.ClocksExist) :
    B.removeUnusedClockVariables.clockSize ≤ A.clockSize := by
  rw [removeUnused_eq B hB]
  show (B.usedClocks.map _).length ≤ _
  rw [List.length_map]
  have hnd : B.usedClocks.Nodup := List.nodup_range.filter _
  have hlt : ∀ x ∈ B.usedClocks, x < A.clockSize := by
    intro x hx
    simp only [usedClocks, List.mem_filter, List.any_eq_true, List.contains_iff_mem,
      decide_eq_true_eq] at hx
    obtain ⟨-, p, hp, a, -, t, ht, hxt⟩ := hx
    have hk := hc p (h.states.subset hp) a t ((h.next p hp a).subset ht)
    simp only [transUsed, List.mem_append, List.mem_map, List.mem_filterMap] at hxt
    rcases hxt with ⟨c, hc', rfl⟩ | ⟨r, hr, h'⟩
    · exact hk.1 c hc'
    · cases hr2 : r.2 with
      | const q => rw [hr2] at h'; cases h'
      | clock y =>
        rw [hr2] at h'
        simp only [Option.some.injEq] at h'
        subst h'
        exact (hk.2 r hr).2 y hr2
  have := (List.Nodup.subperm hnd fun x hx => List.mem_range.2 (hlt x hx)).length_le
  simpa using this

theorem intersection_inOrder {A B : TA} (hcA : A.ClocksExist) (hA : A.UpdatesInOrder)
    (hB : B.UpdatesInOrder) : (A.intersection B).UpdatesInOrder := by
  have hord := intersection_ordered hcA hA.ordered hB.ordered
  intro n hn a t ht
  refine ⟨(hord n hn a t ht).1, ?_⟩
  obtain ⟨p, hp, q, hq, p', q', e1, e2, rfl, h1, h2⟩ := intersection_trans hn ht
  have o1 : e1.resets.InOrder ∧ ∀ r ∈ e1.resets, r.1 < A.clockSize ∧
      ∀ y, r.2 = .clock y → y < A.clockSize := by
    rcases h1 with h1 | h1
    · exact ⟨hA p hp a e1 h1, (hcA p hp a e1 h1).2⟩
    · rw [h1.1]; simp [Resets.InOrder]
  have o2 : e2.resets.InOrder := by
    rcases h2 with h2 | h2
    · exact hB q hq a e2 h2
    · rw [h2.1]; simp [Resets.InOrder]
  have key : ∀ (r : ℕ × Upd) (x : ℕ),
      (match r.2 with
        | .clock y => Upd.clock (y + A.clockSize)
        | .const c => .const c) = .clock x → ∃ y, r.2 = .clock y ∧ x = y + A.clockSize := by
    intro r x h
    cases hr : r.2 with
    | const c => rw [hr] at h; cases h
    | clock y =>
      rw [hr] at h
      simp only [Upd.clock.injEq] at h
      exact ⟨y, rfl, h.symm⟩
  refine ⟨?_, ?_⟩
  · show (e1.resets ++ shiftResets A.clockSize e2.resets).Pairwise _
    rw [List.pairwise_append]
    refine ⟨o1.1.2.1, ?_, ?_⟩
    · unfold shiftResets
      rw [List.pairwise_map]
      refine o2.2.1.imp ?_
      intro r s hrs h
      obtain ⟨y, h3, h4⟩ := key s _ h
      simp only [Nat.add_right_cancel_iff] at h4
      exact hrs (by rw [h3, h4])
    · intro r hr s hs h
      simp only [shiftResets, List.mem_map] at hs
      obtain ⟨s, -, rfl⟩ := hs
      obtain ⟨y, -, h4⟩ := key s _ h
      have := (o1.2 r hr).1
      omega
  · intro r hr h
    simp only [prodTrans, List.mem_append, shiftResets, List.mem_map] at hr
    rcases hr with hr | ⟨s, hs, rfl⟩
    · exact o1.1.2.2 r hr h
    · obtain ⟨y, h3, h4⟩ := key s _ h
      simp only [Nat.add_right_cancel_iff] at h4
      exact o2.2.2 s hs (by rw [h3, h4])

theorem intersection_intResets {A B : TA} (hA : A.IntegerResets) (hB : B.IntegerResets) :
    (A.intersection B).IntegerResets := by
  intro n hn a t ht
  obtain ⟨p, hp, q, hq, p', q', e1, e2, rfl, h1, h2⟩ := intersection_trans hn ht
  intro r hr k hk
  simp only [prodTrans, List.mem_append, shiftResets, List.mem_map] at hr
  rcases hr with hr | ⟨s, hs, rfl⟩
  · rcases h1 with h1 | h1
    · exact hA p hp a e1 h1 r hr k hk
    · rw [h1.1] at hr; cases hr
  · rcases h2 with h2 | h2
    · refine hB q hq a e2 h2 s hs k ?_
      cases h : s.2 with
      | const c => rw [h] at hk; simpa using hk
      | clock y => rw [h] at hk; cases hk
    · rw [h2.1] at hs; cases hs

theorem complement_resets (A : TA) (alphabet : List Action) (hw : A.WF) (he : A.EpsFree) (p : ℕ)
    (hp : p ∈ (A.complement alphabet).states) (a : Action) (t : Trans)
    (ht : t ∈ ((A.complement alphabet).loc p).next a) :
    (∃ q ∈ A.states, ∃ u ∈ (A.loc q).next a, t.resets = u.resets) ∨ t.resets = [] := by
  rcases complement_trans A alphabet hw he (M := fun _ => intMax) (fun _ => by decide)
    (fun p hp a t ht c hc => (hw.small p hp a t ht c hc).le) p hp a t ht with
    ⟨q, hq, u, hu, h1, -⟩ | ⟨h1, -⟩
  · exact .inl ⟨q, hq, u, hu, h1⟩
  · exact .inr h1

theorem complement_inOrder (A : TA) (alphabet : List Action) (hw : A.WF) (he : A.EpsFree)
    (ho : A.UpdatesInOrder) : (A.complement alphabet).UpdatesInOrder := by
  intro p hp a t ht
  rcases complement_resets A alphabet hw he p hp a t ht with ⟨q, hq, u, hu, h⟩ | h
  · rw [h]; exact ho q hq a u hu
  · rw [h]; simp [Resets.InOrder]

theorem complement_intResets (A : TA) (alphabet : List Action) (hw : A.WF) (he : A.EpsFree)
    (ho : A.IntegerResets) : (A.complement alphabet).IntegerResets := by
  intro p hp a t ht
  rcases complement_resets A alphabet hw he p hp a t ht with ⟨q, hq, u, hu, h⟩ | h
  · rw [h]; exact ho q hq a u hu
  · rw [h]; simp

theorem complement_clocks (A : TA) (alphabet : List Action) (hw : A.WF) (he : A.EpsFree) :
    (A.complement alphabet).clockSize = A.clockSize := by
  have hmc : (A.complement alphabet).maxC = A.maxC := by
    unfold complement
    rw [flipAll_eq _ (makeComplete_wf _ alphabet (deepCopy_wf A hw)
      (deepCopy_epsFree A hw.nodup he)).nodup, makeComplete_eq _ _ (deepCopy_wf A hw).nodup]
    rfl
  unfold clockSize
  rw [hmc]

/-- What the reconstruction needs, and the number of clocks. -/
theorem simplify_reconstruct (A : TA) (hw : A.WF) :
    (A.UpdatesInOrder → A.simplify.UpdatesInOrder) ∧ (A.IntegerResets → A.simplify.IntegerResets) ∧
    A.simplify.clockSize ≤ A.clockSize := by
  obtain ⟨h1, h2⟩ := simplify_core A hw
  exact ⟨fun h => removeUnused_inOrder _ h2 (h1.inOrder h),
    fun h => removeUnused_intResets _ h2 (h1.intResets h),
    removeUnused_clocks h2.nodup h1 hw.clocks⟩

theorem simplifyStrong_reconstruct (A : TA) (hw : A.WF) :
    (A.UpdatesInOrder → A.simplifyStrong.UpdatesInOrder) ∧
    (A.IntegerResets → A.simplifyStrong.IntegerResets) ∧
    A.simplifyStrong.clockSize ≤ A.clockSize := by
  obtain ⟨h1, h2⟩ := simplifyStrong_core A hw
  exact ⟨fun h => removeUnused_inOrder _ h2 (h1.inOrder h),
    fun h => removeUnused_intResets _ h2 (h1.intResets h),
    removeUnused_clocks h2.nodup h1 hw.clocks⟩

end TA
end LearnTA
