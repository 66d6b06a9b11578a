import Verif.Lemmas.InOrder

/-!
What the sampled search assumes is kept by the functions that build its input: the alphabet and the
maximal constants.
-/

namespace LearnTA
namespace TA

theorem Sub.over {alphabet : List Action} {A B : TA} (h : Sub B A) (ho : A.Over alphabet) :
    B.Over alphabet := by
  intro p hp a hne
  refine ho p (h.states.subset hp) a fun he => hne ?_
  have := h.next p hp a
  rw [he] at this
  exact List.sublist_nil.1 this

theorem removeUnused_over {alphabet : List Action} (A : TA) (hw : A.WF) (ho : A.Over alphabet) :
    A.removeUnusedClockVariables.Over alphabet := by
  rw [removeUnused_eq A hw.nodup]
  intro p hp a hne
  simp only at hp hne
  rw [if_pos hp] at hne
  exact ho p hp a fun he => hne (by simp [he])

theorem intersection_over {alphabet : List Action} {A B : TA} (hA : A.Over alphabet)
    (hB : B.Over alphabet) : (A.intersection B).Over alphabet := by
  intro n hn a hne
  obtain ⟨p, hp, q, hq, rfl⟩ := (mem_intersection_states A B n).1 hn
  rw [intersection_loc A B hp hq] at hne
  obtain ⟨t, ht⟩ := List.exists_mem_of_ne_nil _ hne
  simp only [prodState, List.mem_append, List.mem_flatMap, List.mem_map] at ht
  rcases ht with ht | ⟨e1, h1, e2, h2, rfl⟩
  · split at ht
    · rename_i ha
      rw [List.mem_append, List.mem_map, List.mem_map] at ht
      rcases ht with ⟨e1, h1, rfl⟩ | ⟨e2, h2, rfl⟩
      · exact hA p hp a (by rw [ha]; exact List.ne_nil_of_mem h1)
      · exact hB q hq a (by rw [ha]; exact List.ne_nil_of_mem h2)
    · cases ht
  · exact hA p hp a (List.ne_nil_of_mem h1)

theorem complement_over (A : TA) (alphabet : List Action) (hw : A.WF) (he : A.EpsFree)
    (ho : A.Over alphabet) : (A.complement alphabet).Over alphabet := by
  intro p hp a hne
  by_contra ha
  apply hne
  have hdw := deepCopy_wf A hw
  have hde := deepCopy_epsFree A hw.nodup he
  rw [complement_next A alphabet hw he, makeComplete_eq _ _ hdw.nodup]
  rw [complement_states A alphabet hw he] at hp
  simp only
  split
  · rename_i hp'
    have := (completeState_spec A.deepCopy.clockSize A.deepCopy.fresh alphabet (A.deepCopy.loc p) (hde p hp')
      (wf_within _ hdw hp')).2 a
    rw [if_neg ha] at this
    rw [this]
    obtain ⟨q, hq, rfl⟩ := (mem_deepCopy_states A hw.nodup).1 hp'
    rw [deepCopy_loc A hq]
    simp only [List.map_eq_nil_iff]
    by_contra hc
    exact ha (ho q hq a hc)
  · rename_i hp'
    rw [if_pos (by
      rcases List.mem_append.1 hp with h | h
      · exact absurd h hp'
      · exact List.mem_singleton.1 h)]
    have := (completeState_spec A.deepCopy.clockSize A.deepCopy.fresh alphabet ⟨false, fun _ => []⟩ rfl
      (by simp)).2 a
    rw [if_neg ha] at this
    exact this

theorem makeMax_nonneg (loc : ℕ → TAState) (states : List ℕ) : ∀ m ∈ makeMaxConstants loc states, 0 ≤ m := by
  have grow : ∀ (m : List ℤ) x, (∀ k ∈ m, 0 ≤ k) → ∀ k ∈ growTo m x, 0 ≤ k := by
    intro m x h k hk
    rcases List.mem_append.1 hk with hk | hk
    · exact h k hk
    · rw [(List.mem_replicate.1 hk).2]
  have grd : ∀ (m : List ℤ) c, (∀ k ∈ m, 0 ≤ k) → ∀ k ∈ maxGuardStep m c, 0 ≤ k := by
    intro m c h k hk
    have h' := grow m c.x h
    rcases List.mem_or_eq_of_mem_set hk with hk | rfl
    · exact h' k hk
    · refine le_trans ?_ (le_max_left _ _)
      rw [List.getD_eq_getElem?_getD]
      cases he : (growTo m c.x)[c.x]? with
      | none => simp
      | some k => exact h' k (List.mem_of_getElem? he)
  have rst : ∀ (m : List ℤ) r, (∀ k ∈ m, 0 ≤ k) → ∀ k ∈ maxResetStep m r, 0 ≤ k := by
    intro m r h
    unfold maxResetStep
    split
    · exact grow _ _ (grow _ _ h)
    · exact grow _ _ h
  have fold : ∀ {β : Type} (f : List ℤ → β → List ℤ), (∀ m b, (∀ k ∈ m, 0 ≤ k) → ∀ k ∈ f m b, 0 ≤ k) →
      ∀ (l : List β) m, (∀ k ∈ m, 0 ≤ k) → ∀ k ∈ l.foldl f m, 0 ≤ k := by
    intro β f hf l
    induction l with
    | nil => intro m h; exact h
    | cons b l ih => intro m h; exact ih _ (hf m b h)
  unfold makeMaxConstants
  refine fold _ (fun m p h => ?_) _ _ (by simp)
  refine fold _ (fun m a h => ?_) _ _ h
  refine fold _ (fun m t h => ?_) _ _ h
  exact fold _ rst _ _ (fold _ grd _ _ h)

theorem Sub.constResets {A B : TA} (h : Sub B A) (ho : A.ConstResets) : B.ConstResets :=
  fun p hp a t ht => ho p (h.states.subset hp) a t ((h.next p hp a).subset ht)

theorem ConstResets.int {A : TA} (h : A.ConstResets) : A.IntegerResets := by
  intro p hp a t ht r hr q hq
  obtain ⟨k, hk⟩ := h p hp a t ht r hr
  rw [hk] at hq
  cases hq
  exact ⟨k, rfl⟩

theorem intersection_constResets {A B : TA} (hA : A.ConstResets) (hB : B.ConstResets) :
    (A.intersection B).ConstResets := by
  intro n hn a t ht
  obtain ⟨p, hp, q, hq, p', q', e1, e2, rfl, h1, h2⟩ := intersection_trans hn ht
  intro r hr
  simp only [prodTrans, List.mem_append, shiftResets, List.mem_map] at hr
  rcases hr with hr | ⟨s, hs, rfl⟩
  · rcases h1 with h1 | h1
    · exact hA p hp a e1 h1 r hr
    · rw [h1.1] at hr; cases hr
  · rcases h2 with h2 | h2
    · obtain ⟨k, hk⟩ := hB q hq a e2 h2 s hs
      exact ⟨k, by rw [hk]⟩
    · rw [h2.1] at hs; cases hs

theorem complement_constResets (A : TA) (alphabet : List Action) (hw : A.WF) (he : A.EpsFree)
    (ho : A.ConstResets) : (A.complement alphabet).ConstResets := by
  intro p hp a t ht
  rcases complement_resets A alphabet hw he p hp a t ht with ⟨q, hq, u, hu, h⟩ | h
  · rw [h]; exact ho q hq a u hu
  · rw [h]; simp

theorem removeUnused_constResets (A : TA) (hw : A.WF) (ho : A.ConstResets) :
    A.removeUnusedClockVariables.ConstResets := by
  intro p hp a t ht
  rw [removeUnused_eq A hw.nodup] at hp ht
  simp only at hp ht
  rw [if_pos hp] at ht
  simp only [List.mem_map] at ht
  obtain ⟨t, ht, rfl⟩ := ht
  intro r' hr'
  simp only [renameTrans, List.mem_filterMap, Option.ite_none_right_eq_some,
    Option.some.injEq] at hr'
  obtain ⟨r, hr, -, rfl⟩ := hr'
  obtain ⟨k, hk⟩ := ho p hp a t ht r hr
  exact ⟨k, by rw [hk]⟩

/-- Without copies of clocks the constants stay large enough when they are computed anew. -/
theorem simplify_core_maxOK (A : TA) (hw : A.WF) (hc : A.ConstResets) (hm : A.MaxOK) :
    A.simplifyTransitions.removeTriviallyUnreachableStates.MaxOK := by
  have hs := (simplify_core A hw).1.constResets hc
  have h1 : A.simplifyTransitions.MaxOK := (simplifyTransitions_sub A hw.nodup).maxOK
    (by rw [simplifyTransitions_eq A hw.nodup]) hm
  generalize A.simplifyTransitions = B at hs h1
  revert hs
  unfold removeTriviallyUnreachableStates
  simp only
  split
  · intro hs
    refine ⟨makeMax_nonneg _ _, fun p hp a t ht => ⟨fun c hc => ?_, fun r hr y hy => ?_⟩⟩
    · exact ((makeMaxConstants_covers _ _ p hp a t ht).1 c hc).2
    · obtain ⟨k, hk⟩ := hs p hp a t ht r hr
      rw [hk] at hy; cases hy
  · intro _; exact h1

theorem removeDead_maxC (A : TA) (hn : A.states.Nodup) : A.removeTriviallyDeadStates.maxC = A.maxC := by
  unfold removeTriviallyDeadStates
  simp only
  split
  · rw [keepStates_eq _ _ hn]
  · rfl

theorem removeUselessStep_maxC (A : TA) (p : ℕ) : (removeUselessStep A p).maxC = A.maxC := by
  unfold removeUselessStep
  simp only
  split
  · rfl
  · split
    · have : ∀ (l : List ℕ) (f : TAState → TAState) (B : TA),
          (l.foldl (fun B q => B.setLoc q (f (B.loc q))) B).maxC = B.maxC := by
        intro l f
        induction l with
        | nil => intro B; rfl
        | cons q l ih => intro B; rw [List.foldl_cons, ih]; rfl
      exact this _ _ _
    · rfl

theorem removeUseless_maxC (A : TA) : A.removeUselessTransitions.maxC = A.maxC := by
  unfold removeUselessTransitions
  generalize A.states.filter _ = l
  induction l generalizing A with
  | nil => rfl
  | cons p l ih => rw [List.foldl_cons, ih, removeUselessStep_maxC]

theorem simplify_search {alphabet : List Action} (A : TA) (hw : A.WF) :
    (A.ConstResets → A.simplify.ConstResets) ∧ (A.ConstResets → A.MaxOK → A.simplify.MaxOK) ∧
    (A.Over alphabet → A.simplify.Over alphabet) := by
  obtain ⟨h1, h2⟩ := simplify_core A hw
  exact ⟨fun h => removeUnused_constResets _ h2 (h1.constResets h),
    fun hc h => removeUnused_maxOK _ h2 (simplify_core_maxOK A hw hc h),
    fun h => removeUnused_over _ h2 (h1.over h)⟩

theorem simplifyStrong_search {alphabet : List Action} (A : TA) (hw : A.WF) :
    (A.ConstResets → A.simplifyStrong.ConstResets) ∧
    (A.ConstResets → A.MaxOK → A.simplifyStrong.MaxOK) ∧
    (A.Over alphabet → A.simplifyStrong.Over alphabet) := by
  obtain ⟨h1, h2⟩ := simplifyStrong_core A hw
  refine ⟨fun h => removeUnused_constResets _ h2 (h1.constResets h), fun hc h => ?_,
    fun h => removeUnused_over _ h2 (h1.over h)⟩
  have w1 := simplifyTransitions_wf A hw
  have w2 := removeUnreachable_wf _ w1
  have w3 := removeDead_wf _ w2
  have w4 := removeDeadLoop_wf _ w3
  refine removeUnused_maxOK _ h2 ?_
  refine (removeUseless_spec _ w4).2.1.maxOK (removeUseless_maxC _) ?_
  refine (removeDeadLoop_spec _).2.1.maxOK (removeDeadLoop_spec _).2.2.2.2 ?_
  exact (removeDead_sub _ w2.nodup).maxOK (removeDead_maxC _ w2.nodup) (simplify_core_maxOK A hw hc h)

end TA
end LearnTA
