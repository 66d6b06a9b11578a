import Verif.Model.Oracle
import Verif.Spec.ZA
import Verif.Lemmas.Intersection
import Verif.Lemmas.TAComplement

/-!
The assumptions of the zone construction on resets and maximal constants are kept by the functions
that build its input.
-/

namespace LearnTA

namespace Zone

theorem noReadAfterWrite_append {r s : Resets} (hr : NoReadAfterWrite r) (hs : NoReadAfterWrite s)
    (h : ∀ p ∈ r, ∀ p' ∈ s, p'.2 ≠ .clock p.1) : NoReadAfterWrite (r ++ s) := by
  induction r with
  | nil => exact hs
  | cons p r ih =>
    refine ⟨fun y hy hne p' hp' => ?_, ih hr.2 fun q hq => h q (List.mem_cons_of_mem _ hq)⟩
    rcases List.mem_append.1 hp' with hp' | hp'
    · exact hr.1 y hy hne p' hp'
    · exact h p List.mem_cons_self p' hp'

theorem noReadAfterWrite_filterMap {r : Resets} (f : ℕ × Upd → Option (ℕ × Upd)) (S : ℕ → Prop)
    (g : ℕ → ℕ) (hg : ∀ x y, S x → S y → g x = g y → x = y)
    (hf : ∀ p ∈ r, ∀ p', f p = some p' → p'.1 = g p.1 ∧ S p.1 ∧
      (∀ y, p'.2 = .clock y → ∃ y0, S y0 ∧ p.2 = .clock y0 ∧ y = g y0))
    (h : NoReadAfterWrite r) : NoReadAfterWrite (r.filterMap f) := by
  induction r with
  | nil => trivial
  | cons p r ih =>
    have ih := ih (fun q hq => hf q (List.mem_cons_of_mem _ hq)) h.2
    rw [List.filterMap_cons]
    cases hp : f p with
    | none => exact ih
    | some p' =>
      obtain ⟨h1, h2, h3⟩ := hf p List.mem_cons_self p' hp
      refine ⟨fun y hy hne q hq => ?_, ih⟩
      obtain ⟨y0, h4, h5, rfl⟩ := h3 y hy
      obtain ⟨q0, hq0, hq1⟩ := List.mem_filterMap.1 hq
      obtain ⟨k1, k2, k3⟩ := hf q0 (List.mem_cons_of_mem _ hq0) q hq1
      intro hq2
      obtain ⟨z, k4, k5, k6⟩ := k3 _ hq2
      rw [h1] at k6 hne
      have : p.1 = z := hg _ _ h2 k4 k6
      exact h.1 y0 h5 (fun e => hne (by rw [e])) q0 hq0 (by rw [this]; exact k5)

end Zone

namespace Guard

/-- The constants for the clock `x` are at most `M x`. -/
def BoundedBy (M : ℕ → ℤ) (g : Guard) : Prop := ∀ c ∈ g, c.c ≤ M c.x

theorem simplify_bounded {M : ℕ → ℤ} (hM : ∀ x, 0 ≤ M x) (g : Guard) (hg : BoundedBy M g) :
    BoundedBy M (simplify g) := by
  have key : ∀ (g : Guard) (b : BoundsVec), BoundedBy M g →
      (∀ j, (b.lower j).fst ≤ M j ∧ (b.upper j = IntBound.mk intMax false ∨ (b.upper j).fst ≤ M j)) →
      ∀ j, ((g.foldl BoundsVec.step b).lower j).fst ≤ M j ∧
        ((g.foldl BoundsVec.step b).upper j = IntBound.mk intMax false ∨
          ((g.foldl BoundsVec.step b).upper j).fst ≤ M j) := by
    intro g
    induction g with
    | nil => intro b _ h j; exact h j
    | cons c g ih =>
      intro b hs hb
      apply ih _ (fun c' hc' => hs c' (by simp [hc']))
      intro j
      have hc : c.c ≤ M c.x := hs c (by simp)
      have hcb : c.toBound.fst = c.c := by
        rcases c with ⟨x, o, c⟩; cases o <;> rfl
      unfold BoundsVec.step
      dsimp only
      split
      · split
        · by_cases hj : j = c.x
          · subst hj; simp only [Function.update_self, hcb]
            exact ⟨(hb _).1, Or.inr hc⟩
          · simpa [Function.update_of_ne hj] using hb j
        · exact hb j
      · split
        · by_cases hj : j = c.x
          · subst hj; simp only [Function.update_self, hcb]
            exact ⟨hc, (hb _).2⟩
          · simpa [Function.update_of_ne hj] using hb j
        · exact hb j
  have hb := key g BoundsVec.init hg (fun j => ⟨hM j, Or.inl rfl⟩)
  intro c hc
  unfold simplify at hc
  simp only [List.mem_append, List.mem_filterMap, List.mem_range] at hc
  rcases hc with ⟨i, _, hc⟩ | ⟨i, _, hc⟩
  · split at hc
    · simp only [Option.some.injEq] at hc
      subst hc
      split <;> exact (hb i).1
    · simp at hc
  · split at hc
    · rename_i hne
      simp only [Option.some.injEq] at hc
      have := (hb i).2.resolve_left hne
      subst hc
      split <;> exact this
    · simp at hc

theorem negateAll_bounded {M : ℕ → ℤ} (g : Guard) (h : BoundedBy M g) :
    BoundedBy M (negateAll g) := by
  intro c hc
  simp only [negateAll, List.mem_map] at hc
  obtain ⟨c', hc', rfl⟩ := hc
  have := h c' hc'
  rcases c' with ⟨x, o, c⟩
  cases o <;> simpa [Constraint.negate] using this

theorem negateStep_bounded {M : ℕ → ℤ} (hM : ∀ x, 0 ≤ M x) (s : Bool × List Guard)
    (d : List Constraint) (hd : BoundedBy M d) (hs : ∀ g ∈ s.2, BoundedBy M g) :
    ∀ g ∈ (negateStep s d).2, BoundedBy M g := by
  unfold negateStep
  split
  · exact hs
  · split
    · intro g hg
      simp only [List.mem_map] at hg
      obtain ⟨c, hc, rfl⟩ := hg
      intro c' hc'
      simp only [List.mem_singleton] at hc'
      subst hc'; exact hd c' hc
    · intro g hg
      rcases mem_pruneWeaker hg with h | h
      · simp at h
      · simp only [List.mem_flatMap, List.mem_filterMap] at h
        obtain ⟨c, hc, conj, hconj, h⟩ := h
        split at h
        · simp only [Option.some.injEq] at h; subst h
          refine simplify_bounded hM _ ?_
          intro c' hc'
          simp only [List.mem_append, List.mem_singleton] at hc'
          rcases hc' with h | h
          · exact hs conj hconj c' h
          · subst h; exact hd c' hc
        · simp at h

theorem negateDNF_bounded {M : ℕ → ℤ} (hM : ∀ x, 0 ≤ M x) (dnf : List Guard)
    (h : ∀ g ∈ dnf, BoundedBy M g) : ∀ g ∈ negateDNF dnf, BoundedBy M g := by
  unfold negateDNF
  have : ∀ (ds : List (List Constraint)) (s : Bool × List Guard), (∀ d ∈ ds, BoundedBy M d) →
      (∀ g ∈ s.2, BoundedBy M g) → ∀ g ∈ (ds.foldl negateStep s).2, BoundedBy M g := by
    intro ds
    induction ds with
    | nil => intro s _ h; exact h
    | cons d ds ih =>
      intro s hds hs
      exact ih _ (fun d' h' => hds d' (by simp [h']))
        (negateStep_bounded hM s d (hds d (by simp)) hs)
  refine this _ _ ?_ (by simp)
  intro d hd
  simp only [List.mem_map] at hd
  obtain ⟨g, hg, rfl⟩ := hd
  exact negateAll_bounded g (h g hg)

end Guard

namespace TA

theorem Sub.ordered {A B : TA} (h : Sub B A) (ho : A.ResetsOrdered) : B.ResetsOrdered :=
  fun p hp a t ht => ho p (h.states.subset hp) a t ((h.next p hp a).subset ht)

theorem Sub.maxOK {A B : TA} (h : Sub B A) (hc : B.maxC = A.maxC) (ho : A.MaxOK) : B.MaxOK := by
  unfold MaxOK
  rw [hc]
  exact ⟨ho.1, fun p hp a t ht => ho.2 p (h.states.subset hp) a t ((h.next p hp a).subset ht)⟩

theorem removeUnused_ordered (A : TA) (hw : A.WF) (ho : A.ResetsOrdered) :
    A.removeUnusedClockVariables.ResetsOrdered := by
  rw [removeUnused_eq A hw.nodup]
  intro p hp a t ht
  simp only at hp ht
  rw [if_pos hp] at ht
  simp only [List.mem_map] at ht
  obtain ⟨t, ht, rfl⟩ := ht
  have hinj : ∀ x y, x ∈ A.usedClocks → y ∈ A.usedClocks → A.usedClocks.idxOf x = A.usedClocks.idxOf y →
      x = y := fun x y hx hy h => (List.idxOf_inj hx).1 h
  obtain ⟨h1, h2⟩ := ho p hp a t ht
  refine ⟨?_, ?_⟩
  · have : (renameTrans A.usedClocks t).resets.map Prod.fst =
        (t.resets.map Prod.fst).filterMap fun x =>
          if x ∈ A.usedClocks then some (A.usedClocks.idxOf x) else none := by
      simp only [renameTrans, List.map_filterMap, List.filterMap_map]
      congr 1
      funext r
      simp only [Function.comp]
      split <;> rfl
    rw [this]
    refine List.Nodup.filterMap ?_ h1
    intro x y b hx hy
    simp only [Option.mem_def, Option.ite_none_right_eq_some, Option.some.injEq] at hx hy
    exact hinj x y hx.1 hy.1 (hx.2.trans hy.2.symm)
  · refine Zone.noReadAfterWrite_filterMap _ (· ∈ A.usedClocks) (A.usedClocks.idxOf ·) hinj ?_ h2
    intro r hr r' hr'
    simp only [Option.ite_none_right_eq_some, Option.some.injEq] at hr'
    obtain ⟨hu, rfl⟩ := hr'
    refine ⟨rfl, hu, fun y hy => ?_⟩
    cases h : r.2 with
    | const q => rw [h] at hy; cases hy
    | clock z =>
      rw [h] at hy
      simp only [Upd.clock.injEq] at hy
      refine ⟨z, ?_, rfl, hy.symm⟩
      refine mem_usedClocks A hw.clocks hp ht ?_
      simp only [transUsed, List.mem_append, List.mem_filterMap]
      exact .inr ⟨r, hr, by rw [h]⟩

theorem removeUnused_maxOK (A : TA) (hw : A.WF) (hm : A.MaxOK) :
    A.removeUnusedClockVariables.MaxOK := by
  have key : ∀ x ∈ A.usedClocks,
      (A.usedClocks.map fun x => A.maxC.getD x 0).getD (A.usedClocks.idxOf x) 0 = A.maxC.getD x 0 := by
    intro x hx
    have hi := List.idxOf_lt_length_of_mem hx
    rw [List.getD_eq_getElem?_getD, List.getElem?_map, List.getElem?_eq_getElem hi]
    simp
  rw [removeUnused_eq A hw.nodup]
  refine ⟨?_, ?_⟩
  · intro m h
    simp only [List.mem_map] at h
    obtain ⟨x, -, rfl⟩ := h
    rw [List.getD_eq_getElem?_getD]
    cases h : A.maxC[x]? with
    | none => simp
    | some m => exact hm.1 m (List.mem_of_getElem? h)
  · intro p hp a t ht
    simp only at hp ht
    rw [if_pos hp] at ht
    simp only [List.mem_map] at ht
    obtain ⟨t, ht, rfl⟩ := ht
    obtain ⟨h1, h2⟩ := hm.2 p hp a t ht
    have huse : ∀ x ∈ transUsed t, x ∈ A.usedClocks := fun x hx => mem_usedClocks A hw.clocks hp ht hx
    refine ⟨?_, ?_⟩
    · intro c hc
      simp only [renameTrans, List.mem_map] at hc
      obtain ⟨c, hc, rfl⟩ := hc
      simp only
      rw [key _ (huse _ (by simp only [transUsed, List.mem_append, List.mem_map]; exact .inl ⟨c, hc, rfl⟩))]
      exact h1 c hc
    · intro r hr y hy
      simp only [renameTrans, List.mem_filterMap, Option.ite_none_right_eq_some,
        Option.some.injEq] at hr
      obtain ⟨r, hr, hu, rfl⟩ := hr
      simp only at hy ⊢
      cases h : r.2 with
      | const q => rw [h] at hy; cases hy
      | clock z =>
        rw [h] at hy
        simp only [Upd.clock.injEq] at hy
        rw [← hy, key _ hu, key _ (huse _ (by
          simp only [transUsed, List.mem_append, List.mem_filterMap]
          exact .inr ⟨r, hr, by rw [h]⟩))]
        exact h2 r hr z h

theorem intersection_trans {A B : TA} {n : ℕ} (hn : n ∈ (A.intersection B).states) {a : Action}
    {t : Trans} (ht : t ∈ ((A.intersection B).loc n).next a) :
    ∃ p ∈ A.states, ∃ q ∈ B.states, ∃ p' q' e1 e2, t = prodTrans A B p' q' e1 e2 ∧
      (e1 ∈ (A.loc p).next a ∨ (e1.resets = [] ∧ e1.guard = [])) ∧
      (e2 ∈ (B.loc q).next a ∨ (e2.resets = [] ∧ e2.guard = [])) := by
  obtain ⟨p, hp, q, hq, rfl⟩ := (mem_intersection_states A B n).1 hn
  rw [intersection_loc A B hp hq] at ht
  refine ⟨p, hp, q, hq, ?_⟩
  simp only [prodState, List.mem_append, List.mem_flatMap, List.mem_map] at ht
  rcases ht with ht | ⟨e1, h1, e2, h2, rfl⟩
  · split at ht
    · rename_i ha
      rw [List.mem_append, List.mem_map, List.mem_map] at ht
      rcases ht with ⟨e1, h1, rfl⟩ | ⟨e2, h2, rfl⟩
      · exact ⟨_, _, e1, _, rfl, .inl (by rw [ha]; exact h1), .inr ⟨rfl, rfl⟩⟩
      · exact ⟨_, _, _, e2, rfl, .inr ⟨rfl, rfl⟩, .inl (by rw [ha]; exact h2)⟩
    · cases ht
  · exact ⟨_, _, e1, e2, rfl, .inl h1, .inl h2⟩

theorem intersection_ordered {A B : TA} (hcA : A.ClocksExist) (hA : A.ResetsOrdered)
    (hB : B.ResetsOrdered) : (A.intersection B).ResetsOrdered := by
  intro n hn a t ht
  obtain ⟨p, hp, q, hq, p', q', e1, e2, rfl, h1, h2⟩ := intersection_trans hn ht
  have o1 : (e1.resets.map Prod.fst).Nodup ∧ Zone.NoReadAfterWrite e1.resets ∧
      ∀ r ∈ e1.resets, r.1 < A.clockSize := by
    rcases h1 with h1 | h1
    · exact ⟨(hA p hp a e1 h1).1, (hA p hp a e1 h1).2, fun r hr => ((hcA p hp a e1 h1).2 r hr).1⟩
    · rw [h1.1]; simp [Zone.NoReadAfterWrite]
  have o2 : (e2.resets.map Prod.fst).Nodup ∧ Zone.NoReadAfterWrite e2.resets := by
    rcases h2 with h2 | h2
    · exact hB q hq a e2 h2
    · rw [h2.1]; simp [Zone.NoReadAfterWrite]
  have hfst : (shiftResets A.clockSize e2.resets).map Prod.fst =
      (e2.resets.map Prod.fst).map (· + A.clockSize) := by
    simp [shiftResets, Function.comp_def]
  refine ⟨?_, ?_⟩
  · simp only [prodTrans, List.map_append]
    rw [List.nodup_append]
    refine ⟨o1.1, ?_, ?_⟩
    · rw [hfst]; exact o2.1.map fun x y h => by simpa using h
    · rintro x hx y hy rfl
      rw [hfst, List.mem_map] at hy
      obtain ⟨y, -, rfl⟩ := hy
      obtain ⟨r, hr, h⟩ := List.mem_map.1 hx
      have := o1.2.2 r hr
      omega
  · refine Zone.noReadAfterWrite_append o1.2.1 ?_ ?_
    · have : shiftResets A.clockSize e2.resets = e2.resets.filterMap fun p =>
          some (p.1 + A.clockSize, match p.2 with
            | .clock y => .clock (y + A.clockSize)
            | .const c => .const c) := by
        rw [shiftResets, List.filterMap_eq_map']; rfl
      rw [this]
      refine Zone.noReadAfterWrite_filterMap _ (fun _ => True) (· + A.clockSize)
        (fun x y _ _ h => by simpa using h) ?_ o2.2
      rintro r hr r' h
      simp only [Option.some.injEq] at h
      subst h
      refine ⟨rfl, trivial, fun y hy => ?_⟩
      cases h : r.2 with
      | const q => rw [h] at hy; cases hy
      | clock z =>
        rw [h] at hy
        simp only [Upd.clock.injEq] at hy
        exact ⟨z, trivial, rfl, hy.symm⟩
    · intro r hr r' hr' h
      simp only [shiftResets, List.mem_map] at hr'
      obtain ⟨r0, -, rfl⟩ := hr'
      have := o1.2.2 r hr
      simp only at h
      split at h
      · simp only [Upd.clock.injEq] at h; omega
      · cases h

theorem intersection_maxOK {A B : TA} (hcA : A.ClocksExist) (hA : A.MaxOK)
    (hB : B.MaxOK) : (A.intersection B).MaxOK := by
  have hl : ∀ x < A.clockSize, (A.maxC ++ B.maxC).getD x 0 = A.maxC.getD x 0 := by
    intro x hx
    have hx : x < A.maxC.length := hx
    rw [List.getD_eq_getElem?_getD, List.getElem?_append_left hx, ← List.getD_eq_getElem?_getD]
  have hr : ∀ x, (A.maxC ++ B.maxC).getD (x + A.clockSize) 0 = B.maxC.getD x 0 := by
    intro x
    rw [List.getD_eq_getElem?_getD, List.getElem?_append_right
      (by show A.maxC.length ≤ x + A.maxC.length; omega),
      show x + A.clockSize - A.maxC.length = x from Nat.add_sub_cancel x A.maxC.length,
      ← List.getD_eq_getElem?_getD]
  refine ⟨fun m hm => ?_, ?_⟩
  · rcases List.mem_append.1 hm with h | h
    · exact hA.1 m h
    · exact hB.1 m h
  intro n hn a t ht
  show (∀ c ∈ t.guard, c.c ≤ (A.maxC ++ B.maxC).getD c.x 0) ∧ (∀ r ∈ t.resets, ∀ y, r.2 = .clock y →
    (A.maxC ++ B.maxC).getD r.1 0 ≤ (A.maxC ++ B.maxC).getD y 0)
  obtain ⟨p, hp, q, hq, p', q', e1, e2, rfl, h1, h2⟩ := intersection_trans hn ht
  refine ⟨?_, ?_⟩
  · intro c hc
    simp only [prodTrans, List.mem_append, shiftGuard, List.mem_map] at hc
    rcases hc with hc | ⟨c, hc, rfl⟩
    · rcases h1 with h1 | h1
      · rw [hl _ ((hcA p hp a e1 h1).1 c hc)]; exact (hA.2 p hp a e1 h1).1 c hc
      · rw [h1.2] at hc; cases hc
    · rcases h2 with h2 | h2
      · simp only; rw [hr]; exact (hB.2 q hq a e2 h2).1 c hc
      · rw [h2.2] at hc; cases hc
  · intro r hr' y hy
    simp only [prodTrans, List.mem_append, shiftResets, List.mem_map] at hr'
    rcases hr' with hr' | ⟨r, hr', rfl⟩
    · rcases h1 with h1 | h1
      · have hk := (hcA p hp a e1 h1).2 r hr'
        rw [hl _ hk.1, hl _ (hk.2 y hy)]; exact (hA.2 p hp a e1 h1).2 r hr' y hy
      · rw [h1.1] at hr'; cases hr'
    · rcases h2 with h2 | h2
      · simp only at hy ⊢
        cases h : r.2 with
        | const q => rw [h] at hy; cases hy
        | clock z =>
          rw [h] at hy
          simp only [Upd.clock.injEq] at hy
          rw [← hy, hr, hr]
          exact (hB.2 q hq a e2 h2).2 r hr' z h
      · rw [h2.1] at hr'; cases hr'

theorem completeState_trans {M : ℕ → ℤ} (hM : ∀ x, 0 ≤ M x) (sink : ℕ) (alphabet : List Action)
    (s : TAState) (h : ∀ a, ∀ t ∈ s.next a, t.guard.BoundedBy M) (a : Action) (t : Trans)
    (ht : t ∈ (completeState sink alphabet s).next a) :
    t ∈ s.next a ∨ (t.resets = [] ∧ t.guard.BoundedBy M) := by
  have hcol : ∀ (start : List Guard) (ts : List Trans), (∀ g ∈ start, Guard.BoundedBy M g) →
      (∀ t ∈ ts, t.guard.BoundedBy M) → ∀ g ∈ collectGuards start ts, Guard.BoundedBy M g := by
    intro start ts h1 h2 g hg
    unfold collectGuards at hg
    split at hg
    · cases hg
    · simp only [List.mem_append, List.mem_map] at hg
      rcases hg with hg | ⟨t, ht, rfl⟩
      · exact h1 g hg
      · exact h2 t ht
  unfold completeState at ht
  have heps := hcol [] (s.next unobservable) (by simp) (h unobservable)
  generalize collectGuards [] (s.next unobservable) = eps at ht heps
  have key : ∀ (l : List Action) (s' : TAState),
      (∀ a, ∀ t ∈ s'.next a, t ∈ s.next a ∨ (t.resets = [] ∧ t.guard.BoundedBy M)) →
      ∀ a, ∀ t ∈ (l.foldl (completeAction sink eps) s').next a,
        t ∈ s.next a ∨ (t.resets = [] ∧ t.guard.BoundedBy M) := by
    intro l
    induction l with
    | nil => intro s' h'; exact h'
    | cons b l ih =>
      intro s' h'
      refine ih _ ?_
      intro a t ht
      unfold completeAction at ht
      split at ht
      · simp only [TAState.setNext, Function.update_apply] at ht
        split at ht
        · simp only [List.mem_singleton] at ht
          subst ht
          exact .inr ⟨rfl, fun c hc => by cases hc⟩
        · exact h' a t ht
      · split at ht
        · simp only at ht
          split at ht
          · exact h' a t ht
          · simp only [TAState.setNext, Function.update_apply] at ht
            split at ht
            · rename_i hab
              subst hab
              simp only [List.mem_append, List.mem_map] at ht
              rcases ht with ht | ⟨g, hg, rfl⟩
              · exact h' _ t ht
              · refine .inr ⟨rfl, ?_⟩
                refine Guard.negateDNF_bounded hM _ (hcol _ _ heps ?_) g hg
                intro t ht
                rcases h' _ t ht with h1 | h1
                · exact h _ t h1
                · exact h1.2
            · exact h' a t ht
        · exact h' a t ht
  exact key alphabet s (fun a t ht => .inl ht) a t ht

theorem complement_trans (A : TA) (alphabet : List Action) (hw : A.WF) (he : A.EpsFree)
    {M : ℕ → ℤ} (hM : ∀ x, 0 ≤ M x)
    (h : ∀ p ∈ A.states, ∀ a, ∀ t ∈ (A.loc p).next a, t.guard.BoundedBy M) (p : ℕ)
    (hp : p ∈ (A.complement alphabet).states) (a : Action) (t : Trans)
    (ht : t ∈ ((A.complement alphabet).loc p).next a) :
    (∃ q ∈ A.states, ∃ u ∈ (A.loc q).next a, t.resets = u.resets ∧ t.guard = u.guard) ∨
      (t.resets = [] ∧ t.guard.BoundedBy M) := by
  have hdw := deepCopy_wf A hw
  rw [complement_next A alphabet hw he, makeComplete_eq _ _ hdw.nodup] at ht
  rw [complement_states A alphabet hw he] at hp
  have hd : ∀ p ∈ A.deepCopy.states, ∀ a, ∀ t ∈ (A.deepCopy.loc p).next a,
      ∃ q ∈ A.states, ∃ u ∈ (A.loc q).next a, t.resets = u.resets ∧ t.guard = u.guard := by
    intro p hp a t ht
    obtain ⟨q, hq, rfl⟩ := (mem_deepCopy_states A hw.nodup).1 hp
    rw [deepCopy_loc A hq] at ht
    simp only [List.mem_map] at ht
    obtain ⟨u, hu, rfl⟩ := ht
    exact ⟨q, hq, u, hu, rfl, rfl⟩
  simp only at ht
  split at ht
  · rename_i hp
    rcases completeState_trans hM _ _ _ (fun a t ht => by
      obtain ⟨q, hq, u, hu, h1, h2⟩ := hd p hp a t ht
      rw [h2]; exact h q hq a u hu) a t ht with h1 | h1
    · exact .inl (hd p hp a t h1)
    · exact .inr h1
  · rename_i hp'
    rw [if_pos (by
      rcases List.mem_append.1 hp with h | h
      · exact absurd h hp'
      · exact List.mem_singleton.1 h)] at ht
    rcases completeState_trans hM _ _ _ (fun a t ht => by cases ht) a t ht with h1 | h1
    · cases h1
    · exact .inr h1

theorem complement_ordered (A : TA) (alphabet : List Action) (hw : A.WF) (he : A.EpsFree)
    (ho : A.ResetsOrdered) : (A.complement alphabet).ResetsOrdered := by
  intro p hp a t ht
  rcases complement_trans A alphabet hw he (M := fun _ => intMax) (fun _ => by decide)
    (fun p hp a t ht c hc => (hw.small p hp a t ht c hc).le) p hp a t ht with
    ⟨q, hq, u, hu, h1, -⟩ | ⟨h1, -⟩
  · rw [h1]; exact ho q hq a u hu
  · rw [h1]; simp [Zone.NoReadAfterWrite]

theorem complement_maxOK (A : TA) (alphabet : List Action) (hw : A.WF) (he : A.EpsFree)
    (hm : A.MaxOK) : (A.complement alphabet).MaxOK := by
  have hmc : (A.complement alphabet).maxC = A.maxC := by
    unfold complement
    rw [flipAll_eq _ (makeComplete_wf _ alphabet (deepCopy_wf A hw)
      (deepCopy_epsFree A hw.nodup he)).nodup, makeComplete_eq _ _ (deepCopy_wf A hw).nodup]
    rfl
  unfold MaxOK
  rw [hmc]
  refine ⟨hm.1, fun p hp a t ht => ?_⟩
  rcases complement_trans A alphabet hw he (M := fun x => A.maxC.getD x 0) (fun x => by
      rw [List.getD_eq_getElem?_getD]
      cases h : A.maxC[x]? with
      | none => simp
      | some m => exact hm.1 m (List.mem_of_getElem? h))
    (fun p hp a t ht c hc => (hm.2 p hp a t ht).1 c hc) p hp a t ht with
    ⟨q, hq, u, hu, h1, h2⟩ | ⟨h1, h2⟩
  · rw [h1, h2]; exact hm.2 q hq a u hu
  · rw [h1]; exact ⟨h2, by simp⟩

/-- The passes before the removal of clocks. -/
theorem simplify_core (A : TA) (hw : A.WF) :
    let B := A.simplifyTransitions.removeTriviallyUnreachableStates
    Sub B A ∧ B.WF :=
  ⟨(removeUnreachable_sub _).trans (simplifyTransitions_sub A hw.nodup),
    removeUnreachable_wf _ (simplifyTransitions_wf A hw)⟩

theorem simplifyStrong_core (A : TA) (hw : A.WF) :
    let B := A.simplifyTransitions.removeTriviallyUnreachableStates.removeTriviallyDeadStates
      |>.removeDeadLoop.removeUselessTransitions
    Sub B A ∧ B.WF := by
  have w1 := simplifyTransitions_wf A hw
  have w2 := removeUnreachable_wf _ w1
  have w3 := removeDead_wf _ w2
  have w4 := removeDeadLoop_wf _ w3
  exact ⟨(removeUseless_spec _ w4).2.1.trans ((removeDeadLoop_spec _).2.1.trans
    ((removeDead_sub _ w2.nodup).trans (simplify_core A hw).1)), (removeUseless_spec _ w4).2.2.1⟩

theorem simplify_keeps (A : TA) (hw : A.WF) :
    (A.EpsFree → A.simplify.EpsFree) ∧ (A.ResetsOrdered → A.simplify.ResetsOrdered) := by
  obtain ⟨h1, h2⟩ := simplify_core A hw
  exact ⟨fun h => removeUnused_epsFree _ h2.nodup (h1.epsFree h),
    fun h => removeUnused_ordered _ h2 (h1.ordered h)⟩

theorem simplifyStrong_keeps (A : TA) (hw : A.WF) :
    (A.EpsFree → A.simplifyStrong.EpsFree) ∧ (A.ResetsOrdered → A.simplifyStrong.ResetsOrdered) := by
  obtain ⟨h1, h2⟩ := simplifyStrong_core A hw
  exact ⟨fun h => removeUnused_epsFree _ h2.nodup (h1.epsFree h),
    fun h => removeUnused_ordered _ h2 (h1.ordered h)⟩

/-- `addUpperBoundForUnobservableTransitions` on one state. -/
def boundEps (s : TAState) : TAState := { s with
    next := Function.update s.next unobservable
      ((s.next unobservable).map fun t => { t with guard := Guard.addUpperBound t.guard }) }

theorem addUpperBound_eq (A : TA) (hn : A.states.Nodup) :
    A.addUpperBoundForUnobservableTransitions =
      { A with loc := fun p => if p ∈ A.states then boundEps (A.loc p) else A.loc p } := by
  unfold addUpperBoundForUnobservableTransitions
  exact foldl_setLoc boundEps _ _ hn

/-- Without unobservable transitions nothing is changed. -/
theorem addUpperBound_epsFree (A : TA) (hn : A.states.Nodup) (he : A.EpsFree) :
    A.addUpperBoundForUnobservableTransitions = A := by
  rw [addUpperBound_eq A hn]
  cases A with
  | mk loc states init maxC =>
    simp only [TA.mk.injEq, and_true]
    funext p
    split
    · rename_i hp
      have : (loc p).next unobservable = [] := he p hp
      unfold boundEps
      rw [this, List.map_nil, ← this, Function.update_eq_self]
    · rfl

end TA
end LearnTA
