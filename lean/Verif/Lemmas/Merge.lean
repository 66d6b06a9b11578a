import Verif.Lemmas.MergeTrans
import Verif.Lemmas.UnionHull
import Verif.Lemmas.Resets
import Verif.Spec.Merge

/-!
# Merging of the transitions of a state, in general
-/

namespace LearnTA
namespace Trans

theorem Weaker.refl (x : Trans) : Weaker x x := fun _ h => h
theorem Weaker.trans {x y z : Trans} (h : Weaker z y) (h' : Weaker y x) : Weaker z x := fun v hv => h v (h' v hv)

section
variable {test : Trans → Trans → Bool} {combine : (ℕ → TAState) → Trans → Trans → Trans} {C : Trans → Trans → Prop}

theorem absorbWith_cover (hr : ∀ x, C x x) (ht : ∀ x y z, C z y → C y x → C z x)
    (hc : ∀ loc t u, test t u = true → C (combine loc t u) t ∧ C (combine loc t u) u) {loc : ℕ → TAState} {q : ℕ} {a : Action}
    {before : List Trans} : ∀ (us : List Trans) (t : Trans) (mid : List Trans),
      ∀ x ∈ t :: (mid ++ us), ∃ y ∈ (absorbWith test combine loc q a before t mid us).1 ::
        (absorbWith test combine loc q a before t mid us).2, C y x := by
  intro us
  induction us with
  | nil => intro t mid x hx; exact ⟨x, by simpa [absorbWith] using hx, hr x⟩
  | cons u us ih =>
    intro t mid x hx
    unfold absorbWith
    split
    · rename_i htu
      have h := hc (setList loc q a (before ++ t :: (mid ++ u :: us))) t u htu
      set n := combine (setList loc q a (before ++ t :: (mid ++ u :: us))) t u with hn
      simp only [List.mem_cons, List.mem_append] at hx
      rcases hx with rfl | hx | rfl | hx
      · obtain ⟨y, hy, hyn⟩ := ih n mid n (by simp)
        exact ⟨y, hy, ht _ _ _ hyn h.1⟩
      · exact ih n mid x (by simp [hx])
      · obtain ⟨y, hy, hyn⟩ := ih n mid n (by simp)
        exact ⟨y, hy, ht _ _ _ hyn h.2⟩
      · exact ih n mid x (by simp [hx])
    · exact ih t (mid ++ [u]) x (by simpa using hx)

theorem absorbWith_origin (hr : ∀ x, C x x) (ht : ∀ x y z, C z y → C y x → C z x)
    (hc : ∀ loc t u, test t u = true → C (combine loc t u) t ∨ C (combine loc t u) u) {loc : ℕ → TAState} {q : ℕ} {a : Action}
    {before : List Trans} : ∀ (us : List Trans) (t : Trans) (mid : List Trans),
      ∀ y ∈ (absorbWith test combine loc q a before t mid us).1 :: (absorbWith test combine loc q a before t mid us).2,
        ∃ x ∈ t :: (mid ++ us), C y x := by
  intro us
  induction us with
  | nil => intro t mid x hx; exact ⟨x, by simpa [absorbWith] using hx, hr x⟩
  | cons u us ih =>
    intro t mid y hy
    unfold absorbWith at hy
    split at hy
    · rename_i htu
      have h := hc (setList loc q a (before ++ t :: (mid ++ u :: us))) t u htu
      obtain ⟨x, hx, hyx⟩ := ih _ mid y hy
      simp only [List.mem_cons, List.mem_append] at hx
      rcases hx with rfl | hx | hx
      · rcases h with h | h
        · exact ⟨t, by simp, ht _ _ _ hyx h⟩
        · exact ⟨u, by simp, ht _ _ _ hyx h⟩
      · exact ⟨x, by simp [hx], hyx⟩
      · exact ⟨x, by simp [hx], hyx⟩
    · obtain ⟨x, hx, hyx⟩ := ih t (mid ++ [u]) y hy
      exact ⟨x, by simpa using hx, hyx⟩

theorem absorbWith_length {loc : ℕ → TAState} {q : ℕ} {a : Action} {before : List Trans} :
    ∀ (us : List Trans) (t : Trans) (mid : List Trans),
      (absorbWith test combine loc q a before t mid us).2.length ≤ mid.length + us.length := by
  intro us
  induction us with
  | nil => intro t mid; simp [absorbWith]
  | cons u us ih =>
    intro t mid
    unfold absorbWith
    split
    · refine (ih _ mid).trans ?_
      simp only [List.length_cons]; omega
    · refine (ih t (mid ++ [u])).trans ?_
      simp only [List.length_cons, List.length_append, List.length_nil]; omega

theorem mergeLoop_cover (hr : ∀ x, C x x) (ht : ∀ x y z, C z y → C y x → C z x)
    (hc : ∀ loc t u, test t u = true → C (combine loc t u) t ∧ C (combine loc t u) u) {loc : ℕ → TAState} {q : ℕ} {a : Action}
    (k : ℕ) : ∀ (before l : List Trans), ∀ x ∈ before ++ l, ∃ y ∈ mergeLoop test combine loc q a before k l, C y x := by
  induction k with
  | zero => intro before l x hx; exact ⟨x, hx, hr x⟩
  | succ k ih =>
    intro before l x hx
    cases l with
    | nil => exact ⟨x, by simpa [mergeLoop] using hx, hr x⟩
    | cons t ts =>
      unfold mergeLoop
      dsimp only
      rcases List.mem_append.1 hx with hx | hx
      · exact ih _ _ x (by simp [hx])
      · obtain ⟨y, hy, hyx⟩ := absorbWith_cover hr ht hc (loc := loc) (q := q) (a := a) (before := before) ts t [] x
          (by simpa using hx)
        obtain ⟨z, hz, hzy⟩ := ih (before ++ [(absorbWith test combine loc q a before t [] ts).1])
          (absorbWith test combine loc q a before t [] ts).2 y (by
            simp only [List.mem_cons] at hy
            simp only [List.append_assoc, List.mem_append, List.mem_singleton]
            tauto)
        exact ⟨z, hz, ht _ _ _ hzy hyx⟩

theorem mergeLoop_origin (hr : ∀ x, C x x) (ht : ∀ x y z, C z y → C y x → C z x)
    (hc : ∀ loc t u, test t u = true → C (combine loc t u) t ∨ C (combine loc t u) u) {loc : ℕ → TAState} {q : ℕ} {a : Action}
    (k : ℕ) : ∀ (before l : List Trans), ∀ y ∈ mergeLoop test combine loc q a before k l, ∃ x ∈ before ++ l, C y x := by
  induction k with
  | zero => intro before l x hx; exact ⟨x, hx, hr x⟩
  | succ k ih =>
    intro before l y hy
    cases l with
    | nil => exact ⟨y, by simpa [mergeLoop] using hy, hr y⟩
    | cons t ts =>
      unfold mergeLoop at hy
      dsimp only at hy
      obtain ⟨x, hx, hyx⟩ := ih _ _ y hy
      simp only [List.append_assoc, List.mem_append, List.mem_singleton] at hx
      rcases hx with hx | hx
      · exact ⟨x, by simp [hx], hyx⟩
      · obtain ⟨x', hx', hxx⟩ := absorbWith_origin hr ht hc (loc := loc) (q := q) (a := a) (before := before) ts t [] x
          (by simpa using hx)
        exact ⟨x', by simp only [List.mem_append]; exact Or.inr (by simpa using hx'), ht _ _ _ hyx hxx⟩

theorem mergeLoop_length {loc : ℕ → TAState} {q : ℕ} {a : Action} (k : ℕ) : ∀ (before l : List Trans),
    (mergeLoop test combine loc q a before k l).length ≤ before.length + l.length := by
  induction k with
  | zero => intro before l; simp [mergeLoop]
  | succ k ih =>
    intro before l
    cases l with
    | nil => simp [mergeLoop]
    | cons t ts =>
      unfold mergeLoop
      dsimp only
      refine (ih _ _).trans ?_
      have := absorbWith_length (test := test) (combine := combine) (loc := loc) (q := q) (a := a) (before := before) ts t []
      simp only [List.length_append, List.length_cons, List.length_nil] at this ⊢
      omega

end

/-- One relation between the transitions of two heaps. -/
structure Relates (C O : Trans → Trans → Prop) (loc loc' : ℕ → TAState) (q : ℕ) : Prop where
  others : ∀ p, p ≠ q → loc' p = loc p
  isMatch : (loc' q).isMatch = (loc q).isMatch
  cover : ∀ a, ∀ x ∈ (loc q).next a, ∃ y ∈ (loc' q).next a, C y x
  origin : ∀ a, ∀ y ∈ (loc' q).next a, ∃ x ∈ (loc q).next a, O y x

end Trans

open Trans

theorem setList_self_next (loc : ℕ → TAState) (q : ℕ) (a : Action) (l : List Trans) (b : Action) :
    ((setList loc q a l) q).next b = if b = a then l else (loc q).next b := by
  unfold setList TAState.setNext
  simp [Function.update_apply]

theorem setList_other (loc : ℕ → TAState) {q p : ℕ} (h : p ≠ q) (a : Action) (l : List Trans) : setList loc q a l p = loc p := by
  unfold setList
  rw [Function.update_of_ne h]

theorem setList_isMatch (loc : ℕ → TAState) (q : ℕ) (a : Action) (l : List Trans) (p : ℕ) :
    (setList loc q a l p).isMatch = (loc p).isMatch := by
  unfold setList
  by_cases e : p = q
  · subst e; rw [Function.update_self]; rfl
  · rw [Function.update_of_ne e]

/-- What merging does to the heap. -/
theorem mergeState_relates {test : Trans → Trans → Bool} {combine : (ℕ → TAState) → Trans → Trans → Trans}
    {C O : Trans → Trans → Prop} (hr : ∀ x, C x x) (ht : ∀ x y z, C z y → C y x → C z x)
    (hr' : ∀ x, O x x) (ht' : ∀ x y z, O z y → O y x → O z x)
    (hc : ∀ loc t u, test t u = true → C (combine loc t u) t ∧ C (combine loc t u) u)
    (ho : ∀ loc t u, test t u = true → O (combine loc t u) t ∨ O (combine loc t u) u) (acts : List Action) :
    ∀ (loc : ℕ → TAState) (q : ℕ), Relates C O loc (mergeState test combine acts loc q) q := by
  unfold mergeState
  induction acts with
  | nil => intro loc q; exact ⟨fun _ _ => rfl, rfl, fun a x hx => ⟨x, hx, hr x⟩, fun a x hx => ⟨x, hx, hr' x⟩⟩
  | cons b acts ih =>
    intro loc q
    rw [List.foldl_cons]
    obtain ⟨h1, h2, h3, h4⟩ := ih (setList loc q b (mergeLoop test combine loc q b [] ((loc q).next b).length ((loc q).next b))) q
    refine ⟨fun p hp => ?_, ?_, fun a x hx => ?_, fun a y hy => ?_⟩
    · rw [h1 p hp, setList_other _ hp]
    · rw [h2, setList_isMatch]
    · by_cases e : a = b
      · subst e
        obtain ⟨y, hy, hyx⟩ := mergeLoop_cover hr ht hc (loc := loc) (q := q) (a := a) ((loc q).next a).length [] ((loc q).next a) x
          (by simpa using hx)
        obtain ⟨z, hz, hzy⟩ := h3 a y (by rw [setList_self_next, if_pos rfl]; exact hy)
        exact ⟨z, hz, ht _ _ _ hzy hyx⟩
      · exact h3 a x (by rw [setList_self_next, if_neg e]; exact hx)
    · obtain ⟨x, hx, hyx⟩ := h4 a y hy
      rw [setList_self_next] at hx
      split at hx
      · rename_i e
        subst e
        obtain ⟨x', hx', hxx⟩ := mergeLoop_origin hr' ht' ho (loc := loc) (q := q) (a := a) ((loc q).next a).length []
          ((loc q).next a) x hx
        exact ⟨x', by simpa using hx', ht' _ _ _ hyx hxx⟩
      · exact ⟨x, hx, hyx⟩

namespace Trans

theorem hull_weaker_left (l r : Trans) (q : ℕ) (u : Resets) : Weaker ⟨q, u, Guard.unionHull [l.guard, r.guard]⟩ l :=
  fun v hv => Guard.isWeaker_sound (Guard.unionHull_weaker [l.guard, r.guard] l.guard (by simp)) v hv

theorem hull_weaker_right (l r : Trans) (q : ℕ) (u : Resets) : Weaker ⟨q, u, Guard.unionHull [l.guard, r.guard]⟩ r :=
  fun v hv => Guard.isWeaker_sound (Guard.unionHull_weaker [l.guard, r.guard] r.guard (by simp)) v hv

theorem mergeTransitions_weaker (loc : ℕ → TAState) (l r : Trans) :
    Weaker (mergeTransitions loc l r) l ∧ Weaker (mergeTransitions loc l r) r := by
  unfold mergeTransitions
  split
  · exact ⟨hull_weaker_left _ _ _ _, hull_weaker_right _ _ _ _⟩
  · exact ⟨hull_weaker_left _ _ _ _, hull_weaker_right _ _ _ _⟩

theorem Relaxes.refl (x : Trans) : Relaxes x x := ⟨rfl, rfl, .refl x⟩
theorem Relaxes.trans {x y z : Trans} (h : Relaxes z y) (h' : Relaxes y x) : Relaxes z x :=
  ⟨h.1.trans h'.1, h.2.1.trans h'.2.1, h.2.2.trans h'.2.2⟩

theorem mergeTransitions_relaxes (loc : ℕ → TAState) (l r : Trans) :
    Relaxes (mergeTransitions loc l r) l ∨ Relaxes (mergeTransitions loc l r) r := by
  unfold mergeTransitions
  split
  · exact Or.inl ⟨rfl, rfl, hull_weaker_left _ _ _ _⟩
  · exact Or.inr ⟨rfl, rfl, hull_weaker_right _ _ _ _⟩

theorem combinePrecise_relaxes (iter : List ℕ) (loc : ℕ → TAState) (l r : Trans) :
    Relaxes (combinePrecise iter loc l r) l ∨ Relaxes (combinePrecise iter loc l r) r := by
  unfold combinePrecise
  dsimp only
  split
  · exact Or.inl (.refl _)
  split
  · exact Or.inr (.refl _)
  split
  · exact mergeTransitions_relaxes _ _ _
  split
  · split
    · exact Or.inr (.refl _)
    split
    · exact mergeTransitions_relaxes _ _ _
    · exact Or.inl (.refl _)
  · split
    · exact Or.inr (.refl _)
    split
    · split
      · exact Or.inr ⟨rfl, rfl, hull_weaker_right _ _ _ _⟩
      · exact Or.inl ⟨rfl, rfl, hull_weaker_left l r l.target l.resets⟩
    · exact Or.inl (.refl _)

theorem mem_of_removeWeaker : ∀ (ts kept : List Trans), ∀ y ∈ removeWeaker kept ts, y ∈ kept ++ ts := by
  intro ts
  induction ts with
  | nil => intro kept y hy; simpa [removeWeaker] using hy
  | cons t ts ih =>
    intro kept y hy
    unfold removeWeaker at hy
    split at hy
    · have := ih kept y hy
      simp only [List.mem_append, List.mem_cons] at this ⊢
      tauto
    · simpa using ih _ y hy

theorem removeWeaker_sublist : ∀ (ts kept : List Trans), (removeWeaker kept ts).Sublist (kept ++ ts) := by
  intro ts
  induction ts with
  | nil => intro kept; simp [removeWeaker]
  | cons t ts ih =>
    intro kept
    unfold removeWeaker
    split
    · exact (ih kept).trans (List.Sublist.append_left (List.sublist_cons_self t ts) kept)
    · exact (ih (kept ++ [t])).trans (by simp)

theorem removeWeaker_cover : ∀ (ts kept : List Trans), ∀ x ∈ kept ++ ts, ∃ y ∈ removeWeaker kept ts,
    y.target = x.target ∧ Weaker y x := by
  intro ts
  induction ts with
  | nil => intro kept x hx; exact ⟨x, by simpa [removeWeaker] using hx, rfl, .refl x⟩
  | cons t ts ih =>
    intro kept x hx
    unfold removeWeaker
    split
    · rename_i hw
      simp only [List.any_eq_true, Bool.and_eq_true, decide_eq_true_eq] at hw
      obtain ⟨u, hu, ⟨hne, hwk⟩, htg⟩ := hw
      have hu' : u ∈ kept ++ ts := by
        simp only [List.mem_append, List.mem_cons] at hu ⊢
        rcases hu with h | h | h
        · exact Or.inl h
        · exact absurd h.symm hne
        · exact Or.inr h
      simp only [List.mem_append, List.mem_cons] at hx
      rcases hx with h | rfl | h
      · exact ih kept x (by simp [h])
      · obtain ⟨y, hy, h1, h2⟩ := ih kept u hu'
        exact ⟨y, hy, h1.trans htg, h2.trans fun v hv => Guard.isWeaker_sound hwk v hv⟩
      · exact ih kept x (by simp [h])
    · exact ih _ x (by simpa using hx)

theorem removeWeaker_incomparable : ∀ (ts kept : List Trans),
    (∀ t ∈ kept, ∀ u ∈ kept ++ ts, t ≠ u → u.target = t.target → Guard.isWeaker u.guard t.guard = false) →
    ∀ t ∈ removeWeaker kept ts, ∀ u ∈ removeWeaker kept ts, t ≠ u → u.target = t.target →
      Guard.isWeaker u.guard t.guard = false := by
  intro ts
  induction ts with
  | nil => intro kept h t ht u hu; exact h t (by simpa [removeWeaker] using ht) u (by simpa [removeWeaker] using hu)
  | cons x xs ih =>
    intro kept h
    unfold removeWeaker
    split
    · exact ih kept fun t ht u hu => h t ht u (by simp only [List.mem_append, List.mem_cons] at hu ⊢; tauto)
    · rename_i hw
      refine ih (kept ++ [x]) fun t ht u hu hne htg => ?_
      simp only [List.append_assoc, List.singleton_append] at hu
      simp only [List.mem_append, List.mem_singleton] at ht
      rcases ht with ht | rfl
      · exact h t ht u hu hne htg
      · by_contra hc
        refine hw (List.any_eq_true.2 ⟨u, hu, ?_⟩)
        simp only [Bool.and_eq_true, decide_eq_true_eq]
        exact ⟨⟨hne, by simpa using hc⟩, htg⟩

/-! ### Transitions with a common valuation -/

theorem unionHull_small (gs : List Guard) (hne : gs ≠ []) (h : ∀ g ∈ gs, g.Small) : (Guard.unionHull gs).Small := by
  intro c hc
  unfold Guard.unionHull at hc
  simp only [List.mem_map] at hc
  obtain ⟨⟨k, b⟩, hkb, rfl⟩ := hc
  have hl := Guard.mem_lookup (Guard.hullMap_nodup gs) hkb
  obtain ⟨_, _, g, hg, c, hc, hck, hcb⟩ := (Guard.hullMap_lookup gs hne k).1 b hl
  have hs := h g hg c hc
  subst hck
  subst hcb
  suffices Guard.hullConstraint (Guard.ckey c, c.toDBMBound) = c by rw [this]; exact hs
  rcases c with ⟨x, o, n⟩
  cases o <;> simp [Guard.hullConstraint, Guard.ckey, Constraint.toDBMBound, Constraint.isUpperBound]

/-- The valuation satisfies the guard, and the constants are small. -/
def At (v : Valuation) (t : Trans) : Prop := t.guard.Small ∧ t.guard.Holds v

theorem At.overlap {v : Valuation} (hv : v.Nonneg) {t u : Trans} (ht : At v t) (hu : At v u) : Trans.overlap t u = true := by
  unfold Trans.overlap
  rw [Guard.satisfiable_iff]
  · exact ⟨v, hv, by unfold Guard.conjunction; rw [Guard.holds_append]; exact ⟨ht.2, hu.2⟩⟩
  · intro c hc
    unfold Guard.conjunction at hc
    rcases List.mem_append.1 hc with h | h
    · exact ht.1 c h
    · exact hu.1 c h

theorem At.merge {v : Valuation} (loc : ℕ → TAState) {t u : Trans} (ht : At v t) (hu : At v u) :
    At v (mergeTransitions loc t u) := by
  have h1 := unionHull_small [t.guard, u.guard] (by simp) (by
    intro g hg
    simp only [List.mem_cons, List.not_mem_nil, or_false] at hg
    rcases hg with rfl | rfl
    · exact ht.1
    · exact hu.1)
  refine ⟨?_, (mergeTransitions_weaker loc t u).1 v ht.2⟩
  unfold mergeTransitions
  split <;> exact h1

theorem absorbWith_all {v : Valuation} (hv : v.Nonneg) {loc : ℕ → TAState} {q : ℕ} {a : Action} {before : List Trans} :
    ∀ (us : List Trans) (t : Trans) (mid : List Trans), At v t → (∀ u ∈ us, At v u) →
      (absorbWith Trans.overlap mergeTransitions loc q a before t mid us).2 = mid ∧
      At v (absorbWith Trans.overlap mergeTransitions loc q a before t mid us).1 := by
  intro us
  induction us with
  | nil => intro t mid ht _; exact ⟨rfl, ht⟩
  | cons u us ih =>
    intro t mid ht h
    unfold absorbWith
    rw [if_pos (ht.overlap hv (h u (by simp)))]
    exact ih _ mid (ht.merge _ (h u (by simp))) fun x hx => h x (by simp [hx])

theorem mergeLoop_all {v : Valuation} (hv : v.Nonneg) {loc : ℕ → TAState} {q : ℕ} {a : Action} (l : List Trans) (hne : l ≠ [])
    (h : ∀ u ∈ l, At v u) :
    ∃ t, mergeLoop Trans.overlap mergeTransitions loc q a [] l.length l = [t] ∧ At v t := by
  cases l with
  | nil => exact absurd rfl hne
  | cons t ts =>
    obtain ⟨h1, h2⟩ := absorbWith_all hv (loc := loc) (q := q) (a := a) (before := []) ts t [] (h t (by simp))
      fun u hu => h u (by simp [hu])
    refine ⟨_, ?_, h2⟩
    rw [List.length_cons]
    unfold mergeLoop
    dsimp only
    rw [h1]
    cases ts.length <;> simp [mergeLoop]

theorem _root_.LearnTA.mergeBranching_all {v : Valuation} (hv : v.Nonneg) {a : Action} (acts : List Action) :
    ∀ (loc : ℕ → TAState) (q : ℕ), (loc q).next a ≠ [] → (∀ t ∈ (loc q).next a, At v t) → a ∈ acts →
      ∃ t, (mergeBranching acts loc q q).next a = [t] ∧ At v t := by
  have key : ∀ (acts : List Action) (loc : ℕ → TAState) (q : ℕ) (t : Trans), (loc q).next a = [t] → At v t →
      ∃ t, (mergeBranching acts loc q q).next a = [t] ∧ At v t := by
    intro acts
    induction acts with
    | nil => intro loc q t h ht; exact ⟨t, h, ht⟩
    | cons b acts ih =>
      intro loc q t h ht
      unfold mergeBranching mergeState
      rw [List.foldl_cons]
      refine ih _ q t ?_ ht
      rw [setList_self_next]
      split
      · rename_i e
        subst e
        rw [mergeLoop_eq _ [] _ (by rw [h]; simp), List.nil_append, h]
      · exact h
  induction acts with
  | nil => intro loc q _ _ ha; simp at ha
  | cons b acts ih =>
    intro loc q hne h ha
    unfold mergeBranching mergeState
    rw [List.foldl_cons]
    by_cases e : a = b
    · subst e
      obtain ⟨t, h1, h2⟩ := mergeLoop_all hv (loc := loc) (q := q) (a := a) _ hne h
      exact key acts _ q t (by rw [setList_self_next, if_pos rfl, h1]) h2
    · refine ih _ q ?_ ?_ (by simpa [e] using ha)
      · rw [setList_self_next, if_neg e]; exact hne
      · rw [setList_self_next, if_neg e]; exact h

end Trans

/-! ### Precise clocks -/

theorem mem_preciseAfterReset {size : ℕ} {precise : Finset ℕ} {r : Resets} {x : ℕ} : x ∈ preciseAfterReset size precise r ↔
    x < size ∧ ((∃ u, (x, u) ∈ r ∧ match u with | .clock y => y ∈ precise | .const q => q = ⌊q⌋) ∨
      x ∈ precise ∧ ∀ u, (x, u) ∉ r) := by
  unfold preciseAfterReset
  rw [Finset.mem_union, List.mem_toFinset, Finset.mem_filter]
  constructor
  · rintro (h | ⟨h1, h2, h3⟩)
    · obtain ⟨⟨y, u⟩, hp, rfl⟩ := List.mem_map.1 h
      obtain ⟨hp1, hp2⟩ := List.mem_filter.1 hp
      simp only [Bool.and_eq_true, decide_eq_true_eq] at hp2
      refine ⟨hp2.1, Or.inl ⟨u, hp1, ?_⟩⟩
      cases u with
      | clock z => simpa using hp2.2
      | const q => simpa [isIntegral] using hp2.2
    · refine ⟨h2, Or.inr ⟨h1, fun u hu => ?_⟩⟩
      rw [List.any_eq_false] at h3
      exact h3 _ hu (by simp)
  · rintro ⟨h1, ⟨u, hu, h2⟩ | ⟨h2, h3⟩⟩
    · refine Or.inl (List.mem_map.2 ⟨(x, u), List.mem_filter.2 ⟨hu, ?_⟩, rfl⟩)
      simp only [Bool.and_eq_true, decide_eq_true_eq]
      refine ⟨h1, ?_⟩
      cases u with
      | clock z => simpa using h2
      | const q => simpa [isIntegral] using h2
    · refine Or.inr ⟨h2, h1, ?_⟩
      rw [List.any_eq_false]
      rintro ⟨y, u⟩ hp hc
      have : y = x := by simpa using hc
      subst this
      exact h3 u hp

theorem Resets.apply_mem {r : Resets} (hn : (r.map Prod.fst).Nodup) {x : ℕ} {u : Upd} (h : (x, u) ∈ r) (v : Valuation) :
    r.apply v x = u.eval v := by
  rw [apply_eq, upd_of_mem hn h]; rfl

theorem Resets.apply_not_mem {r : Resets} {x : ℕ} (h : ∀ u, (x, u) ∉ r) (v : Valuation) : r.apply v x = v x := by
  have : upd r x = none := by
    rw [← Option.not_isSome_iff_eq_none, upd_isSome, Bool.not_eq_true, List.any_eq_false]
    rintro ⟨y, u⟩ hq hc
    have : y = x := by simpa using hc
    subst this
    exact h u hq
  rw [apply_eq, this]; rfl

end LearnTA
