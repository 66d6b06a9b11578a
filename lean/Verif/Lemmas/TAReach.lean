import Verif.Lemmas.TASimplify

namespace LearnTA

theorem foldl_cover {α β : Type*} (R : β → β → Prop) (hrefl : ∀ m, R m m)
    (htrans : ∀ a b c, R a b → R b c → R a c) (step : β → α → β) (hinc : ∀ m x, R m (step m x))
    (P : α → β → Prop) (hmono : ∀ m m' x, R m m' → P x m → P x m')
    (hest : ∀ m x, P x (step m x)) (l : List α) (m : β) :
    R m (l.foldl step m) ∧ ∀ x ∈ l, P x (l.foldl step m) := by
  induction l generalizing m with
  | nil => exact ⟨hrefl m, by simp⟩
  | cons x l ih =>
    obtain ⟨h1, h2⟩ := ih (step m x)
    refine ⟨htrans _ _ _ (hinc m x) h1, ?_⟩
    intro y hy
    simp only [List.mem_cons] at hy
    rcases hy with rfl | hy
    · exact hmono _ _ _ h1 (hest m y)
    · exact h2 y hy

namespace TA

/-! ### makeMaxConstants -/

/-- The vector got longer and its entries larger. -/
def MaxLe (m m' : List ℤ) : Prop :=
  m.length ≤ m'.length ∧ ∀ i < m.length, m.getD i 0 ≤ m'.getD i 0

theorem MaxLe.refl (m : List ℤ) : MaxLe m m := ⟨le_refl _, fun _ _ => le_refl _⟩

theorem MaxLe.trans {a b c : List ℤ} (h1 : MaxLe a b) (h2 : MaxLe b c) : MaxLe a c :=
  ⟨h1.1.trans h2.1, fun i hi => (h1.2 i hi).trans (h2.2 i (lt_of_lt_of_le hi h1.1))⟩

theorem growTo_length (m : List ℤ) (x : ℕ) : (growTo m x).length = max m.length (x + 1) := by
  simp [growTo]; omega

theorem growTo_getD (m : List ℤ) (x i : ℕ) : (growTo m x).getD i 0 = m.getD i 0 := by
  simp only [growTo, List.getD_eq_getElem?_getD]
  by_cases h : i < m.length
  · rw [List.getElem?_append_left h]
  · rw [List.getElem?_append_right (by omega)]
    rw [List.getElem?_eq_none (l := m) (by omega)]
    simp only [List.getElem?_replicate, Option.getD_none]
    split <;> rfl

theorem growTo_le (m : List ℤ) (x : ℕ) : MaxLe m (growTo m x) :=
  ⟨by rw [growTo_length]; omega, fun i _ => by rw [growTo_getD]⟩

theorem maxGuardStep_length (m : List ℤ) (c : Constraint) :
    (maxGuardStep m c).length = max m.length (c.x + 1) := by
  simp [maxGuardStep, growTo_length]

theorem maxGuardStep_getD (m : List ℤ) (c : Constraint) (i : ℕ) :
    (maxGuardStep m c).getD i 0 = if i = c.x then max (m.getD i 0) c.c else m.getD i 0 := by
  have hx : c.x < (growTo m c.x).length := by rw [growTo_length]; omega
  simp only [maxGuardStep]
  rw [List.getD_eq_getElem?_getD]
  split
  · rename_i h; subst h
    rw [List.getElem?_set_self hx, Option.getD_some, growTo_getD]
  · rename_i h
    rw [List.getElem?_set_ne (fun e => h e.symm), ← List.getD_eq_getElem?_getD, growTo_getD]

theorem maxGuardStep_le (m : List ℤ) (c : Constraint) : MaxLe m (maxGuardStep m c) := by
  refine ⟨by rw [maxGuardStep_length]; omega, ?_⟩
  intro i _
  rw [maxGuardStep_getD]
  split
  · exact le_max_left _ _
  · exact le_refl _

theorem maxResetStep_le (m : List ℤ) (r : ℕ × Upd) : MaxLe m (maxResetStep m r) := by
  unfold maxResetStep
  split
  · exact (growTo_le _ _).trans (growTo_le _ _)
  · exact growTo_le _ _

theorem maxResetStep_getD (m : List ℤ) (r : ℕ × Upd) (i : ℕ) :
    (maxResetStep m r).getD i 0 = m.getD i 0 := by
  unfold maxResetStep
  split <;> simp only [growTo_getD]

/-- What a vector of maximal constants has to satisfy for one transition. -/
def TransCovered (t : Trans) (m : List ℤ) : Prop :=
  (∀ c ∈ t.guard, c.x < m.length ∧ c.c ≤ m.getD c.x 0) ∧
  ∀ r ∈ t.resets, r.1 < m.length ∧ ∀ y, r.2 = .clock y → y < m.length

theorem TransCovered.mono {t : Trans} {m m' : List ℤ} (h : MaxLe m m') (hc : TransCovered t m) :
    TransCovered t m' := by
  refine ⟨fun c hcm => ?_, fun r hr => ?_⟩
  · obtain ⟨h1, h2⟩ := hc.1 c hcm
    exact ⟨lt_of_lt_of_le h1 h.1, h2.trans (h.2 _ h1)⟩
  · obtain ⟨h1, h2⟩ := hc.2 r hr
    exact ⟨lt_of_lt_of_le h1 h.1, fun y hy => lt_of_lt_of_le (h2 y hy) h.1⟩

theorem transStep_spec (m : List ℤ) (t : Trans) :
    MaxLe m (t.resets.foldl maxResetStep (t.guard.foldl maxGuardStep m)) ∧
    TransCovered t (t.resets.foldl maxResetStep (t.guard.foldl maxGuardStep m)) := by
  obtain ⟨g1, g2⟩ := foldl_cover MaxLe MaxLe.refl (fun _ _ _ => MaxLe.trans) maxGuardStep
    maxGuardStep_le (fun c m => c.x < m.length ∧ c.c ≤ m.getD c.x 0)
    (fun m m' c h hc => ⟨lt_of_lt_of_le hc.1 h.1, hc.2.trans (h.2 _ hc.1)⟩)
    (fun m c => ⟨by rw [maxGuardStep_length]; omega, by
      rw [maxGuardStep_getD, if_pos rfl]; exact le_max_right _ _⟩) t.guard m
  obtain ⟨r1, r2⟩ := foldl_cover MaxLe MaxLe.refl (fun _ _ _ => MaxLe.trans) maxResetStep
    maxResetStep_le (fun r m => r.1 < m.length ∧ ∀ y, r.2 = .clock y → y < m.length)
    (fun m m' r h hc => ⟨lt_of_lt_of_le hc.1 h.1, fun y hy => lt_of_lt_of_le (hc.2 y hy) h.1⟩)
    (fun m r => by
      unfold maxResetStep
      rcases r with ⟨x, q | y⟩
      · simp only; rw [growTo_length]; exact ⟨by omega, by simp⟩
      · simp only [growTo_length]; exact ⟨by omega, by intro y' h; cases h; omega⟩)
    t.resets (t.guard.foldl maxGuardStep m)
  refine ⟨g1.trans r1, fun c hc => ?_, r2⟩
  obtain ⟨h1, h2⟩ := g2 c hc
  exact ⟨lt_of_lt_of_le h1 r1.1, h2.trans (r1.2 _ h1)⟩

theorem makeMaxConstants_covers (loc : ℕ → TAState) (states : List ℕ) :
    ∀ p ∈ states, ∀ a, ∀ t ∈ (loc p).next a, TransCovered t (makeMaxConstants loc states) := by
  have hT : ∀ (ts : List Trans) (m : List ℤ), MaxLe m (ts.foldl (fun m t =>
      t.resets.foldl maxResetStep (t.guard.foldl maxGuardStep m)) m) ∧
      ∀ t ∈ ts, TransCovered t (ts.foldl (fun m t =>
        t.resets.foldl maxResetStep (t.guard.foldl maxGuardStep m)) m) :=
    fun ts m => foldl_cover MaxLe MaxLe.refl (fun _ _ _ => MaxLe.trans) _
      (fun m t => (transStep_spec m t).1) TransCovered (fun m m' t h hc => hc.mono h)
      (fun m t => (transStep_spec m t).2) ts m
  have hA : ∀ (p : ℕ) (as : List Action) (m : List ℤ), MaxLe m (as.foldl (fun m a =>
      ((loc p).next a).foldl (fun m t =>
        t.resets.foldl maxResetStep (t.guard.foldl maxGuardStep m)) m) m) ∧
      ∀ a ∈ as, ∀ t ∈ (loc p).next a, TransCovered t (as.foldl (fun m a =>
        ((loc p).next a).foldl (fun m t =>
          t.resets.foldl maxResetStep (t.guard.foldl maxGuardStep m)) m) m) :=
    fun p as m => foldl_cover MaxLe MaxLe.refl (fun _ _ _ => MaxLe.trans) _
      (fun m a => (hT _ m).1) (fun a m => ∀ t ∈ (loc p).next a, TransCovered t m)
      (fun m m' a h hc t ht => (hc t ht).mono h) (fun m a => (hT _ m).2) as m
  have := (foldl_cover MaxLe MaxLe.refl (fun _ _ _ => MaxLe.trans)
      (fun m p => allActions.foldl (fun m a => ((loc p).next a).foldl (fun m t =>
        t.resets.foldl maxResetStep (t.guard.foldl maxGuardStep m)) m) m)
      (fun m p => (hA p allActions m).1)
      (fun p m => ∀ a ∈ allActions, ∀ t ∈ (loc p).next a, TransCovered t m)
      (fun m m' p h hc a ha t ht => (hc a ha t ht).mono h) (fun m p => (hA p allActions m).2)
      states []).2
  intro p hp a t ht
  exact this p hp a (mem_allActions a) t ht

theorem foldl_keep {α β : Type*} (P : β → Prop) (step : β → α → β) (l : List α)
    (h : ∀ x ∈ l, ∀ m, P m → P (step m x)) (m : β) (hm : P m) : P (l.foldl step m) := by
  induction l generalizing m with
  | nil => exact hm
  | cons x l ih =>
    exact ih (fun y hy => h y (by simp [hy])) _ (h x (by simp) m hm)

/-- Every entry is 0 or a constant its clock is compared with. -/
theorem makeMaxConstants_exact (loc : ℕ → TAState) (states : List ℕ) (x : ℕ) :
    (makeMaxConstants loc states).getD x 0 = 0 ∨
      ∃ p ∈ states, ∃ a, ∃ t ∈ (loc p).next a, ∃ c ∈ t.guard,
        c.x = x ∧ c.c = (makeMaxConstants loc states).getD x 0 := by
  set P : List ℤ → Prop := fun m => m.getD x 0 = 0 ∨
      ∃ p ∈ states, ∃ a, ∃ t ∈ (loc p).next a, ∃ c ∈ t.guard, c.x = x ∧ c.c = m.getD x 0 with hP
  show P (makeMaxConstants loc states)
  unfold makeMaxConstants
  refine foldl_keep P _ states (fun p hp m hm => ?_) [] (Or.inl (by simp))
  refine foldl_keep P _ allActions (fun a _ m hm => ?_) m hm
  refine foldl_keep P _ ((loc p).next a) (fun t ht m hm => ?_) m hm
  refine foldl_keep P _ t.resets (fun r _ m hm => ?_) _ ?_
  · simp only [hP, maxResetStep_getD]; exact hm
  · refine foldl_keep P _ t.guard (fun c hc m hm => ?_) m hm
    simp only [hP, maxGuardStep_getD]
    split
    · rename_i h
      rcases max_choice (m.getD x 0) c.c with e | e
      · rw [e]; exact hm
      · rw [e]; exact Or.inr ⟨p, hp, a, t, ht, c, hc, h.symm, rfl⟩
    · exact hm

theorem makeMaxConstants_nonneg (loc : ℕ → TAState) (states : List ℕ) (x : ℕ) :
    0 ≤ (makeMaxConstants loc states).getD x 0 := by
  set P : List ℤ → Prop := fun m => 0 ≤ m.getD x 0 with hP
  show P (makeMaxConstants loc states)
  unfold makeMaxConstants
  refine foldl_keep P _ states (fun p hp m hm => ?_) [] (by simp [hP])
  refine foldl_keep P _ allActions (fun a _ m hm => ?_) m hm
  refine foldl_keep P _ ((loc p).next a) (fun t ht m hm => ?_) m hm
  refine foldl_keep P _ t.resets (fun r _ m hm => ?_) _ ?_
  · simp only [hP, maxResetStep_getD]; exact hm
  · refine foldl_keep P _ t.guard (fun c hc m hm => ?_) m hm
    simp only [hP, maxGuardStep_getD]
    split
    · exact le_trans hm (le_max_left _ _)
    · exact hm

/-! ### removeTriviallyUnreachableStates -/

theorem removeUnreachable_loc (A : TA) : A.removeTriviallyUnreachableStates.loc = A.loc ∧
    A.removeTriviallyUnreachableStates.init = A.init := by
  unfold removeTriviallyUnreachableStates
  simp only
  split <;> exact ⟨rfl, rfl⟩

theorem Steps.congr {A B : TA} (h : B.loc = A.loc) {c c' : Config} {es : List Event} :
    B.Steps c es c' ↔ A.Steps c es c' := by
  constructor
  · intro hs
    obtain ⟨d', h1, h2⟩ := hs.sim (A := B) (B := A) (fun c d => c = d)
      (by rintro c d q rfl _; rfl)
      (by rintro c d rfl a t ht hg; exact ⟨t, by rw [← h]; exact ht, hg, rfl⟩) c rfl
    rw [h2]; exact h1
  · intro hs
    obtain ⟨d', h1, h2⟩ := hs.sim (A := A) (B := B) (fun c d => c = d)
      (by rintro c d q rfl _; rfl)
      (by rintro c d rfl a t ht hg; exact ⟨t, by rw [h]; exact ht, hg, rfl⟩) c rfl
    rw [h2]; exact h1

theorem removeUnreachable_accepts (A : TA) (w : TimedWord) :
    A.removeTriviallyUnreachableStates.Accepts w ↔ A.Accepts w := by
  obtain ⟨h1, h2⟩ := removeUnreachable_loc A
  unfold Accepts
  rw [h2]
  simp only [Steps.congr h1, h1]

theorem removeUnreachable_states (A : TA) (hn : A.states.Nodup) (hc : A.Closed) (p : ℕ) :
    p ∈ A.removeTriviallyUnreachableStates.states ↔
      ∃ q ∈ A.init, Relation.ReflTransGen A.Edge q p := by
  have hsub : ∀ x ∈ A.reachableStates, x ∈ A.states := by
    intro x hx
    obtain ⟨q, hq, hr⟩ := (mem_reachableStates A hc x).1 hx
    induction hr with
    | refl => exact hc.1 q hq
    | tail hr' hb ih =>
      obtain ⟨a, t, ht, rfl⟩ := hb
      exact hc.2 _ (ih ((mem_reachableStates A hc _).2 ⟨q, hq, hr'⟩)) a t ht
  rw [← mem_reachableStates A hc]
  unfold removeTriviallyUnreachableStates
  simp only
  split
  · simp only [List.mem_filter, decide_eq_true_eq]
    exact ⟨fun h => h.2, fun h => ⟨hsub p h, h⟩⟩
  · rename_i h
    have hnd : A.reachableStates.Nodup := bfs_nodup A.succs A.states A.init (fun p hp y hy => by
      obtain ⟨a, t, ht, rfl⟩ := (mem_succs A p y).1 hy
      exact hc.2 p hp a t ht) hc.1
    have hperm : A.reachableStates.Perm A.states :=
      (hnd.subperm hsub).perm_of_length_le (by omega)
    exact hperm.mem_iff.symm

theorem removeUnreachable_sub (A : TA) : Sub A.removeTriviallyUnreachableStates A := by
  unfold removeTriviallyUnreachableStates
  simp only
  split
  · exact ⟨List.filter_sublist, fun _ h => h, fun _ _ _ => List.Sublist.refl _⟩
  · exact Sub.refl A

theorem removeUnreachable_closed (A : TA) (hn : A.states.Nodup) (hc : A.Closed) :
    A.removeTriviallyUnreachableStates.Closed := by
  obtain ⟨h1, h2⟩ := removeUnreachable_loc A
  constructor
  · intro q hq
    rw [h2] at hq
    exact (removeUnreachable_states A hn hc q).2 ⟨q, hq, .refl⟩
  · intro p hp a t ht
    obtain ⟨q, hq, hr⟩ := (removeUnreachable_states A hn hc p).1 hp
    rw [h1] at ht
    exact (removeUnreachable_states A hn hc _).2 ⟨q, hq, hr.tail ⟨a, t, ht, rfl⟩⟩

theorem removeUnreachable_wf (A : TA) (hw : A.WF) : A.removeTriviallyUnreachableStates.WF where
  nodup := hw.nodup.sublist (removeUnreachable_sub A).states
  closed := removeUnreachable_closed A hw.nodup hw.closed
  clocks := by
    unfold removeTriviallyUnreachableStates
    simp only
    split
    · intro p hp a t ht
      have := makeMaxConstants_covers A.loc _ p hp a t ht
      exact ⟨fun c hc => (this.1 c hc).1, this.2⟩
    · exact hw.clocks
  resets := (removeUnreachable_sub A).resets hw.resets
  small := (removeUnreachable_sub A).small hw.small

/-! ### Removing transitions that lead nowhere -/

/-- An accepting state is reachable in the graph. -/
def CanAccept (A : TA) (p : ℕ) : Prop :=
  ∃ q, Relation.ReflTransGen A.Edge p q ∧ (A.loc q).isMatch = true

theorem Steps.edge {A : TA} {c c' : Config} {es : List Event} (h : A.Steps c es c') :
    Relation.ReflTransGen A.Edge c.loc c'.loc := by
  induction h with
  | nil c => exact .refl
  | eps t ht hg h ih => exact .head ⟨_, t, ht, rfl⟩ ih
  | delay q hq h ih => exact ih
  | split d1 d2 _ _ h ih => exact ih
  | act a ha t ht hg h ih => exact .head ⟨_, t, ht, rfl⟩ ih

/-- If `B` has, in every state that can still accept, all transitions of `A` to states that can
accept, an accepting run of `A` is a run of `B`. -/
theorem Steps.filter {A B : TA}
    (hB : ∀ p, A.CanAccept p → ∀ a, ∀ t ∈ (A.loc p).next a, A.CanAccept t.target →
      t ∈ (B.loc p).next a)
    {c c' : Config} {es : List Event} (h : A.Steps c es c') :
    (A.loc c'.loc).isMatch = true → B.Steps c es c' := by
  have can : ∀ {c c' : Config} {es : List Event}, A.Steps c es c' →
      (A.loc c'.loc).isMatch = true → A.CanAccept c.loc := fun h hm => ⟨_, h.edge, hm⟩
  induction h with
  | nil c => intro _; exact .nil c
  | eps t ht hg h ih =>
    intro hm
    exact .eps t (hB _ (can (.eps t ht hg h) hm) _ t ht (can h hm)) hg (ih hm)
  | delay q hq h ih => intro hm; exact .delay q hq (ih hm)
  | split d1 d2 h1 h2 h ih => intro hm; exact .split d1 d2 h1 h2 (ih hm)
  | act a ha t ht hg h ih =>
    intro hm
    exact .act a ha t (hB _ (can (.act a ha t ht hg h) hm) _ t ht (can h hm)) hg (ih hm)

theorem accepts_filter {A B : TA}
    (hsub : ∀ p a, ∀ t ∈ (B.loc p).next a, t ∈ (A.loc p).next a)
    (hm : ∀ p, (B.loc p).isMatch = (A.loc p).isMatch)
    (hisub : ∀ q ∈ B.init, q ∈ A.init)
    (hi : ∀ q ∈ A.init, A.CanAccept q → q ∈ B.init)
    (hB : ∀ p, A.CanAccept p → ∀ a, ∀ t ∈ (A.loc p).next a, A.CanAccept t.target →
      t ∈ (B.loc p).next a) (w : TimedWord) : B.Accepts w ↔ A.Accepts w := by
  constructor
  · apply accepts_of_sim (fun c d => c = d)
    · intro q hq; exact ⟨q, hisub q hq, rfl⟩
    · rintro c d q rfl _; rfl
    · rintro c d rfl a t ht hg; exact ⟨t, hsub _ _ t ht, hg, rfl⟩
    · rintro c d rfl h; rw [← hm]; exact h
  · rintro ⟨q, hq, c, hs, hacc⟩
    exact ⟨q, hi q hq ⟨_, hs.edge, hacc⟩, c, hs.filter hB hacc, by rw [hm]; exact hacc⟩

theorem CanAccept.of_edge {A : TA} {p q : ℕ} (h : A.Edge p q) (hq : A.CanAccept q) :
    A.CanAccept p := by
  obtain ⟨r, h1, h2⟩ := hq
  exact ⟨r, .head h h1, h2⟩

theorem mem_liveStates (A : TA) (p : ℕ) (hp : p ∈ A.states) (hc : A.Closed) :
    p ∈ A.liveStates ↔ A.CanAccept p := by
  have := bfs_spec A.preds A.states (A.states.filter fun p => (A.loc p).isMatch)
    (fun x _ y hy => (List.mem_filter.1 hy).1) (fun x hx => (List.mem_filter.1 hx).1) p
  unfold liveStates
  rw [this]
  constructor
  · rintro ⟨q, hq, hr⟩
    rw [List.mem_filter] at hq
    refine ⟨q, ?_, hq.2⟩
    clear this
    induction hr with
    | refl => exact .refl
    | @tail b c hr hb ih =>
      simp only [preds, List.mem_filter, decide_eq_true_eq] at hb
      have hb' := (mem_succs A _ _).1 hb.2
      by_cases hbs : b ∈ A.states
      · exact .head hb' (ih hbs)
      · obtain ⟨a, t, ht, rfl⟩ := hb'
        exact absurd (hc.2 _ hp a t ht) hbs
  · rintro ⟨q, hr, hm⟩
    have hq : q ∈ A.states := by
      clear this hm
      induction hr with
      | refl => exact hp
      | tail _ hb ih =>
        obtain ⟨a, t, ht, rfl⟩ := hb
        exact hc.2 _ ih a t ht
    refine ⟨q, by simp [hq, hm], ?_⟩
    clear this hm hq
    induction hr using Relation.ReflTransGen.head_induction_on with
    | refl => exact .refl
    | @head a c hb _ ih =>
      have hcs : c ∈ A.states := by
        obtain ⟨a', t, ht, rfl⟩ := hb
        exact hc.2 _ hp a' t ht
      refine (ih hcs).tail ?_
      simp only [preds, List.mem_filter, decide_eq_true_eq]
      exact ⟨hp, (mem_succs A _ _).2 hb⟩

theorem liveStates_sub (A : TA) : ∀ p ∈ A.liveStates, p ∈ A.states := by
  intro p hp
  have := (bfs_spec A.preds A.states (A.states.filter fun p => (A.loc p).isMatch)
    (fun x _ y hy => (List.mem_filter.1 hy).1) (fun x hx => (List.mem_filter.1 hx).1) p).1 hp
  obtain ⟨q, hq, hr⟩ := this
  induction hr with
  | refl => exact (List.mem_filter.1 hq).1
  | tail _ hb _ => exact (List.mem_filter.1 hb).1

theorem liveStates_nodup (A : TA) : A.liveStates.Nodup :=
  bfs_nodup A.preds A.states (A.states.filter fun p => (A.loc p).isMatch)
    (fun x _ y hy => (List.mem_filter.1 hy).1) (fun x hx => (List.mem_filter.1 hx).1)

theorem keepStates_eq (A : TA) (live : List ℕ) (hn : A.states.Nodup) : A.keepStates live =
    { A with
      states := A.states.filter (· ∈ live)
      init := A.init.filter (· ∈ live)
      loc := fun p => if p ∈ A.states.filter (· ∈ live) then filterTrans (· ∈ live) (A.loc p)
        else A.loc p } := by
  unfold keepStates
  simp only
  rw [foldl_setLoc (filterTrans (· ∈ live)) _ _ (hn.sublist List.filter_sublist)]

theorem removeDead_states (A : TA) (hw : A.WF) (p : ℕ) :
    p ∈ A.removeTriviallyDeadStates.states ↔ p ∈ A.states ∧ A.CanAccept p := by
  unfold removeTriviallyDeadStates
  simp only
  split
  · rw [keepStates_eq _ _ hw.nodup]
    simp only [List.mem_filter, decide_eq_true_eq]
    constructor
    · rintro ⟨h1, h2⟩; exact ⟨h1, (mem_liveStates A p h1 hw.closed).1 h2⟩
    · rintro ⟨h1, h2⟩; exact ⟨h1, (mem_liveStates A p h1 hw.closed).2 h2⟩
  · rename_i h
    have hperm : A.liveStates.Perm A.states :=
      ((liveStates_nodup A).subperm (liveStates_sub A)).perm_of_length_le (by omega)
    constructor
    · intro hp; exact ⟨hp, (mem_liveStates A p hp hw.closed).1 (hperm.mem_iff.2 hp)⟩
    · exact fun h => h.1

theorem removeDead_accepts (A : TA) (hw : A.WF) (w : TimedWord) :
    A.removeTriviallyDeadStates.Accepts w ↔ A.Accepts w := by
  unfold removeTriviallyDeadStates
  simp only
  split
  · rw [keepStates_eq _ _ hw.nodup]
    refine accepts_filter ?_ ?_ ?_ ?_ ?_ w
    · intro p a t ht
      simp only at ht
      split at ht
      · exact (List.mem_filter.1 ht).1
      · exact ht
    · intro p; simp only; split <;> rfl
    · intro q hq; exact (List.mem_filter.1 hq).1
    · intro q hq hc
      simp only [List.mem_filter, decide_eq_true_eq]
      exact ⟨hq, (mem_liveStates A q (hw.closed.1 q hq) hw.closed).2 hc⟩
    · intro p hp a t ht hc
      simp only
      split
      · rename_i h
        simp only [filterTrans, List.mem_filter, decide_eq_true_eq]
        have hps := (List.mem_filter.1 h).1
        exact ⟨ht, (mem_liveStates A _ (hw.closed.2 p hps a t ht) hw.closed).2 hc⟩
      · exact ht
  · rfl

theorem removeDead_sub (A : TA) (hn : A.states.Nodup) : Sub A.removeTriviallyDeadStates A := by
  unfold removeTriviallyDeadStates
  simp only
  split
  · rw [keepStates_eq _ _ hn]
    refine ⟨List.filter_sublist, fun q hq => (List.mem_filter.1 hq).1, ?_⟩
    intro p hp a
    simp only [show p ∈ A.states.filter (· ∈ A.liveStates) from hp, if_true]
    exact List.filter_sublist
  · exact Sub.refl A

theorem removeDead_wf (A : TA) (hw : A.WF) : A.removeTriviallyDeadStates.WF := by
  have hs := removeDead_sub A hw.nodup
  refine hs.wf hw ?_ ?_
  · constructor
    · intro q hq
      have hqs := hw.closed.1 q (hs.init q hq)
      rw [removeDead_states A hw]
      refine ⟨hqs, ?_⟩
      unfold removeTriviallyDeadStates at hq
      simp only at hq
      split at hq
      · rw [keepStates_eq _ _ hw.nodup] at hq
        simp only [List.mem_filter, decide_eq_true_eq] at hq
        exact (mem_liveStates A q hqs hw.closed).1 hq.2
      · rename_i h
        have hperm : A.liveStates.Perm A.states :=
          ((liveStates_nodup A).subperm (liveStates_sub A)).perm_of_length_le (by omega)
        exact (mem_liveStates A q hqs hw.closed).1 (hperm.mem_iff.2 hqs)
    · intro p hp a t ht
      have hps := hs.states.subset hp
      have hts := hw.closed.2 p hps a t ((hs.next p hp a).subset ht)
      rw [removeDead_states A hw]
      refine ⟨hts, ?_⟩
      unfold removeTriviallyDeadStates at ht hp
      simp only at ht hp
      split at ht
      · rename_i hne
        rw [if_pos hne] at hp
        rw [keepStates_eq _ _ hw.nodup] at ht hp
        simp only [show p ∈ A.states.filter (· ∈ A.liveStates) from hp, if_true] at ht
        simp only [filterTrans, List.mem_filter, decide_eq_true_eq] at ht
        exact (mem_liveStates A _ hts hw.closed).1 ht.2
      · rename_i h
        have hperm : A.liveStates.Perm A.states :=
          ((liveStates_nodup A).subperm (liveStates_sub A)).perm_of_length_le (by omega)
        exact (mem_liveStates A _ hts hw.closed).1 (hperm.mem_iff.2 hts)
  · unfold removeTriviallyDeadStates
    simp only
    split
    · rw [keepStates_eq _ _ hw.nodup]
    · rfl

/-! ### removeDeadLoop -/

theorem onlySelfLoops_iff (A : TA) (p : ℕ) : A.onlySelfLoops p = true ↔
    ∀ a, ∀ t ∈ (A.loc p).next a, t.target = p := by
  simp [onlySelfLoops]

theorem not_canAccept_of_loops (A : TA) (p : ℕ) (hl : ∀ a, ∀ t ∈ (A.loc p).next a, t.target = p)
    (hm : (A.loc p).isMatch = false) : ¬ A.CanAccept p := by
  rintro ⟨q, hr, hq⟩
  have : q = p := by
    clear hq
    induction hr with
    | refl => rfl
    | tail _ hb ih =>
      obtain ⟨a, t, ht, rfl⟩ := hb
      rw [ih] at ht
      exact hl a t ht
  rw [this, hm] at hq; simp at hq

/-- The loop body of `removeDeadLoop`. -/
def deadLoopStep (B : TA) (p : ℕ) : TA :=
  if p ∈ B.init then B
  else if B.onlySelfLoops p then B.setLoc p { B.loc p with next := fun _ => [] } else B

theorem removeDeadLoop_eq (A : TA) : A.removeDeadLoop =
    (A.states.filter fun p => !(A.loc p).isMatch).foldl deadLoopStep A := rfl

theorem deadLoopStep_fields (B : TA) (p : ℕ) : (deadLoopStep B p).states = B.states ∧
    (deadLoopStep B p).init = B.init ∧ (deadLoopStep B p).maxC = B.maxC ∧
    (∀ q, ((deadLoopStep B p).loc q).isMatch = (B.loc q).isMatch) ∧
    ∀ q a, (((deadLoopStep B p).loc q).next a).Sublist ((B.loc q).next a) := by
  unfold deadLoopStep
  split
  · exact ⟨rfl, rfl, rfl, fun _ => rfl, fun _ _ => List.Sublist.refl _⟩
  · split
    · refine ⟨rfl, rfl, rfl, ?_, ?_⟩
      · intro q
        simp only [setLoc]
        by_cases h : q = p
        · subst h; simp
        · simp [h]
      · intro q a
        simp only [setLoc]
        by_cases h : q = p
        · subst h; simp
        · simp [h]
    · exact ⟨rfl, rfl, rfl, fun _ => rfl, fun _ _ => List.Sublist.refl _⟩

theorem deadLoopStep_accepts (B : TA) (p : ℕ) (hm : (B.loc p).isMatch = false) (w : TimedWord) :
    (deadLoopStep B p).Accepts w ↔ B.Accepts w := by
  obtain ⟨h1, h2, h3, h4, h5⟩ := deadLoopStep_fields B p
  refine accepts_filter (fun q a t ht => (h5 q a).subset ht) h4 (by rw [h2]; exact fun _ h => h)
    (by rw [h2]; exact fun _ h _ => h) ?_ w
  intro q hq a t ht hc
  unfold deadLoopStep
  split
  · exact ht
  · split
    · rename_i h
      by_cases hqp : q = p
      · subst hqp
        exact absurd hq (not_canAccept_of_loops B q ((onlySelfLoops_iff B q).1 h) hm)
      · simp [setLoc, hqp, ht]
    · exact ht

theorem deadLoop_foldl (l : List ℕ) (A : TA) (hm : ∀ p ∈ l, (A.loc p).isMatch = false) :
    (∀ w, (l.foldl deadLoopStep A).Accepts w ↔ A.Accepts w) ∧ Sub (l.foldl deadLoopStep A) A ∧
      (l.foldl deadLoopStep A).states = A.states ∧ (l.foldl deadLoopStep A).init = A.init ∧
      (l.foldl deadLoopStep A).maxC = A.maxC := by
  induction l generalizing A with
  | nil => exact ⟨fun _ => Iff.rfl, Sub.refl A, rfl, rfl, rfl⟩
  | cons p l ih =>
    obtain ⟨h1, h2, h3, h4, h5⟩ := deadLoopStep_fields A p
    obtain ⟨i1, i2, i3, i4, i5⟩ := ih (deadLoopStep A p) (fun q hq => by
      rw [h4]; exact hm q (by simp [hq]))
    refine ⟨fun w => (i1 w).trans (deadLoopStep_accepts A p (hm p (by simp)) w), ?_, i3.trans h1,
      i4.trans h2, i5.trans h3⟩
    refine i2.trans ⟨by rw [h1], by rw [h2]; exact fun _ h => h, fun q _ a => h5 q a⟩

theorem removeDeadLoop_spec (A : TA) :
    (∀ w, A.removeDeadLoop.Accepts w ↔ A.Accepts w) ∧ Sub A.removeDeadLoop A ∧
      A.removeDeadLoop.states = A.states ∧ A.removeDeadLoop.init = A.init ∧
      A.removeDeadLoop.maxC = A.maxC := by
  rw [removeDeadLoop_eq]
  refine deadLoop_foldl _ A ?_
  intro p hp
  simpa using (List.mem_filter.1 hp).2

theorem removeDeadLoop_wf (A : TA) (hw : A.WF) : A.removeDeadLoop.WF := by
  obtain ⟨-, h2, h3, h4, h5⟩ := removeDeadLoop_spec A
  refine h2.wf hw ⟨?_, ?_⟩ h5
  · rw [h3, h4]; exact hw.closed.1
  · intro p hp a t ht
    rw [h3]
    exact hw.closed.2 p (h2.states.subset hp) a t ((h2.next p hp a).subset ht)

/-! ### removeUselessTransitions -/

theorem removeUselessStep_eq (A : TA) (p : ℕ) (hn : A.states.Nodup) : A.removeUselessStep p =
    if p ∈ A.init ∨ A.onlySelfLoops p = false then A
    else { A with
      states := A.states.filter (· ≠ p)
      loc := fun q => if q ∈ A.states.filter (· ≠ p) then filterTrans (· ≠ p) (A.loc q)
        else A.loc q } := by
  unfold removeUselessStep
  by_cases h1 : p ∈ A.init
  · simp [h1]
  · by_cases h2 : A.onlySelfLoops p = true
    · rw [if_neg h1, if_pos h2, if_neg (by simp [h1, h2])]
      simp only
      rw [foldl_setLoc (filterTrans (· ≠ p)) _ _ (hn.sublist List.filter_sublist)]
    · rw [if_neg h1, if_neg h2, if_pos (by simp [h2])]

theorem removeUselessStep_spec (A : TA) (p : ℕ) (hw : A.WF) (hm : (A.loc p).isMatch = false) :
    (∀ w, (A.removeUselessStep p).Accepts w ↔ A.Accepts w) ∧ Sub (A.removeUselessStep p) A ∧
      (A.removeUselessStep p).WF ∧ (A.removeUselessStep p).init = A.init ∧
      ∀ q, ((A.removeUselessStep p).loc q).isMatch = (A.loc q).isMatch := by
  rw [removeUselessStep_eq A p hw.nodup]
  split
  · exact ⟨fun _ => Iff.rfl, Sub.refl A, hw, rfl, fun _ => rfl⟩
  · rename_i h
    push Not at h
    obtain ⟨hi, hl⟩ := h
    have hl' : ∀ a, ∀ t ∈ (A.loc p).next a, t.target = p :=
      (onlySelfLoops_iff A p).1 (by simpa using hl)
    have hdead := not_canAccept_of_loops A p hl' hm
    have hsub : Sub { A with
        states := A.states.filter (· ≠ p)
        loc := fun q => if q ∈ A.states.filter (· ≠ p) then filterTrans (· ≠ p) (A.loc q)
          else A.loc q } A := by
      refine ⟨List.filter_sublist, fun _ h => h, ?_⟩
      intro q hq a
      simp only [show q ∈ A.states.filter (· ≠ p) from hq, if_true]
      exact List.filter_sublist
    refine ⟨?_, hsub, ?_, rfl, ?_⟩
    · refine accepts_filter ?_ ?_ (fun _ h => h) (fun _ h _ => h) ?_
      · intro q a t ht
        simp only at ht
        split at ht
        · exact (List.mem_filter.1 ht).1
        · exact ht
      · intro q; simp only; split <;> rfl
      · intro q hq a t ht hc
        simp only
        split
        · simp only [filterTrans, List.mem_filter, decide_eq_true_eq]
          refine ⟨ht, ?_⟩
          intro e
          rw [e] at hc
          exact hdead hc
        · exact ht
    · refine hsub.wf hw ⟨?_, ?_⟩ rfl
      · intro q hq
        simp only [List.mem_filter, decide_eq_true_eq]
        refine ⟨hw.closed.1 q hq, ?_⟩
        rintro rfl; exact hi hq
      · intro q hq a t ht
        have hts := hw.closed.2 q (hsub.states.subset hq) a t ((hsub.next q hq a).subset ht)
        simp only [show q ∈ A.states.filter (· ≠ p) from hq, if_true] at ht
        simp only [filterTrans, List.mem_filter, decide_eq_true_eq] at ht ⊢
        exact ⟨hts, ht.2⟩
    · intro q; simp only; split <;> rfl

theorem removeUseless_foldl (l : List ℕ) (A : TA) (hw : A.WF)
    (hm : ∀ p ∈ l, (A.loc p).isMatch = false) :
    (∀ w, (l.foldl removeUselessStep A).Accepts w ↔ A.Accepts w) ∧
      Sub (l.foldl removeUselessStep A) A ∧ (l.foldl removeUselessStep A).WF ∧
      (l.foldl removeUselessStep A).init = A.init := by
  induction l generalizing A with
  | nil => exact ⟨fun _ => Iff.rfl, Sub.refl A, hw, rfl⟩
  | cons p l ih =>
    obtain ⟨h1, h2, h3, h4, h5⟩ := removeUselessStep_spec A p hw (hm p (by simp))
    obtain ⟨i1, i2, i3, i4⟩ := ih _ h3 (fun q hq => by rw [h5]; exact hm q (by simp [hq]))
    exact ⟨fun w => (i1 w).trans (h1 w), i2.trans h2, i3, i4.trans h4⟩

theorem removeUseless_spec (A : TA) (hw : A.WF) :
    (∀ w, A.removeUselessTransitions.Accepts w ↔ A.Accepts w) ∧
      Sub A.removeUselessTransitions A ∧ A.removeUselessTransitions.WF ∧
      A.removeUselessTransitions.init = A.init := by
  refine removeUseless_foldl _ A hw ?_
  intro p hp
  simpa using (List.mem_filter.1 hp).2

end TA
end LearnTA
