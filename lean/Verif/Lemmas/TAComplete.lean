import Verif.Lemmas.TAClocks

namespace LearnTA

namespace Guard

/-- The constants are small and the clocks below `N`. -/
def Within (N : ℕ) (g : Guard) : Prop := ∀ c ∈ g, c.c < intMax ∧ c.x < N

theorem Within.small {N : ℕ} {g : Guard} (h : Within N g) : g.Small := fun c hc => (h c hc).1

theorem toBounds_size {N : ℕ} (g : Guard) (h : Within N g) : (toBounds g).size ≤ N := by
  unfold toBounds
  have : ∀ (g : Guard) (b : BoundsVec), Within N g → b.size ≤ N →
      (g.foldl BoundsVec.step b).size ≤ N := by
    intro g
    induction g with
    | nil => intro b _ h; exact h
    | cons c g ih =>
      intro b hg hb
      refine ih _ (fun c' h' => hg c' (by simp [h'])) ?_
      have := (hg c (by simp)).2
      have : (b.step c).size = max b.size (c.x + 1) := by
        unfold BoundsVec.step
        dsimp only
        split <;> split <;> rfl
      rw [this]; omega
  exact this g _ h (by simp [BoundsVec.init])

theorem simplify_within {N : ℕ} (g : Guard) (h : Within N g) : Within N (simplify g) := by
  intro c hc
  refine ⟨simplify_small g h.small c hc, ?_⟩
  have hs := toBounds_size g h
  unfold simplify at hc
  simp only [List.mem_append, List.mem_filterMap, List.mem_range] at hc
  rcases hc with ⟨i, hi, hc⟩ | ⟨i, hi, hc⟩ <;>
  · split at hc
    · simp only [Option.some.injEq] at hc
      subst hc
      split <;> (dsimp only; omega)
    · simp at hc

theorem negateAll_within {N : ℕ} (g : Guard) (h : Within N g) : Within N (negateAll g) := by
  intro c hc
  simp only [negateAll, List.mem_map] at hc
  obtain ⟨c', hc', rfl⟩ := hc
  have := h c' hc'
  rcases c' with ⟨x, o, c⟩
  cases o <;> simpa [Constraint.negate] using this

theorem negateStep_within {N : ℕ} (s : Bool × List Guard) (d : List Constraint)
    (hd : Within N d) (hs : ∀ g ∈ s.2, Within N g) : ∀ g ∈ (negateStep s d).2, Within N g := by
  unfold negateStep
  split
  · exact hs
  · split
    · intro g hg
      simp only [List.mem_map] at hg
      obtain ⟨c, hc, rfl⟩ := hg
      intro c' hc'
      simp only [List.mem_singleton] at hc'
      subst hc'; exact hd c' hc
    · intro g hg
      rcases mem_pruneWeaker hg with h | h
      · simp at h
      · simp only [List.mem_flatMap, List.mem_filterMap] at h
        obtain ⟨c, hc, conj, hconj, h⟩ := h
        split at h
        · simp only [Option.some.injEq] at h; subst h
          refine simplify_within _ ?_
          intro c' hc'
          simp only [List.mem_append, List.mem_singleton] at hc'
          rcases hc' with h | h
          · exact hs conj hconj c' h
          · subst h; exact hd c' hc
        · simp at h

theorem negateDNF_within {N : ℕ} (dnf : List Guard) (h : ∀ g ∈ dnf, Within N g) :
    ∀ g ∈ negateDNF dnf, Within N g := by
  unfold negateDNF
  have : ∀ (ds : List (List Constraint)) (s : Bool × List Guard), (∀ d ∈ ds, Within N d) →
      (∀ g ∈ s.2, Within N g) → ∀ g ∈ (ds.foldl negateStep s).2, Within N g := by
    intro ds
    induction ds with
    | nil => intro s _ h; exact h
    | cons d ds ih =>
      intro s hds hs
      exact ih _ (fun d' h' => hds d' (by simp [h'])) (negateStep_within s d (hds d (by simp)) hs)
  refine this _ _ ?_ (by simp)
  intro d hd
  simp only [List.mem_map] at hd
  obtain ⟨g, hg, rfl⟩ := hd
  exact negateAll_within g (h g hg)

end Guard

namespace TA

/-- Some transition of the list is enabled. -/
def Enabled (ts : List Trans) (v : Valuation) : Prop := ∃ t ∈ ts, t.guard.Holds v

/-- The transitions in `extra` go to the sink without updates; one of them is enabled exactly when
no transition of `ts` is. -/
structure Fills (N sink : ℕ) (ts extra : List Trans) : Prop where
  shape : ∀ t ∈ extra, t.target = sink ∧ t.resets = [] ∧ t.guard.Within N
  compl : ∀ v : Valuation, v.Nonneg → (Enabled extra v ↔ ¬ Enabled ts v)

theorem completeAction_spec (N sink : ℕ) (s : TAState) (a : Action)
    (hN : ∀ t ∈ s.next a, t.guard.Within N) :
    ∃ extra, completeAction sink [] s a = s.setNext a (s.next a ++ extra) ∧
      Fills N sink (s.next a) extra := by
  unfold completeAction
  cases hts : s.next a with
  | nil =>
    refine ⟨[⟨sink, [], []⟩], by simp, ?_, ?_⟩
    · simp [Guard.Within]
    · intro v _
      simp [Enabled, Guard.Holds]
  | cons t ts =>
    simp only [List.isEmpty_nil, List.isEmpty_cons, Bool.and_false, Bool.false_eq_true, if_false,
      Bool.not_false, if_true]
    have hself : ∀ l, l = s.next a → s = s.setNext a l := by
      rintro l rfl; simp [TAState.setNext]
    by_cases hany : (t :: ts).any (fun t => t.guard.isEmpty) = true
    · refine ⟨[], ?_, by simp, ?_⟩
      · simp only [collectGuards, hany, if_true, List.isEmpty_nil]
        exact hself _ (by rw [hts]; simp)
      · intro v _
        simp only [Enabled, List.not_mem_nil, false_and, exists_false, false_iff, not_not]
        rw [List.any_eq_true] at hany
        obtain ⟨u, hu, he⟩ := hany
        refine ⟨u, hu, ?_⟩
        rw [List.isEmpty_iff] at he
        rw [he]; simp [Guard.Holds]
    · rw [collectGuards, if_neg hany]
      simp only [List.nil_append, List.map_cons, List.isEmpty_cons, Bool.false_eq_true, if_false]
      refine ⟨_, rfl, ?_, ?_⟩
      · intro u hu
        simp only [List.mem_map] at hu
        obtain ⟨g, hg, rfl⟩ := hu
        refine ⟨rfl, rfl, ?_⟩
        refine Guard.negateDNF_within _ ?_ g hg
        intro g' hg'
        rw [← List.map_cons (f := Trans.guard), List.mem_map] at hg'
        obtain ⟨u, hu, rfl⟩ := hg'
        exact hN u (by rw [hts]; exact hu)
      · intro v hv
        have := Guard.negateDNF_holds ((t :: ts).map Trans.guard) v (by simp) (by
            intro g hg
            rw [List.mem_map] at hg
            obtain ⟨u, hu, rfl⟩ := hg
            rw [List.any_eq_true] at hany
            push Not at hany
            intro e
            exact hany u hu (by rw [e]; rfl)) (by
            intro g hg
            rw [List.mem_map] at hg
            obtain ⟨u, hu, rfl⟩ := hg
            exact (hN u (by rw [hts]; exact hu)).small) hv
        simp only [DNF.Holds] at this
        constructor
        · rintro ⟨u, hu, hg⟩ ⟨u', hu', hg'⟩
          simp only [List.mem_map] at hu
          obtain ⟨g, hgm, rfl⟩ := hu
          exact this.1 ⟨g, by simpa using hgm, hg⟩ ⟨u'.guard, List.mem_map_of_mem hu', hg'⟩
        · intro hno
          obtain ⟨g, hg, hgv⟩ := this.2 (by
            rintro ⟨g, hg, hgv⟩
            rw [List.mem_map] at hg
            obtain ⟨u, hu, rfl⟩ := hg
            exact hno ⟨u, hu, hgv⟩)
          exact ⟨⟨sink, [], g⟩, List.mem_map.2 ⟨g, by simpa using hg, rfl⟩, hgv⟩

/-- What `completeState` does to a state without silent transitions. -/
theorem completeState_spec (N sink : ℕ) (alphabet : List Action) (s : TAState)
    (he : s.next unobservable = []) (hN : ∀ a, ∀ t ∈ s.next a, t.guard.Within N) :
    (completeState sink alphabet s).isMatch = s.isMatch ∧
    ∀ a, if a ∈ alphabet then ∃ extra, (completeState sink alphabet s).next a = s.next a ++ extra ∧
        Fills N sink (s.next a) extra
      else (completeState sink alphabet s).next a = s.next a := by
  unfold completeState
  rw [he]
  have h0 : collectGuards [] [] = [] := rfl
  rw [h0]
  clear he h0
  induction alphabet generalizing s with
  | nil => simp
  | cons b l ih =>
    rw [List.foldl_cons]
    obtain ⟨extra, heq, hfill⟩ := completeAction_spec N sink s b (hN b)
    rw [heq]
    have hN' : ∀ a, ∀ t ∈ (s.setNext b (s.next b ++ extra)).next a, t.guard.Within N := by
      intro a t ht
      by_cases hab : a = b
      · subst hab
        simp only [TAState.setNext, Function.update_self, List.mem_append] at ht
        rcases ht with ht | ht
        · exact hN a t ht
        · exact (hfill.shape t ht).2.2
      · simp only [TAState.setNext, Function.update_of_ne hab] at ht
        exact hN a t ht
    obtain ⟨h1, h2⟩ := ih (s.setNext b (s.next b ++ extra)) hN'
    refine ⟨h1, ?_⟩
    intro a
    have h2a := h2 a
    by_cases hab : a = b
    · subst hab
      simp only [List.mem_cons, true_or, if_true]
      simp only [TAState.setNext, Function.update_self] at h2a
      by_cases hal : a ∈ l
      · rw [if_pos hal] at h2a
        obtain ⟨extra2, e2, f2⟩ := h2a
        refine ⟨extra ++ extra2, by rw [← List.append_assoc]; exact e2, ?_, ?_⟩
        · intro t ht
          rw [List.mem_append] at ht
          rcases ht with ht | ht
          · exact hfill.shape t ht
          · exact f2.shape t ht
        · intro v hv
          have g1 := hfill.compl v hv
          have g2 := f2.compl v hv
          have hsplit : ∀ l1 l2 : List Trans, Enabled (l1 ++ l2) v ↔ Enabled l1 v ∨ Enabled l2 v := by
            intro l1 l2
            simp only [Enabled, List.mem_append]
            constructor
            · rintro ⟨t, ht | ht, h⟩
              · exact Or.inl ⟨t, ht, h⟩
              · exact Or.inr ⟨t, ht, h⟩
            · rintro (⟨t, ht, h⟩ | ⟨t, ht, h⟩)
              · exact ⟨t, Or.inl ht, h⟩
              · exact ⟨t, Or.inr ht, h⟩
          rw [hsplit] at g2 ⊢
          tauto
      · rw [if_neg hal] at h2a
        exact ⟨extra, h2a, hfill⟩
    · simp only [List.mem_cons, hab, false_or]
      simp only [TAState.setNext, Function.update_of_ne hab] at h2a
      exact h2a

theorem makeComplete_eq (A : TA) (alphabet : List Action) (hn : A.states.Nodup) :
    A.makeComplete alphabet =
    { A with
      states := A.states ++ [A.fresh]
      init := if A.init.isEmpty then [A.fresh] else A.init
      loc := fun p =>
        if p ∈ A.states then completeState A.fresh alphabet (A.loc p)
        else if p = A.fresh then completeState A.fresh alphabet ⟨false, fun _ => []⟩
        else A.loc p } := by
  unfold makeComplete
  simp only
  rw [foldl_setLoc (completeState A.fresh alphabet)]
  · simp only [setLoc, TA.mk.injEq, and_true]
    funext p
    by_cases hp : p ∈ A.states
    · have : p ≠ A.fresh := (lt_fresh A hp).ne
      simp [hp, this]
    · by_cases hf : p = A.fresh
      · subst hf; simp [hp]
      · simp [hp, hf]
  · rw [List.nodup_append]
    refine ⟨hn, by simp, ?_⟩
    intro a ha b hb
    simp only [List.mem_singleton] at hb
    subst hb
    exact (lt_fresh A ha).ne

section
variable (A : TA) (alphabet : List Action)

theorem wf_within (hw : A.WF) {p : ℕ} (hp : p ∈ A.states) :
    ∀ a, ∀ t ∈ (A.loc p).next a, t.guard.Within A.clockSize := by
  intro a t ht c hc
  exact ⟨hw.small p hp a t ht c hc, (hw.clocks p hp a t ht).1 c hc⟩

/-- The content of the old states after completion. -/
theorem makeComplete_old (hw : A.WF) (he : A.EpsFree) {p : ℕ} (hp : p ∈ A.states) :
    ((A.makeComplete alphabet).loc p).isMatch = (A.loc p).isMatch ∧
    ∀ a, if a ∈ alphabet then ∃ extra, ((A.makeComplete alphabet).loc p).next a =
        (A.loc p).next a ++ extra ∧ Fills A.clockSize A.fresh ((A.loc p).next a) extra
      else ((A.makeComplete alphabet).loc p).next a = (A.loc p).next a := by
  rw [makeComplete_eq A alphabet hw.nodup]
  simp only [hp, if_true]
  exact completeState_spec A.clockSize A.fresh alphabet (A.loc p) (he p hp) (wf_within A hw hp)

/-- The content of the sink. -/
theorem makeComplete_sink (hw : A.WF) :
    ((A.makeComplete alphabet).loc A.fresh).isMatch = false ∧
    ∀ a, if a ∈ alphabet then Fills A.clockSize A.fresh []
        (((A.makeComplete alphabet).loc A.fresh).next a)
      else ((A.makeComplete alphabet).loc A.fresh).next a = [] := by
  have hns : A.fresh ∉ A.states := fun h => absurd (lt_fresh A h) (lt_irrefl _)
  rw [makeComplete_eq A alphabet hw.nodup]
  simp only [hns, if_true, if_false]
  have := completeState_spec A.clockSize A.fresh alphabet ⟨false, fun _ => []⟩ rfl (by simp)
  refine ⟨this.1, ?_⟩
  intro a
  have h2 := this.2 a
  split at h2
  · rename_i h
    obtain ⟨extra, e, f⟩ := h2
    rw [if_pos h, e]
    exact f
  · rename_i h
    rw [if_neg h]; exact h2

theorem makeComplete_states (hn : A.states.Nodup) :
    (A.makeComplete alphabet).states = A.states ++ [A.fresh] := by
  rw [makeComplete_eq A alphabet hn]

/-- Every transition after completion is an old one of an old state or goes to the sink. -/
theorem makeComplete_next (hw : A.WF) (he : A.EpsFree) {p : ℕ}
    (hp : p ∈ (A.makeComplete alphabet).states) {a : Action} {t : Trans}
    (ht : t ∈ ((A.makeComplete alphabet).loc p).next a) :
    (p ∈ A.states ∧ t ∈ (A.loc p).next a) ∨
      (a ∈ alphabet ∧ t.target = A.fresh ∧ t.resets = [] ∧ t.guard.Within A.clockSize ∧
        ∀ v : Valuation, v.Nonneg → t.guard.Holds v →
          p = A.fresh ∨ (p ∈ A.states ∧ ¬ Enabled ((A.loc p).next a) v)) := by
  rw [makeComplete_states A alphabet hw.nodup, List.mem_append, List.mem_singleton] at hp
  rcases hp with hp | rfl
  · have := (makeComplete_old A alphabet hw he hp).2 a
    split at this
    · rename_i ha
      obtain ⟨extra, e, f⟩ := this
      rw [e, List.mem_append] at ht
      rcases ht with ht | ht
      · exact Or.inl ⟨hp, ht⟩
      · obtain ⟨h1, h2, h3⟩ := f.shape t ht
        exact Or.inr ⟨ha, h1, h2, h3, fun v hv hg => Or.inr ⟨hp, (f.compl v hv).1 ⟨t, ht, hg⟩⟩⟩
    · rw [this] at ht; exact Or.inl ⟨hp, ht⟩
  · have := (makeComplete_sink A alphabet hw).2 a
    split at this
    · rename_i ha
      obtain ⟨h1, h2, h3⟩ := this.shape t ht
      exact Or.inr ⟨ha, h1, h2, h3, fun _ _ _ => Or.inl rfl⟩
    · rw [this] at ht; simp at ht

theorem makeComplete_wf (hw : A.WF) (he : A.EpsFree) : (A.makeComplete alphabet).WF := by
  have hst := makeComplete_states A alphabet hw.nodup
  have hcs : (A.makeComplete alphabet).clockSize = A.clockSize := by
    rw [makeComplete_eq A alphabet hw.nodup]; rfl
  have hfresh : A.fresh ∈ (A.makeComplete alphabet).states := by rw [hst]; simp
  have hold : ∀ p ∈ A.states, p ∈ (A.makeComplete alphabet).states := by
    intro p hp; rw [hst]; simp [hp]
  refine ⟨?_, ⟨?_, ?_⟩, ?_, ?_, ?_⟩
  · rw [hst, List.nodup_append]
    refine ⟨hw.nodup, by simp, ?_⟩
    intro a ha b hb
    simp only [List.mem_singleton] at hb
    subst hb
    exact (lt_fresh A ha).ne
  · intro q hq
    have hi : (A.makeComplete alphabet).init = if A.init.isEmpty then [A.fresh] else A.init := by
      rw [makeComplete_eq A alphabet hw.nodup]
    rw [hi] at hq
    split at hq
    · simp only [List.mem_singleton] at hq; subst hq; exact hfresh
    · exact hold q (hw.closed.1 q hq)
  · intro p hp a t ht
    rcases makeComplete_next A alphabet hw he hp ht with ⟨h1, h2⟩ | ⟨-, h, -⟩
    · exact hold _ (hw.closed.2 p h1 a t h2)
    · rw [h]; exact hfresh
  · intro p hp a t ht
    rw [hcs]
    rcases makeComplete_next A alphabet hw he hp ht with ⟨h1, h2⟩ | ⟨-, -, h2, h3, -⟩
    · exact hw.clocks p h1 a t h2
    · exact ⟨fun c hc => (h3 c hc).2, by rw [h2]; simp⟩
  · intro p hp a t ht
    rcases makeComplete_next A alphabet hw he hp ht with ⟨h1, h2⟩ | ⟨-, -, h2, h3, -⟩
    · exact hw.resets p h1 a t h2
    · rw [h2]; simp
  · intro p hp a t ht
    rcases makeComplete_next A alphabet hw he hp ht with ⟨h1, h2⟩ | ⟨-, -, h2, h3, -⟩
    · exact hw.small p h1 a t h2
    · exact h3.small

theorem makeComplete_epsFree (hw : A.WF) (he : A.EpsFree) (hu : unobservable ∉ alphabet) :
    (A.makeComplete alphabet).EpsFree := by
  intro p hp
  rw [List.eq_nil_iff_forall_not_mem]
  intro t ht
  rcases makeComplete_next A alphabet hw he hp ht with ⟨h1, h2⟩ | ⟨h, -⟩
  · rw [he p h1] at h2; simp at h2
  · exact hu h

theorem makeComplete_confluent (hw : A.WF) (he : A.EpsFree) (hc : A.Confluent) :
    (A.makeComplete alphabet).Confluent := by
  intro p hp a t ht u hu v hv h1 h2
  rcases makeComplete_next A alphabet hw he hp ht with ⟨t1, t2⟩ | ⟨-, t1, t2, -, t3⟩ <;>
  rcases makeComplete_next A alphabet hw he hp hu with ⟨u1, u2⟩ | ⟨-, u1, u2, -, u3⟩
  · exact hc p t1 a t t2 u u2 v hv h1 h2
  · rcases u3 v hv h2 with rfl | ⟨-, h⟩
    · exact absurd (lt_fresh A t1) (lt_irrefl _)
    · exact absurd ⟨t, t2, h1⟩ h
  · rcases t3 v hv h1 with rfl | ⟨-, h⟩
    · exact absurd (lt_fresh A u1) (lt_irrefl _)
    · exact absurd ⟨u, u2, h2⟩ h
  · exact ⟨by rw [t1, u1], by rw [t2, u2]⟩

/-- After completion some transition is enabled for every action of the alphabet. -/
theorem makeComplete_enabled (hw : A.WF) (he : A.EpsFree) {p : ℕ}
    (hp : p ∈ (A.makeComplete alphabet).states) {a : Action} (ha : a ∈ alphabet) (v : Valuation)
    (hv : v.Nonneg) : ∃ t ∈ ((A.makeComplete alphabet).loc p).next a, t.guard.Holds v := by
  rw [makeComplete_states A alphabet hw.nodup, List.mem_append, List.mem_singleton] at hp
  rcases hp with hp | rfl
  · have := (makeComplete_old A alphabet hw he hp).2 a
    rw [if_pos ha] at this
    obtain ⟨extra, e, f⟩ := this
    rw [e]
    by_cases h : Enabled ((A.loc p).next a) v
    · obtain ⟨t, ht, hg⟩ := h
      exact ⟨t, by simp [ht], hg⟩
    · obtain ⟨t, ht, hg⟩ := (f.compl v hv).2 h
      exact ⟨t, by simp [ht], hg⟩
  · have := (makeComplete_sink A alphabet hw).2 a
    rw [if_pos ha] at this
    exact (this.compl v hv).2 (by simp [Enabled])

theorem makeComplete_accepts (hw : A.WF) (he : A.EpsFree) (w : TimedWord) :
    (A.makeComplete alphabet).Accepts w ↔ A.Accepts w := by
  have hinit : (A.makeComplete alphabet).init = if A.init.isEmpty then [A.fresh] else A.init := by
    rw [makeComplete_eq A alphabet hw.nodup]
  have hfs : A.fresh ∈ (A.makeComplete alphabet).states := by
    rw [makeComplete_states A alphabet hw.nodup]; simp
  constructor
  · rintro ⟨q, hq, c, hs, hm⟩
    have key : ∀ {c c' : Config} {es : List Event}, (A.makeComplete alphabet).Steps c es c' →
        ((A.makeComplete alphabet).loc c'.loc).isMatch = true →
        (c.loc = A.fresh → False) ∧ (c.loc ∈ A.states → A.Steps c es c' ∧
          (A.loc c'.loc).isMatch = true) := by
      intro c c' es h hm
      have aux : ∀ {c : Config} {es : List Event} (a : Action) (t : Trans)
          (_ : t ∈ ((A.makeComplete alphabet).loc c.loc).next a)
          (_ : (t.target = A.fresh → False)), (c.loc = A.fresh → False) ∧
            (c.loc ∈ A.states → t ∈ (A.loc c.loc).next a ∧ t.target ∈ A.states) := by
        intro c es a t ht hf
        constructor
        · intro hc
          rw [hc] at ht
          rcases makeComplete_next A alphabet hw he hfs ht with ⟨h1, -⟩ | ⟨-, h, -⟩
          · exact absurd (lt_fresh A h1) (lt_irrefl _)
          · exact hf h
        · intro hc
          have : c.loc ∈ (A.makeComplete alphabet).states := by
            rw [makeComplete_states A alphabet hw.nodup]; simp [hc]
          rcases makeComplete_next A alphabet hw he this ht with ⟨h1, h2⟩ | ⟨-, h, -⟩
          · exact ⟨h2, hw.closed.2 _ h1 a t h2⟩
          · exact absurd h hf
      induction h with
      | nil c =>
        refine ⟨?_, ?_⟩
        · intro hc; rw [hc, (makeComplete_sink A alphabet hw).1] at hm; simp at hm
        · intro hc
          refine ⟨.nil c, ?_⟩
          rw [← (makeComplete_old A alphabet hw he hc).1]; exact hm
      | eps t ht hg h ih =>
        obtain ⟨i1, i2⟩ := ih hm
        obtain ⟨a1, a2⟩ := aux (es := []) unobservable t ht i1
        refine ⟨a1, fun hc => ?_⟩
        obtain ⟨b1, b2⟩ := a2 hc
        exact ⟨.eps t b1 hg (i2 b2).1, (i2 b2).2⟩
      | delay d hd h ih =>
        obtain ⟨i1, i2⟩ := ih hm
        exact ⟨i1, fun hc => ⟨.delay d hd (i2 hc).1, (i2 hc).2⟩⟩
      | split d1 d2 h1 h2 h ih =>
        obtain ⟨i1, i2⟩ := ih hm
        exact ⟨i1, fun hc => ⟨.split d1 d2 h1 h2 (i2 hc).1, (i2 hc).2⟩⟩
      | act a ha t ht hg h ih =>
        obtain ⟨i1, i2⟩ := ih hm
        obtain ⟨a1, a2⟩ := aux (es := []) a t ht i1
        refine ⟨a1, fun hc => ?_⟩
        obtain ⟨b1, b2⟩ := a2 hc
        exact ⟨.act a ha t b1 hg (i2 b2).1, (i2 b2).2⟩
    obtain ⟨k1, k2⟩ := key hs hm
    rw [hinit] at hq
    split at hq
    · simp only [List.mem_singleton] at hq
      exact absurd hq k1
    · obtain ⟨k3, k4⟩ := k2 (hw.closed.1 q hq)
      exact ⟨q, hq, c, k3, k4⟩
  · rintro ⟨q, hq, c, hs, hm⟩
    refine accepts_of_sim (A := A) (fun c d => c = d ∧ c.loc ∈ A.states) ?_ ?_ ?_ ?_ ⟨q, hq, c, hs, hm⟩
    · intro q hq
      refine ⟨q, ?_, rfl, hw.closed.1 q hq⟩
      rw [hinit, if_neg]
      · exact hq
      · intro h; rw [List.isEmpty_iff] at h; rw [h] at hq; simp at hq
    · rintro c d q ⟨rfl, h⟩ _; exact ⟨rfl, h⟩
    · rintro c d ⟨rfl, h⟩ a t ht hg
      refine ⟨t, ?_, hg, rfl, hw.closed.2 _ h a t ht⟩
      have := (makeComplete_old A alphabet hw he h).2 a
      split at this
      · obtain ⟨extra, e, -⟩ := this
        rw [e]; simp [ht]
      · rw [this]; exact ht
    · rintro c d ⟨rfl, h⟩ hm
      rw [(makeComplete_old A alphabet hw he h).1]; exact hm

end
end TA
end LearnTA
