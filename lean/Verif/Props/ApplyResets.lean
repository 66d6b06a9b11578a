import Verif.Lemmas.ApplyConstants
import Verif.Lemmas.NeighborInv
import Verif.Props.Neighbor

/-!
# C72: conditions after updates
-/

namespace LearnTA.Props
open LearnTA

/-- **C72** `applyResets(resets, targetClockSize)` of a satisfiable condition: the result holds exactly for the valuations
that come from a valuation of the condition: copied and kept clocks have the value of their source, and assigned clocks are
in the intervals of their constants, also relative to each other. -/
theorem C72_applyResets (c : TimedCondition) (hd : 1 ≤ c.zone.dim) (hne : ∃ w, c.zone.Mem w) (r : Resets)
    (hr : (r.map Prod.fst).Nodup) (n : ℕ) (h1 : ∀ x < n, ∀ y, (x, .clock y) ∈ r → y < c.size)
    (h2 : ∀ x < n, (∀ a, (x, a) ∉ r) → x < c.size) :
    ∃ c', c.applyResets r n = some c' ∧ c'.size = n ∧
      ∀ u : Valuation, c'.zone.Mem u ↔ ∃ w, c.zone.Mem w ∧ r.After n w u := by
  obtain ⟨c', e, e1, _, e3⟩ := TimedCondition.applyResets_spec hd hne hr h1 h2
  exact ⟨c', e, by unfold TimedCondition.size; rw [e1]; rfl, e3⟩

/-- The valuations after the updates of the runs satisfy `After`. -/
theorem after_apply {r : Resets} (hr : (r.map Prod.fst).Nodup) (n : ℕ) (w : Valuation) : r.After n w (r.apply w) := by
  refine ⟨fun x _ => ⟨fun q hq => ?_, fun y hy => ?_, fun ha => ?_⟩, ?_⟩
  · rw [Resets.apply_mem hr hq]; exact SameInterval.refl _
  · rw [Resets.apply_mem hr hy]; rfl
  · rw [Resets.apply_not_mem ha]
  · intro x _ y _ q p hq hp
    rw [Resets.apply_mem hr hq, Resets.apply_mem hr hp]; exact SameInterval.refl _

/-- **C72** The result contains the values after the updates of all valuations of the condition; if the constants are
integers, it contains (on the clocks of the target) nothing else. -/
theorem C72_images (c c' : TimedCondition) (hd : 1 ≤ c.zone.dim) (hne : ∃ w, c.zone.Mem w) (r : Resets)
    (hr : (r.map Prod.fst).Nodup) (n : ℕ) (h : c.applyResets r n = some c') :
    (∀ w, c.zone.Mem w → c'.zone.Mem (r.apply w)) ∧
      ((∀ (x : ℕ) (q : ℚ), (x, .const q) ∈ r → ∃ k : ℤ, q = k) → ∀ u, c'.zone.Mem u → ∃ w, c.zone.Mem w ∧ ∀ x < n, u x = r.apply w x) := by
  obtain ⟨h1, h2⟩ := TimedCondition.applyResets_some hr h
  obtain ⟨c2, e, _, e3⟩ := C72_applyResets c hd hne r hr n h1 h2
  rw [h] at e
  obtain rfl := Option.some.inj e
  refine ⟨fun w hw => (e3 _).2 ⟨w, hw, after_apply hr n w⟩, fun hk u hu => ?_⟩
  obtain ⟨w, hw, ha, _⟩ := (e3 u).1 hu
  refine ⟨w, hw, fun x hx => ?_⟩
  by_cases hx' : ∃ a, (x, a) ∈ r
  · obtain ⟨a, hm⟩ := hx'
    rw [Resets.apply_mem hr hm]
    cases a with
    | clock y => exact (ha x hx).2.1 y hm
    | const q =>
      obtain ⟨k, rfl⟩ := hk x q hm
      have := (ha x hx).1 _ hm
      have h1 := Int.floor_le (u x)
      have h2 := Int.le_ceil (u x)
      rw [← this.1, Int.floor_intCast] at h1
      rw [← this.2, Int.ceil_intCast] at h2
      exact le_antisymm h2 h1
  · push Not at hx'
    rw [Resets.apply_not_mem hx']
    exact (ha x hx).2.2 hx'

/-- **C72** `applyResets` of a regional elementary language: the region of a valuation that comes from one of the language. -/
theorem C72_region (L L' : ForwardRegional) (hL : L.Built) (word : List Action) (ho : ∀ a ∈ word, a ≠ unobservable) (r : Resets)
    (hr : (r.map Prod.fst).Nodup) (n : ℕ) (h : L.applyResets word r n = some L') :
    L'.word = word ∧ L'.cond.size = n ∧ ∃ u w, L'.cond.zone.Mem u ∧ L.cond.zone.Mem w ∧ r.After n w u := by
  obtain ⟨⟨m, v, hO, _⟩, _⟩ := hL.of
  obtain ⟨e, _, _, u, w, h1, h2, h3⟩ := ForwardRegional.applyResets_of hO ho hr h
  exact ⟨e, h1.csize, u, w, h1.sat, h2, h3⟩

/-- **C72** The region after an external transition is computed whenever the updates only copy and keep clocks that exist, the
target has clocks and the region has an action; it has one clock for every action and one more, as many as the target. -/
theorem C72_after_transition (N : Neighbors) (hN : N.Built) (loc : ℕ → TAState) (a : Action) (t : Trans)
    (hr : (t.resets.map Prod.fst).Nodup) (he : t.resets ≠ [(N.clockSize, .const 0)]) (hw : N.original.word ≠ [])
    (hs : 0 < (loc t.target).usedClockSize)
    (h1 : ∀ x < (loc t.target).usedClockSize, ∀ y, (x, .clock y) ∈ t.resets → y < N.original.cond.size)
    (h2 : ∀ x < (loc t.target).usedClockSize, (∀ c, (x, c) ∉ t.resets) → x < N.original.cond.size) :
    ∃ o, Neighbors.originalAfter loc N a t = .ok o ∧ o.cond.size = (loc t.target).usedClockSize ∧
      o.word.length + 1 = (loc t.target).usedClockSize ∧
      ∃ u w, o.cond.zone.Mem u ∧ N.original.cond.zone.Mem w ∧ t.resets.After (loc t.target).usedClockSize w u := by
  obtain ⟨n, v, hi⟩ := hN.inv
  obtain ⟨b, hb⟩ : ∃ b, N.original.word.getLast? = some b := by
    cases h : N.original.word.getLast? with
    | none => exact absurd (List.getLast?_eq_none_iff.1 h) hw
    | some b => exact ⟨b, rfl⟩
  have hlen : (Neighbors.resizeWord N.original.word ((loc t.target).usedClockSize - 1) b).length + 1 =
      (loc t.target).usedClockSize := by
    unfold Neighbors.resizeWord
    simp only [List.length_append, List.length_take, List.length_replicate]
    omega
  have hword : ∀ c ∈ Neighbors.resizeWord N.original.word ((loc t.target).usedClockSize - 1) b, c ≠ unobservable := by
    intro c hc
    rcases List.mem_append.1 hc with hc | hc
    · exact hi.observable c (List.mem_of_mem_take hc)
    · rw [List.eq_of_mem_replicate hc]
      exact hi.observable b (List.mem_of_getLast? hb)
  obtain ⟨c', e, e1, _⟩ := C72_applyResets N.original.cond (by rw [hi.original.dim]; omega) ⟨v, hi.original.sat⟩ t.resets hr
    (loc t.target).usedClockSize h1 h2
  have hL : N.original.applyResets (Neighbors.resizeWord N.original.word ((loc t.target).usedClockSize - 1) b) t.resets
      (loc t.target).usedClockSize = some (.fromTimedWord (ElementaryLanguage.mk
        (Neighbors.resizeWord N.original.word ((loc t.target).usedClockSize - 1) b) c').sample) := by
    unfold ForwardRegional.applyResets
    rw [if_pos hlen, e]
    rfl
  obtain ⟨g1, g2, g3⟩ := C72_region _ _ hN.original _ hword t.resets hr _ hL
  refine ⟨_, ?_, g2, by rw [g1]; exact hlen, g3⟩
  unfold Neighbors.originalAfter Neighbors.isInternal
  rw [decide_eq_false he, hb]
  simp only [Bool.false_eq_true, if_false]
  rw [if_neg (by omega), hL]

/-- **C72** `applyResets(resets)` with constants only: the other clocks keep their values, and the assigned clocks are in the
intervals of their constants.  A copied clock fails the assertion. -/
theorem C72_constants (c : TimedCondition) (r : Resets) (hr : (r.map Prod.fst).Nodup) (hx : ∀ p ∈ r, p.1 < c.size)
    (hc : c.zone.Closed) (hne : ∃ u, c.zone.Mem u) :
    ((c.applyConstants r).isSome = true ↔ ∀ p ∈ r, ∃ q, p.2 = .const q) ∧
      ∀ c', c.applyConstants r = some c' → c'.size = c.size ∧
        ∀ u : Valuation, c'.zone.Mem u ↔ (∃ w, c.zone.Mem w ∧ ∀ x, (∀ a, (x, a) ∉ r) → u x = w x) ∧
          ∀ x q, (x, .const q) ∈ r → SameInterval q (u x) := by
  by_cases hd : c.zone.dim = 0
  · have hr0 : r = [] := by
      cases r with
      | nil => rfl
      | cons p r => have := hx p (by simp); unfold TimedCondition.size at this; omega
    subst hr0
    refine ⟨by simp [TimedCondition.applyConstants], ?_⟩
    intro c' h
    obtain rfl := Option.some.inj h
    refine ⟨rfl, fun u => ⟨fun h => ⟨⟨u, h, fun _ _ => rfl⟩, by simp⟩, ?_⟩⟩
    rintro ⟨⟨w, hw, e⟩, _⟩
    rwa [show u = w from funext fun x => e x (by simp)]
  have hdim : c.zone.dim = c.size + 1 := by unfold TimedCondition.size; omega
  have key : ∀ c', c.applyConstants r = some c' → c'.size = c.size ∧
        ∀ u : Valuation, c'.zone.Mem u ↔ (∃ w, c.zone.Mem w ∧ ∀ x, (∀ a, (x, a) ∉ r) → u x = w x) ∧
          ∀ x q, (x, .const q) ∈ r → SameInterval q (u x) := by
    intro c' h
    obtain ⟨c2, e, e1, e2⟩ := TimedCondition.applyConstants_spec r hr hx (TimedCondition.applyConstants_clock h) hdim hc hne
    rw [h] at e
    obtain rfl := Option.some.inj e
    exact ⟨by unfold TimedCondition.size at e1 ⊢; rw [e1]; rfl, e2⟩
  refine ⟨⟨fun h => ?_, fun h => ?_⟩, key⟩
  · obtain ⟨c', h⟩ := Option.isSome_iff_exists.1 h
    exact TimedCondition.applyConstants_clock h
  · obtain ⟨c2, e, _⟩ := TimedCondition.applyConstants_spec r hr hx h hdim hc hne
    rw [e]; rfl

/-- **C72** `applyResets(resets)` of an elementary language with neighbours: it is defined exactly if no clock is copied; it updates
the original and every neighbour, the assigned clocks become precise in addition to those that were, and the number of clocks
stays. -/
theorem C72_neighbors (N : Neighbors) (r : Resets) :
    (∀ N', N.applyConstants r = .ok N' → N.original.applyConstants r = some N'.original ∧
      List.Forall₂ (fun L L' => L.applyConstants r = some L') N.neighbors N'.neighbors ∧ N'.clockSize = N.clockSize ∧
      ∀ x, x ∈ N'.precise ↔ x ∈ N.precise ∨ ∃ a, (x, a) ∈ r) ∧
    ((∀ N', N.applyConstants r ≠ .ok N') ↔
      N.original.applyConstants r = none ∨ ∃ L ∈ N.neighbors, L.applyConstants r = none) := by
  have hm : ∀ l : List ForwardRegional, (∀ l', l.mapM (fun L => L.applyConstants r) = some l' →
      List.Forall₂ (fun L L' => L.applyConstants r = some L') l l') ∧
      (l.mapM (fun L => L.applyConstants r) = none ↔ ∃ L ∈ l, L.applyConstants r = none) := by
    intro l
    induction l with
    | nil => exact ⟨fun l' h => by obtain rfl := Option.some.inj h; exact .nil, by simp⟩
    | cons L l ih =>
      rw [List.mapM_cons]
      cases h1 : L.applyConstants r with
      | none => simp [h1]
      | some L' =>
        cases h2 : l.mapM fun L => L.applyConstants r with
        | none =>
          obtain ⟨K, hK, e⟩ := ih.2.1 h2
          exact ⟨by simp, by simpa using Or.inr ⟨K, hK, e⟩⟩
        | some l2 =>
          refine ⟨fun l' h => ?_, ?_⟩
          · obtain rfl := Option.some.inj h
            exact .cons h1 (ih.1 _ h2)
          · constructor
            · intro h; simp at h
            · rintro ⟨K, hK, e⟩
              rcases List.mem_cons.1 hK with rfl | hK
              · rw [h1] at e; simp at e
              · have := ih.2.2 ⟨K, hK, e⟩
                rw [h2] at this; simp at this
  unfold Neighbors.applyConstants
  cases h1 : N.original.applyConstants r with
  | none => simp
  | some o =>
    cases h2 : N.neighbors.mapM fun L => L.applyConstants r with
    | none =>
      dsimp only
      refine ⟨by simp, ?_⟩
      simpa using (hm _).2.1 h2
    | some l =>
      dsimp only
      refine ⟨fun N' h => ?_, ?_⟩
      · obtain rfl := Except.ok.inj h
        exact ⟨rfl, (hm _).1 _ h2, rfl, fun x => by simp⟩
      · constructor
        · intro h; exact absurd rfl (h _)
        · rintro (h | h)
          · simp at h
          · have := (hm _).2.2 h
            rw [h2] at this; simp at this

/-- **C72** (limit) `applyResets(resets)` keeps the intervals of the constants, but not of their differences: after
`x0 := 0.5, x1 := 0.25` it allows `x0 < x1`, which `applyResets(resets, targetClockSize)` does not. -/
theorem C72_constants_witness : ∃ (c c1 c2 : TimedCondition) (r : Resets) (u : Valuation), (r.map Prod.fst).Nodup ∧
    c.applyConstants r = some c1 ∧ c.applyResets r 2 = some c2 ∧ c1.zone.Mem u ∧ ¬ c2.zone.Mem u := by
  have hd : (TimedCondition.mk (Zone.zero 3)).zone.dim = 2 + 1 := rfl
  have hm : (TimedCondition.mk (Zone.zero 3)).zone.Mem fun _ => 0 := by
    intro i _ j _
    have e : ∀ i, (Valuation.ext fun _ => (0 : ℚ)) i = 0 := fun i => by cases i <;> rfl
    rw [e, e]; simp [Zone.zero]
  have hc : (TimedCondition.mk (Zone.zero 3)).zone.Closed := by
    intro i _ j _ k _
    simp [Zone.zero]
  have hr : (([(0, .const (1 / 2)), (1, .const (1 / 4))] : Resets).map Prod.fst).Nodup := by decide
  obtain ⟨c1, e1, _, h1⟩ := TimedCondition.applyConstants_spec [(0, .const (1 / 2)), (1, .const (1 / 4))] hr
    (by intro p hp; simp at hp; rcases hp with rfl | rfl <;> simp)
    (by intro p hp; simp at hp; rcases hp with rfl | rfl <;> simp) hd hc ⟨_, hm⟩
  obtain ⟨c2, e2, _, h2⟩ := C72_applyResets ⟨Zone.zero 3⟩ (by rw [hd]; omega) ⟨_, hm⟩ _ hr 2
    (by intro x _ y hy; simp at hy)
    (fun x hx _ => hx)
  have hfl : ∀ q : ℚ, 0 < q → q < 1 → ⌊q⌋ = 0 ∧ ⌈q⌉ = 1 := fun q h0 h1 =>
    ⟨Int.floor_eq_iff.2 ⟨by push_cast; exact h0.le, by push_cast; linarith⟩,
      Int.ceil_eq_iff.2 ⟨by push_cast; linarith, by push_cast; linarith⟩⟩
  have hsame : ∀ p q : ℚ, 0 < p → p < 1 → 0 < q → q < 1 → SameInterval p q := fun p q a b c d =>
    ⟨(hfl p a b).1.trans (hfl q c d).1.symm, (hfl p a b).2.trans (hfl q c d).2.symm⟩
  refine ⟨_, c1, c2, _, fun i => if i = 0 then 1 / 4 else if i = 1 then 1 / 2 else 0, hr, e1, e2, (h1 _).2 ⟨⟨_, hm, ?_⟩, ?_⟩, ?_⟩
  · intro x hx
    have a0 : x ≠ 0 := fun e => hx (.const (1 / 2)) (by rw [e]; simp)
    have a1 : x ≠ 1 := fun e => hx (.const (1 / 4)) (by rw [e]; simp)
    simp [a0, a1]
  · intro x q hq
    simp only [List.mem_cons, Prod.mk.injEq, Upd.const.injEq, List.not_mem_nil, or_false] at hq
    rcases hq with ⟨rfl, rfl⟩ | ⟨rfl, rfl⟩
    · exact hsame _ _ (by norm_num) (by norm_num) (by norm_num) (by norm_num)
    · exact hsame _ _ (by norm_num) (by norm_num) (by norm_num) (by norm_num)
  · intro h
    obtain ⟨w, _, _, h⟩ := (h2 _).1 h
    have := (h 0 (by omega) 1 (by omega) (1 / 2) (1 / 4) (by simp) (by simp)).1
    simp only [if_true, one_ne_zero, if_false] at this
    rw [show ⌊(1 / 2 : ℚ) - 1 / 4⌋ = 0 from Int.floor_eq_iff.2 ⟨by norm_num, by norm_num⟩,
      show ⌊(1 / 4 : ℚ) - 1 / 2⌋ = -1 from Int.floor_eq_iff.2 ⟨by norm_num, by norm_num⟩] at this
    omega

/-- The hypotheses are met: from `x0 = x1 = 0`, after `x0 := 1, x2 := 1.5` with three clocks. -/
example : ∃ c', (TimedCondition.mk (Zone.zero 3)).applyResets [(0, .const 1), (2, .const (3 / 2))] 3 = some c' ∧ c'.size = 3 ∧
    c'.zone.Mem (Resets.apply [(0, .const 1), (2, .const (3 / 2))] fun _ => 0) := by
  have hm : (TimedCondition.mk (Zone.zero 3)).zone.Mem fun _ => 0 := by
    intro i _ j _
    have e : ∀ i, (Valuation.ext fun _ => (0 : ℚ)) i = 0 := fun i => by cases i <;> rfl
    rw [e, e]; simp [Zone.zero]
  have hr : (([(0, .const 1), (2, .const (3 / 2))] : Resets).map Prod.fst).Nodup := by decide
  obtain ⟨c', e, e1, e2⟩ := C72_applyResets ⟨Zone.zero 3⟩ (by simp [Zone.zero]) ⟨_, hm⟩ _ hr 3
    (by intro x _ y hy; simp at hy)
    (by intro x hx h
        show x < 2
        by_contra hx'
        obtain rfl : x = 2 := by omega
        exact h (.const (3 / 2)) (by simp))
  exact ⟨c', e, e1, (C72_images _ c' (by simp [Zone.zero]) ⟨_, hm⟩ _ hr 3 e).1 _ hm⟩

/-- The hypotheses of `C72_after_transition` are met: after a word `b` the transition sets `x0 := 1`, keeps `x1`, and goes to a
state with a guard on `x1`. -/
example : ∃ (N : Neighbors) (o : ForwardRegional), N.Built ∧
    Neighbors.originalAfter (fun _ => ⟨false, fun a => if a = 98 then [⟨0, [], [⟨1, .le, 1⟩]⟩] else []⟩) N 98
      ⟨0, [(0, .const 1)], []⟩ = .ok o ∧ o.cond.size = 2 ∧ o.word.length = 1 := by
  have hb : (ForwardRegional.fromTimedWord ⟨[98], [1 / 4, 1 / 4]⟩).Built :=
    .word rfl (by intro a ha; simp at ha; rw [ha]; decide) (by intro d hd; simp at hd; rw [hd]; norm_num)
  have hsz : (ForwardRegional.fromTimedWord ⟨[98], [1 / 4, 1 / 4]⟩).cond.size = 2 := by decide +kernel
  have hP : ∀ x ∈ ({0} : Finset ℕ), x < (ForwardRegional.fromTimedWord ⟨[98], [1 / 4, 1 / 4]⟩).cond.size := by
    rw [hsz]; decide
  obtain ⟨F, hF⟩ := C71_make_returns _ hb {0} hP (fun _ => 0)
  obtain ⟨N, hN⟩ := hF (F + 1) (Nat.lt_succ_self F)
  have hv := (ForwardRegional.fromTimedWord_of ⟨[98], [1 / 4, 1 / 4]⟩ rfl).sat
  obtain ⟨h1, h2, -⟩ := C71_make _ hb {0} hP _ _ N hN _ hv
  have hu : TAState.usedClockSize ⟨false, fun a => if a = 98 then [⟨0, [], [⟨1, .le, 1⟩]⟩] else []⟩ = 2 := by decide +kernel
  obtain ⟨o, e, e1, e2, -⟩ := C72_after_transition N (.make hb hP hN)
    (fun _ => ⟨false, fun a => if a = 98 then [⟨0, [], [⟨1, .le, 1⟩]⟩] else []⟩) 98 ⟨0, [(0, .const 1)], []⟩
    (by decide) (by simp) (by rw [h1]; decide) (by rw [hu]; decide) (by intro x _ y hy; simp at hy)
    (by rw [hu, h1, hsz]; intro x hx _; exact hx)
  rw [hu] at e1 e2
  exact ⟨N, o, .make hb hP hN, e, e1, by omega⟩

end LearnTA.Props
