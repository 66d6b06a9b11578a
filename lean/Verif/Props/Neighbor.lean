import Verif.Lemmas.HullBoxes
import Verif.Spec.Neighbor

/-!
# C71: elementary languages with their neighbours
-/

namespace LearnTA.Props
open LearnTA Neighbors

/-- **C71** The constructor: the original is kept, the clocks with an integer value become precise, and the neighbours are
exactly the regions that an observer of the precise clocks confuses with the original.  Without a precise clock these are the
valuations that agree with the original up to the differences of precise and imprecise clocks; with a precise clock they are
also followed in time as long as the precise clocks stay in their intervals. -/
theorem C71_make (L : ForwardRegional) (hL : L.Built) (P : Finset ℕ) (hP : ∀ x ∈ P, x < L.cond.size)
    (hash : ForwardRegional → ℕ) (fuel : ℕ) (N : Neighbors) (h : Neighbors.make hash fuel L P = .ok N) (v : Valuation)
    (hv : L.cond.zone.Mem v) :
    N.original = L ∧ N.clockSize = L.cond.size ∧
      (∀ x, x ∈ N.precise ↔ x ∈ P ∨ x < L.cond.size ∧ ∃ k : ℤ, v x = k) ∧
      (∀ M ∈ N.neighbors, M.word = L.word) ∧
      (N.precise = ∅ → ∀ u, N.Covers u ↔ Confusable P L.cond.size v u) ∧
      (N.precise ≠ ∅ → ∀ u, N.Covers u ↔
        (∃ s, 0 ≤ s ∧ Confusable P L.cond.size v fun i => u i - s) ∧ AgreeOn N.precise v u) := by
  obtain ⟨⟨n, v', hO, _⟩, ho⟩ := hL.of
  rw [hO.csize] at hP ⊢
  have hO := hO.transfer hv
  obtain ⟨e1, e2, e3, k1, k2, k3, k4⟩ := make_spec hO ho hP h
  exact ⟨e1, e3, fun x => by rw [e2]; exact mem_withImplicit hO, fun M hM => (k1 M hM).1, k3, k4⟩

/-- **C71** The constructor returns. -/
theorem C71_make_returns (L : ForwardRegional) (hL : L.Built) (P : Finset ℕ) (hP : ∀ x ∈ P, x < L.cond.size)
    (hash : ForwardRegional → ℕ) : ∃ F, ∀ fuel, F < fuel → ∃ N, Neighbors.make hash fuel L P = .ok N := by
  obtain ⟨⟨n, v, hO, _⟩, ho⟩ := hL.of
  exact make_returns hash hO ho (by rwa [hO.csize] at hP)

/-- **C71** `reconstruct(P)` is the constructor for the original and those clocks of `P` that the original has. -/
theorem C71_reconstruct (N : Neighbors) (P Q : Finset ℕ) (hQ : ∀ x, x ∈ Q ↔ x ∈ P ∧ x ≤ N.original.word.length)
    (hash : ForwardRegional → ℕ) (fuel : ℕ) :
    N.reconstruct hash fuel P = Neighbors.make hash fuel N.original Q := by
  have : P.filter (fun x => x ≤ N.original.word.length) = Q := by
    ext x; rw [hQ]; simp
  unfold Neighbors.reconstruct; rw [this]

/-- **C71** `impreciseClocks()` returns the clocks that are not precise, in increasing order. -/
theorem C71_impreciseClocks (N : Neighbors) :
    (∀ x, x ∈ N.impreciseClocks ↔ x < N.clockSize ∧ x ∉ N.precise) ∧ N.impreciseClocks.Pairwise (· < ·) := by
  unfold Neighbors.impreciseClocks
  exact ⟨fun x => by simp, List.Pairwise.filter _ List.pairwise_lt_range⟩

/-- **C71** Every valuation of the original lies in a neighbour, and no clock of a neighbour is negative. -/
theorem C71_original (N : Neighbors) (hN : N.Built) (u : Valuation) :
    (N.original.cond.zone.Mem u → N.Covers u) ∧ (N.Covers u → ∀ x < N.clockSize, 0 ≤ u x) := by
  obtain ⟨n, v, h⟩ := hN.inv
  exact ⟨h.covers u, by rw [h.size]; exact h.nonneg u⟩

/-- **C71** In all neighbours the precise clocks are in the intervals of the original. -/
theorem C71_agree (N : Neighbors) (hN : N.Built) (v u : Valuation) (hv : N.original.cond.zone.Mem v) (hu : N.Covers u) :
    AgreeOn N.precise v u := by
  obtain ⟨n, w, h⟩ := hN.inv
  obtain ⟨L, hL, hm⟩ := hu
  obtain ⟨_, w', h1, h2⟩ := (h.move hv).neighbors L hL
  exact fun x hx => (h2 x hx).trans (same_of_mem h1 hm (h.precise x hx))

/-- **C71** `successor()`: the original is replaced by its continuous successor; the neighbours are exactly the regions that
the neighbours reach in time while the precise clocks are in the intervals of the new original. -/
theorem C71_successor (N N' : Neighbors) (hN : N.Built) (hash : ForwardRegional → ℕ) (fuel : ℕ)
    (h : N.successor hash fuel = .ok N') (v : Valuation) (hv : N'.original.cond.zone.Mem v) (u : Valuation) :
    N'.original = N.original.successor ∧ N'.precise = N.precise ∧
      (N'.Covers u ↔ (∃ s, 0 ≤ s ∧ N.Covers fun i => u i - s) ∧ AgreeOn N.precise v u) := by
  obtain ⟨n, w, hi⟩ := hN.inv
  obtain ⟨h1, h2, _, h4⟩ := hi.successor h
  exact ⟨h1, h2, h4 v hv u⟩

/-- **C71** `successor()` returns if there is a precise clock. -/
theorem C71_successor_returns (N : Neighbors) (hN : N.Built) (hp : N.precise ≠ ∅) (hash : ForwardRegional → ℕ) :
    ∃ F, ∀ fuel, F < fuel → ∃ N', N.successor hash fuel = .ok N' := by
  obtain ⟨n, v, h⟩ := hN.inv
  obtain ⟨δ, _, h1, _⟩ := h.original.successor
  obtain ⟨F, hF⟩ := update_returns (hash := hash) (ns := N.neighbors) h1
    (fun L hL => by obtain ⟨_, u, a, _⟩ := h.neighbors L hL; exact ⟨u, a⟩) h.precise (Finset.nonempty_iff_ne_empty.2 hp)
  refine ⟨F, fun fuel hf => ?_⟩
  obtain ⟨l, hl⟩ := hF fuel hf
  unfold Neighbors.successor
  rw [hl]
  exact ⟨_, rfl⟩

/-- **C71** (limit) `successor()` never returns if there is no precise clock: the loop waits for a precise clock to pass. -/
theorem C71_diverges (N : Neighbors) (hN : N.Built) (hp : N.precise = ∅) (hash : ForwardRegional → ℕ) (fuel : ℕ) :
    N.successor hash fuel = .error .fuel := by
  obtain ⟨n, v, h⟩ := hN.inv
  obtain ⟨L, hL, _⟩ := h.covers v h.original.sat
  unfold Neighbors.successor update
  rw [hp]
  cases e : N.neighbors with
  | nil => rw [e] at hL; cases hL
  | cons a l => rw [List.mapM_cons, collect_empty]; rfl

/-- **C71** `successor(action)`: a new precise clock with the value zero. -/
theorem C71_action (N : Neighbors) (hN : N.Built) (a : Action) (ha : a ≠ unobservable) (u : Valuation) :
    (N.successorAction a).original = N.original.successorAction a ∧
      (N.successorAction a).precise = insert N.clockSize N.precise ∧
      (N.successorAction a).clockSize = N.clockSize + 1 ∧
      ((N.successorAction a).Covers u ↔ N.Covers u ∧ u N.clockSize = 0) := by
  obtain ⟨n, v, h⟩ := hN.inv
  refine ⟨rfl, rfl, rfl, ?_⟩
  rw [h.size]; exact (h.successorAction ha).2 u

/-- **C71** In all neighbours also the differences of precise clocks are in the intervals of the original. -/
theorem C71_differences (N : Neighbors) (hN : N.Built) (v u : Valuation) (hv : N.original.cond.zone.Mem v) (hu : N.Covers u)
    (i j : ℕ) (hi : i ∈ N.precise) (hj : j ∈ N.precise) : SameInterval (v i - v j) (u i - u j) := by
  induction hN generalizing v u i j with
  | make hL hP h =>
    rename_i L P hash fuel N
    obtain ⟨e, _, e1, _, _, e2⟩ := C71_make L hL P hP hash fuel N h v (by
      obtain ⟨⟨n, w, hO, _⟩, ho⟩ := hL.of
      rw [hO.csize] at hP
      rw [← (Neighbors.make_spec hO ho hP h).1]; exact hv)
    obtain ⟨⟨s, _, hc⟩, ha⟩ := (e2 (Finset.ne_empty_of_mem hi) u).1 hu
    have ai := ha i hi
    have aj := ha j hj
    rcases (e1 i).1 hi with hi' | ⟨_, k, hk⟩
    · rcases (e1 j).1 hj with hj' | ⟨_, k, hk⟩
      · have := hc.differences i (hP i hi') j (hP j hj') ⟨fun _ => hj', fun _ => hi'⟩
        rwa [show u i - s - (u j - s) = u i - u j by ring] at this
      · have e : u j = k := SameInterval.eq_int (by have := aj; rwa [hk] at this)
        rw [e, hk]
        exact SameInterval.sub_int ai k
    · have e : u i = k := SameInterval.eq_int (by have := ai; rwa [hk] at this)
      rw [e, hk]
      have := SameInterval.neg (SameInterval.sub_int aj k)
      rwa [neg_sub, neg_sub] at this
  | time hN h ih =>
    rename_i N N' hash fuel
    obtain ⟨h1, h2, h3⟩ := C71_successor N N' hN hash fuel h v hv u
    obtain ⟨⟨s, _, hs⟩, _⟩ := h3.1 hu
    obtain ⟨n, w, hi'⟩ := hN.inv
    obtain ⟨δ, _, hof, _⟩ := hi'.original.successor
    rw [h2] at hi hj
    have hw := hi'.original.sat
    have := ih w _ hw hs i j hi hj
    rw [show u i - s - (u j - s) = u i - u j by ring] at this
    rw [h1] at hv
    have hr := (ForwardRegional.Of.reg_eq (L' := .init) hof.region (hof.transfer hv).region hof.dim).2 i (hi'.precise i hi) j (hi'.precise j hj)
    by_cases hij : i = j
    · subst hij; rw [sub_self, sub_self]; exact SameInterval.refl _
    · have hr' := sameInterval_reg.2 (hr hij)
      rw [show w i + δ - (w j + δ) = w i - w j by ring] at hr'
      exact hr'.symm.trans this
  | action ha hN ih =>
    rename_i N a
    obtain ⟨_, h2, h3, h4⟩ := C71_action N hN a ha u
    obtain ⟨hu', hu0⟩ := h4.1 hu
    obtain ⟨n, w, hi'⟩ := hN.inv
    obtain ⟨hv', hv0⟩ := (Neighbors.mem_successorAction hi'.original a).1 hv
    have hag := C71_agree N hN v u hv' hu'
    rw [hi'.size] at hu0
    have h2 : ∀ x, x ∈ (N.successorAction a).precise ↔ x = n ∨ x ∈ N.precise := fun x => by rw [h2, hi'.size, Finset.mem_insert]
    rcases (h2 i).1 hi with rfl | hi <;> rcases (h2 j).1 hj with rfl | hj
    · rw [sub_self, sub_self]; exact SameInterval.refl _
    · rw [hv0, hu0, zero_sub, zero_sub]; exact SameInterval.neg (hag j hj)
    · rw [hv0, hu0, sub_zero, sub_zero]; exact hag i hi
    · exact ih v u hv' hu' i j hi hj

/-- **C71** The neighbours follow every execution that differs from the one of the original only in the imprecise clocks. -/
theorem C71_sound (N N' : Neighbors) (hN : N.Built) (hash : ForwardRegional → ℕ) (fuel : ℕ)
    (h : N.successor hash fuel = .ok N') (v u : Valuation) (hu : N.Covers u)
    (he : ∀ x ∈ N.precise, u x = v x) (t : ℚ) (ht : 0 ≤ t) (hv : N.original.successor.cond.zone.Mem fun i => v i + t) :
    N'.Covers fun i => u i + t := by
  obtain ⟨n, w, hi⟩ := hN.inv
  obtain ⟨h1, _, _, h4⟩ := hi.successor h
  refine (h4 _ (h1 ▸ hv) _).2 ⟨⟨t, ht, by simpa using hu⟩, fun x hx => ?_⟩
  show SameInterval (v x + t) (u x + t)
  rw [he x hx]
  exact SameInterval.refl _

/-- **C71** `precise()`: the neighbours are the original and nothing else. -/
theorem C71_precise (N : Neighbors) (hN : N.Built) :
    N.isPrecise = true ↔ ∀ u, N.Covers u ↔ N.original.cond.zone.Mem u := by
  obtain ⟨n, v, h⟩ := hN.inv
  rw [h.isPrecise]
  exact ⟨fun hc u => ⟨hc u, h.covers u⟩, fun hc u => (hc u).1⟩

/-- **C71** The original guard holds exactly where every clock is in the interval of the original. -/
theorem C71_originalGuard (N : Neighbors) (hN : N.Built) (v : Valuation) (hv : N.original.cond.zone.Mem v) (u : Valuation)
    (hu : u.Nonneg) : N.toOriginalGuard.Holds u ↔ ∀ x < N.clockSize, SameInterval (v x) (u x) := by
  obtain ⟨n, w, h⟩ := hN.inv
  rw [h.size]; exact (h.move hv).originalGuard hu

/-- **C71** The relaxed guard holds exactly where every clock is between its intervals in two neighbours. -/
theorem C71_relaxedGuard (N : Neighbors) (hN : N.Built) (u : Valuation) (hu : u.Nonneg) :
    N.toRelaxedGuard.Holds u ↔ ∀ x < N.clockSize,
      (∃ w, N.Covers w ∧ (w x ≤ u x ∨ SameInterval (w x) (u x))) ∧
      ∃ w, N.Covers w ∧ (u x ≤ w x ∨ SameInterval (u x) (w x)) := by
  obtain ⟨n, w, h⟩ := hN.inv
  rw [h.size]; exact h.relaxedGuard hu

/-- **C71** Every valuation in a neighbour satisfies the relaxed guard, and so does every one that satisfies the original
guard; the precise clocks have the same interval in the two guards. -/
theorem C71_relaxed (N : Neighbors) (hN : N.Built) (u : Valuation) (hu : u.Nonneg) :
    (N.Covers u → N.toRelaxedGuard.Holds u) ∧ (N.toOriginalGuard.Holds u → N.toRelaxedGuard.Holds u) ∧
      (N.toRelaxedGuard.Holds u → ∀ v, N.original.cond.zone.Mem v → AgreeOn N.precise v u) := by
  obtain ⟨n, v, h⟩ := hN.inv
  rw [h.relaxedGuard hu, h.originalGuard hu]
  refine ⟨fun hc x _ => ⟨⟨u, hc, .inl (le_refl _)⟩, u, hc, .inl (le_refl _)⟩, fun ho x hx => ?_, fun hr v hv x hx => ?_⟩
  · have hc := h.covers v h.original.sat
    exact ⟨⟨v, hc, .inr (ho x hx)⟩, v, hc, .inr (ho x hx).symm⟩
  · obtain ⟨⟨w, hw, h1⟩, w', hw', h2⟩ := hr x (h.precise x hx)
    have a1 := sameInterval_iff.1 (C71_agree N hN v w hv hw x hx)
    have a2 := sameInterval_iff.1 (C71_agree N hN v w' hv hw' x hx)
    have b1 := pos_le_iff.2 h1
    have b2 := pos_le_iff.2 h2
    exact sameInterval_iff.2 (by omega)

/-- **C71** `match`: a guard that matches holds wherever the original guard holds. -/
theorem C71_match (N : Neighbors) (g : Guard) (h : N.matchGuard g = true) (u : Valuation) (hu : N.toOriginalGuard.Holds u) :
    g.Holds u :=
  Guard.isWeaker_sound h u hu

/-- **C71** (limit) A neighbour need not contain a timed word: the precise first clock and the imprecise second clock are both
in (0,1), and in one neighbour the first clock is smaller than the second, so that the delay before the first event is
negative. -/
theorem C71_negative_witness : ∃ (N : Neighbors) (u : Valuation), N.Built ∧ N.Covers u ∧ N.clockSize = 2 ∧ u 0 < u 1 ∧
    N.precise = {0} ∧ N.original = .fromTimedWord ⟨[98], [1 / 4, 1 / 4]⟩ := by
  have hb : (ForwardRegional.fromTimedWord ⟨[98], [1 / 4, 1 / 4]⟩).Built :=
    .word rfl (by intro a ha; simp at ha; rw [ha]; decide) (by intro d hd; simp at hd; rw [hd]; norm_num)
  have hsz : (ForwardRegional.fromTimedWord ⟨[98], [1 / 4, 1 / 4]⟩).cond.size = 2 := by decide +kernel
  have hP : ∀ x ∈ ({0} : Finset ℕ), x < (ForwardRegional.fromTimedWord ⟨[98], [1 / 4, 1 / 4]⟩).cond.size := by
    rw [hsz]; decide
  obtain ⟨F, hF⟩ := C71_make_returns _ hb {0} hP (fun _ => 0)
  obtain ⟨N, hN⟩ := hF (F + 1) (Nat.lt_succ_self F)
  have hv := (ForwardRegional.fromTimedWord_of ⟨[98], [1 / 4, 1 / 4]⟩ rfl).sat
  obtain ⟨h1, h2, h3, _, _, h5⟩ := C71_make _ hb {0} hP _ _ N hN _ hv
  rw [hsz] at h2 h3 h5
  have hne : N.precise ≠ ∅ := Finset.ne_empty_of_mem ((h3 0).2 (.inl (by simp)))
  have e0 : accV [1 / 4, 1 / 4] 0 = 1 / 2 := by norm_num [accV]
  have e1 : accV [1 / 4, 1 / 4] 1 = 1 / 4 := by norm_num [accV]
  have hfl : ∀ q : ℚ, 0 < q → q < 1 → ⌊q⌋ = 0 ∧ ⌈q⌉ = 1 := fun q h0 h1 =>
    ⟨Int.floor_eq_iff.2 ⟨by push_cast; exact h0.le, by push_cast; linarith⟩,
      Int.ceil_eq_iff.2 ⟨by push_cast; linarith, by push_cast; linarith⟩⟩
  have hsame : ∀ p q : ℚ, 0 < p → p < 1 → 0 < q → q < 1 → SameInterval p q := fun p q a b c d =>
    ⟨(hfl p a b).1.trans (hfl q c d).1.symm, (hfl p a b).2.trans (hfl q c d).2.symm⟩
  have hprec : ∀ x, x ∈ N.precise → x = 0 := by
    intro x hx
    rcases (h3 x).1 hx with h | ⟨h, k, hk⟩
    · simpa using h
    · rcases Nat.lt_or_ge x 1 with h' | h'
      · omega
      · obtain rfl : x = 1 := by omega
        rw [e1] at hk
        have : (1 : ℚ) = ((4 * k : ℤ) : ℚ) := by push_cast; linarith
        have : (1 : ℤ) = 4 * k := by exact_mod_cast this
        omega
  refine ⟨N, fun i => if i = 0 then 1 / 4 else 1 / 2, .make hb hP hN, (h5 hne _).2 ⟨⟨0, le_refl _, ⟨?_, ?_⟩⟩, ?_⟩, h2, ?_, ?_, h1⟩
  · intro i hi
    rcases Nat.lt_or_ge i 1 with h' | h'
    · obtain rfl : i = 0 := by omega
      rw [e0]; exact hsame _ _ (by norm_num) (by norm_num) (by norm_num) (by norm_num)
    · obtain rfl : i = 1 := by omega
      rw [e1]; exact hsame _ _ (by norm_num) (by norm_num) (by norm_num) (by norm_num)
  · intro i hi j hj hij
    have : i = j := by
      simp only [Finset.mem_singleton] at hij
      omega
    subst this
    simp only [sub_self]
    exact SameInterval.refl _
  · intro x hx
    rw [hprec x hx, e0]
    exact hsame _ _ (by norm_num) (by norm_num) (by norm_num) (by norm_num)
  · norm_num
  · ext x
    rw [Finset.mem_singleton]
    exact ⟨hprec x, fun e => (h3 x).2 (.inl (by rw [e]; simp))⟩

/-- The hypotheses of the theorems are met by an object with several neighbours, the successor of which is computed. -/
example : ∃ (N N' : Neighbors) (fuel : ℕ), N.Built ∧ N.isPrecise = false ∧ N.successor (fun _ => 0) fuel = .ok N' := by
  obtain ⟨N, u, hb, hu, _, h1, h2, h3⟩ := C71_negative_witness
  obtain ⟨F, hF⟩ := C71_successor_returns N hb (by rw [h2]; decide) (fun _ => 0)
  obtain ⟨N', hN'⟩ := hF (F + 1) (Nat.lt_succ_self F)
  refine ⟨N, N', _, hb, ?_, hN'⟩
  by_contra hp
  have hm := ((C71_precise N hb).1 (by simpa using hp) u).1 hu
  have hof := ForwardRegional.fromTimedWord_of ⟨[98], [1 / 4, 1 / 4]⟩ rfl
  rw [h3] at hm
  have hr := (ForwardRegional.Of.reg_eq (L' := .init) hof.region (hof.transfer hm).region hof.dim).2 0 (by decide) 1 (by decide) (by decide)
  have hs := (sameInterval_reg.2 hr).2
  have e : accV [1 / 4, 1 / 4] 0 - accV [1 / 4, 1 / 4] 1 = (1 / 4 : ℚ) := by norm_num [accV]
  rw [e] at hs
  have e1 : ⌈(1 / 4 : ℚ)⌉ = 1 := Int.ceil_eq_iff.2 ⟨by norm_num, by norm_num⟩
  have e2 : ⌈u 0 - u 1⌉ ≤ 0 := Int.ceil_le.2 (by push_cast; linarith)
  omega

end LearnTA.Props
