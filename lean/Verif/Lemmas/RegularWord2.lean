import Verif.Lemmas.RegularWord

/-!
# Regions of words that cannot be moved backward
-/

namespace LearnTA
open TimedCondition Bound Zone

namespace BackwardRegional

theorem T_prepend (u : TimedWord) (hne : u.durations ≠ []) (δ : ℚ) (i : ℕ) :
    T (u.prependDelay δ).durations 0 i = T u.durations 0 i + δ := by
  obtain ⟨w, d⟩ := u
  cases d with
  | nil => exact absurd rfl hne
  | cons a d => simp [TimedWord.prependDelay, T]; ring

/-- The bounds of the time from the beginning to the end of `τ_i` are those of the value `x`. -/
def EndBounds (L : BackwardRegional) (n i : ℕ) (x : ℚ) : Prop :=
  L.cond.zone.val 1 ((i + 2) % (n + 1)) = reg x ∧ L.cond.zone.val ((i + 2) % (n + 1)) 1 = reg (-x)

theorem EndBounds.iff {L : BackwardRegional} {n i : ℕ} {x : ℚ} (hd : L.cond.zone.dim = n + 1) (hi : i < n) :
    L.EndBounds n i x ↔ L.cond.upper 0 i = reg x ∧ L.cond.lower 0 i = reg (-x) := by
  unfold EndBounds upper lower
  rw [end_eq hi, show L.cond.size = n by unfold size; omega]
  split <;> rfl

/-- Moving back by the variables of the next group: one value reaches the next integer, another one stays below its. -/
theorem predecessor_pins {L : BackwardRegional} {n : ℕ} (hd : L.cond.zone.dim = n + 1) {g : List ℕ}
    (hg : L.frac.predecessorVariables = g) (hnd : g.Nodup) (hlt : ∀ i ∈ g, i < n) {i j : ℕ} {x y : ℚ} (hi : i ∈ g)
    (hj : j ∉ g) (hjn : j < n) (hx : L.EndBounds n i x) (hy : L.EndBounds n j y) (fx : 0 < Int.fract x) (fy : 0 < Int.fract y)
    {u : TimedWord} (hu : L.predecessor.Mem u) :
    T u.durations 0 i = ⌊x⌋ + 1 ∧ T u.durations 0 j < ⌊y⌋ + 1 := by
  have hgood := endPairs_good (n := n) hnd hlt
  have hz : L.predecessor.cond.zone = updatePairs growBounds (endPairs (n + 1) g) L.cond.zone := by
    show (L.cond.predecessor _).zone = _
    rw [predecessor_eq, hd, hg]
  have hd' : L.predecessor.cond.zone.dim = n + 1 := by rw [hz]; simpa using hd
  have hin := hlt i hi
  have hb : ∀ z : ℚ, 0 < Int.fract z → (⌊z⌋ : ℚ) < z ∧ z < ⌊z⌋ + 1 := fun z h => by
    have := Int.floor_add_fract z
    exact ⟨by linarith, Int.lt_floor_add_one z⟩
  have m1 : (1, (i + 2) % (n + 1)) ∈ endPairs (n + 1) g := List.mem_map.2 ⟨i, hi, rfl⟩
  have m2 : ((i + 2) % (n + 1), 1) ∉ endPairs (n + 1) g := hgood.flip _ m1
  have grow := growBounds_open (hb x fx).1 (hb x fx).2
  have k1 : L.predecessor.EndBounds n i ((⌊x⌋ + 1 : ℤ) : ℚ) := by
    unfold EndBounds
    rw [hz, updatePairs_val _ hgood, updatePairs_val _ hgood, if_pos m1, if_neg m2, if_pos m1, hx.1, hx.2, grow]
    exact ⟨rfl, rfl⟩
  have m3 : (1, (j + 2) % (n + 1)) ∉ endPairs (n + 1) g := by
    intro h
    obtain ⟨k, hk, e⟩ := List.mem_map.1 h
    simp only [Prod.mk.injEq, true_and] at e
    exact hj (end_inj (hlt k hk) hjn e ▸ hk)
  have m4 : ((j + 2) % (n + 1), 1) ∉ endPairs (n + 1) g := by
    intro h
    obtain ⟨k, hk, e⟩ := List.mem_map.1 h
    simp only [Prod.mk.injEq] at e
    have := e.2
    rw [end_eq (hlt k hk)] at this
    split at this <;> omega
  have k2 : L.predecessor.EndBounds n j y := by
    unfold EndBounds
    rw [hz, updatePairs_val _ hgood, updatePairs_val _ hgood, if_neg m3, if_neg m4, if_neg m4, if_neg m3]
    exact hy
  rw [EndBounds.iff hd' hin, ← Int.cast_neg, reg_int, reg_int] at k1
  rw [EndBounds.iff hd' hjn, reg_of_between (hb y fy).1 (hb y fy).2] at k2
  have hs : L.predecessor.cond.size = n := by unfold size; omega
  obtain ⟨-, -, hall⟩ := hu
  have h1 := hall 0 i (by omega) (by omega)
  have h2 := hall 0 j (by omega) (by omega)
  rw [k1.1, k1.2] at h1
  rw [k2.1] at h2
  simp only [Bound.Sat] at h1 h2
  push_cast at h1
  refine ⟨le_antisymm (by simpa using h1.1) (by have := h1.2; simp at this; linarith), by simpa using h2.1⟩

/-- If the sums of the first delays have two different fractional parts other than 0, some predecessor of the region is not
reached by letting time pass. -/
theorem not_next {w : TimedWord} (hw : w.WF) (hf : ¬ w.OneFraction) :
    ∃ L : BackwardRegional, (fromTimedWord w).Before L ∧ ∃ u, L.Mem u ∧ ∀ δ : ℚ, ¬ L.predecessor.Mem (u.prependDelay δ) := by
  have hof := ForwardRegional.fromTimedWord_of w hw
  have hpos := hof.pos
  obtain ⟨g1, g2, qs, g3, g4⟩ := FractionalOrder.ofFractionalParts_spec (fun i => T w.durations 0 i) w.durations.length
    ((accumulateFront 0 w.durations).map fun q => q - ⌊q⌋) (by simp [accumulateFront_length]) (by
      intro i hi
      simp only [List.getElem_map, accumulateFront_get, zero_add]; rfl)
  set L := fromTimedWord w with hL
  set n := w.durations.length with hn
  change L.frac.size = n at g1
  change L.frac.Partition at g2
  change List.Forall₂ _ L.frac.order _ at g4
  have hd : L.cond.zone.dim = n + 1 := hof.dim
  have hne : w.durations ≠ [] := by rw [ne_eq, ← List.length_eq_zero_iff]; omega
  have hmem : L.Mem w := (hof.mem_iff w).2 ⟨rfl, rfl, hof⟩
  have hreg : L.cond.zone.IsRegion (W n (negT w.durations)) := by
    intro i hi j hj hij
    rw [hd] at hi hj
    rw [W_negT hpos rfl hi, W_negT hpos rfl hj]
    have := hof.region i (by rw [hof.dim]; exact hi) j (by rw [hof.dim]; exact hj) hij
    rw [show L.cond.zone.val i j = _ from this]
    congr 1; ring
  have hend : ∀ i < n, L.EndBounds n i (T w.durations 0 i) := by
    intro i hi
    have hb : (i + 2) % (n + 1) ≠ 1 := by rw [end_eq hi]; split <;> omega
    have hb' : (i + 2) % (n + 1) < L.cond.zone.dim := by rw [hd]; exact Nat.mod_lt _ (by omega)
    constructor
    · rw [hreg 1 (by omega) _ hb' (Ne.symm hb), W_end hi]
      simp [W, negT]
    · rw [hreg _ hb' 1 (by omega) hb, W_end hi]
      simp [W, negT]
  have hcover : ∀ i < n, ∃ g ∈ L.frac.order, i ∈ g := fun i hi => (g2.mem_iff i).2 (by rw [g1]; exact hi)
  -- three groups
  have hshape : ∃ a b c r q1 q2 : _, ∃ rs : List ℚ, L.frac.order = a :: b :: c :: r ∧ qs = q1 :: q2 :: rs := by
    cases ho : L.frac.order with
    | nil => exact absurd ho g2.ne
    | cons a l =>
      rw [ho] at g4
      cases g4 with
      | cons h0 h =>
        cases h with
        | nil =>
          refine absurd ⟨0, fun i hi => ?_⟩ hf
          obtain ⟨g, hg, hig⟩ := hcover i hi
          rw [ho, List.mem_singleton] at hg
          subst hg
          exact Or.inl (h0 i hig)
        | @cons b q1 l qs' h1 h =>
          cases h with
          | nil =>
            refine absurd ⟨q1, fun i hi => ?_⟩ hf
            obtain ⟨g, hg, hig⟩ := hcover i hi
            rw [ho] at hg
            simp only [List.mem_cons, List.not_mem_nil, or_false] at hg
            rcases hg with rfl | rfl
            · exact Or.inl (h0 i hig)
            · exact Or.inr (h1 i hig)
          | @cons c q2 r rs h2 h => exact ⟨a, b, c, r, q1, q2, rs, rfl, rfl⟩
  obtain ⟨a, b, c, r, q1, q2, rs, ho, rfl⟩ := hshape
  rw [ho] at g4
  cases g4 with
  | cons h0 h =>
  cases h with
  | cons h1 h =>
  cases h with
  | cons h2 h =>
  have p1 : 0 < q1 := List.rel_of_pairwise_cons g3 (by simp)
  have p2 : q1 < q2 := List.rel_of_pairwise_cons (List.pairwise_cons.1 g3).2 (by simp)
  have hnonempty := g2.nonempty
  rw [ho, List.tail_cons] at hnonempty
  obtain ⟨i, hi⟩ := List.exists_mem_of_ne_nil _ (hnonempty b (by simp))
  obtain ⟨j, hj⟩ := List.exists_mem_of_ne_nil _ (hnonempty c (by simp))
  have hlt : ∀ g ∈ L.frac.order, ∀ k ∈ g, k < n := fun g hg k hk => by
    rw [← g1]; exact (g2.mem_iff k).1 ⟨g, hg, hk⟩
  have hnd : ∀ g ∈ L.frac.order, g.Nodup := fun g hg => (g2.sorted g hg).imp fun h => Nat.ne_of_lt h
  have ma : a ∈ L.frac.order := by rw [ho]; simp
  have mb : b ∈ L.frac.order := by rw [ho]; simp
  have mc : c ∈ L.frac.order := by rw [ho]; simp
  have hin := hlt b mb i hi
  have hjn := hlt c mc j hj
  have fi : Int.fract (T w.durations 0 i) = q1 := h1 i hi
  have fj : Int.fract (T w.durations 0 j) = q2 := h2 j hj
  have hjb : j ∉ b := fun h => by
    have := h1 j h
    simp only at this
    rw [fj] at this; linarith
  have clash : ∀ δ : ℚ, T w.durations 0 i + δ = ⌊T w.durations 0 i⌋ + 1 → T w.durations 0 j + δ < ⌊T w.durations 0 j⌋ + 1 → False := by
    intro δ e1 e2
    have := Int.floor_add_fract (T w.durations 0 i)
    have := Int.floor_add_fract (T w.durations 0 j)
    linarith
  by_cases hea : a = []
  · refine ⟨L, .refl, w, hmem, fun δ hu => ?_⟩
    have hv := (FractionalOrder.predecessor_back (f := L.frac) (by rw [ho, hea])).2
    obtain ⟨k1, k2⟩ := predecessor_pins hd hv (hnd b mb) (hlt b mb) hi hjb hjn (hend i hin) (hend j hjn)
      (by rw [fi]; exact p1) (by rw [fj]; linarith) hu
    rw [T_prepend w hne] at k1 k2
    exact clash δ k1 k2
  · by_cases hex : ∃ δ : ℚ, L.predecessor.Mem (w.prependDelay δ)
    · obtain ⟨δ, hδ⟩ := hex
      obtain ⟨o1, o2⟩ := FractionalOrder.predecessor_front ho hea
      refine ⟨L.predecessor, .time .refl, _, hδ, fun δ' hu => ?_⟩
      have hz : L.predecessor.cond.zone = updatePairs growBounds (endPairs (n + 1) a) L.cond.zone := by
        show (L.cond.predecessor _).zone = _
        rw [predecessor_eq, hd, o2]
      have hgood := endPairs_good (n := n) (hnd a ma) (hlt a ma)
      have hd' : L.predecessor.cond.zone.dim = n + 1 := by rw [hz]; simpa using hd
      have keep : ∀ k < n, k ∉ a → L.predecessor.EndBounds n k (T w.durations 0 k) := by
        intro k hk hka
        have m3 : (1, (k + 2) % (n + 1)) ∉ endPairs (n + 1) a := by
          intro h
          obtain ⟨l, hl, e⟩ := List.mem_map.1 h
          simp only [Prod.mk.injEq, true_and] at e
          exact hka (end_inj (hlt a ma l hl) hk e ▸ hl)
        have m4 : ((k + 2) % (n + 1), 1) ∉ endPairs (n + 1) a := by
          intro h
          obtain ⟨l, hl, e⟩ := List.mem_map.1 h
          simp only [Prod.mk.injEq] at e
          have := e.2
          rw [end_eq (hlt a ma l hl)] at this
          split at this <;> omega
        unfold EndBounds
        rw [hz, updatePairs_val _ hgood, updatePairs_val _ hgood, if_neg m3, if_neg m4, if_neg m4, if_neg m3]
        exact hend k hk
      have nota : ∀ k, 0 < Int.fract (T w.durations 0 k) → k ∉ a := fun k hk h => by
        have := h0 k h
        simp only at this
        linarith
      have hv : L.predecessor.frac.predecessorVariables = b := by
        show L.frac.predecessor.predecessorVariables = b
        rw [o1]
        exact (FractionalOrder.predecessor_back (g := b) (gs := c :: r ++ [a]) rfl).2
      obtain ⟨k1, k2⟩ := predecessor_pins hd' hv (hnd b mb) (hlt b mb) hi hjb hjn
        (keep i hin (nota i (by rw [fi]; exact p1))) (keep j hjn (nota j (by rw [fj]; linarith)))
        (by rw [fi]; exact p1) (by rw [fj]; linarith) hu
      have hne' : (w.prependDelay δ).durations ≠ [] := by
        obtain ⟨ww, d⟩ := w
        cases d with
        | nil => exact absurd rfl hne
        | cons x d => simp [TimedWord.prependDelay]
      rw [T_prepend _ hne', T_prepend w hne] at k1 k2
      exact clash (δ + δ') (by rw [← k1]; ring) (by rw [← add_assoc]; exact k2)
    · exact ⟨L, .refl, w, hmem, fun δ h => hex ⟨δ, h⟩⟩

end BackwardRegional
end LearnTA
