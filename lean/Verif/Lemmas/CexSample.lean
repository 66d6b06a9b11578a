import Verif.Lemmas.Recognizable

/-!
# Morphisms without a renaming map all words to the same word
-/

namespace LearnTA
namespace Bound

/-- A bound is determined by the numbers that satisfy it. -/
theorem eq_of_sat {b b' : Bound} (h : ∀ q, Bound.Sat q b ↔ Bound.Sat q b') : b = b' := by
  cases b with
  | inf =>
    cases b' with
    | inf => rfl
    | fin c s => have := (h (c + 1)).1 (by simp); cases s <;> simp at this <;> linarith
  | fin c s =>
    cases b' with
    | inf => have := (h (c + 1)).2 (by simp); cases s <;> simp at this <;> linarith
    | fin c' s' =>
      have h1 : c = c' := by
        rcases lt_trichotomy c c' with hlt | heq | hgt
        · have := (h ((c + c') / 2)).2 (by cases s' <;> simp <;> linarith)
          cases s <;> simp at this <;> linarith
        · exact heq
        · have := (h ((c + c') / 2)).1 (by cases s <;> simp <;> linarith)
          cases s' <;> simp at this <;> linarith
      subst h1
      have := h c
      cases s <;> cases s' <;> simp at this ⊢

/-- The bound moved by a number. -/
def shift (a : ℚ) : Bound → Bound
  | .fin c s => .fin (c + a) s
  | .inf => .inf

theorem sat_shift {a q : ℚ} {b : Bound} : Bound.Sat q (b.shift a) ↔ Bound.Sat (q - a) b := by
  cases b with
  | inf => simp [shift]
  | fin c s => cases s <;> simp [shift] <;> constructor <;> intro h <;> linarith

end Bound

namespace Zone

/-- The bounds of a canonical zone are tight. -/
theorem canonize_tight {z : Zone} (hne : ∃ v, z.Mem v) {i j : ℕ} (hi : i < z.dim) (hj : j < z.dim) (hij : i ≠ j) (q : ℚ) :
    Bound.Sat q (z.canonize.val i j) ↔ ∃ v, z.Mem v ∧ q ≤ v.ext i - v.ext j := by
  constructor
  · intro h
    obtain ⟨v, hv⟩ := hne
    obtain ⟨u, hu, hle⟩ := realize_above _ (canonize_closed_of_mem hv) ((canonize_mem z v).2 hv).diagNN
      (by simpa using hi) (by simpa using hj) hij q h
    exact ⟨u, (canonize_mem z u).1 hu, hle⟩
  · rintro ⟨v, hv, hle⟩
    have := (canonize_mem z v).2 hv i (by simpa using hi) j (by simpa using hj)
    generalize z.canonize.val i j = b at this
    cases b with
    | inf => simp
    | fin c s => cases s <;> simp at this ⊢ <;> linarith

/-- What the zones sampled by `maps` look like: the first `n` clocks have the values `a`, and the others do not depend on
them. -/
structure Beside (z : Zone) (n : ℕ) (a : ℕ → ℚ) : Prop where
  left : ∀ j < n, z.val (j + 1) 0 = .fin (a j) true ∧ z.val 0 (j + 1) = .fin (-a j) true
  cross : ∀ j < n, ∀ i, n ≤ i → i + 1 < z.dim → z.val (j + 1) (i + 1) = (z.val 0 (i + 1)).shift (a j) ∧
    z.val (i + 1) (j + 1) = (z.val (i + 1) 0).shift (-a j)

theorem foldl_fixed {α β : Type} {f : β → α → β} {b : β} (l : List α) (h : ∀ x ∈ l, f b x = b) : l.foldl f b = b := by
  induction l with
  | nil => rfl
  | cons a l ih => rw [List.foldl_cons, h a (by simp)]; exact ih fun x hx => h x (by simp [hx])

/-- The sampled values of the other clocks do not depend on the values of the first ones. -/
theorem sampleClock_beside {z z' : Zone} {n : ℕ} {a a' : ℕ → ℚ} (h : z.Beside n a) (h' : z'.Beside n a')
    (hd : z'.dim = z.dim) (he : ∀ i j, (i = 0 ∨ n < i) → (j = 0 ∨ n < j) → i < z.dim → j < z.dim → i ≠ j →
      z'.val i j = z.val i j) (B : List ℚ) (hB : n + B.length + 1 < z.dim) :
    sampleClock z' ((List.range n).map a' ++ B) = sampleClock z ((List.range n).map a ++ B) := by
  have key : ∀ (z : Zone) (a : ℕ → ℚ), z.Beside n a → z.dim = z.dim → n + B.length + 1 < z.dim →
      sampleClock z ((List.range n).map a ++ B) =
        (let i := n + B.length
        let lowerBound := z.val 0 (i + 1)
        let upperBound := z.val (i + 1) 0
        if Bound.isPoint upperBound lowerBound then (firstOf upperBound).getD 0
        else
          let lower0 : ℚ := match lowerBound with
            | .fin c _ => max 0 (-c)
            | .inf => 0
          let lower := (B.zipIdx n).foldl (fun l p => sampleLower l (z.val (p.2 + 1) (i + 1)) p.1) lower0
          let upper := (B.zipIdx n).foldl (fun u p => sampleUpper u (z.val (i + 1) (p.2 + 1)) p.1)
            (firstOf upperBound)
          if secondOf lowerBound then lower
          else match upper with
            | none => lower + 1 / 2
            | some u => if u - lower > 1 / 2 then lower + 1 / 2 else (lower + u) * (1 / 2)) := by
    intro z a h _ hB
    have hlen : ((List.range n).map a ++ B).length = n + B.length := by simp
    have hz : ((List.range n).map a ++ B).zipIdx = ((List.range n).map a).zipIdx ++ B.zipIdx n := by
      rw [List.zipIdx_append]; simp
    have hmem : ∀ x ∈ ((List.range n).map a).zipIdx, x.2 < n ∧ x.1 = a x.2 := by
      rintro ⟨x, k⟩ hx
      have := List.mk_mem_zipIdx_iff_getElem?.1 hx
      rw [List.getElem?_map] at this
      by_cases hk : k < n
      · rw [List.getElem?_range hk] at this
        simp at this
        exact ⟨hk, this.symm⟩
      · rw [List.getElem?_eq_none (by simpa using hk)] at this
        simp at this
    unfold sampleClock
    simp only [hlen, hz, List.foldl_append]
    rw [foldl_fixed ((List.range n).map a).zipIdx (b := firstOf (z.val (n + B.length + 1) 0)),
      foldl_fixed ((List.range n).map a).zipIdx (f := fun l p => sampleLower l (z.val (p.2 + 1) (n + B.length + 1)) p.1)]
    · rfl
    · rintro ⟨x, k⟩ hx
      obtain ⟨hk, hx'⟩ := hmem _ hx
      simp only at hk hx' ⊢
      subst hx'
      rw [(h.cross k hk (n + B.length) (by omega) (by omega)).1]
      cases z.val 0 (n + B.length + 1) with
      | inf => simp [Bound.shift, sampleLower]
      | fin c s =>
        simp only [Bound.shift, sampleLower]
        rw [show -(c + a k) + a k = -c by ring]
        exact max_eq_left (le_max_right _ _)
    · rintro ⟨x, k⟩ hx
      obtain ⟨hk, hx'⟩ := hmem _ hx
      simp only at hk hx' ⊢
      subst hx'
      rw [(h.cross k hk (n + B.length) (by omega) (by omega)).2]
      cases z.val (n + B.length + 1) 0 with
      | inf => simp [Bound.shift, sampleUpper, firstOf]
      | fin c s =>
        simp only [Bound.shift, sampleUpper, firstOf]
        rw [show c + -a k + a k = c by ring, min_self]
  rw [key z a h rfl hB, key z' a' h' rfl (by omega)]
  have e1 := he 0 (n + B.length + 1) (Or.inl rfl) (Or.inr (by omega)) (by omega) (by omega) (by omega)
  have e2 := he (n + B.length + 1) 0 (Or.inr (by omega)) (Or.inl rfl) (by omega) (by omega) (by omega)
  have hB' : ∀ x ∈ B.zipIdx n, n ≤ x.2 ∧ x.2 < n + B.length := by
    rintro ⟨x, k⟩ hx
    obtain ⟨hk, hx⟩ := List.mk_mem_zipIdx_iff_le_and_getElem?_sub.1 hx
    have := (List.getElem?_eq_some_iff.1 hx).1
    exact ⟨hk, by simp only; omega⟩
  have f1 : ∀ l0 : ℚ, (B.zipIdx n).foldl (fun l p => sampleLower l (z'.val (p.2 + 1) (n + B.length + 1)) p.1) l0 =
      (B.zipIdx n).foldl (fun l p => sampleLower l (z.val (p.2 + 1) (n + B.length + 1)) p.1) l0 := by
    intro l0
    refine List.foldl_ext _ _ _ fun l p hp => ?_
    obtain ⟨h1, h2⟩ := hB' p hp
    rw [he (p.2 + 1) (n + B.length + 1) (Or.inr (by omega)) (Or.inr (by omega)) (by omega) (by omega) (by omega)]
  have f2 : ∀ l0 : Option ℚ, (B.zipIdx n).foldl (fun l p => sampleUpper l (z'.val (n + B.length + 1) (p.2 + 1)) p.1) l0 =
      (B.zipIdx n).foldl (fun l p => sampleUpper l (z.val (n + B.length + 1) (p.2 + 1)) p.1) l0 := by
    intro l0
    refine List.foldl_ext _ _ _ fun l p hp => ?_
    obtain ⟨h1, h2⟩ := hB' p hp
    rw [he (n + B.length + 1) (p.2 + 1) (Or.inr (by omega)) (Or.inr (by omega)) (by omega) (by omega) (by omega)]
  simp only [e1, e2, f1, f2]

theorem sample_take {z : Zone} {n : ℕ} {a : ℕ → ℚ} (h : z.Beside n a) (k : ℕ) (hk : k ≤ n) :
    (List.range k).foldl (fun vs _ => vs ++ [sampleClock z vs]) [] = (List.range k).map a := by
  induction k with
  | zero => rfl
  | succ k ih =>
    rw [List.range_succ, List.foldl_append, ih (by omega), List.map_append]
    simp only [List.foldl_cons, List.foldl_nil, List.map_cons, List.map_nil, List.append_cancel_left_eq, List.cons.injEq,
      and_true]
    unfold sampleClock
    simp only [List.length_map, List.length_range]
    obtain ⟨h1, h2⟩ := h.left k (by omega)
    rw [h1, h2]
    simp [Bound.isPoint, firstOf]

theorem sample_beside {z z' : Zone} {n : ℕ} {a a' : ℕ → ℚ} (h : z.Beside n a) (h' : z'.Beside n a')
    (hd : z'.dim = z.dim) (he : ∀ i j, (i = 0 ∨ n < i) → (j = 0 ∨ n < j) → i < z.dim → j < z.dim → i ≠ j →
      z'.val i j = z.val i j) (k : ℕ) (hk : n + k + 1 ≤ z.dim) : ∃ B : List ℚ,
      (List.range (n + k)).foldl (fun vs _ => vs ++ [sampleClock z vs]) [] = (List.range n).map a ++ B ∧
      (List.range (n + k)).foldl (fun vs _ => vs ++ [sampleClock z' vs]) [] = (List.range n).map a' ++ B ∧ B.length = k := by
  induction k with
  | zero =>
    refine ⟨[], ?_, ?_, rfl⟩
    · simpa using sample_take h n (le_refl n)
    · simpa using sample_take h' n (le_refl n)
  | succ k ih =>
    obtain ⟨B, h1, h2, h3⟩ := ih (by omega)
    refine ⟨B ++ [sampleClock z ((List.range n).map a ++ B)], ?_, ?_, by simp [h3]⟩
    · rw [← Nat.add_assoc, List.range_succ, List.foldl_append, h1]; simp
    · rw [← Nat.add_assoc, List.range_succ, List.foldl_append, h2, ← sampleClock_beside h h' hd he B (by omega)]; simp

end Zone

namespace SingleMorphism
open Zone
variable {m : SingleMorphism}

/-- With an empty renaming, the zone that `maps` samples puts the word and the codomain side by side. -/
theorem jointZone_beside (h : m.Total) (hr : m.rel = []) {w : TimedWord} (hw : m.domain.Mem w) :
    (m.jointZone w).canonize.canonize.Beside w.durations.length w.clocks ∧
      ∀ i j, (i = 0 ∨ w.durations.length < i) → (j = 0 ∨ w.durations.length < j) → i < (m.jointZone w).dim →
        j < (m.jointZone w).dim → i ≠ j → ∀ q, Bound.Sat q ((m.jointZone w).canonize.canonize.val i j) ↔
          ∃ u : Valuation, m.codomain.cond.zone.Mem u ∧
            q ≤ u.ext (i - w.durations.length) - u.ext (j - w.durations.length) := by
  obtain ⟨hdim, hm⟩ := jointZone_spec h hw
  set n := w.durations.length with hn
  obtain ⟨w', g1, _⟩ := h.related w hw
  have hu0 := (Equivalence.zone_of_mem h.right g1).2
  -- a valuation made of the word and one of the codomain
  have mk : ∀ u : Valuation, m.codomain.cond.zone.Mem u →
      (m.jointZone w).canonize.Mem fun i => if i < n then w.clocks i else u (i - n) := by
    intro u hu
    rw [canonize_mem]
    refine (hm _).2 ⟨?_, ?_, by rw [hr]; simp⟩
    · intro i hi; simp [hi]
    · simpa using hu
  have hne : ∃ v, (m.jointZone w).canonize.Mem v := ⟨_, mk _ hu0⟩
  have hd2 : (m.jointZone w).canonize.dim = (m.jointZone w).dim := by simp
  have un : ∀ v, (m.jointZone w).canonize.Mem v → (∀ i < n, v i = w.clocks i) ∧
      m.codomain.cond.zone.Mem (fun k => v (n + k)) := by
    intro v hv
    rw [canonize_mem] at hv
    obtain ⟨a1, a2, _⟩ := (hm v).1 hv
    exact ⟨a1, a2⟩
  have rext : ∀ (v : Valuation) i, (i = 0 ∨ n < i) → v.ext i = Valuation.ext (fun k => v (n + k)) (i - n) := by
    rintro v i (rfl | hi)
    · simp
    · obtain ⟨k, rfl⟩ : ∃ k, i = n + k + 1 := ⟨i - n - 1, by omega⟩
      rw [show n + k + 1 - n = k + 1 by omega]; simp [ext_succ]
  have right : ∀ i j, (i = 0 ∨ n < i) → (j = 0 ∨ n < j) → i < (m.jointZone w).dim →
        j < (m.jointZone w).dim → i ≠ j → ∀ q, Bound.Sat q ((m.jointZone w).canonize.canonize.val i j) ↔
          ∃ u : Valuation, m.codomain.cond.zone.Mem u ∧ q ≤ u.ext (i - n) - u.ext (j - n) := by
    intro i j h1 h2 hi hj hij q
    rw [canonize_tight hne (by omega) (by omega) hij]
    constructor
    · rintro ⟨v, hv, hq⟩
      rw [rext v i h1, rext v j h2] at hq
      exact ⟨_, (un v hv).2, hq⟩
    · rintro ⟨u, hu, hq⟩
      refine ⟨_, mk u hu, ?_⟩
      rw [rext _ i h1, rext _ j h2]
      simpa using hq
  have lext : ∀ v, (m.jointZone w).canonize.Mem v → ∀ j < n, v.ext (j + 1) = w.clocks j := by
    intro v hv j hj
    rw [ext_succ]; exact (un v hv).1 j hj
  refine ⟨⟨?_, ?_⟩, right⟩
  · intro j hj
    constructor
    · refine Bound.eq_of_sat fun q => ?_
      rw [canonize_tight hne (by omega) (by omega) (by omega)]
      simp only [Bound.Sat, ext_zero, sub_zero, if_true]
      constructor
      · rintro ⟨v, hv, hq⟩; rwa [lext v hv j hj] at hq
      · intro hq; exact ⟨_, mk _ hu0, by rw [lext _ (mk _ hu0) j hj]; exact hq⟩
    · refine Bound.eq_of_sat fun q => ?_
      rw [canonize_tight hne (by omega) (by omega) (by omega)]
      simp only [Bound.Sat, ext_zero, zero_sub, if_true]
      constructor
      · rintro ⟨v, hv, hq⟩; rwa [lext v hv j hj] at hq
      · intro hq; exact ⟨_, mk _ hu0, by rw [lext _ (mk _ hu0) j hj]; exact hq⟩
  · intro j hj i hi hi'
    simp only [canonize_dim] at hi'
    constructor
    · refine Bound.eq_of_sat fun q => ?_
      rw [Bound.sat_shift, canonize_tight hne (by omega) (by omega) (by omega),
        canonize_tight hne (by omega) (by omega) (by omega)]
      constructor
      · rintro ⟨v, hv, hq⟩
        refine ⟨v, hv, ?_⟩
        rw [lext v hv j hj] at hq
        rw [ext_zero]; linarith
      · rintro ⟨v, hv, hq⟩
        refine ⟨v, hv, ?_⟩
        rw [lext v hv j hj]
        rw [ext_zero] at hq; linarith
    · refine Bound.eq_of_sat fun q => ?_
      rw [Bound.sat_shift, canonize_tight hne (by omega) (by omega) (by omega),
        canonize_tight hne (by omega) (by omega) (by omega)]
      constructor
      · rintro ⟨v, hv, hq⟩
        refine ⟨v, hv, ?_⟩
        rw [lext v hv j hj] at hq
        rw [ext_zero]; linarith
      · rintro ⟨v, hv, hq⟩
        refine ⟨v, hv, ?_⟩
        rw [lext v hv j hj]
        rw [ext_zero] at hq; linarith

/-- A morphism with an empty renaming maps all words of its domain to the same word. -/
theorem maps_const (h : m.Total) (hr : m.rel = []) {w w' : TimedWord} (hw : m.domain.Mem w) (hw' : m.domain.Mem w') :
    m.maps w = m.maps w' := by
  have hn : w'.durations.length = w.durations.length := by rw [hw.2.1, hw'.2.1]
  obtain ⟨b1, b2⟩ := jointZone_beside h hr hw
  obtain ⟨c1, c2⟩ := jointZone_beside h hr hw'
  have hd := (jointZone_spec h hw).1
  have hd' := (jointZone_spec h hw').1
  rw [hn] at c1 c2 hd'
  have hdd : (m.jointZone w').dim = (m.jointZone w).dim := by rw [hd, hd']
  obtain ⟨B, s1, s2, s3⟩ := sample_beside b1 c1 (by simpa using hdd) (by
    intro i j h1 h2 hi hj hij
    simp only [canonize_dim] at hi hj
    refine Bound.eq_of_sat fun q => ?_
    rw [c2 i j h1 h2 (by omega) (by omega) hij, b2 i j h1 h2 hi hj hij]) m.codomain.cond.size (by simp; omega)
  have e1 : (m.jointZone w).canonize.sample = (List.range w.durations.length).map w.clocks ++ B := by
    unfold sample
    rw [show (m.jointZone w).canonize.dim - 1 = w.durations.length + m.codomain.cond.size by simp [hd]]
    exact s1
  have e2 : (m.jointZone w').canonize.sample = (List.range w.durations.length).map w'.clocks ++ B := by
    unfold sample
    rw [show (m.jointZone w').canonize.dim - 1 = w.durations.length + m.codomain.cond.size by simp [hd']]
    exact s2
  have hwf1 : m.domain.word.length + 1 = m.domain.cond.size := h.left.wf
  have hwf2 : m.codomain.word.length + 1 = m.codomain.cond.size := h.right.wf
  have hl : w.durations.length = m.domain.word.length + 1 := by rw [hw.2.1, hwf1]
  have key : ∀ a : ℕ → ℚ, mapDurations ((List.range w.durations.length).map a ++ B) m.domain.word.length m.codomain.word.length =
      (List.range (m.codomain.word.length + 1)).map fun i =>
        if i = m.codomain.word.length then B.getLastD 0 else B.getD i 0 - B.getD (i + 1) 0 := by
    intro a
    unfold mapDurations
    refine List.map_congr_left fun i hi => ?_
    rw [List.mem_range] at hi
    by_cases hic : i = m.codomain.word.length
    · rw [if_pos hic, if_pos hic]
      have : B ≠ [] := by intro e; rw [e] at s3; simp at s3; omega
      rw [List.getLastD_eq_getLast?, List.getLastD_eq_getLast?, List.getLast?_append_of_ne_nil _ this]
    · rw [if_neg hic, if_neg hic]
      simp only [List.getD_eq_getElem?_getD]
      rw [List.getElem?_append_right (by simp; omega), List.getElem?_append_right (by simp; omega)]
      simp only [List.length_map, List.length_range]
      rw [show i + 1 + m.domain.word.length - w.durations.length = i by omega,
        show i + 2 + m.domain.word.length - w.durations.length = i + 1 by omega]
  obtain ⟨x, g1, _⟩ := maps_ok h hw
  obtain ⟨x', g1', _⟩ := maps_ok h hw'
  have unf : ∀ w, m.maps w = if m.inDomain w && (m.jointZone w).canonize.isSatisfiableNoCanonize then
      some (TimedWord.make m.codomain.word
        (mapDurations (m.jointZone w).canonize.sample m.domain.word.length m.codomain.word.length)) else none := fun _ => rfl
  rw [g1, g1']
  rw [unf, e1, key] at g1
  rw [unf, e2, key] at g1'
  split at g1
  · split at g1'
    · rw [← g1, ← g1']
    · simp at g1'
  · simp at g1

end SingleMorphism
end LearnTA
