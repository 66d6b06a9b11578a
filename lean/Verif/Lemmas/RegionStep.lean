import Verif.Lemmas.Region
import Verif.Lemmas.FractionalOrder

/-!
# Successors and predecessors of regions
-/

namespace LearnTA
open Bound

/-! ### Fractional parts under small shifts -/

theorem fract_add_small {x e : ℚ} (h0 : 0 ≤ Int.fract x + e) (h1 : Int.fract x + e < 1) :
    Int.fract (x + e) = Int.fract x + e := by
  rw [Int.fract_eq_iff]
  refine ⟨h0, h1, ⌊x⌋, ?_⟩
  have := Int.floor_add_fract x
  linarith

theorem fract_add_one {x e : ℚ} (h : Int.fract x + e = 1) : Int.fract (x + e) = 0 := by
  rw [Int.fract_eq_iff]
  refine ⟨le_refl _, by norm_num, ⌊x⌋ + 1, ?_⟩
  have := Int.floor_add_fract x
  push_cast; linarith

theorem fract_zero_iff {x : ℚ} : Int.fract x = 0 ↔ ∃ n : ℤ, x = n := by
  constructor
  · intro h; exact ⟨⌊x⌋, by have := Int.floor_add_fract x; linarith⟩
  · rintro ⟨n, rfl⟩; simp

/-- Two numbers in the same one-dimensional region have the same tightest bounds. -/
theorem reg_congr {x y : ℚ} (h : (∃ n : ℤ, x = n ∧ y = n) ∨
    ∃ n : ℤ, ((n : ℚ) < x ∧ x < n + 1) ∧ (n : ℚ) < y ∧ y < n + 1) :
    reg x = reg y ∧ reg (-x) = reg (-y) := by
  rcases h with ⟨n, rfl, rfl⟩ | ⟨n, ⟨h1, h2⟩, h3, h4⟩
  · exact ⟨rfl, rfl⟩
  · rw [reg_of_between h1 h2, reg_of_between h3 h4, reg_neg_of_between h1 h2, reg_neg_of_between h3 h4]
    exact ⟨rfl, rfl⟩

theorem between_of_fract {x : ℚ} (h : 0 < Int.fract x) {e : ℚ} (h0 : 0 < Int.fract x + e)
    (h1 : Int.fract x + e < 1) :
    (((⌊x⌋ : ℤ) : ℚ) < x ∧ x < ⌊x⌋ + 1) ∧ ((⌊x⌋ : ℤ) : ℚ) < x + e ∧ x + e < ⌊x⌋ + 1 := by
  have h2 := Int.floor_add_fract x
  have h3 := Int.fract_lt_one x
  exact ⟨⟨by linarith, by linarith⟩, by linarith, by linarith⟩

/-! ### Orders under shifts -/

namespace FractionalOrder

theorem Describes.lt_one {f : FractionalOrder} (hP : f.Partition) {qs : List ℚ}
    (h : List.Forall₂ (fun g q => ∀ i ∈ g, Int.fract ((v : ℕ → ℚ) i) = q) f.order (0 :: qs)) :
    ∀ q ∈ qs, q < 1 := by
  obtain ⟨g, gs, ho⟩ := hP.order_eq
  rw [ho] at h
  have hne : ∀ g ∈ gs, g ≠ [] := fun g hg => hP.nonempty g (by rw [ho]; simpa using hg)
  have ht : List.Forall₂ (fun g q => ∀ i ∈ g, Int.fract (v i) = q) gs qs := by
    cases h; assumption
  clear h ho
  induction ht with
  | nil => simp
  | cons h _ ih =>
    rename_i a b l1 l2 _
    intro q hq
    rcases List.mem_cons.1 hq with rfl | hq
    · obtain ⟨i, hi⟩ := List.exists_mem_of_ne_nil a (hne a (by simp))
      rw [← h i hi]; exact Int.fract_lt_one _
    · exact ih (fun g hg => hne g (by simp [hg])) q hq

theorem exists_gap (qs : List ℚ) (h : ∀ q ∈ qs, q < 1) : ∃ η : ℚ, 0 < η ∧ ∀ q ∈ qs, q + η ≤ 1 := by
  induction qs with
  | nil => exact ⟨1, by norm_num, by simp⟩
  | cons a l ih =>
    obtain ⟨η, h0, h1⟩ := ih fun q hq => h q (by simp [hq])
    refine ⟨min η (1 - a), lt_min h0 (by have := h a (by simp); linarith), ?_⟩
    intro q hq
    rcases List.mem_cons.1 hq with rfl | hq
    · have := min_le_right η (1 - q); linarith
    · have := min_le_left η (1 - a); have := h1 q hq; linarith

theorem exists_gap' (qs : List ℚ) (h : ∀ q ∈ qs, 0 < q) : ∃ η : ℚ, 0 < η ∧ η ≤ 1 ∧ ∀ q ∈ qs, η ≤ q := by
  induction qs with
  | nil => exact ⟨1, by norm_num, le_refl _, by simp⟩
  | cons a l ih =>
    obtain ⟨η, h0, h2, h1⟩ := ih fun q hq => h q (by simp [hq])
    refine ⟨min η a, lt_min h0 (h a (by simp)), (min_le_left _ _).trans h2, ?_⟩
    intro q hq
    rcases List.mem_cons.1 hq with rfl | hq
    · exact min_le_right _ _
    · exact (min_le_left _ _).trans (h1 q hq)

theorem forall₂_map_shift {v : ℕ → ℚ} {gs : List (List ℕ)} {qs : List ℚ} {e : ℚ}
    (h : List.Forall₂ (fun g q => ∀ i ∈ g, Int.fract (v i) = q) gs qs)
    (hq : ∀ q ∈ qs, 0 ≤ q + e ∧ q + e < 1) :
    List.Forall₂ (fun g q => ∀ i ∈ g, Int.fract (v i + e) = q) gs (qs.map (· + e)) := by
  induction h with
  | nil => exact List.Forall₂.nil
  | cons h _ ih =>
    rename_i a b l1 l2 _
    refine List.Forall₂.cons ?_ (ih fun q hq' => hq q (by simp [hq']))
    intro i hi
    have := hq b (by simp)
    rw [← h i hi] at this ⊢
    exact fract_add_small this.1 this.2

theorem pairwise_shift {qs : List ℚ} (e : ℚ) (h : qs.Pairwise (· < ·)) :
    (qs.map (· + e)).Pairwise (· < ·) := by
  rw [List.pairwise_map]; exact h.imp (by intro a b h; linarith)

theorem forall₂_mem {α β : Type*} {R : α → β → Prop} {l : List α} {l' : List β} (h : List.Forall₂ R l l')
    {a : α} (ha : a ∈ l) : ∃ b ∈ l', R a b := by
  induction h with
  | nil => simp at ha
  | cons h _ ih =>
    rcases List.mem_cons.1 ha with rfl | ha
    · exact ⟨_, by simp, h⟩
    · obtain ⟨b, hb, hR⟩ := ih ha; exact ⟨b, by simp [hb], hR⟩

/-- Some variable is integral: a small delay makes the first group leave. -/
theorem successor_small {f : FractionalOrder} {v : ℕ → ℚ} (hP : f.Partition) (hD : f.Describes v)
    {g : List ℕ} {gs : List (List ℕ)} (ho : f.order = g :: gs) (hg : g ≠ []) :
    (∀ i ∈ g, Int.fract (v i) = 0) ∧ (∀ i < f.size, i ∉ g → 0 < Int.fract (v i)) ∧
    ∃ η : ℚ, 0 < η ∧ η ≤ 1 ∧ (∀ i < f.size, Int.fract (v i) + η ≤ 1) ∧
      ∀ e, 0 < e → e < η → f.successor.Describes fun i => v i + e := by
  obtain ⟨qs, h1, h2⟩ := hD
  have hq1 := Describes.lt_one hP h2
  obtain ⟨η, h3, h4⟩ := exists_gap (0 :: qs) (by
    intro q hq; rcases List.mem_cons.1 hq with rfl | hq
    · norm_num
    · exact hq1 q hq)
  rw [ho] at h2
  obtain ⟨h5, h6⟩ := List.forall₂_cons.1 h2
  have hpos := List.pairwise_cons.1 h1
  have hmem : ∀ i < f.size, ∃ x ∈ f.order, i ∈ x := fun i hi => by
    obtain ⟨x, hx, hix⟩ := (hP.mem_iff i).2 hi; exact ⟨x, hx, hix⟩
  refine ⟨h5, ?_, η, h3, ?_, ?_, ?_⟩
  · intro i hi hig
    obtain ⟨x, hx, hix⟩ := hmem i hi
    rw [ho] at hx
    rcases List.mem_cons.1 hx with rfl | hx
    · exact absurd hix hig
    · obtain ⟨q, hq, hR⟩ := forall₂_mem h6 hx
      rw [hR i hix]; exact hpos.1 q hq
  · have := h4 0 (by simp); linarith
  · intro i hi
    obtain ⟨x, hx, hix⟩ := hmem i hi
    rw [ho] at hx
    obtain ⟨q, hq, hR⟩ := forall₂_mem h2 hx
    rw [hR i hix]; exact h4 q hq
  · intro e he0 he1
    rw [(successor_front ho hg).1]
    refine ⟨(0 :: qs).map (· + e), ?_, ?_⟩
    · rw [List.pairwise_cons]
      refine ⟨?_, pairwise_shift e h1⟩
      intro q hq
      obtain ⟨q', hq', rfl⟩ := List.mem_map.1 hq
      rcases List.mem_cons.1 hq' with rfl | hq'
      · linarith
      · have := hpos.1 q' hq'; linarith
    · refine List.Forall₂.cons (by simp) (forall₂_map_shift h2 ?_)
      intro q hq
      have := h4 q hq
      refine ⟨?_, by linarith⟩
      rcases List.mem_cons.1 hq with rfl | hq
      · linarith
      · have := hpos.1 q hq; linarith

/-- No variable is integral: the last group becomes integral after some delay, and nothing changes
before. -/
theorem successor_until {f : FractionalOrder} {v : ℕ → ℚ} (hP : f.Partition) (hD : f.Describes v)
    {r : List (List ℕ)} {l : List ℕ} (ho : f.order = [] :: (r ++ [l])) (hl : l ≠ []) :
    (∀ i < f.size, 0 < Int.fract (v i)) ∧
    ∃ η : ℚ, 0 < η ∧ η < 1 ∧ (∀ i ∈ l, Int.fract (v i) + η = 1) ∧
      (∀ i < f.size, i ∉ l → Int.fract (v i) + η < 1) ∧
      (∀ e, 0 ≤ e → e < η → f.Describes fun i => v i + e) ∧
      f.successor.Describes fun i => v i + η := by
  obtain ⟨qs, h1, h2⟩ := hD
  have hq1 := Describes.lt_one hP h2
  rw [ho] at h2
  obtain ⟨_, h6⟩ := List.forall₂_cons.1 h2
  have hpos := List.pairwise_cons.1 h1
  obtain ⟨qr, q, hqs, h7, h8⟩ : ∃ qr q, qs = qr ++ [q] ∧
      List.Forall₂ (fun g q => ∀ i ∈ g, Int.fract (v i) = q) r qr ∧ ∀ i ∈ l, Int.fract (v i) = q := by
    have hlen := h6.length_eq
    rcases List.eq_nil_or_concat qs with e | ⟨qr, q, e⟩
    · subst e; simp at hlen
    · rw [List.concat_eq_append] at e
      subst e
      have hlen' : r.length = qr.length := by simpa using hlen
      refine ⟨qr, q, rfl, ?_⟩
      have ht := List.forall₂_take r.length h6
      have hd := List.forall₂_drop r.length h6
      rw [List.take_left' rfl, List.take_left' hlen'.symm] at ht
      rw [List.drop_left' rfl, List.drop_left' hlen'.symm] at hd
      exact ⟨ht, (List.forall₂_cons.1 hd).1⟩
  subst hqs
  have hq : 0 < q ∧ q < 1 := ⟨hpos.1 q (by simp), hq1 q (by simp)⟩
  have hlt : ∀ q' ∈ qr, 0 < q' ∧ q' < q := fun q' hq' =>
    ⟨hpos.1 q' (by simp [hq']), (List.pairwise_append.1 hpos.2).2.2 q' hq' q (by simp)⟩
  have hmem : ∀ i < f.size, i ∈ l ∨ ∃ q' ∈ qr, Int.fract (v i) = q' := fun i hi => by
    obtain ⟨x, hx, hix⟩ := (hP.mem_iff i).2 hi
    rw [ho] at hx
    simp only [List.mem_cons, List.mem_append, List.not_mem_nil, or_false] at hx
    rcases hx with rfl | hx | rfl
    · simp at hix
    · obtain ⟨q', hq', hR⟩ := forall₂_mem h7 hx
      exact Or.inr ⟨q', hq', hR i hix⟩
    · exact Or.inl hix
  refine ⟨?_, 1 - q, by linarith, by linarith, ?_, ?_, ?_, ?_⟩
  · intro i hi
    rcases hmem i hi with h | ⟨q', hq', h⟩
    · rw [h8 i h]; exact hq.1
    · rw [h]; exact (hlt q' hq').1
  · intro i hi; rw [h8 i hi]; ring
  · intro i hi hil
    rcases hmem i hi with h | ⟨q', hq', h⟩
    · exact absurd h hil
    · rw [h]; have := (hlt q' hq').2; linarith
  · intro e he0 he1
    have hle : ∀ q' ∈ qr ++ [q], 0 < q' ∧ q' ≤ q := by
      intro q' hq'
      rcases List.mem_append.1 hq' with h | h
      · exact ⟨(hlt q' h).1, (hlt q' h).2.le⟩
      · rw [List.mem_singleton.1 h]; exact ⟨hq.1, le_refl _⟩
    refine ⟨(qr ++ [q]).map (· + e), ?_, ?_⟩
    · rw [List.pairwise_cons]
      refine ⟨?_, pairwise_shift e hpos.2⟩
      intro x hx
      obtain ⟨q', hq', rfl⟩ := List.mem_map.1 hx
      have := hle q' hq'; linarith [this.1]
    · rw [ho]
      refine List.Forall₂.cons (by simp) (forall₂_map_shift h6 ?_)
      intro q' hq'
      have := hle q' hq'
      exact ⟨by linarith [this.1], by linarith [this.2]⟩
  · rw [(successor_back ho).1]
    refine ⟨qr.map (· + (1 - q)), ?_, ?_⟩
    · rw [List.pairwise_cons]
      refine ⟨?_, pairwise_shift _ (List.pairwise_append.1 hpos.2).1⟩
      intro x hx
      obtain ⟨q', hq', rfl⟩ := List.mem_map.1 hx
      have := (hlt q' hq').1; linarith
    · refine List.Forall₂.cons ?_ (forall₂_map_shift h7 ?_)
      · intro i hi; exact fract_add_one (by rw [h8 i hi]; ring)
      · intro q' hq'
        have := hlt q' hq'
        exact ⟨by linarith, by linarith⟩

/-- Some variable is integral: going back a little, the first group becomes the last one. -/
theorem predecessor_small {f : FractionalOrder} {v : ℕ → ℚ} (hP : f.Partition) (hD : f.Describes v)
    {g : List ℕ} {gs : List (List ℕ)} (ho : f.order = g :: gs) (hg : g ≠ []) :
    ∃ η : ℚ, 0 < η ∧ η ≤ 1 ∧ (∀ i < f.size, i ∉ g → η ≤ Int.fract (v i)) ∧
      ∀ e, 0 < e → e < η → f.predecessor.Describes fun i => v i - e := by
  obtain ⟨qs, h1, h2⟩ := hD
  have hq1 := Describes.lt_one hP h2
  rw [ho] at h2
  obtain ⟨h5, h6⟩ := List.forall₂_cons.1 h2
  have hpos := List.pairwise_cons.1 h1
  obtain ⟨η, h3, h3', h4⟩ := exists_gap' qs hpos.1
  refine ⟨η, h3, h3', ?_, ?_⟩
  · intro i hi hig
    obtain ⟨x, hx, hix⟩ := (hP.mem_iff i).2 hi
    rw [ho] at hx
    rcases List.mem_cons.1 hx with rfl | hx
    · exact absurd hix hig
    · obtain ⟨q, hq, hR⟩ := forall₂_mem h6 hx
      rw [hR i hix]; exact h4 q hq
  · intro e he0 he1
    rw [(predecessor_front ho hg).1]
    refine ⟨qs.map (· + -e) ++ [1 - e], ?_, ?_⟩
    · rw [List.pairwise_cons]
      refine ⟨?_, ?_⟩
      · intro x hx
        rcases List.mem_append.1 hx with hx | hx
        · obtain ⟨q', hq', rfl⟩ := List.mem_map.1 hx
          have := h4 q' hq'; linarith
        · rw [List.mem_singleton.1 hx]; linarith
      · rw [List.pairwise_append]
        refine ⟨pairwise_shift _ hpos.2, by simp, ?_⟩
        intro x hx y hy
        obtain ⟨q', hq', rfl⟩ := List.mem_map.1 hx
        rw [List.mem_singleton.1 hy]
        have := hq1 q' hq'; linarith
    · refine List.Forall₂.cons (by simp) (List.rel_append ?_ (List.Forall₂.cons ?_ List.Forall₂.nil))
      · simp only [sub_eq_add_neg]
        refine forall₂_map_shift h6 ?_
        intro q hq
        have := h4 q hq; have := hq1 q hq
        exact ⟨by linarith, by linarith⟩
      · intro i hi
        have := h5 i hi
        obtain ⟨n, hn⟩ := fract_zero_iff.1 this
        rw [Int.fract_eq_iff]
        exact ⟨by linarith, by linarith, n - 1, by simp only; rw [hn]; push_cast; ring⟩

/-- No variable is integral: going back, the second group becomes integral, and nothing changes
before. -/
theorem predecessor_until {f : FractionalOrder} {v : ℕ → ℚ} (hP : f.Partition) (hD : f.Describes v)
    {g : List ℕ} {gs : List (List ℕ)} (ho : f.order = [] :: g :: gs) :
    (∀ i < f.size, 0 < Int.fract (v i)) ∧
    ∃ η : ℚ, 0 < η ∧ η < 1 ∧ (∀ i ∈ g, Int.fract (v i) = η) ∧
      (∀ i < f.size, i ∉ g → η < Int.fract (v i)) ∧
      (∀ e, 0 ≤ e → e < η → f.Describes fun i => v i - e) ∧
      f.predecessor.Describes fun i => v i - η := by
  obtain ⟨qs, h1, h2⟩ := hD
  have hq1 := Describes.lt_one hP h2
  rw [ho] at h2
  obtain ⟨_, h6⟩ := List.forall₂_cons.1 h2
  have hpos := List.pairwise_cons.1 h1
  cases qs with
  | nil => cases h6
  | cons q qs =>
    obtain ⟨h8, h7⟩ := List.forall₂_cons.1 h6
    have hq : 0 < q ∧ q < 1 := ⟨hpos.1 q (by simp), hq1 q (by simp)⟩
    have hlt : ∀ q' ∈ qs, q < q' ∧ q' < 1 := fun q' hq' =>
      ⟨(List.pairwise_cons.1 hpos.2).1 q' hq', hq1 q' (by simp [hq'])⟩
    have hmem : ∀ i < f.size, i ∈ g ∨ ∃ q' ∈ qs, Int.fract (v i) = q' := fun i hi => by
      obtain ⟨x, hx, hix⟩ := (hP.mem_iff i).2 hi
      rw [ho] at hx
      simp only [List.mem_cons] at hx
      rcases hx with rfl | rfl | hx
      · simp at hix
      · exact Or.inl hix
      · obtain ⟨q', hq', hR⟩ := forall₂_mem h7 hx
        exact Or.inr ⟨q', hq', hR i hix⟩
    refine ⟨?_, q, hq.1, hq.2, h8, ?_, ?_, ?_⟩
    · intro i hi
      rcases hmem i hi with h | ⟨q', hq', h⟩
      · rw [h8 i h]; exact hq.1
      · rw [h]; linarith [(hlt q' hq').1, hq.1]
    · intro i hi hil
      rcases hmem i hi with h | ⟨q', hq', h⟩
      · exact absurd h hil
      · rw [h]; exact (hlt q' hq').1
    · intro e he0 he1
      have hle : ∀ q' ∈ q :: qs, q ≤ q' ∧ q' < 1 := by
        intro q' hq'
        rcases List.mem_cons.1 hq' with rfl | h
        · exact ⟨le_refl _, hq.2⟩
        · exact ⟨(hlt q' h).1.le, (hlt q' h).2⟩
      refine ⟨(q :: qs).map (· + -e), ?_, ?_⟩
      · rw [List.pairwise_cons]
        refine ⟨?_, pairwise_shift _ hpos.2⟩
        intro x hx
        obtain ⟨q', hq', rfl⟩ := List.mem_map.1 hx
        have := hle q' hq'; linarith [this.1]
      · rw [ho]
        simp only [sub_eq_add_neg]
        refine List.Forall₂.cons (by simp) (forall₂_map_shift h6 ?_)
        intro q' hq'
        have := hle q' hq'
        exact ⟨by linarith [this.1], by linarith [this.2]⟩
    · rw [(predecessor_back ho).1]
      refine ⟨qs.map (· + -q), ?_, ?_⟩
      · rw [List.pairwise_cons]
        refine ⟨?_, pairwise_shift _ (List.pairwise_cons.1 hpos.2).2⟩
        intro x hx
        obtain ⟨q', hq', rfl⟩ := List.mem_map.1 hx
        have := (hlt q' hq').1; linarith
      · simp only [sub_eq_add_neg]
        refine List.Forall₂.cons ?_ (forall₂_map_shift h7 ?_)
        · intro i hi
          rw [fract_add_small (by rw [h8 i hi]; linarith) (by rw [h8 i hi]; linarith), h8 i hi]; ring
        · intro q' hq'
          have := hlt q' hq'
          exact ⟨by linarith, by linarith⟩

theorem Describes.congr {f : FractionalOrder} (hP : f.Partition) {v v' : ℕ → ℚ} (h : f.Describes v)
    (he : ∀ i < f.size, Int.fract (v i) = Int.fract (v' i)) : f.Describes v' := by
  obtain ⟨qs, h1, h2⟩ := h
  refine ⟨qs, h1, ?_⟩
  have hall : ∀ g ∈ f.order, ∀ i ∈ g, i < f.size := fun g hg i hi => (hP.mem_iff i).1 ⟨g, hg, hi⟩
  generalize f.order = o at h2 hall
  generalize 0 :: qs = qs' at h2
  induction h2 with
  | nil => exact List.Forall₂.nil
  | cons h _ ih =>
    refine List.Forall₂.cons ?_ (ih fun g hg => hall g (by simp [hg]))
    intro i hi
    rw [← he i (hall _ (by simp) i hi)]; exact h i hi

end FractionalOrder
end LearnTA
