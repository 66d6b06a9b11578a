import Verif.Lemmas.RegionSucc
import Verif.Lemmas.ElementaryAppend
import Verif.Lemmas.TimedWord
import Mathlib.Data.List.Chain

/-!
# Regional elementary languages and timed words
-/

namespace LearnTA
open Bound Zone

/-! ### Numbers with the same tightest bounds -/

theorem sat_iff_reg_le {x : ℚ} {b : Bound} (hb : IsInt b) : Sat x b ↔ reg x ≤ b :=
  ⟨reg_le hb, fun h => (sat_reg x).mono h⟩

theorem reg_lt_iff {x y : ℚ} (h : reg x = reg y) (m : ℤ) : x < m ↔ y < m := by
  have h1 := sat_iff_reg_le (x := x) (b := .fin m false) ⟨m, rfl⟩
  have h2 := sat_iff_reg_le (x := y) (b := .fin m false) ⟨m, rfl⟩
  rw [h, ← h2] at h1
  simpa using h1

theorem reg_le_iff {x y : ℚ} (h : reg x = reg y) (m : ℤ) : x ≤ m ↔ y ≤ m := by
  have h1 := sat_iff_reg_le (x := x) (b := .fin m true) ⟨m, rfl⟩
  have h2 := sat_iff_reg_le (x := y) (b := .fin m true) ⟨m, rfl⟩
  rw [h, ← h2] at h1
  simpa using h1

theorem reg_floor {x y : ℚ} (h : reg x = reg y) : ⌊x⌋ = ⌊y⌋ := by
  apply le_antisymm
  · rw [Int.le_floor, ← not_lt, ← reg_lt_iff h, not_lt]; exact Int.floor_le x
  · rw [Int.le_floor, ← not_lt, reg_lt_iff h, not_lt]; exact Int.floor_le y

theorem reg_fract_zero {x y : ℚ} (h : reg x = reg y) (hx : Int.fract x = 0) : Int.fract y = 0 := by
  obtain ⟨n, rfl⟩ := fract_zero_iff.1 hx
  have h1 := (reg_le_iff h n).1 (le_refl _)
  have h2 := (not_congr (reg_lt_iff h n)).1 (lt_irrefl _)
  rw [show y = n from le_antisymm h1 (not_lt.1 h2)]; simp

theorem fract_lt_iff {x y : ℚ} : Int.fract x < Int.fract y ↔ x - y < ((⌊x⌋ - ⌊y⌋ : ℤ) : ℚ) := by
  have h1 := Int.floor_add_fract x
  have h2 := Int.floor_add_fract y
  push_cast
  constructor <;> intro h <;> linarith

/-- The order of fractional parts is the same in a region. -/
theorem reg_fract_lt {x y x' y' : ℚ} (h1 : reg x = reg x') (h2 : reg y = reg y')
    (h3 : reg (x - y) = reg (x' - y')) : Int.fract x < Int.fract y ↔ Int.fract x' < Int.fract y' := by
  rw [fract_lt_iff, fract_lt_iff, ← reg_floor h1, ← reg_floor h2]
  exact reg_lt_iff h3 _

theorem FractionalOrder.Describes.transfer {f : FractionalOrder} (hP : f.Partition) {v v' : ℕ → ℚ}
    (h : f.Describes v) (h0 : ∀ i < f.size, Int.fract (v i) = 0 ↔ Int.fract (v' i) = 0)
    (hlt : ∀ i < f.size, ∀ j < f.size, Int.fract (v i) < Int.fract (v j) ↔ Int.fract (v' i) < Int.fract (v' j)) :
    f.Describes v' := by
  obtain ⟨qs, h1, h2⟩ := h
  obtain ⟨g, gs, ho⟩ := hP.order_eq
  rw [ho] at h2
  obtain ⟨h3, h4⟩ := List.forall₂_cons.1 h2
  have hall : ∀ x ∈ f.order, ∀ i ∈ x, i < f.size := fun x hx i hi => (hP.mem_iff i).1 ⟨x, hx, hi⟩
  have hne : ∀ x ∈ gs, x ≠ [] := fun x hx => hP.nonempty x (by rw [ho]; simpa using hx)
  rw [ho] at hall
  have hrep : ∀ x ∈ gs, ∀ i ∈ x, x.headD 0 ∈ x := by
    intro x hx i hi
    cases x with
    | nil => simp at hi
    | cons a x => simp
  have heq : ∀ i < f.size, ∀ j < f.size, Int.fract (v i) = Int.fract (v j) → Int.fract (v' i) = Int.fract (v' j) := by
    intro i hi j hj e
    have a1 := (hlt i hi j hj).not.1 (by rw [e]; exact lt_irrefl _)
    have a2 := (hlt j hj i hi).not.1 (by rw [e]; exact lt_irrefl _)
    exact le_antisymm (not_lt.1 a2) (not_lt.1 a1)
  refine ⟨gs.map fun x => Int.fract (v' (x.headD 0)), ?_, ?_⟩
  · rw [List.pairwise_cons] at h1 ⊢
    constructor
    · intro q hq
      obtain ⟨x, hx, rfl⟩ := List.mem_map.1 hq
      obtain ⟨i, hi⟩ := List.exists_mem_of_ne_nil x (hne x hx)
      have hm := hrep x hx i hi
      obtain ⟨q', hq', hR⟩ := FractionalOrder.forall₂_mem h4 hx
      refine lt_of_le_of_ne (Int.fract_nonneg _) fun e => ?_
      have hs := hall x (by simp [hx]) _ hm
      -- the fractional part of `v` is positive, so some comparison with its double fails
      have hpos : 0 < Int.fract (v (x.headD 0)) := by rw [hR _ hm]; exact h1.1 q' hq'
      have := (h0 _ hs).not.1 (ne_of_gt hpos)
      exact this e.symm
    · rw [List.pairwise_map]
      have key : ∀ (gs : List (List ℕ)) (qs : List ℚ), List.Forall₂ (fun g q => ∀ i ∈ g, Int.fract (v i) = q) gs qs →
          qs.Pairwise (· < ·) → (∀ x ∈ gs, x ≠ []) → (∀ x ∈ gs, ∀ i ∈ x, i < f.size) →
          gs.Pairwise fun x y => Int.fract (v' (x.headD 0)) < Int.fract (v' (y.headD 0)) := by
        intro gs qs h
        induction h with
        | nil => simp
        | cons hR hrest ih =>
          rename_i a q l1 l2
          intro hs hn hb
          rw [List.pairwise_cons] at hs ⊢
          refine ⟨?_, ih hs.2 (fun x hx => hn x (by simp [hx])) fun x hx => hb x (by simp [hx])⟩
          intro y hy
          obtain ⟨q', hq', hR'⟩ := FractionalOrder.forall₂_mem hrest hy
          have ha : a.headD 0 ∈ a := by
            cases a with
            | nil => exact absurd rfl (hn [] (by simp))
            | cons b a => simp
          have hy' : y.headD 0 ∈ y := by
            cases y with
            | nil => exact absurd rfl (hn [] (by simp [hy]))
            | cons b a => simp
          rw [← hlt _ (hb a (by simp) _ ha) _ (hb y (by simp [hy]) _ hy'), hR _ ha, hR' _ hy']
          exact hs.1 q' hq'
      exact key gs qs h4 h1.2 hne fun x hx => hall x (by simp [hx])
  · rw [ho]
    refine List.Forall₂.cons ?_ ?_
    · intro i hi
      exact (h0 i (hall g (by simp) i hi)).1 (h3 i hi)
    · rw [List.forall₂_map_right_iff]
      have : ∀ x ∈ gs, ∀ i ∈ x, Int.fract (v' i) = Int.fract (v' (x.headD 0)) := by
        intro x hx i hi
        obtain ⟨q', hq', hR⟩ := FractionalOrder.forall₂_mem h4 hx
        have hm := hrep x hx i hi
        exact heq i (hall x (by simp [hx]) i hi) _ (hall x (by simp [hx]) _ hm) (by rw [hR i hi, hR _ hm])
      exact List.forall₂_same.2 this

namespace FractionalOrder

/-- Lists of groups describing the same values are the same. -/
theorem groups_unique {v : ℕ → ℚ} (gs gs' : List (List ℕ)) (qs qs' : List ℚ)
    (h : List.Forall₂ (fun g q => ∀ i ∈ g, Int.fract (v i) = q) gs qs)
    (h' : List.Forall₂ (fun g q => ∀ i ∈ g, Int.fract (v i) = q) gs' qs')
    (hq : qs.Pairwise (· < ·)) (hq' : qs'.Pairwise (· < ·))
    (hs : ∀ g ∈ gs, g.Pairwise (· < ·)) (hs' : ∀ g ∈ gs', g.Pairwise (· < ·))
    (hn : ∀ g ∈ gs, g ≠ []) (hn' : ∀ g ∈ gs', g ≠ [])
    (hm : ∀ i, (∃ g ∈ gs, i ∈ g) ↔ ∃ g ∈ gs', i ∈ g) : gs = gs' := by
  induction h generalizing gs' qs' with
  | nil =>
    cases gs' with
    | nil => rfl
    | cons g' gs' =>
      obtain ⟨i, hi⟩ := List.exists_mem_of_ne_nil g' (hn' g' (by simp))
      obtain ⟨g, hg, _⟩ := (hm i).2 ⟨g', by simp, hi⟩
      simp at hg
  | cons hR hrest ih =>
    rename_i g q gs qs
    cases h' with
    | nil =>
      obtain ⟨i, hi⟩ := List.exists_mem_of_ne_nil g (hn g (by simp))
      obtain ⟨g, hg, _⟩ := (hm i).1 ⟨g, by simp, hi⟩
      simp at hg
    | cons hR' hrest' =>
      rename_i g' q' gs' qs'
      rw [List.pairwise_cons] at hq hq'
      -- values of members
      have hv : ∀ i, (∃ x ∈ g :: gs, i ∈ x) → q ≤ Int.fract (v i) ∧ (Int.fract (v i) = q → i ∈ g) := by
        rintro i ⟨x, hx, hix⟩
        rcases List.mem_cons.1 hx with rfl | hx
        · exact ⟨(hR i hix).ge, fun _ => hix⟩
        · obtain ⟨b, hb, hRb⟩ := forall₂_mem hrest hx
          have := hq.1 b hb
          rw [hRb i hix]
          exact ⟨this.le, fun e => absurd e (ne_of_gt this)⟩
      have hv' : ∀ i, (∃ x ∈ g' :: gs', i ∈ x) → q' ≤ Int.fract (v i) ∧ (Int.fract (v i) = q' → i ∈ g') := by
        rintro i ⟨x, hx, hix⟩
        rcases List.mem_cons.1 hx with rfl | hx
        · exact ⟨(hR' i hix).ge, fun _ => hix⟩
        · obtain ⟨b, hb, hRb⟩ := forall₂_mem hrest' hx
          have := hq'.1 b hb
          rw [hRb i hix]
          exact ⟨this.le, fun e => absurd e (ne_of_gt this)⟩
      obtain ⟨i, hi⟩ := List.exists_mem_of_ne_nil g (hn g (by simp))
      obtain ⟨i', hi'⟩ := List.exists_mem_of_ne_nil g' (hn' g' (by simp))
      have e : q = q' := by
        apply le_antisymm
        · have := (hv i' ((hm i').2 ⟨g', by simp, hi'⟩)).1
          rwa [hR' i' hi'] at this
        · have := (hv' i ((hm i).1 ⟨g, by simp, hi⟩)).1
          rwa [hR i hi] at this
      subst e
      have hg : ∀ i, i ∈ g ↔ i ∈ g' := fun i =>
        ⟨fun h => (hv' i ((hm i).1 ⟨g, by simp, h⟩)).2 (hR i h),
          fun h => (hv i ((hm i).2 ⟨g', by simp, h⟩)).2 (hR' i h)⟩
      have hgg : g = g' := by
        have p : g.Perm g' := (List.perm_ext_iff_of_nodup
          ((hs g (by simp)).imp fun h => Nat.ne_of_lt h) ((hs' g' (by simp)).imp fun h => Nat.ne_of_lt h)).2 hg
        exact p.eq_of_pairwise' ((hs g (by simp)).imp fun h => Nat.le_of_lt h)
          ((hs' g' (by simp)).imp fun h => Nat.le_of_lt h)
      subst hgg
      congr 1
      refine ih gs' qs' hrest' hq.2 hq'.2 (fun g hg => hs g (by simp [hg])) (fun g hg => hs' g (by simp [hg]))
        (fun g hg => hn g (by simp [hg])) (fun g hg => hn' g (by simp [hg])) ?_
      intro j
      constructor
      · rintro ⟨x, hx, hjx⟩
        obtain ⟨b, hb, hRb⟩ := forall₂_mem hrest hx
        have hlt := hq.1 b hb
        rw [← hRb j hjx] at hlt
        obtain ⟨y, hy, hjy⟩ := (hm j).1 ⟨x, by simp [hx], hjx⟩
        rcases List.mem_cons.1 hy with rfl | hy
        · exact absurd (hR j hjy) (ne_of_gt hlt)
        · exact ⟨y, hy, hjy⟩
      · rintro ⟨x, hx, hjx⟩
        obtain ⟨b, hb, hRb⟩ := forall₂_mem hrest' hx
        have hlt := hq'.1 b hb
        rw [← hRb j hjx] at hlt
        obtain ⟨y, hy, hjy⟩ := (hm j).2 ⟨x, by simp [hx], hjx⟩
        rcases List.mem_cons.1 hy with rfl | hy
        · exact absurd (hR j hjy) (ne_of_gt hlt)
        · exact ⟨y, hy, hjy⟩

/-- The order is determined by the values it describes. -/
theorem describes_unique {f f' : FractionalOrder} {v : ℕ → ℚ} (hP : f.Partition) (hP' : f'.Partition)
    (hs : f.size = f'.size) (h : f.Describes v) (h' : f'.Describes v) : f = f' := by
  have hfront : ∀ (f : FractionalOrder) (hP : f.Partition) (h : f.Describes v) (i : ℕ),
      i ∈ f.order.headD [] ↔ i < f.size ∧ Int.fract (v i) = 0 := by
    intro f hP h i
    constructor
    · intro hi
      obtain ⟨g, gs, ho⟩ := hP.order_eq
      obtain ⟨qs, _, h2⟩ := h
      rw [ho] at h2 hi
      exact ⟨(hP.mem_iff i).1 ⟨g, by rw [ho]; simp, hi⟩, (List.forall₂_cons.1 h2).1 i hi⟩
    · rintro ⟨h1, h2⟩; exact ForwardRegional.mem_front hP h h1 h2
  have hf1 := hfront f hP h
  have hf2 := hfront f' hP' h'
  obtain ⟨g, gs, ho⟩ := hP.order_eq
  obtain ⟨g', gs', ho'⟩ := hP'.order_eq
  obtain ⟨qs, h1, h2⟩ := h
  obtain ⟨qs', h1', h2'⟩ := h'
  rw [ho] at h2 hf1; rw [ho'] at h2' hf2
  simp only [List.headD_cons] at hf1 hf2
  obtain ⟨h3, h4⟩ := List.forall₂_cons.1 h2
  obtain ⟨h3', h4'⟩ := List.forall₂_cons.1 h2'
  rw [List.pairwise_cons] at h1 h1'
  have hsg := hP.sorted g (by rw [ho]; simp)
  have hsg' := hP'.sorted g' (by rw [ho']; simp)
  have hgg : g = g' := by
    have p : g.Perm g' := (List.perm_ext_iff_of_nodup
      (hsg.imp fun h => Nat.ne_of_lt h) (hsg'.imp fun h => Nat.ne_of_lt h)).2 fun i => by
        rw [hf1, hf2, hs]
    exact p.eq_of_pairwise' (hsg.imp fun h => Nat.le_of_lt h) (hsg'.imp fun h => Nat.le_of_lt h)
  have hm : ∀ (f : FractionalOrder) (hP : f.Partition) (g : List ℕ) (gs : List (List ℕ)) (qs : List ℚ)
      (ho : f.order = g :: gs) (h4 : List.Forall₂ (fun g q => ∀ i ∈ g, Int.fract (v i) = q) gs qs)
      (h1 : ∀ q ∈ qs, 0 < q) (h3 : ∀ i ∈ g, Int.fract (v i) = 0) (i : ℕ),
      (∃ x ∈ gs, i ∈ x) ↔ i < f.size ∧ Int.fract (v i) ≠ 0 := by
    intro f hP g gs qs ho h4 h1 h3 i
    constructor
    · rintro ⟨x, hx, hix⟩
      obtain ⟨b, hb, hRb⟩ := forall₂_mem h4 hx
      refine ⟨(hP.mem_iff i).1 ⟨x, by rw [ho]; simp [hx], hix⟩, ?_⟩
      rw [hRb i hix]; exact ne_of_gt (h1 b hb)
    · rintro ⟨hi, hne⟩
      obtain ⟨x, hx, hix⟩ := (hP.mem_iff i).2 hi
      rw [ho] at hx
      rcases List.mem_cons.1 hx with rfl | hx
      · exact absurd (h3 i hix) hne
      · exact ⟨x, hx, hix⟩
  have hgs : gs = gs' := by
    refine groups_unique gs gs' qs qs' h4 h4' h1.2 h1'.2 (fun x hx => hP.sorted x (by rw [ho]; simp [hx]))
      (fun x hx => hP'.sorted x (by rw [ho']; simp [hx]))
      (fun x hx => hP.nonempty x (by rw [ho]; simpa using hx))
      (fun x hx => hP'.nonempty x (by rw [ho']; simpa using hx)) ?_
    intro i
    rw [hm f hP g gs qs ho h4 h1.1 h3 i, hm f' hP' g' gs' qs' ho' h4' h1'.1 h3' i, hs]
  rcases f with ⟨o, s⟩; rcases f' with ⟨o', s'⟩
  simp only at ho ho' hs
  subst ho; subst ho'; subst hs; subst hgg; subst hgs; rfl

end FractionalOrder

namespace ForwardRegional
open TimedCondition

/-! ### The values of a region -/

theorem Of.sat {L : ForwardRegional} {n : ℕ} {v : Valuation} (h : L.Of n v) : L.cond.zone.Sat v.ext :=
  h.region.sat h.diag

theorem Of.reg_eq {L L' : ForwardRegional} {n : ℕ} {v v' : Valuation} (h : L.cond.zone.IsRegion v.ext)
    (h' : L.cond.zone.IsRegion v'.ext) (hd : L.cond.zone.dim = n + 1) :
    (∀ i < n, reg (v i) = reg (v' i)) ∧ ∀ i < n, ∀ j < n, i ≠ j → reg (v i - v j) = reg (v' i - v' j) := by
  constructor
  · intro i hi
    have e1 := h (i + 1) (by omega) 0 (by omega) (by omega)
    have e2 := h' (i + 1) (by omega) 0 (by omega) (by omega)
    rw [e1] at e2; simpa using e2
  · intro i hi j hj hij
    have e1 := h (i + 1) (by omega) (j + 1) (by omega) (by omega)
    have e2 := h' (i + 1) (by omega) (j + 1) (by omega) (by omega)
    rw [e1] at e2; simpa using e2

/-- All points of a region have the same region and order. -/
theorem Of.transfer {L : ForwardRegional} {n : ℕ} {v v' : Valuation} (h : L.Of n v)
    (hs : L.cond.zone.Sat v'.ext) : L.Of n v' := by
  have hr := h.region.of_sat hs
  obtain ⟨e1, e2⟩ := Of.reg_eq (L' := L) h.region hr h.dim
  refine ⟨h.pos, h.word, h.dim, h.diag, hr, h.size, h.part, h.desc.transfer h.part ?_ ?_⟩
  · intro i hi
    rw [h.size] at hi
    exact ⟨reg_fract_zero (e1 i hi), reg_fract_zero (e1 i hi).symm⟩
  · intro i hi j hj
    rw [h.size] at hi hj
    by_cases hij : i = j
    · subst hij; simp
    · exact reg_fract_lt (e1 i hi) (e1 j hj) (e2 i hi j hj hij)

theorem Of.canonical {L : ForwardRegional} {n : ℕ} {v : Valuation} (h : L.Of n v) : L.cond.Canonical :=
  canonical_of_isRegion (by rw [h.dim]; have := h.pos; omega) h.diag h.region

theorem Of.csize {L : ForwardRegional} {n : ℕ} {v : Valuation} (h : L.Of n v) : L.cond.size = n := by
  unfold TimedCondition.size; rw [h.dim]; omega

/-- Membership is being a point of the region. -/
theorem Of.mem_iff {L : ForwardRegional} {n : ℕ} {v : Valuation} (h : L.Of n v) (w : TimedWord) :
    L.toElementaryLanguage.Mem w ↔ w.word = L.word ∧ w.durations.length = n ∧ L.Of n (accV w.durations) := by
  have hp := h.pos
  unfold ElementaryLanguage.Mem
  rw [holds_iff_mem _ (by rw [h.dim]; omega) h.diag, h.csize]
  constructor
  · rintro ⟨h1, h2, h3⟩; exact ⟨h1, h2, h.transfer h3⟩
  · rintro ⟨h1, h2, h3⟩; exact ⟨h1, h2, h3.sat⟩

/-- The region of a timed word. -/
theorem fromTimedWord_of (w : TimedWord) (hw : w.WF) :
    (fromTimedWord w).Of w.durations.length (accV w.durations) := by
  have hl := TimedWord.accumulate_length w.durations
  have hv : ∀ i < w.durations.length, (TimedWord.accumulate w.durations).getD i 0 = accV w.durations i := by
    intro i hi
    rw [List.getD_eq_getElem?_getD, TimedWord.accumulate_getElem? _ _ hi]; rfl
  obtain ⟨h1, h2, h3, h4⟩ := ofAccumulated_isRegion (TimedWord.accumulate w.durations)
  obtain ⟨g1, g2, g3⟩ := FractionalOrder.ofFractionalParts_spec (accV w.durations) w.durations.length
    ((TimedWord.accumulate w.durations).map fun q => q - ⌊q⌋) (by simp [hl]) (by
      intro i hi
      simp only [List.length_map, hl] at hi
      have := hv i hi
      rw [List.getD_eq_getElem?_getD, List.getElem?_eq_getElem (by omega), Option.getD_some] at this
      simp only [List.getElem_map, this]; rfl)
  have hpos : 0 < w.durations.length := by rw [hw]; omega
  have hreg : (ofAccumulated (TimedWord.accumulate w.durations)).zone.IsRegion (accV w.durations).ext := by
    refine h4.congr fun i hi => ?_
    rw [h1, hl] at hi
    cases i with
    | zero => rfl
    | succ i => exact hv i (by omega)
  refine ⟨hpos, hw.symm, by rw [← hl]; exact h1, ?_, hreg, g1, g2, g3⟩
  exact h3.pairNN.diagNN

theorem beq_iff (L L' : ForwardRegional) : L.beq L' = true ↔
    L.word = L'.word ∧ L.cond.size = L'.cond.size ∧
      (∀ i < L.cond.zone.dim, ∀ j < L.cond.zone.dim, i ≠ j → L.cond.zone.val i j = L'.cond.zone.val i j) ∧
      L.frac = L'.frac := by
  unfold ForwardRegional.beq TimedCondition.beq strictEqual
  simp only [Bool.and_eq_true, beq_iff_eq, List.all_eq_true, List.mem_range, decide_eq_true_eq, and_assoc]
  refine and_congr_right fun _ => and_congr_right fun _ => and_congr_left fun _ => ?_
  exact forall₂_congr fun i hi => forall₂_congr fun j hj => by tauto

/-- The region of given values is unique, up to `==`. -/
theorem Of.beq {L L' : ForwardRegional} {n : ℕ} {v : Valuation} (h : L.Of n v) (h' : L'.Of n v)
    (hw : L.word = L'.word) : L.beq L' = true := by
  rw [beq_iff]
  refine ⟨hw, by rw [h.csize, h'.csize], ?_,
    FractionalOrder.describes_unique h.part h'.part (by rw [h.size, h'.size]) h.desc h'.desc⟩
  intro i hi j hj hij
  rw [h.region i hi j hj hij, h'.region i (by rw [h'.dim, ← h.dim]; exact hi) j (by rw [h'.dim, ← h.dim]; exact hj) hij]

theorem beq_symm {L L' : ForwardRegional} {n m : ℕ} {v v' : Valuation} (h : L.Of n v) (h' : L'.Of m v')
    (hb : L.beq L' = true) : L'.beq L = true := by
  rw [beq_iff] at hb ⊢
  obtain ⟨h1, h2, h3, h4⟩ := hb
  rw [h.csize, h'.csize] at h2
  have e : L'.cond.zone.dim = L.cond.zone.dim := by rw [h.dim, h'.dim, h2]
  exact ⟨h1.symm, by rw [h.csize, h'.csize, h2], fun i hi j hj hij =>
    (h3 i (e ▸ hi) j (e ▸ hj) hij).symm, h4.symm⟩

theorem Of.of_beq {L L' : ForwardRegional} {n m : ℕ} {v v' : Valuation} (h : L.Of n v) (h' : L'.Of m v')
    (hb : L.beq L' = true) : m = n ∧ L'.Of n v := by
  rw [beq_iff] at hb
  obtain ⟨h1, h2, h3, h4⟩ := hb
  rw [h.csize, h'.csize] at h2
  subst h2
  refine ⟨rfl, h'.pos, h'.word, h'.dim, h'.diag, ?_, h'.size, h'.part, h4 ▸ h.desc⟩
  intro i hi j hj hij
  rw [h'.dim, ← h.dim] at hi hj
  rw [← h3 i hi j hj hij, h.region i hi j hj hij]

theorem updatePairs_congr (f : Bound → Bound → Bound × Bound) {ps : List (ℕ × ℕ)} (hg : GoodPairs ps)
    {z z' : Zone} {a b : ℕ} (h1 : z.val a b = z'.val a b) (h2 : z.val b a = z'.val b a) :
    (updatePairs f ps z).val a b = (updatePairs f ps z').val a b := by
  rw [updatePairs_val f hg, updatePairs_val f hg, h1, h2]

theorem Of.succVars_nodup {L : ForwardRegional} {n : ℕ} {v : Valuation} (h : L.Of n v) :
    L.frac.successorVariables.Nodup := by
  have hg : L.frac.successorVariables ∈ L.frac.order := by
    rcases h.part.shape (by rw [h.size]; exact h.pos) with ⟨g, gs, ho, hg⟩ | ⟨r, l, ho, hl⟩
    · rw [(FractionalOrder.successor_front ho hg).2, ho]; simp
    · rw [(FractionalOrder.successor_back ho).2, ho]; simp
  exact (h.nodup hg).1

/-- Equal regions have equal continuous successors. -/
theorem beq_successor {L L' : ForwardRegional} {n : ℕ} {v : Valuation} (h : L.Of n v)
    (hb : L.beq L' = true) : L.successor.beq L'.successor = true := by
  rw [beq_iff] at hb ⊢
  obtain ⟨h1, h2, h3, h4⟩ := hb
  have hd1 : L.successor.cond.zone.dim = L.cond.zone.dim := by
    show (L.cond.successor _).zone.dim = _
    rw [successor_eq]; simp
  have hd2 : L'.successor.cond.zone.dim = L'.cond.zone.dim := by
    show (L'.cond.successor _).zone.dim = _
    rw [successor_eq]; simp
  refine ⟨h1, ?_, ?_, ?_⟩
  · unfold TimedCondition.size at *; rw [hd1, hd2, h2]
  · intro i hi j hj hij
    rw [hd1] at hi hj
    show (L.cond.successor _).zone.val i j = (L'.cond.successor _).zone.val i j
    rw [successor_eq, successor_eq, ← h4]
    exact updatePairs_congr _ (frontPairs_good h.succVars_nodup) (h3 i hi j hj hij) (h3 j hj i hi (Ne.symm hij))
  · show L.frac.successor = L'.frac.successor
    rw [h4]

theorem beq_successorAction {L L' : ForwardRegional} {n m : ℕ} {v v' : Valuation} (h : L.Of n v) (h' : L'.Of m v')
    (hb : L.beq L' = true) (a : Action) : (L.successorAction a).beq (L'.successorAction a) = true := by
  obtain ⟨rfl, h2⟩ := h.of_beq h' hb
  have hw := ((beq_iff _ _).1 hb).1
  refine (h.successorAction a).beq (h2.successorAction a) ?_
  show L.word ++ [a] = L'.word ++ [a]
  rw [hw]

/-- Restoring the last action. -/
theorem Of.chop_beq {L : ForwardRegional} {n : ℕ} {v : Valuation} (h : L.Of (n + 1) v) (hn : 0 < n)
    (hv : v n = 0) {a : Action} (ha : L.word.getLast? = some a) : (L.chop.successorAction a).beq L = true := by
  have h1 := ((h.chop hn hv).1.successorAction a).congr (v' := v) (by
    intro i hi
    by_cases e : i < n
    · rw [if_pos e]
    · rw [if_neg e, show i = n by omega, hv])
  refine h1.beq h ?_
  show L.word.dropLast ++ [a] = L.word
  exact List.dropLast_append_getLast? a ha

/-- The values are sums of consecutive non-negative delays up to the end. -/
def Mono (n : ℕ) (v : Valuation) : Prop := (∀ i j, i ≤ j → j < n → v j ≤ v i) ∧ 0 ≤ v (n - 1)

theorem Mono.nonneg {n : ℕ} {v : Valuation} (h : Mono n v) {i : ℕ} (hi : i < n) : 0 ≤ v i :=
  h.2.trans (h.1 i (n - 1) (by omega) (by omega))

theorem accV_mono {d : List ℚ} (h : ∀ q ∈ d, 0 ≤ q) : Mono d.length (accV d) := by
  have hs : ∀ l : List ℚ, (∀ q ∈ l, 0 ≤ q) → 0 ≤ l.sum := by
    intro l
    induction l with
    | nil => simp
    | cons a l ih =>
      intro hl
      rw [List.sum_cons]
      exact add_nonneg (hl a (by simp)) (ih fun q hq => hl q (by simp [hq]))
  constructor
  · intro i j hij hj
    unfold accV
    have : (d.drop i).sum = ((d.drop i).take (j - i)).sum + (d.drop j).sum := by
      rw [← List.sum_take_add_sum_drop (d.drop i) (j - i), List.drop_drop]
      congr 3; omega
    have := hs ((d.drop i).take (j - i)) fun q hq => h q (List.mem_of_mem_drop (List.mem_of_mem_take hq))
    linarith
  · exact hs _ fun q hq => h q (List.mem_of_mem_drop hq)

/-- Number of bounds below the values. -/
def rank (n : ℕ) (v : Valuation) : ℕ := n + ((List.range n).map fun i => (⌊v i⌋ + ⌈v i⌉).toNat).sum

theorem predecessor_ne {f : FractionalOrder} (hP : f.Partition) (hs : 0 < f.size) : f.predecessor ≠ f := by
  intro e
  have el := congrArg (fun g => g.order.length) e
  rcases hP.shape hs with ⟨g, gs, ho, hg⟩ | ⟨r, l, ho, hl⟩
  · rw [(FractionalOrder.predecessor_front ho hg).1, ho] at el; simp at el
  · obtain ⟨g, gs, eo⟩ : ∃ g gs, r ++ [l] = g :: gs := by
      cases r with
      | nil => exact ⟨l, [], rfl⟩
      | cons a r => exact ⟨a, r ++ [l], rfl⟩
    rw [eo] at ho
    rw [(FractionalOrder.predecessor_back ho).1, ho] at el; simp at el


theorem sum_le_of {l : List ℕ} {f g : ℕ → ℕ} (h : ∀ i ∈ l, f i ≤ g i) : (l.map f).sum ≤ (l.map g).sum := by
  induction l with
  | nil => simp
  | cons a l ih =>
    simp only [List.map_cons, List.sum_cons]
    exact Nat.add_le_add (h a (by simp)) (ih fun i hi => h i (by simp [hi]))

theorem sum_lt_of {l : List ℕ} {f g : ℕ → ℕ} (h : ∀ i ∈ l, f i ≤ g i) {k : ℕ} (hk : k ∈ l) (hlt : f k < g k) :
    (l.map f).sum < (l.map g).sum := by
  induction l with
  | nil => simp at hk
  | cons a l ih =>
    simp only [List.map_cons, List.sum_cons]
    rcases List.mem_cons.1 hk with rfl | hk
    · exact Nat.add_lt_add_of_lt_of_le hlt (sum_le_of fun i hi => h i (by simp [hi]))
    · exact Nat.add_lt_add_of_le_of_lt (h a (by simp)) (ih (fun i hi => h i (by simp [hi])) hk)

theorem reg_of_floor_ceil {x y : ℚ} (h1 : ⌊x⌋ = ⌊y⌋) (h2 : ⌈x⌉ = ⌈y⌉) : reg x = reg y ∧ reg (-x) = reg (-y) := by
  rcases cases_int x with ⟨n, rfl⟩ | ⟨n, hx1, hx2⟩
  · simp only [Int.floor_intCast, Int.ceil_intCast] at h1 h2
    have : y = n := by
      apply le_antisymm
      · rw [h2]; exact Int.le_ceil y
      · rw [h1]; exact Int.floor_le y
    rw [this]; exact ⟨rfl, rfl⟩
  · have e1 : ⌊x⌋ = n := Int.floor_eq_iff.2 ⟨hx1.le, hx2⟩
    have e2 : ⌈x⌉ = n + 1 := Int.ceil_eq_iff.2 ⟨by push_cast; linarith, by push_cast; linarith⟩
    rw [h1] at e1; rw [h2] at e2
    have h3 := Int.ceil_eq_iff.1 e2
    have h4 := Int.floor_eq_iff.1 e1
    have g1 : (n : ℚ) < y := by have := h3.1; push_cast at this; linarith
    rw [reg_of_between hx1 hx2, reg_of_between g1 h4.2, reg_neg_of_between hx1 hx2, reg_neg_of_between g1 h4.2]
    exact ⟨rfl, rfl⟩

theorem Of.back_mono {L : ForwardRegional} {n : ℕ} {v : Valuation} (h : L.Of n v) (hm : Mono n v)
    (hv : v (n - 1) ≠ 0) : ∃ δ : ℚ, 0 < δ ∧ L.back.Of n (fun i => v i - δ) ∧ Mono n (fun i => v i - δ) ∧
      rank n (fun i => v i - δ) < rank n v := by
  obtain ⟨δ, h1, h2, h3, h4⟩ := h.back
  have hp := h.pos
  have hpos : 0 < v (n - 1) := lt_of_le_of_ne hm.2 (Ne.symm hv)
  have hle := h2 (n - 1) (by omega) hpos
  have hmono : Mono n fun i => v i - δ := by
    refine ⟨fun i j hij hj => ?_, ?_⟩
    · have := hm.1 i j hij hj; simp only; linarith
    · simp only; linarith
  refine ⟨δ, h1, h3, hmono, ?_⟩
  have hf : ∀ i, ⌊v i - δ⌋ ≤ ⌊v i⌋ := fun i => Int.floor_le_floor (by linarith)
  have hc : ∀ i, ⌈v i - δ⌉ ≤ ⌈v i⌉ := fun i => Int.ceil_le_ceil (by linarith)
  have hne : ∃ k < n, ⌊v k - δ⌋ < ⌊v k⌋ ∨ ⌈v k - δ⌉ < ⌈v k⌉ := by
    by_contra hcon
    push Not at hcon
    have hreg : ∀ k < n, reg (v k) = reg (v k - δ) ∧ reg (-v k) = reg (-(v k - δ)) := fun k hk =>
      reg_of_floor_ceil (le_antisymm (hcon k hk).1 (hf k)) (le_antisymm (hcon k hk).2 (hc k))
    have hz := region_step (fun a b => (a, b)) h.dim h.region (vars := []) (by simp) (by simp) (-δ) (by simp) (by
      intro i hi _
      simpa [sub_eq_add_neg] using hreg i hi)
    have hz : L.cond.zone.IsRegion (Valuation.ext fun i => v i - δ) := by
      simpa [frontPairs, updatePairs, sub_eq_add_neg] using hz
    have hL := h.transfer (v' := fun i => v i - δ) (hz.sat h.diag)
    have := FractionalOrder.describes_unique h3.part hL.part (by rw [h3.size, hL.size]) h3.desc hL.desc
    exact predecessor_ne h.part (by rw [h.size]; exact hp) this
  obtain ⟨k, hk, hlt⟩ := hne
  unfold rank
  have hall : ∀ i ∈ List.range n, (⌊v i - δ⌋ + ⌈v i - δ⌉).toNat ≤ (⌊v i⌋ + ⌈v i⌉).toNat := by
    intro i _
    have := hf i; have := hc i
    omega
  have := sum_lt_of hall (k := k) (by simpa using hk) (by
    have := hf k; have := hc k
    have h0 := hmono.nonneg hk
    have a1 : 0 ≤ ⌊v k - δ⌋ := Int.floor_nonneg.2 h0
    have a2 : 0 ≤ ⌈v k - δ⌉ := Int.ceil_nonneg h0
    omega)
  exact Nat.add_lt_add_left this n

theorem rank_chop {n : ℕ} (v : Valuation) : rank n v < rank (n + 1) v := by
  unfold rank
  rw [List.range_succ, List.map_append, List.sum_append]
  omega

theorem Reach.of {L : ForwardRegional} (h : Reach L) : ∃ n v, L.Of n v ∧ Mono n v := by
  induction h with
  | init => exact ⟨1, _, init_of, by constructor <;> simp⟩
  | action a _ ih =>
    obtain ⟨n, v, h1, h2⟩ := ih
    refine ⟨n + 1, _, h1.successorAction a, ?_, ?_⟩
    · intro i j hij hj
      simp only
      by_cases hj' : j < n
      · rw [if_pos hj', if_pos (by omega)]; exact h2.1 i j hij hj'
      · rw [if_neg hj']
        split
        · rename_i hi; exact h2.nonneg hi
        · exact le_refl _
    · simp
  | time _ ih =>
    obtain ⟨n, v, h1, h2⟩ := ih
    obtain ⟨δ, g1, g2, _⟩ := h1.successor
    refine ⟨n, _, g2, ?_, ?_⟩
    · intro i j hij hj; have := h2.1 i j hij hj; simp only; linarith
    · have := h2.2; simp only; linarith

theorem prefixes_aux (k : ℕ) : ∀ {L : ForwardRegional} {n : ℕ} {v : Valuation}, L.Of n v → Mono n v →
    rank n v ≤ k → ∃ l : List ForwardRegional, (∀ f, k < f → prefixes f L = some (l ++ [L])) ∧
      (∃ R, Reach R ∧ R.beq L = true) ∧
      (∀ P ∈ l, ∃ R, Reach R ∧ R.beq P = true) ∧
      (∃ I, (l ++ [L]).head? = some I ∧ init.beq I = true) ∧
      (l ++ [L]).IsChain Step := by
  induction k with
  | zero =>
    intro L n v h _ hr
    have := h.pos
    unfold rank at hr; omega
  | succ k ih =>
    intro L n v h hm hr
    have hI := h.immediatePrefix
    have hp := h.pos
    -- a prefix `P` with smaller rank
    have key : ∀ {P : ForwardRegional} {n' : ℕ} {v' : Valuation}, L.immediatePrefix = some P → P.Of n' v' →
        Mono n' v' → rank n' v' ≤ k → Step P L → (∀ R, Reach R → R.beq P = true → ∃ R', Reach R' ∧ R'.beq L = true) →
        ∃ l : List ForwardRegional, (∀ f, k + 1 < f → prefixes f L = some (l ++ [L])) ∧
          (∃ R, Reach R ∧ R.beq L = true) ∧
          (∀ P ∈ l, ∃ R, Reach R ∧ R.beq P = true) ∧
          (∃ I, (l ++ [L]).head? = some I ∧ init.beq I = true) ∧ (l ++ [L]).IsChain Step := by
      intro P n' v' e hP hmP hrk hst hreach
      obtain ⟨l, g1, g2, g3, ⟨I, g4, g4'⟩, g5⟩ := ih hP hmP hrk
      refine ⟨l ++ [P], ?_, ?_, ?_, ?_, ?_⟩
      · intro f hf
        obtain ⟨f, rfl⟩ : ∃ f', f = f' + 1 := ⟨f - 1, by omega⟩
        simp only [prefixes, e]
        rw [g1 f (by omega)]; rfl
      · obtain ⟨R, hR, hb⟩ := g2; exact hreach R hR hb
      · intro Q hQ
        rcases List.mem_append.1 hQ with hQ | hQ
        · exact g3 Q hQ
        · rw [List.mem_singleton.1 hQ]; exact g2
      · refine ⟨I, ?_, g4'⟩
        rw [List.head?_append, g4]; rfl
      · rw [List.isChain_append]
        refine ⟨g5, by simp, ?_⟩
        intro x hx y hy
        simp only [List.getLast?_append, List.getLast?_singleton, Option.some_or, Option.mem_some_iff,
          List.head?_singleton] at hx hy
        subst hx; subst hy; exact hst
    by_cases hv : v (n - 1) ≠ 0
    · rw [if_pos hv] at hI
      obtain ⟨δ, h1, h2, h3, h4⟩ := h.back_mono hm hv
      refine key hI h2 h3 (by omega) (Or.inl h.successor_back) ?_
      intro R hR hb
      obtain ⟨m, u, hRo, _⟩ := hR.of
      refine ⟨R.successor, hR.time, ?_⟩
      have := beq_successor hRo hb
      rwa [h.successor_back] at this
    · rw [if_neg hv] at hI
      push Not at hv
      by_cases h1 : n = 1
      · rw [if_pos h1] at hI
        subst h1
        have hw : L.word = [] := List.length_eq_zero_iff.1 (by have := h.word; omega)
        have hb : init.beq L = true := init_of.beq (h.congr (v' := fun _ => 0) (by
          intro i hi; rw [show i = 0 by omega]; exact hv)) (by rw [hw]; rfl)
        refine ⟨[], ?_, ⟨_, .init, hb⟩, by simp, ⟨L, rfl, hb⟩, by simp⟩
        intro f hf
        obtain ⟨f, rfl⟩ : ∃ f', f = f' + 1 := ⟨f - 1, by omega⟩
        simp only [prefixes, hI]; rfl
      · rw [if_neg h1] at hI
        obtain ⟨m, rfl⟩ : ∃ m, n = m + 1 := ⟨n - 1, by omega⟩
        simp only [Nat.add_sub_cancel] at hv
        have hm0 : 0 < m := by omega
        obtain ⟨a, ha⟩ : ∃ a, L.word.getLast? = some a := by
          have hw := h.word
          cases hl : L.word.getLast? with
          | some a => exact ⟨a, rfl⟩
          | none => rw [List.getLast?_eq_none_iff] at hl; rw [hl] at hw; simp at hw; omega
        have hb := h.chop_beq hm0 hv ha
        have hC := (h.chop hm0 hv).1
        refine key hI hC ?_ ?_ (Or.inr ⟨a, hb⟩) ?_
        · refine ⟨fun i j hij hj => hm.1 i j hij (by omega), ?_⟩
          exact hm.nonneg (by omega)
        · have := rank_chop (n := m) v; omega
        · intro R hR hRb
          obtain ⟨m', u, hRo, _⟩ := hR.of
          refine ⟨R.successorAction a, hR.action a, ?_⟩
          have h3 := beq_successorAction hRo hC hRb a
          rw [beq_iff] at h3 hb ⊢
          obtain ⟨a1, a2, a3, a4⟩ := h3
          obtain ⟨b1, b2, b3, b4⟩ := hb
          have ed : (R.successorAction a).cond.zone.dim = (L.chop.successorAction a).cond.zone.dim := by
            have e1 := (hRo.successorAction a).csize
            have e2 := (hC.successorAction a).csize
            rw [(hRo.successorAction a).dim, (hC.successorAction a).dim, ← e1, ← e2, a2]
          refine ⟨a1.trans b1, a2.trans b2, ?_, a4.trans b4⟩
          intro i hi j hj hij
          rw [a3 i hi j hj hij, b3 i (ed ▸ hi) j (ed ▸ hj) hij]

end ForwardRegional
end LearnTA
