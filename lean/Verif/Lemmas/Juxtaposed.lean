import Verif.Spec.Juxtaposed
import Verif.Lemmas.Symbolic
import Verif.Lemmas.ElementaryAppend
import Mathlib.Data.Finset.Image

/-!
# Lemmas on juxtaposed zones
-/

namespace LearnTA
open Bound

namespace Zone

@[simp] theorem minOn_dim (z : Zone) (s b) : (z.minOn s b).dim = z.dim := rfl
@[simp] theorem assignOn_dim (z : Zone) (s b) : (z.assignOn s b).dim = z.dim := rfl

theorem minOn_sat (z : Zone) (s : ℕ → ℕ → Bool) (b : ℕ → ℕ → Bound) (w : ℕ → ℚ) :
    (z.minOn s b).Sat w ↔ z.Sat w ∧
      ∀ i < z.dim, ∀ j < z.dim, s i j = true → Bound.Sat (w i - w j) (b i j) := by
  constructor
  · intro h
    refine ⟨fun i hi j hj => ?_, fun i hi j hj hs => ?_⟩
    · have := h i hi j hj
      simp only [minOn] at this
      split at this
      · exact (sat_min.1 this).1
      · exact this
    · have := h i hi j hj
      simp only [minOn, hs, if_true] at this
      exact (sat_min.1 this).2
  · rintro ⟨h1, h2⟩ i hi j hj
    simp only [minOn]
    split
    · rename_i hs; exact sat_min.2 ⟨h1 i hi j hj, h2 i hi j hj hs⟩
    · exact h1 i hi j hj

theorem assignOn_sat (z : Zone) (s : ℕ → ℕ → Bool) (b : ℕ → ℕ → Bound) (w : ℕ → ℚ)
    (hinf : ∀ i j, s i j = true → z.val i j = .inf) :
    (z.assignOn s b).Sat w ↔ z.Sat w ∧
      ∀ i < z.dim, ∀ j < z.dim, s i j = true → Bound.Sat (w i - w j) (b i j) := by
  constructor
  · intro h
    refine ⟨fun i hi j hj => ?_, fun i hi j hj hs => ?_⟩
    · have := h i hi j hj
      simp only [assignOn] at this
      split at this
      · rename_i hs; rw [hinf i j hs]; trivial
      · exact this
    · have := h i hi j hj
      simpa only [assignOn, hs, if_true] using this
  · rintro ⟨h1, h2⟩ i hi j hj
    simp only [assignOn]
    split
    · rename_i hs; exact h2 i hi j hj hs
    · exact h1 i hi j hj

/-- No bound mentions the index `r`. -/
def Free (z : Zone) (r : ℕ) : Prop := ∀ j, z.val r j = .inf ∧ z.val j r = .inf

theorem closeRow_free {z : Zone} {r : ℕ} (h : z.Free r) (x i : ℕ) : (closeRow x z i).Free r := by
  intro j
  simp only [closeRow]
  constructor
  · split
    · rename_i e; subst e; simp [(h _).1]
    · exact (h j).1
  · split
    · simp [(h _).2]
    · exact (h j).2

theorem close1_free {z : Zone} {r : ℕ} (h : z.Free r) (x : ℕ) : (z.close1 x).Free r := by
  unfold close1
  generalize List.range z.dim = l
  induction l generalizing z with
  | nil => exact h
  | cons a l ih => exact ih (closeRow_free h x a)

theorem canonize_free {z : Zone} {r : ℕ} (h : z.Free r) : z.canonize.Free r := by
  unfold canonize
  generalize List.range z.dim = l
  induction l generalizing z with
  | nil => exact h
  | cons a l ih => exact ih (close1_free h a)

/-- Closing with respect to a list of indices. -/
theorem foldl_close1_sat (z : Zone) (l : List ℕ) (hl : ∀ x ∈ l, x < z.dim) (w : ℕ → ℚ) :
    (l.foldl close1 z).Sat w ↔ z.Sat w := by
  induction l generalizing z with
  | nil => rfl
  | cons a l ih =>
    rw [List.foldl_cons, ih _ (by simpa using fun x hx => hl x (by simp [hx])),
      close1_sat z a (hl a (by simp))]

theorem foldl_close1_closedUpTo (z : Zone) (l : List ℕ) (hl : ∀ x ∈ l, x < z.dim) (S : ℕ → Prop)
    (h : z.ClosedUpTo S) (hd : (l.foldl close1 z).DiagNN) :
    (l.foldl close1 z).ClosedUpTo (fun m => S m ∨ m ∈ l) := by
  induction l generalizing z S with
  | nil =>
    intro i hi j hj k hk hS
    exact h i hi j hj k hk (by simpa using hS)
  | cons a l ih =>
    rw [List.foldl_cons] at hd ⊢
    have ha := hl a (by simp)
    have hda : 0 ≤ z.val a a :=
      (hd a (by rw [foldl_close1_dim, close1_dim]; exact ha)).trans
        ((foldl_close1_le _ _ _ _).trans (close1_le _ _ _ _))
    have := ih (z.close1 a) (by simpa using fun x hx => hl x (by simp [hx])) _
      (close1_closedUpTo z S a ha h hda) hd
    intro i hi j hj k hk hS
    refine this i hi j hj k hk ?_
    rcases hS with hS | hS
    · exact Or.inl (Or.inl hS)
    · rcases List.mem_cons.1 hS with rfl | hS
      · exact Or.inl (Or.inr rfl)
      · exact Or.inr hS

end Zone

namespace JuxtaposedZone
open Zone

/-! ### Juxtaposition -/

theorem make_sat (left right : Zone) (hl : 1 ≤ left.dim) (h0 : 0 ≤ right.val 0 0) (w : ℕ → ℚ) :
    (make left right).zone.Sat w ↔ left.Sat w ∧
      right.Sat (fun k => if k = 0 then w 0 else w (left.dim - 1 + k)) := by
  unfold make
  rw [canonize_sat]
  set l := left.dim - 1 with hle
  constructor
  · intro h
    constructor
    · intro i hi j hj
      have := h i (by simp only; omega) j (by simp only; omega)
      simp only at this
      rwa [if_pos (by omega)] at this
    · intro i hi j hj
      rcases Nat.eq_zero_or_pos i with rfl | hi0 <;> rcases Nat.eq_zero_or_pos j with rfl | hj0
      · simpa [sat_self_zero] using h0
      · have := h 0 (by simp only; omega) (l + j) (by simp only; omega)
        simp only at this
        rw [if_neg (by omega), if_neg (by omega), if_pos trivial, Nat.add_sub_cancel_left] at this
        simpa [hj0.ne'] using this
      · have := h (l + i) (by simp only; omega) 0 (by simp only; omega)
        simp only at this
        rw [if_neg (by omega), if_neg (by omega), if_neg (by omega), if_pos trivial,
          Nat.add_sub_cancel_left] at this
        simpa [hi0.ne'] using this
      · have := h (l + i) (by simp only; omega) (l + j) (by simp only; omega)
        simp only at this
        rw [if_neg (by omega), if_pos (by omega), Nat.add_sub_cancel_left,
          Nat.add_sub_cancel_left] at this
        simpa [hi0.ne', hj0.ne'] using this
  · rintro ⟨h1, h2⟩ i hi j hj
    simp only at hi hj ⊢
    split
    · exact h1 i (by omega) j (by omega)
    · split
      · have := h2 (i - l) (by omega) (j - l) (by omega)
        simp only at this
        rwa [if_neg (by omega), if_neg (by omega), Nat.add_sub_cancel' (by omega),
          Nat.add_sub_cancel' (by omega)] at this
      · split
        · rename_i e; subst e
          have := h2 0 (by omega) (j - l) (by omega)
          simp only at this
          rwa [if_pos trivial, if_neg (by omega), Nat.add_sub_cancel' (by omega)] at this
        · split
          · rename_i e; subst e
            have := h2 (i - l) (by omega) 0 (by omega)
            simp only at this
            rwa [if_neg (by omega), if_pos trivial, Nat.add_sub_cancel' (by omega)] at this
          · trivial

/-- The value of the index `k` of the right zone. -/
def ridx (M N L k : ℕ) : ℕ := if k = 0 then 0 else if k ≤ N - L then M + k else k - (N - L) + (M - L)

theorem makeCommon_sat (left right : Zone) (L : ℕ) (hl : L + 1 ≤ left.dim) (hr : L + 1 ≤ right.dim)
    (h0 : 0 ≤ right.val 0 0) (w : ℕ → ℚ) :
    (makeCommon left right L).zone.Sat w ↔ left.Sat w ∧
      right.Sat (fun k => w (ridx (left.dim - 1) (right.dim - 1) L k)) := by
  unfold makeCommon
  simp only
  obtain ⟨M, hM⟩ : ∃ M, left.dim = M + 1 := ⟨left.dim - 1, by omega⟩
  obtain ⟨N, hN⟩ : ∃ N, right.dim = N + 1 := ⟨right.dim - 1, by omega⟩
  simp only [hM, hN, Nat.add_sub_cancel]
  rw [canonize_sat, minOn_sat, minOn_sat, canonize_sat]
  simp only [minOn_dim, canonize_dim, assignOn_dim]
  have hfree : ∀ r, M + 1 ≤ r →
      (((((⟨M + N - L + 1, fun i j => if i ≤ M ∧ j ≤ M then left.val i j else .inf⟩ : Zone).minOn
        (fun i j => decide (M - L + 1 ≤ i ∧ i < M - L + 1 + L) && decide (M - L + 1 ≤ j ∧ j < M - L + 1 + L))
        (fun i j => right.val (i - (M - L + 1) + (N - L + 1)) (j - (M - L + 1) + (N - L + 1)))).minOn
        (fun i j => i == 0 && decide (M - L + 1 ≤ j ∧ j < M - L + 1 + L))
        (fun _ j => right.val 0 (j - (M - L + 1) + (N - L + 1)))).minOn
        (fun i j => decide (M - L + 1 ≤ i ∧ i < M - L + 1 + L) && j == 0)
        (fun i _ => right.val (i - (M - L + 1) + (N - L + 1)) 0)).canonize).Free r := by
    intro r hr'
    apply canonize_free
    intro j
    constructor
    · have e1 : ¬ (M - L + 1 ≤ r ∧ r < M - L + 1 + L) := by omega
      have e2 : ¬ r = 0 := by omega
      have e3 : ¬ (r ≤ M ∧ j ≤ M) := by omega
      simp only [Zone.minOn, e1, e2, e3, decide_false, Bool.false_and, Bool.and_false, beq_iff_eq, if_false, Bool.false_eq_true, Nat.beq_eq_true_eq, beq_eq_false_iff_ne, Bool.and_eq_true, false_and, and_false]
    · have e1 : ¬ (M - L + 1 ≤ r ∧ r < M - L + 1 + L) := by omega
      have e2 : ¬ r = 0 := by omega
      have e3 : ¬ (j ≤ M ∧ r ≤ M) := by omega
      simp only [Zone.minOn, e1, e2, e3, decide_false, Bool.false_and, Bool.and_false, beq_iff_eq, if_false, Bool.false_eq_true, Nat.beq_eq_true_eq, beq_eq_false_iff_ne, Bool.and_eq_true, false_and, and_false]
  rw [assignOn_sat, assignOn_sat, assignOn_sat, canonize_sat, minOn_sat, minOn_sat, minOn_sat]
  rotate_left
  · intro i j hs
    simp only [Bool.and_eq_true, decide_eq_true_eq] at hs
    exact (hfree i hs.1.1 j).1
  · intro i j hs
    simp only [Bool.and_eq_true, decide_eq_true_eq, beq_iff_eq] at hs
    simp only [assignOn]
    rw [if_neg (by simp; omega)]
    exact (hfree j hs.2.1 i).2
  · intro i j hs
    simp only [Bool.and_eq_true, decide_eq_true_eq, beq_iff_eq] at hs
    simp only [assignOn]
    rw [if_neg (by simp; omega), if_neg (by simp; omega)]
    exact (hfree i hs.1.1 j).1
  simp only [minOn_dim, canonize_dim, assignOn_dim, Bool.and_eq_true, decide_eq_true_eq, beq_iff_eq]
  constructor
  · rintro ⟨⟨⟨⟨⟨⟨⟨⟨h0', h1⟩, h2⟩, h3⟩, h4⟩, h5⟩, h6⟩, h7⟩, h8⟩
    constructor
    · intro i hi j hj
      have := h0' i (by simp only; omega) j (by simp only; omega)
      simp only at this
      rwa [if_pos (by omega)] at this
    · intro i hi j hj
      simp only [ridx]
      have key : ∀ k < N + 1, k = 0 ∨ (0 < k ∧ k ≤ N - L) ∨ (N - L < k) := fun k _ => by omega
      have eC : ∀ k, k < N + 1 → N - L < k →
          k - (N - L) + (M - L) - (M - L + 1) + (N - L + 1) = k := fun k _ _ => by omega
      have eU : ∀ k, 0 < k → k ≤ N - L → M + k - (M + 1) + 1 = k := fun k _ _ => by omega
      rcases key i (by omega) with rfl | hi' | hi' <;> rcases key j (by omega) with rfl | hj' | hj'
      · simpa [sat_self_zero] using h0
      · have := h5 0 (by omega) (M + j) (by omega) ⟨rfl, by omega⟩
        rw [eU j hj'.1 hj'.2] at this
        rwa [if_pos rfl, if_neg (by omega), if_pos (by omega)]
      · have := h2 0 (by omega) (j - (N - L) + (M - L)) (by omega) ⟨rfl, by omega⟩
        rw [eC j (by omega) hj'] at this
        rwa [if_pos rfl, if_neg (by omega), if_neg (by omega)]
      · have := h6 (M + i) (by omega) 0 (by omega) ⟨by omega, rfl⟩
        rw [eU i hi'.1 hi'.2] at this
        rwa [if_pos rfl, if_neg (by omega), if_pos (by omega)]
      · have := h4 (M + i) (by omega) (M + j) (by omega) ⟨by omega, by omega⟩
        rw [eU i hi'.1 hi'.2, eU j hj'.1 hj'.2] at this
        rwa [if_neg (by omega), if_pos (by omega), if_neg (by omega), if_pos (by omega)]
      · have := h7 (M + i) (by omega) (j - (N - L) + (M - L)) (by omega) ⟨by omega, by omega⟩
        rw [eU i hi'.1 hi'.2, eC j (by omega) hj'] at this
        rwa [if_neg (by omega), if_pos (by omega), if_neg (by omega), if_neg (by omega)]
      · have := h3 (i - (N - L) + (M - L)) (by omega) 0 (by omega) ⟨by omega, rfl⟩
        rw [eC i (by omega) hi'] at this
        rwa [if_pos rfl, if_neg (by omega), if_neg (by omega)]
      · have := h8 (i - (N - L) + (M - L)) (by omega) (M + j) (by omega) ⟨by omega, by omega⟩
        rw [eU j hj'.1 hj'.2, eC i (by omega) hi'] at this
        rwa [if_neg (by omega), if_neg (by omega), if_neg (by omega), if_pos (by omega)]
      · have := h1 (i - (N - L) + (M - L)) (by omega) (j - (N - L) + (M - L)) (by omega)
          ⟨by omega, by omega⟩
        rw [eC i (by omega) hi', eC j (by omega) hj'] at this
        rwa [if_neg (by omega), if_neg (by omega), if_neg (by omega), if_neg (by omega)]
  · rintro ⟨hL, hR⟩
    have eC : ∀ k, M - L + 1 ≤ k ∧ k < M - L + 1 + L → ridx M N L (k - (M - L + 1) + (N - L + 1)) = k ∧
        k - (M - L + 1) + (N - L + 1) < right.dim := by
      intro k hk; unfold ridx; rw [if_neg (by omega), if_neg (by omega)]; omega
    have eU : ∀ k, M + 1 ≤ k ∧ k < M + 1 + (N - L) → ridx M N L (k - (M + 1) + 1) = k ∧
        k - (M + 1) + 1 < right.dim := by
      intro k hk; unfold ridx; rw [if_neg (by omega), if_pos (by omega)]; omega
    have e0 : ridx M N L 0 = 0 := by simp [ridx]
    refine ⟨⟨⟨⟨⟨⟨⟨⟨?_, ?_⟩, ?_⟩, ?_⟩, ?_⟩, ?_⟩, ?_⟩, ?_⟩, ?_⟩
    · intro i hi j hj
      simp only
      split
      · exact hL i (by omega) j (by omega)
      · trivial
    all_goals
      intro i hi j hj hs
    · have := hR _ (eC i hs.1).2 _ (eC j hs.2).2
      simpa only [(eC i hs.1).1, (eC j hs.2).1] using this
    · have := hR 0 (by omega) _ (eC j hs.2).2
      simpa only [(eC j hs.2).1, e0, hs.1] using this
    · have := hR _ (eC i hs.1).2 0 (by omega)
      simpa only [(eC i hs.1).1, e0, hs.2] using this
    · have := hR _ (eU i hs.1).2 _ (eU j hs.2).2
      simpa only [(eU i hs.1).1, (eU j hs.2).1] using this
    · have := hR 0 (by omega) _ (eU j hs.2).2
      simpa only [(eU j hs.2).1, e0, hs.1] using this
    · have := hR _ (eU i hs.1).2 0 (by omega)
      simpa only [(eU i hs.1).1, e0, hs.2] using this
    · have := hR _ (eU i hs.1).2 _ (eC j hs.2).2
      simpa only [(eU i hs.1).1, (eC j hs.2).1] using this
    · have := hR _ (eC i hs.1).2 _ (eU j hs.2).2
      simpa only [(eC i hs.1).1, (eU j hs.2).1] using this

/-! ### Renamings -/

@[simp] theorem addPair_dim (l : ℕ) (z : Zone) (p : ℕ × ℕ) : (addPair l z p).dim = z.dim := rfl

theorem foldl_addPair_dim (l : ℕ) (z : Zone) (r : List (ℕ × ℕ)) : (r.foldl (addPair l) z).dim = z.dim := by
  induction r generalizing z with
  | nil => rfl
  | cons p r ih => rw [List.foldl_cons, ih, addPair_dim]

theorem addPair_sat (l : ℕ) (z : Zone) (p : ℕ × ℕ) (h1 : p.1 + 1 < z.dim) (h2 : p.2 + l + 1 < z.dim)
    (w : ℕ → ℚ) : (addPair l z p).Sat w ↔ z.Sat w ∧ w (p.1 + 1) = w (p.2 + l + 1) := by
  unfold addPair
  simp only
  rw [set_min_sat _ _ _ (by exact h2) (by exact h1), set_min_sat _ _ _ h1 h2]
  simp only [Bound.sat_true, and_assoc, and_congr_right_iff]
  intro _
  constructor
  · rintro ⟨a, b⟩; linarith
  · intro e; constructor <;> linarith

theorem foldl_addPair_sat (l : ℕ) (z : Zone) (r : List (ℕ × ℕ))
    (h : ∀ p ∈ r, p.1 + 1 < z.dim ∧ p.2 + l + 1 < z.dim) (w : ℕ → ℚ) :
    (r.foldl (addPair l) z).Sat w ↔ z.Sat w ∧ ∀ p ∈ r, w (p.1 + 1) = w (p.2 + l + 1) := by
  induction r generalizing z with
  | nil => simp
  | cons p r ih =>
    rw [List.foldl_cons, ih _ (fun q hq => by simpa using h q (by simp [hq])),
      addPair_sat l z p (h p (by simp)).1 (h p (by simp)).2]
    simp [and_assoc]

theorem foldl_addPair_closedUpTo (l : ℕ) (z : Zone) (r : List (ℕ × ℕ)) (S : ℕ → Prop)
    (h : z.ClosedUpTo S) :
    (r.foldl (addPair l) z).ClosedUpTo
      (fun k => S k ∧ k ∉ r.flatMap fun p => [p.1 + 1, p.2 + l + 1]) := by
  induction r generalizing z S with
  | nil => simpa using h
  | cons p r ih =>
    rw [List.foldl_cons]
    have h1 : (addPair l z p).ClosedUpTo (fun k => S k ∧ k ≠ p.1 + 1 ∧ k ≠ p.2 + l + 1) := by
      intro i hi j hj k hk ⟨hS, e1, e2⟩
      have := h i hi j hj k hk hS
      have le : (addPair l z p).val i j ≤ z.val i j := by
        unfold addPair
        simp only [set_val]
        split
        · rename_i e; obtain ⟨rfl, rfl⟩ := e
          refine (min_le_left _ _).trans ?_
          split
          · rename_i e'; rw [e'.1, e'.2]; exact min_le_left _ _
          · exact le_refl _
        · split
          · rename_i e'; rw [e'.1, e'.2]; exact min_le_left _ _
          · exact le_refl _
      refine le.trans (this.trans (le_of_eq ?_))
      unfold addPair
      simp only [set_val]
      simp [e1, e2]
    have := ih (addPair l z p) _ h1
    intro i hi j hj k hk ⟨hS, hk'⟩
    refine this i hi j hj k hk ⟨⟨hS, ?_, ?_⟩, ?_⟩
    · rintro rfl; apply hk'; simp
    · rintro rfl; apply hk'; simp
    · intro hm; apply hk'; simp only [List.flatMap_cons, List.mem_append]; exact Or.inr hm

/-- The clocks of the renaming exist. -/
def InRange (j : JuxtaposedZone) (r : List (ℕ × ℕ)) : Prop :=
  ∀ p ∈ r, p.1 + 1 < j.zone.dim ∧ p.2 + j.leftSize + 1 < j.zone.dim

theorem addRenaming_dim (j : JuxtaposedZone) (r) : (j.addRenaming r).zone.dim = j.zone.dim := by
  simp [addRenaming, foldl_close1_dim, foldl_addPair_dim]

theorem mem_modified {l : ℕ} {r : List (ℕ × ℕ)} {x : ℕ}
    (h : x ∈ r.flatMap fun p => [p.1 + 1, p.2 + l + 1]) :
    ∃ p ∈ r, x = p.1 + 1 ∨ x = p.2 + l + 1 := by
  simpa using h

theorem addRenaming_sat (j : JuxtaposedZone) (r : List (ℕ × ℕ)) (h : j.InRange r) (w : ℕ → ℚ) :
    (j.addRenaming r).zone.Sat w ↔
      j.zone.Sat w ∧ ∀ p ∈ r, w (p.1 + 1) = w (p.2 + j.leftSize + 1) := by
  unfold addRenaming
  simp only
  rw [foldl_close1_sat _ _ _ w, foldl_addPair_sat _ _ _ h w]
  intro x hx
  rw [foldl_addPair_dim]
  obtain ⟨p, hp, rfl | rfl⟩ := mem_modified hx
  · exact (h p hp).1
  · exact (h p hp).2

/-- Closing only the modified variables is enough, as soon as no diagonal entry is negative. -/
theorem addRenaming_closed (j : JuxtaposedZone) (r : List (ℕ × ℕ)) (h : j.InRange r)
    (hc : j.zone.Closed) (hd : (j.addRenaming r).zone.DiagNN) : (j.addRenaming r).zone.Closed := by
  have h1 := foldl_addPair_closedUpTo j.leftSize j.zone r (fun _ => True)
    (fun a ha b hb k hk _ => hc a ha b hb k hk)
  have h2 := foldl_close1_closedUpTo _ (r.flatMap fun p : ℕ × ℕ => [p.1 + 1, p.2 + j.leftSize + 1]) (by
    intro x hx
    rw [foldl_addPair_dim]
    obtain ⟨p, hp, rfl | rfl⟩ := mem_modified hx
    · exact (h p hp).1
    · exact (h p hp).2) _ h1 hd
  intro a ha b hb k hk
  refine h2 a ha b hb k hk ?_
  by_cases hm : k ∈ r.flatMap fun p => [p.1 + 1, p.2 + j.leftSize + 1]
  · exact Or.inr hm
  · exact Or.inl ⟨trivial, hm⟩

theorem addPair_le (l : ℕ) (z : Zone) (p : ℕ × ℕ) (i j : ℕ) : (addPair l z p).val i j ≤ z.val i j := by
  unfold addPair
  simp only [set_val]
  split
  · rename_i e; obtain ⟨rfl, rfl⟩ := e
    refine (min_le_left _ _).trans ?_
    split
    · rename_i e'; rw [e'.1, e'.2]; exact min_le_left _ _
    · exact le_refl _
  · split
    · rename_i e'; rw [e'.1, e'.2]; exact min_le_left _ _
    · exact le_refl _

theorem foldl_addPair_le (l : ℕ) (z : Zone) (r : List (ℕ × ℕ)) (i j : ℕ) :
    (r.foldl (addPair l) z).val i j ≤ z.val i j := by
  induction r generalizing z with
  | nil => exact le_refl _
  | cons p r ih => exact (ih _).trans (addPair_le l z p i j)

theorem addRenaming_le (j : JuxtaposedZone) (r : List (ℕ × ℕ)) (a b : ℕ) :
    (j.addRenaming r).zone.val a b ≤ j.zone.val a b :=
  (foldl_close1_le _ _ _ _).trans (foldl_addPair_le _ _ _ _ _)

/-- The zone is the result of `canonize`: it is canonical, or the quick check finds it to be empty. -/
def Canonized (j : JuxtaposedZone) : Prop := j.zone.isSatisfiableNoCanonize = true → j.zone.Closed

theorem canonize_canonized (z : Zone) : z.canonize.isSatisfiableNoCanonize = true → z.canonize.Closed := by
  intro h
  have h' : z.isSatisfiable = true := h
  obtain ⟨v, hv⟩ := (isSatisfiable_iff z).1 h'
  exact canonize_closed_of_mem hv

theorem make_canonized (left right : Zone) : (make left right).Canonized := canonize_canonized _
theorem makeCommon_canonized (left right : Zone) (L : ℕ) : (makeCommon left right L).Canonized :=
  canonize_canonized _

theorem addRenaming_satisfiable_closed (j : JuxtaposedZone) (r : List (ℕ × ℕ)) (h : j.InRange r)
    (hc : j.Canonized) (hs : (j.addRenaming r).zone.isSatisfiableNoCanonize = true) :
    (j.addRenaming r).zone.Closed ∧ (j.addRenaming r).zone.DiagNN := by
  rw [isSatisfiableNoCanonize_iff] at hs
  have hd : (j.addRenaming r).zone.DiagNN := fun i hi => Bound.nonneg_of_add_self (hs i hi i hi)
  refine ⟨addRenaming_closed j r h (hc ?_) hd, hd⟩
  rw [isSatisfiableNoCanonize_iff]
  intro a ha b hb
  exact (hs a (by rwa [addRenaming_dim]) b (by rwa [addRenaming_dim])).trans
    (add_le_add (addRenaming_le _ _ _ _) (addRenaming_le _ _ _ _))

theorem addRenaming_canonized (j : JuxtaposedZone) (r : List (ℕ × ℕ)) (h : j.InRange r)
    (hc : j.Canonized) : (j.addRenaming r).Canonized :=
  fun hs => (addRenaming_satisfiable_closed j r h hc hs).1

/-- The quick satisfiability check after adding a renaming is exact. -/
theorem addRenaming_satisfiable (j : JuxtaposedZone) (r : List (ℕ × ℕ)) (h : j.InRange r)
    (hc : j.Canonized) :
    (j.addRenaming r).zone.isSatisfiableNoCanonize = true ↔ ∃ v, (j.addRenaming r).zone.Mem v := by
  constructor
  · intro hs
    obtain ⟨h1, h2⟩ := addRenaming_satisfiable_closed j r h hc hs
    exact closed_nonempty _ h1 h2
  · rintro ⟨v, hv⟩
    rw [isSatisfiableNoCanonize_iff]
    intro a ha b hb
    exact sat_pair_nonneg hv ha hb

/-! ### Membership -/

theorem make_mem (left right : Zone) (hl : 1 ≤ left.dim) (h0 : 0 ≤ right.val 0 0) (v : Valuation) :
    (make left right).zone.Mem v ↔ left.Mem v ∧ right.Mem (fun k => v (left.dim - 1 + k)) := by
  unfold Mem
  rw [make_sat left right hl h0]
  have : (fun k => if k = 0 then v.ext 0 else v.ext (left.dim - 1 + k)) =
      Valuation.ext (fun k => v (left.dim - 1 + k)) := by
    funext k
    cases k with
    | zero => rfl
    | succ k => simp [Valuation.ext, ← Nat.add_assoc]
  rw [this]

theorem makeCommon_mem (left right : Zone) (L : ℕ) (hl : L + 1 ≤ left.dim) (hr : L + 1 ≤ right.dim)
    (h0 : 0 ≤ right.val 0 0) (v : Valuation) :
    (makeCommon left right L).zone.Mem v ↔
      left.Mem v ∧ right.Mem (rightView (left.dim - 1) (right.dim - 1) L v) := by
  unfold Mem
  rw [makeCommon_sat left right L hl hr h0]
  have : (fun k => v.ext (ridx (left.dim - 1) (right.dim - 1) L k)) =
      Valuation.ext (rightView (left.dim - 1) (right.dim - 1) L v) := by
    funext k
    cases k with
    | zero => rfl
    | succ k =>
      unfold ridx rightView
      rw [if_neg (by omega)]
      by_cases hk : k < right.dim - 1 - L
      · rw [if_pos (by omega), ← Nat.add_assoc]
        simp only [Valuation.ext, if_pos hk]
      · rw [if_neg (by omega)]
        simp only [Valuation.ext, if_neg hk]
        have e : k + 1 - (right.dim - 1 - L) + (left.dim - 1 - L) =
          left.dim - 1 - L + (k - (right.dim - 1 - L)) + 1 := by omega
        simp only [e, Valuation.ext]
  rw [this]

theorem addRenaming_mem (j : JuxtaposedZone) (r : List (ℕ × ℕ)) (h : j.InRange r) (v : Valuation) :
    (j.addRenaming r).zone.Mem v ↔
      j.zone.Mem v ∧ ∀ p ∈ r, v p.1 = v (j.leftSize + p.2) := by
  unfold Mem
  rw [addRenaming_sat j r h]
  simp only [Valuation.ext]
  simp only [Nat.add_comm]

/-! ### The implied equalities and the projection -/

theorem mem_makeRenaming (j : JuxtaposedZone) (p : ℕ × ℕ) : p ∈ j.makeRenaming ↔
    p.1 < j.leftSize ∧ p.2 < j.rightSize ∧ j.zone.val (p.1 + 1) (p.2 + j.leftSize + 1) = .fin 0 true ∧
      j.zone.val (p.2 + j.leftSize + 1) (p.1 + 1) = .fin 0 true := by
  unfold makeRenaming
  rw [List.mem_flatMap]
  constructor
  · rintro ⟨a, ha, hp⟩
    rw [List.mem_map] at hp
    obtain ⟨b, hb, rfl⟩ := hp
    rw [List.mem_filter] at hb
    simp only [List.mem_range, Bool.and_eq_true, decide_eq_true_eq] at ha hb
    exact ⟨ha, hb.1, hb.2.1, hb.2.2⟩
  · rintro ⟨h1, h2, h3, h4⟩
    refine ⟨p.1, by simpa using h1, List.mem_map.2 ⟨p.2, ?_, rfl⟩⟩
    rw [List.mem_filter]
    simp [h2, h3, h4]

theorem eq_zero_of_both {a b : Bound} (ha : a ≤ 0) (hb : b ≤ 0) (h : 0 ≤ a + b) :
    a = .fin 0 true ∧ b = .fin 0 true := by
  have h1 : (0 : Bound) ≤ a := by
    calc (0 : Bound) ≤ a + b := h
      _ ≤ a + 0 := add_le_add (le_refl _) hb
      _ = a := add_zero _
  have h2 : (0 : Bound) ≤ b := by
    calc (0 : Bound) ≤ a + b := h
      _ ≤ 0 + b := add_le_add ha (le_refl _)
      _ = b := zero_add _
  exact ⟨le_antisymm ha h1, le_antisymm hb h2⟩

/-- In a canonical non-empty zone an equality of two different variables that holds everywhere is
visible in the matrix. -/
theorem eq_iff_entries {z : Zone} (hc : z.Closed) {u : Valuation} (hu : z.Mem u) {a b : ℕ}
    (ha : a + 1 < z.dim) (hb : b + 1 < z.dim) (hab : a ≠ b) :
    (∀ v, z.Mem v → v a = v b) ↔
      z.val (a + 1) (b + 1) = .fin 0 true ∧ z.val (b + 1) (a + 1) = .fin 0 true := by
  constructor
  · intro h
    have hp := hu.pairNN
    have aux : ∀ a b : ℕ, a + 1 < z.dim → b + 1 < z.dim → a ≠ b → (∀ v, z.Mem v → v a = v b) →
        z.val (a + 1) (b + 1) ≤ 0 := by
      intro a b ha hb hab h
      have := bound_le_of_incl (z.set (a + 1) (b + 1) (.fin 0 true)) z rfl hc hu.diagNN (by
        intro v hv i hi j hj
        simp only [set_val]
        split
        · rename_i e; obtain ⟨rfl, rfl⟩ := e
          simp [Valuation.ext, h v hv]
        · exact hv i hi j hj) ha hb (by omega)
      simpa [set_val, zero_def] using this
    exact eq_zero_of_both (aux a b ha hb hab h) (aux b a hb ha (Ne.symm hab) (fun v hv => (h v hv).symm))
      (hp _ ha _ hb)
  · rintro ⟨h1, h2⟩ v hv
    have a1 := hv _ ha _ hb
    have a2 := hv _ hb _ ha
    rw [h1] at a1; rw [h2] at a2
    simp [Valuation.ext] at a1 a2
    linarith

theorem getRight_mem (j : JuxtaposedZone) (hdim : j.zone.dim = j.leftSize + j.rightSize + 1)
    (hc : j.zone.Closed) (hne : ∃ u, j.zone.Mem u) :
    ∃ z, j.getRight = some z ∧ z.dim = j.rightSize + 1 ∧ z.Closed ∧
      ∀ u, z.Mem u ↔ ∃ v, j.zone.Mem v ∧ ∀ k < j.rightSize, u k = v (j.leftSize + k) := by
  obtain ⟨u0, hu0⟩ := hne
  have hd := hu0.diagNN
  refine ⟨_, if_neg (by omega), by simp, ?_, ?_⟩
  · apply canonize_closed_of_mem (v := fun k => u0 (j.leftSize + k))
    intro a ha b hb
    simp only at ha hb ⊢
    rcases Nat.eq_zero_or_pos a with rfl | ha0 <;> rcases Nat.eq_zero_or_pos b with rfl | hb0
    · simp
    · obtain ⟨b, rfl⟩ : ∃ b', b = b' + 1 := ⟨b - 1, by omega⟩
      simpa [Valuation.ext] using hu0 0 (by omega) (j.leftSize + (b + 1)) (by omega)
    · obtain ⟨a, rfl⟩ : ∃ b', a = b' + 1 := ⟨a - 1, by omega⟩
      simpa [Valuation.ext] using hu0 (j.leftSize + (a + 1)) (by omega) 0 (by omega)
    · obtain ⟨b, rfl⟩ : ∃ b', b = b' + 1 := ⟨b - 1, by omega⟩
      obtain ⟨a, rfl⟩ : ∃ b', a = b' + 1 := ⟨a - 1, by omega⟩
      simpa [Valuation.ext] using hu0 (j.leftSize + (a + 1)) (by omega) (j.leftSize + (b + 1)) (by omega)
  · intro u
    rw [canonize_mem]
    constructor
    · intro h
      -- extend the valuation of the right variables
      set S : Finset ℕ := insert 0 ((Finset.range j.rightSize).image fun k => j.leftSize + k + 1) with hS
      set w : ℕ → ℚ := fun i => if i = 0 then 0 else u (i - 1 - j.leftSize) with hw
      have hSat : j.zone.SatOn S w := by
        intro a ha b hb
        simp only [hS, Finset.mem_insert, Finset.mem_image, Finset.mem_range] at ha hb
        rcases ha with rfl | ⟨k, hk, rfl⟩ <;> rcases hb with rfl | ⟨k', hk', rfl⟩
        · simpa [hw, sat_self_zero] using hd 0 (by omega)
        · have := h 0 (by simp) (k' + 1) (by simp; omega)
          simpa [hw, Valuation.ext, Nat.add_assoc] using this
        · have := h (k + 1) (by simp; omega) 0 (by simp)
          simpa [hw, Valuation.ext, Nat.add_assoc] using this
        · have := h (k + 1) (by simp; omega) (k' + 1) (by simp; omega)
          simpa [hw, Valuation.ext, Nat.add_assoc] using this
      obtain ⟨w', he, hw'⟩ := extend j.zone hc hd S (by
        intro i hi
        simp only [hS, Finset.mem_insert, Finset.mem_image, Finset.mem_range] at hi
        rcases hi with rfl | ⟨k, hk, rfl⟩ <;> omega) w hSat
      have h0 : w' 0 = 0 := by rw [he 0 (by simp [hS])]; simp [hw]
      refine ⟨fun i => w' (i + 1), ?_, ?_⟩
      · unfold Mem; rw [ext_of h0]; exact hw'
      · intro k hk
        show u k = w' (j.leftSize + k + 1)
        rw [he _ (by simp only [hS, Finset.mem_insert, Finset.mem_image, Finset.mem_range]
                     exact Or.inr ⟨k, hk, rfl⟩)]
        simp [hw]
    · rintro ⟨v, hv, he⟩ a ha b hb
      simp only at ha hb ⊢
      rcases Nat.eq_zero_or_pos a with rfl | ha0 <;> rcases Nat.eq_zero_or_pos b with rfl | hb0
      · simp
      · obtain ⟨b, rfl⟩ : ∃ b', b = b' + 1 := ⟨b - 1, by omega⟩
        simpa [Valuation.ext, he b (by omega)] using hv 0 (by omega) (j.leftSize + (b + 1)) (by omega)
      · obtain ⟨a, rfl⟩ : ∃ b', a = b' + 1 := ⟨a - 1, by omega⟩
        simpa [Valuation.ext, he a (by omega)] using hv (j.leftSize + (a + 1)) (by omega) 0 (by omega)
      · obtain ⟨b, rfl⟩ : ∃ b', b = b' + 1 := ⟨b - 1, by omega⟩
        obtain ⟨a, rfl⟩ : ∃ b', a = b' + 1 := ⟨a - 1, by omega⟩
        simpa [Valuation.ext, he a (by omega), he b (by omega)] using
          hv (j.leftSize + (a + 1)) (by omega) (j.leftSize + (b + 1)) (by omega)

theorem make_dim (left right : Zone) : (make left right).zone.dim = left.dim - 1 + (right.dim - 1) + 1 := by
  simp [make]

theorem makeCommon_dim (left right : Zone) (L : ℕ) :
    (makeCommon left right L).zone.dim = left.dim - 1 + (right.dim - 1) - L + 1 := by
  simp [makeCommon]

theorem make_closed (left right : Zone) {w : ℕ → ℚ} (h : (make left right).zone.Sat w) :
    (make left right).zone.Closed := by
  unfold make at h ⊢
  rw [canonize_sat] at h
  exact canonize_closed_of_mem h.toMem

theorem makeCommon_closed (left right : Zone) (L : ℕ) {w : ℕ → ℚ}
    (h : (makeCommon left right L).zone.Sat w) : (makeCommon left right L).zone.Closed := by
  unfold makeCommon at h ⊢
  simp only at h ⊢
  rw [canonize_sat] at h
  exact canonize_closed_of_mem h.toMem

end JuxtaposedZone
end LearnTA
