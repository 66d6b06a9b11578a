import Verif.Spec.Neighbor
import Verif.Lemmas.RegionLine
import Verif.Lemmas.Enumerate
import Verif.Lemmas.ElementarySample
import Verif.Lemmas.Renaming
import Verif.Lemmas.UnionHull
import Mathlib.Algebra.Order.BigOperators.Group.Finset

/-!
# Neighbours of a region
-/

namespace LearnTA
open Bound

/-! ### Intervals and positions -/

theorem sameInterval_iff {x y : ℚ} : SameInterval x y ↔ pos x = pos y := by
  unfold SameInterval
  constructor
  · rintro ⟨h1, h2⟩; unfold pos; omega
  · intro h
    rcases cases_pos x with ⟨n, e, hp⟩ | ⟨n, h1, h2, hp⟩ <;> rcases cases_pos y with ⟨m, e', hq⟩ | ⟨m, h1', h2', hq⟩
    · have : n = m := by omega
      rw [e, e', this]; simp
    · omega
    · omega
    · have : n = m := by omega
      subst this
      refine ⟨?_, ?_⟩
      · rw [Int.floor_eq_iff.2 ⟨h1.le, h2⟩, Int.floor_eq_iff.2 ⟨h1'.le, h2'⟩]
      · rw [(Int.ceil_eq_iff (z := n + 1)).2 ⟨by push_cast; linarith, by push_cast; linarith⟩,
          (Int.ceil_eq_iff (z := n + 1)).2 ⟨by push_cast; linarith, by push_cast; linarith⟩]

theorem sameInterval_reg {x y : ℚ} : SameInterval x y ↔ reg x = reg y :=
  sameInterval_iff.trans ⟨reg_of_pos, pos_of_reg⟩

theorem pos_neg (x : ℚ) : pos (-x) = -pos x := by
  unfold pos; rw [Int.floor_neg, Int.ceil_neg]; ring

theorem SameInterval.neg {x y : ℚ} (h : SameInterval x y) : SameInterval (-x) (-y) := by
  rw [sameInterval_iff] at *; rw [pos_neg, pos_neg, h]

theorem SameInterval.symm {x y : ℚ} (h : SameInterval x y) : SameInterval y x := ⟨h.1.symm, h.2.symm⟩
theorem SameInterval.trans {x y z : ℚ} (h : SameInterval x y) (h' : SameInterval y z) : SameInterval x z :=
  ⟨h.1.trans h'.1, h.2.trans h'.2⟩
theorem SameInterval.refl (x : ℚ) : SameInterval x x := ⟨rfl, rfl⟩

theorem sat_reg_iff {x y : ℚ} : Sat y (reg x) ∧ Sat (-y) (reg (-x)) ↔ SameInterval x y := by
  constructor
  · rintro ⟨h1, h2⟩; exact sameInterval_reg.2 (reg_same h1 h2).symm
  · intro h
    rw [sameInterval_reg.1 h, sameInterval_reg.1 h.neg]
    exact ⟨sat_reg _, sat_reg _⟩

theorem reg_le_reg {x y : ℚ} : reg x ≤ reg y ↔ pos x ≤ pos y := by
  constructor
  · intro h
    by_contra hc
    push Not at hc
    have hyx : y ≤ x := by
      by_contra h'
      push Not at h'
      exact absurd (pos_mono h'.le) (by omega)
    have h1 : reg y ≤ reg x := reg_le (isInt_reg x) (by
      have := sat_reg x
      cases hr : reg x with
      | inf => simp
      | fin c s => rw [hr] at this; cases s <;> simp at this ⊢ <;> linarith)
    have := pos_of_reg (le_antisymm h h1)
    omega
  · intro h
    rcases lt_or_eq_of_le h with h | h
    · have hxy : x ≤ y := by
        by_contra h'
        push Not at h'
        exact absurd (pos_mono h'.le) (by omega)
      refine reg_le (isInt_reg y) ?_
      have := sat_reg y
      cases hr : reg y with
      | inf => simp
      | fin c s => rw [hr] at this; cases s <;> simp at this ⊢ <;> linarith
    · exact (reg_of_pos h).le

/-! ### Time successors -/

namespace ForwardRegional

theorem chain_shift (L : ForwardRegional) (m : ℕ) : L.successor.chain m = L.chain (m + 1) := by
  induction m with
  | zero => rfl
  | succ m ih => show (L.successor.chain m).successor = _; rw [ih]; rfl

theorem Delays.mono {L : ForwardRegional} {n : ℕ} {v : Valuation} {D : ℕ → ℚ} (h : L.Delays n v D) {i j : ℕ} (hij : i ≤ j) :
    D i ≤ D j := by
  induction j with
  | zero => have : i = 0 := by omega
            rw [this]
  | succ j ih =>
    rcases Nat.lt_or_ge i (j + 1) with h1 | h1
    · exact (ih (by omega)).trans (h.lt j).le
    · rw [show i = j + 1 by omega]

/-- A shift by an integer, to use the lemmas about non-negative clocks: every step moves some clock. -/
theorem Delays.move {L : ForwardRegional} {n : ℕ} {v : Valuation} {D : ℕ → ℚ} (h : L.Delays n v D) (m : ℕ) :
    ∃ x < n, posOf v D (m + 1) x = posOf v D m x + 1 := by
  by_contra hc
  push Not at hc
  have heq : ∀ x < n, posOf v D (m + 1) x = posOf v D m x := fun x hx => (h.step m hx).resolve_right (hc x hx)
  have hof : (L.chain m).Of n (after v (D (m + 1))) := by
    refine (h.of m).transfer ?_
    refine Zone.IsRegion.sat ?_ (h.of m).diag
    have hr := (h.of m).region
    intro i hi j hj hij
    rw [hr i hi j hj hij]
    rw [(h.of m).dim] at hi hj
    cases i with
    | zero =>
      cases j with
      | zero => exact absurd rfl hij
      | succ j =>
        have e := heq j (by omega)
        unfold posOf at e
        show reg (0 - (v j + D m)) = reg (0 - (v j + D (m + 1)))
        rw [zero_sub, zero_sub]
        exact reg_of_pos (by rw [pos_neg, pos_neg, e])
    | succ i =>
      cases j with
      | zero =>
        have e := heq i (by omega)
        unfold posOf at e
        show reg (v i + D m - 0) = reg (v i + D (m + 1) - 0)
        rw [sub_zero, sub_zero]
        exact reg_of_pos e.symm
      | succ j =>
        show reg (v i + D m - (v j + D m)) = reg (v i + D (m + 1) - (v j + D (m + 1)))
        congr 1; ring
  have hb := hof.beq (h.of (m + 1)) rfl
  rw [beq_iff] at hb
  exact successor_frac_ne (h.of m) hb.2.2.2.symm

theorem Delays.sum {L : ForwardRegional} {n : ℕ} {v : Valuation} {D : ℕ → ℚ} (h : L.Delays n v D) (m : ℕ) :
    (∑ x ∈ Finset.range n, posOf v D 0 x) + m ≤ ∑ x ∈ Finset.range n, posOf v D m x := by
  induction m with
  | zero => simp
  | succ m ih =>
    obtain ⟨x, hx, e⟩ := h.move m
    have : ∑ x ∈ Finset.range n, posOf v D m x < ∑ x ∈ Finset.range n, posOf v D (m + 1) x := by
      refine Finset.sum_lt_sum (fun y hy => ?_) ⟨x, Finset.mem_range.2 hx, by omega⟩
      rcases h.step m (Finset.mem_range.1 hy) with e | e <;> omega
    push_cast
    omega

/-- Every delay leads to a time successor. -/
theorem Of.reach {L : ForwardRegional} {n : ℕ} {v : Valuation} (h : L.Of n v) {t : ℚ} (ht : 0 ≤ t) :
    ∃ m, (L.chain m).Of n (after v t) := by
  obtain ⟨D, hD⟩ := h.delays
  let S := ∑ x ∈ Finset.range n, LearnTA.pos (v x + t)
  let K := (S - ∑ x ∈ Finset.range n, posOf v D 0 x).toNat + 1
  obtain ⟨m, t', _, hK, h0, htt, hof, he⟩ := Of.pass (L := L) (n := n) K K 0 v t (by omega) ht h
  rcases Nat.lt_or_ge m K with hm | hm
  · exact ⟨m, he hm ▸ hof⟩
  · exfalso
    have hmK : m = K := by omega
    have h1 : ∑ x ∈ Finset.range n, posOf v D m x ≤ S := by
      refine Finset.sum_le_sum fun x hx => ?_
      have e := (hD.of m).pos_eq hof (Finset.mem_range.1 hx)
      have : LearnTA.pos (v x + t') ≤ LearnTA.pos (v x + t) := pos_mono (by linarith)
      unfold posOf; unfold after at e; omega
    have h2 := hD.sum m
    have h3 : S - ∑ x ∈ Finset.range n, posOf v D 0 x ≤ (S - ∑ x ∈ Finset.range n, posOf v D 0 x).toNat :=
      Int.self_le_toNat _
    have h4 : (m : ℤ) = (S - ∑ x ∈ Finset.range n, posOf v D 0 x).toNat + 1 := by rw [hmK]; push_cast; rfl
    omega

/-- Every point of a time successor comes from a point of the region. -/
theorem Of.reach_back {L : ForwardRegional} {n : ℕ} {v : Valuation} (h : L.Of n v) (m : ℕ) {u : Valuation}
    (hu : (L.chain m).Of n u) : ∃ s, 0 ≤ s ∧ L.Of n (fun i => u i - s) := by
  induction m generalizing u with
  | zero => exact ⟨0, le_refl _, by simpa using hu⟩
  | succ m ih =>
    obtain ⟨D, hD⟩ := h.delays
    obtain ⟨δ, h0, _, h1, _⟩ := hu.back
    rw [chain_succ, (hD.of m).back_successor] at h1
    obtain ⟨s, hs, h2⟩ := ih h1
    refine ⟨δ + s, by linarith, h2.congr fun i _ => by ring⟩

end ForwardRegional

/-! ### The loop for one neighbour -/

namespace Neighbors
open ForwardRegional

theorem upper_of {L : ForwardRegional} {n : ℕ} {v : Valuation} (h : L.Of n v) {x : ℕ} (hx : x < n) :
    L.cond.upper x (L.cond.size - 1) = reg (v x) := by
  rw [TimedCondition.upper, if_pos rfl, h.region (x + 1) (by rw [h.dim]; omega) 0 (by rw [h.dim]; omega) (by omega)]
  simp

theorem lower_of {L : ForwardRegional} {n : ℕ} {v : Valuation} (h : L.Of n v) {x : ℕ} (hx : x < n) :
    L.cond.lower x (L.cond.size - 1) = reg (-(v x)) := by
  rw [TimedCondition.lower, if_pos rfl, h.region 0 (by rw [h.dim]; omega) (x + 1) (by rw [h.dim]; omega) (by omega)]
  simp

theorem notBeyond_iff {P : Finset ℕ} {O L : ForwardRegional} {n : ℕ} {vo v : Valuation} (hO : O.Of n vo) (hL : L.Of n v)
    (hP : ∀ x ∈ P, x < n) : notBeyond P O L = true ↔ ∀ x ∈ P, LearnTA.pos (v x) ≤ LearnTA.pos (vo x) := by
  unfold notBeyond
  rw [decide_eq_true_eq]
  refine forall₂_congr fun x hx => ?_
  rw [upper_of hL (hP x hx), upper_of hO (hP x hx), reg_le_reg]

theorem samePrecise_iff {P : Finset ℕ} {O L : ForwardRegional} {n : ℕ} {vo v : Valuation} (hO : O.Of n vo) (hL : L.Of n v)
    (hP : ∀ x ∈ P, x < n) : samePrecise P O L = true ↔ AgreeOn P vo v := by
  unfold samePrecise AgreeOn
  rw [decide_eq_true_eq]
  refine forall₂_congr fun x hx => ?_
  rw [upper_of hL (hP x hx), upper_of hO (hP x hx), lower_of hL (hP x hx), lower_of hO (hP x hx)]
  constructor
  · rintro ⟨_, h⟩; exact sameInterval_reg.2 h.symm
  · intro h; exact ⟨(sameInterval_reg.1 h.neg).symm, (sameInterval_reg.1 h).symm⟩

theorem collect_ok {P : Finset ℕ} {O : ForwardRegional} (fuel : ℕ) : ∀ {L : ForwardRegional} {l : List ForwardRegional},
    collect P O fuel L = .ok l →
    (∀ M ∈ l, ∃ m, M = L.chain m ∧ samePrecise P O M = true) ∧
      ∀ m, (∀ k ≤ m, notBeyond P O (L.chain k) = true) → samePrecise P O (L.chain m) = true → L.chain m ∈ l := by
  induction fuel with
  | zero => intro L l h; simp [collect] at h
  | succ fuel ih =>
    intro L l h
    unfold collect at h
    by_cases hb : notBeyond P O L = true
    · rw [if_pos hb] at h
      cases hc : collect P O fuel L.successor with
      | error e => rw [hc] at h; simp [bind, Except.bind] at h
      | ok l' =>
        rw [hc] at h
        simp only [bind, Except.bind, pure, Except.pure, Except.ok.injEq] at h
        obtain ⟨h1, h2⟩ := ih hc
        subst h
        constructor
        · intro M hM
          have : (M = L ∧ samePrecise P O L = true) ∨ M ∈ l' := by
            split at hM
            · rcases List.mem_cons.1 hM with e | e
              · exact Or.inl ⟨e, by assumption⟩
              · exact Or.inr e
            · exact Or.inr hM
          rcases this with ⟨rfl, hs⟩ | hM
          · exact ⟨0, rfl, hs⟩
          · obtain ⟨m, e, hs⟩ := h1 M hM
            exact ⟨m + 1, by rw [e, chain_shift], hs⟩
        · intro m hm hs
          cases m with
          | zero => rw [chain_zero] at *; rw [if_pos hs]; simp
          | succ m =>
            have := h2 m (fun k hk => by rw [chain_shift]; exact hm (k + 1) (by omega)) (by rw [chain_shift]; exact hs)
            rw [chain_shift] at this
            split
            · exact List.mem_cons_of_mem _ this
            · exact this
    · rw [if_neg hb] at h
      simp only [pure, Except.pure, Except.ok.injEq] at h
      subst h
      exact ⟨by simp, fun m hm _ => absurd (hm 0 (by omega)) hb⟩

theorem collect_returns {P : Finset ℕ} {O : ForwardRegional} (K : ℕ) : ∀ {L : ForwardRegional},
    notBeyond P O (L.chain K) = false → ∀ fuel, K < fuel → ∃ l, collect P O fuel L = .ok l := by
  induction K with
  | zero =>
    intro L h fuel hf
    obtain ⟨fuel, rfl⟩ : ∃ f, fuel = f + 1 := ⟨fuel - 1, by omega⟩
    rw [chain_zero] at h
    exact ⟨[], by unfold collect; rw [if_neg (by simp [h])]; rfl⟩
  | succ K ih =>
    intro L h fuel hf
    obtain ⟨fuel, rfl⟩ : ∃ f, fuel = f + 1 := ⟨fuel - 1, by omega⟩
    unfold collect
    by_cases hb : notBeyond P O L = true
    · rw [if_pos hb]
      obtain ⟨l, hl⟩ := ih (L := L.successor) (by rw [chain_shift]; exact h) fuel (by omega)
      rw [hl]
      exact ⟨_, rfl⟩
    · rw [if_neg hb]; exact ⟨[], rfl⟩

theorem collect_cover {P : Finset ℕ} {O L : ForwardRegional} {n : ℕ} {vo v : Valuation} {l : List ForwardRegional} {fuel : ℕ}
    (hO : O.Of n vo) (hL : L.Of n v) (hP : ∀ x ∈ P, x < n) (h : collect P O fuel L = .ok l) :
    (∀ M ∈ l, M.word = L.word ∧ ∃ u, M.Of n u ∧ AgreeOn P vo u) ∧
      ∀ u, (∃ M ∈ l, M.cond.zone.Mem u) ↔ (∃ s, 0 ≤ s ∧ L.cond.zone.Mem fun i => u i - s) ∧ AgreeOn P vo u := by
  obtain ⟨h1, h2⟩ := collect_ok fuel h
  obtain ⟨D, hD⟩ := hL.delays
  have key : ∀ M ∈ l, M.word = L.word ∧ ∃ m, M = L.chain m ∧ ∃ u, M.Of n u ∧ AgreeOn P vo u := by
    intro M hM
    obtain ⟨m, rfl, hs⟩ := h1 M hM
    exact ⟨chain_word L m, m, rfl, _, hD.of m, (samePrecise_iff hO (hD.of m) hP).1 hs⟩
  refine ⟨fun M hM => ⟨(key M hM).1, ?_⟩, fun u => ⟨?_, ?_⟩⟩
  · obtain ⟨_, _, _, u, h3⟩ := key M hM; exact ⟨u, h3⟩
  · rintro ⟨M, hM, hu⟩
    obtain ⟨m, rfl, hs⟩ := h1 M hM
    have ho := (hD.of m).transfer hu
    obtain ⟨s, h0, hs'⟩ := hL.reach_back m ho
    exact ⟨⟨s, h0, hs'.sat⟩, (samePrecise_iff hO ho hP).1 hs⟩
  · rintro ⟨⟨s, h0, hs⟩, ha⟩
    have hw := hL.transfer hs
    obtain ⟨m, hm⟩ := hw.reach h0
    have ho : (L.chain m).Of n u := hm.congr fun i _ => by unfold after; ring
    refine ⟨L.chain m, h2 m (fun k hk => ?_) ((samePrecise_iff hO ho hP).2 ha), ho.sat⟩
    rw [notBeyond_iff hO (hD.of k) hP]
    intro x hx
    have e := (hD.of m).pos_eq ho (hP x hx)
    have e2 := sameInterval_iff.1 (ha x hx)
    have : LearnTA.pos (after v (D k) x) ≤ LearnTA.pos (after v (D m) x) :=
      pos_mono (by unfold after; have := hD.mono hk; linarith)
    omega

theorem collect_ends {P : Finset ℕ} {O L : ForwardRegional} {n : ℕ} {vo v : Valuation} (hO : O.Of n vo) (hL : L.Of n v)
    (hP : ∀ x ∈ P, x < n) (hne : P.Nonempty) : ∃ F, ∀ fuel, F < fuel → ∃ l, collect P O fuel L = .ok l := by
  obtain ⟨x, hx⟩ := hne
  let t := max 0 (vo x + 1 - v x)
  obtain ⟨m, hm⟩ := hL.reach (le_max_left 0 (vo x + 1 - v x))
  refine ⟨m, collect_returns m ?_⟩
  by_contra hc
  have := (notBeyond_iff hO hm hP).1 (by simpa using hc) x hx
  have h2 : vo x + 1 ≤ after v (max 0 (vo x + 1 - v x)) x := by
    unfold after; have := le_max_right 0 (vo x + 1 - v x); linarith
  have h3 := pos_mono h2
  have h4 : LearnTA.pos (vo x + 1) = LearnTA.pos (vo x) + 2 := by
    unfold LearnTA.pos; rw [Int.floor_add_one, Int.ceil_add_one]; ring
  omega

/-- Without precise clocks the loop does not end. -/
theorem collect_empty (O : ForwardRegional) (fuel : ℕ) : ∀ L, collect ∅ O fuel L = .error .fuel := by
  induction fuel with
  | zero => intro L; rfl
  | succ fuel ih =>
    intro L
    unfold collect
    rw [if_pos (by simp [notBeyond]), ih]; rfl

/-! ### Sorting and `unique` -/

theorem _root_.LearnTA.uniqueBy_go_cover {α : Type} (same : α → α → Bool) (a : α) (l : List α) :
    ∀ x ∈ l, ∃ y ∈ a :: uniqueBy.go same a l, y = x ∨ same y x = true := by
  induction l generalizing a with
  | nil => simp
  | cons b l ih =>
    intro x hx
    unfold uniqueBy.go
    split
    · rename_i hs
      rcases List.mem_cons.1 hx with rfl | hx
      · exact ⟨a, by simp, Or.inr hs⟩
      · exact ih a x hx
    · rcases List.mem_cons.1 hx with rfl | hx
      · exact ⟨x, by simp, Or.inl rfl⟩
      · obtain ⟨y, hy, h⟩ := ih b x hx
        exact ⟨y, List.mem_cons_of_mem _ hy, h⟩

theorem _root_.LearnTA.uniqueBy_cover {α : Type} (same : α → α → Bool) (l : List α) :
    ∀ x ∈ l, ∃ y ∈ uniqueBy same l, y = x ∨ same y x = true := by
  cases l with
  | nil => simp
  | cons a l =>
    intro x hx
    rcases List.mem_cons.1 hx with rfl | hx
    · exact ⟨x, by simp [uniqueBy], Or.inl rfl⟩
    · exact uniqueBy_go_cover same a l x hx

theorem _root_.LearnTA.uniqueBy_go_chain {α : Type} (same : α → α → Bool) (a : α) (l : List α) :
    (a :: uniqueBy.go same a l).IsChain fun x y => same x y = false := by
  induction l generalizing a with
  | nil => simp [uniqueBy.go]
  | cons b l ih =>
    unfold uniqueBy.go
    split
    · exact ih a
    · rename_i hs
      exact List.IsChain.cons_cons (by simpa using hs) (ih b)

theorem _root_.LearnTA.uniqueBy_chain {α : Type} (same : α → α → Bool) (l : List α) :
    (uniqueBy same l).IsChain fun x y => same x y = false := by
  cases l with
  | nil => simp [uniqueBy]
  | cons a l => exact uniqueBy_go_chain same a l

theorem mem_arrange {hash : ForwardRegional → ℕ} {l : List ForwardRegional} {L : ForwardRegional} (h : L ∈ arrange hash l) :
    L ∈ l := (List.mem_insertionSort _).1 ((uniqueBy_sublist _ _).subset h)

theorem arrange_cover {hash : ForwardRegional → ℕ} {l : List ForwardRegional} {n : ℕ} (hl : ∀ L ∈ l, ∃ v, L.Of n v)
    (u : Valuation) : (∃ L ∈ arrange hash l, L.cond.zone.Mem u) ↔ ∃ L ∈ l, L.cond.zone.Mem u := by
  constructor
  · rintro ⟨L, hL, hu⟩; exact ⟨L, mem_arrange hL, hu⟩
  · rintro ⟨L, hL, hu⟩
    obtain ⟨M, hM, h⟩ := uniqueBy_cover ForwardRegional.beq _ L ((List.mem_insertionSort fun a b => hash a ≤ hash b).2 hL)
    refine ⟨M, hM, ?_⟩
    rcases h with rfl | h
    · exact hu
    · obtain ⟨v, hv⟩ := hl L hL
      obtain ⟨w, hw⟩ := hl M (mem_arrange hM)
      exact ((hv.transfer hu).of_beq hw (beq_symm hw hv h)).2.sat

theorem _root_.LearnTA.mapM_ok {α β : Type} {f : α → Except Fail β} {l : List α} {r : List β} (h : l.mapM f = .ok r) :
    (∀ y ∈ r, ∃ x ∈ l, f x = .ok y) ∧ ∀ x ∈ l, ∃ y ∈ r, f x = .ok y := by
  induction l generalizing r with
  | nil => simp only [List.mapM_nil, pure, Except.pure, Except.ok.injEq] at h; subst h; simp
  | cons a l ih =>
    rw [List.mapM_cons] at h
    cases ha : f a with
    | error e => rw [ha] at h; simp [bind, Except.bind] at h
    | ok b =>
      cases hl : l.mapM f with
      | error e => rw [ha, hl] at h; simp [bind, Except.bind] at h
      | ok r' =>
        rw [ha, hl] at h
        simp only [bind, Except.bind, pure, Except.pure, Except.ok.injEq] at h
        subst h
        obtain ⟨h1, h2⟩ := ih hl
        constructor
        · intro y hy
          rcases List.mem_cons.1 hy with rfl | hy
          · exact ⟨a, by simp, ha⟩
          · obtain ⟨x, hx, e⟩ := h1 y hy; exact ⟨x, by simp [hx], e⟩
        · intro x hx
          rcases List.mem_cons.1 hx with rfl | hx
          · exact ⟨b, by simp, ha⟩
          · obtain ⟨y, hy, e⟩ := h2 x hx; exact ⟨y, by simp [hy], e⟩

theorem _root_.LearnTA.mapM_returns {α β : Type} {f : ℕ → α → Except Fail β} {l : List α}
    (h : ∀ x ∈ l, ∃ F, ∀ n, F < n → ∃ y, f n x = .ok y) : ∃ F, ∀ n, F < n → ∃ r, l.mapM (f n) = .ok r := by
  induction l with
  | nil => exact ⟨0, fun n _ => ⟨[], rfl⟩⟩
  | cons a l ih =>
    obtain ⟨F, hF⟩ := h a (by simp)
    obtain ⟨G, hG⟩ := ih fun x hx => h x (by simp [hx])
    refine ⟨max F G, fun n hn => ?_⟩
    obtain ⟨b, hb⟩ := hF n (by omega)
    obtain ⟨r, hr⟩ := hG n (by omega)
    exact ⟨b :: r, by rw [List.mapM_cons, hb, hr]; rfl⟩

/-! ### `updateNeighborsWithContinuousSuccessors` -/

theorem update_cover {hash : ForwardRegional → ℕ} {fuel : ℕ} {P : Finset ℕ} {ns l : List ForwardRegional}
    {O : ForwardRegional} {n : ℕ} {vo : Valuation} (hO : O.Of n vo) (hns : ∀ L ∈ ns, ∃ v, L.Of n v) (hP : ∀ x ∈ P, x < n)
    (h : update hash fuel P ns O = .ok l) :
    (∀ M ∈ l, (∃ L ∈ ns, M.word = L.word) ∧ ∃ u, M.Of n u ∧ AgreeOn P vo u) ∧
      (l.IsChain fun x y => x.beq y = false) ∧
      ∀ u, (∃ M ∈ l, M.cond.zone.Mem u) ↔
        (∃ s, 0 ≤ s ∧ ∃ L ∈ ns, L.cond.zone.Mem fun i => u i - s) ∧ AgreeOn P vo u := by
  unfold update at h
  cases hm : ns.mapM (collect P O fuel) with
  | error e => rw [hm] at h; simp [bind, Except.bind] at h
  | ok ls =>
    rw [hm] at h
    simp only [bind, Except.bind, pure, Except.pure, Except.ok.injEq] at h
    subst h
    obtain ⟨h1, h2⟩ := mapM_ok hm
    have key : ∀ M ∈ ls.flatten, (∃ L ∈ ns, M.word = L.word) ∧ ∃ u, M.Of n u ∧ AgreeOn P vo u := by
      intro M hM
      obtain ⟨l, hl, hM⟩ := List.mem_flatten.1 hM
      obtain ⟨L, hL, e⟩ := h1 l hl
      obtain ⟨v, hv⟩ := hns L hL
      obtain ⟨a, b⟩ := (collect_cover hO hv hP e).1 M hM
      exact ⟨⟨L, hL, a⟩, b⟩
    refine ⟨fun M hM => key M (mem_arrange hM), uniqueBy_chain _ _, fun u => ?_⟩
    rw [arrange_cover (n := n) fun L hL => by obtain ⟨_, u, hu, _⟩ := key L hL; exact ⟨u, hu⟩]
    constructor
    · rintro ⟨M, hM, hu⟩
      obtain ⟨l, hl, hM⟩ := List.mem_flatten.1 hM
      obtain ⟨L, hL, e⟩ := h1 l hl
      obtain ⟨v, hv⟩ := hns L hL
      obtain ⟨⟨s, hs, hs'⟩, ha⟩ := ((collect_cover hO hv hP e).2 u).1 ⟨M, hM, hu⟩
      exact ⟨⟨s, hs, L, hL, hs'⟩, ha⟩
    · rintro ⟨⟨s, hs, L, hL, hs'⟩, ha⟩
      obtain ⟨l, hl, e⟩ := h2 L hL
      obtain ⟨v, hv⟩ := hns L hL
      obtain ⟨M, hM, hu⟩ := ((collect_cover hO hv hP e).2 u).2 ⟨⟨s, hs, hs'⟩, ha⟩
      exact ⟨M, List.mem_flatten.2 ⟨l, hl, hM⟩, hu⟩

theorem update_returns {hash : ForwardRegional → ℕ} {P : Finset ℕ} {ns : List ForwardRegional} {O : ForwardRegional} {n : ℕ}
    {vo : Valuation} (hO : O.Of n vo) (hns : ∀ L ∈ ns, ∃ v, L.Of n v) (hP : ∀ x ∈ P, x < n) (hne : P.Nonempty) :
    ∃ F, ∀ fuel, F < fuel → ∃ l, update hash fuel P ns O = .ok l := by
  obtain ⟨F, hF⟩ := mapM_returns (f := fun fuel => collect P O fuel) (l := ns) fun L hL => by
    obtain ⟨v, hv⟩ := hns L hL
    exact collect_ends hO hv hP hne
  refine ⟨F, fun fuel hf => ?_⟩
  obtain ⟨r, hr⟩ := hF fuel hf
  unfold update
  rw [hr]
  exact ⟨_, rfl⟩

/-! ### The condition of the neighbours -/

open TimedCondition in
theorem eidx_last {c : TimedCondition} {n : ℕ} (hc : c.zone.dim = n + 1) : c.eidx (n - 1) = 0 := by
  unfold eidx; rw [if_pos]; unfold TimedCondition.size; rw [hc]; rfl

open TimedCondition in
theorem eidx_inner {c : TimedCondition} {n j : ℕ} (hc : c.zone.dim = n + 1) (h0 : 0 < j) (hj : j < n) :
    c.eidx (j - 1) = j + 1 := by
  unfold eidx
  rw [if_neg]
  · omega
  · unfold TimedCondition.size; rw [hc]; omega

/-- What is kept by the loops: the matrix is of the right size, with integers, and (after the first step) canonical. -/
structure Cond (n : ℕ) (c : TimedCondition) : Prop where
  dim : c.zone.dim = n + 1
  int : c.Integral

open TimedCondition in
theorem restrict_both {n : ℕ} {c : TimedCondition} (h : Cond n c) {i j : ℕ} (hij : i ≤ j) (hj : j < n) (x : ℚ) :
    let c' := (c.restrictLower i j (reg (-x)) false).restrictUpper i j (reg x) false
    Cond n c' ∧ (∀ w, c'.zone.Sat w ↔ c.zone.Sat w ∧ SameInterval x (w (i + 1) - w (c.eidx j))) ∧
      ∀ v : Valuation, c'.zone.Mem v → c'.Canonical := by
  intro c'
  have hs : c.size = n := by unfold TimedCondition.size; rw [h.dim]; rfl
  have he : c.eidx j < c.zone.dim := eidx_lt (by rw [hs]; exact hj)
  have hi : i + 1 < c.zone.dim := by rw [h.dim]; omega
  have hsat : ∀ w, c'.zone.Sat w ↔ c.zone.Sat w ∧ SameInterval x (w (i + 1) - w (c.eidx j)) := by
    intro w
    rw [restrictUpper_sat _ hij (by simpa [hs] using hj), restrictLower_sat _ hij (by rw [hs]; exact hj), ← sat_reg_iff,
      restrictLower_eidx, neg_sub]
    tauto
  refine ⟨⟨by simpa [c'] using h.dim, restrictUpper_integral (restrictLower_integral h.int (isInt_reg _) hi he _) (isInt_reg _)
    (by simpa using hi) (by simpa using he) _⟩, hsat, fun v hv => ?_⟩
  have e : c' = ⟨Zone.canonize _⟩ := restrictUpper_eq _ _ _ _ _
  rw [e] at hv ⊢
  exact canonical_canonize (v := v) (by simp only [Zone.set_dim, restrictLower_dim]; omega) ((Zone.canonize_mem _ _).1 hv)

open TimedCondition in
theorem relateClocks_spec {O : ForwardRegional} {n : ℕ} {v : Valuation} (hO : O.Of n v) (P : Finset ℕ) {i j : ℕ} (hij : i < j)
    (hj : j < n) {c : TimedCondition} (h : Cond n c) :
    Cond n (relateClocks O.cond P i c j) ∧
      (∀ u : Valuation, (relateClocks O.cond P i c j).zone.Mem u ↔
        c.zone.Mem u ∧ ((i ∈ P ↔ j ∈ P) → SameInterval (v i - v j) (u i - u j))) ∧
      ∀ u : Valuation, (relateClocks O.cond P i c j).zone.Mem u → c.Canonical → (relateClocks O.cond P i c j).Canonical := by
  unfold relateClocks
  by_cases hp : i ∈ P ↔ j ∈ P
  · have e : decide (i ∈ P) = decide (j ∈ P) := by simp [hp]
    rw [if_pos e]
    have e1 : O.cond.lower i (j - 1) = reg (-(v i - v j)) := by
      rw [lower_eq, eidx_inner hO.dim (by omega) hj,
        hO.region (j + 1) (by rw [hO.dim]; omega) (i + 1) (by rw [hO.dim]; omega) (by omega)]
      simp
    have e2 : O.cond.upper i (j - 1) = reg (v i - v j) := by
      rw [upper_eq, eidx_inner hO.dim (by omega) hj,
        hO.region (i + 1) (by rw [hO.dim]; omega) (j + 1) (by rw [hO.dim]; omega) (by omega)]
      simp
    rw [e1, e2]
    obtain ⟨h1, h2, h3⟩ := restrict_both h (i := i) (j := j - 1) (by omega) (by omega) (v i - v j)
    refine ⟨h1, fun u => ?_, fun u hu _ => h3 u hu⟩
    rw [Zone.Mem, h2, eidx_inner h.dim (by omega) hj]
    simp [hp, Zone.Mem]
  · rw [if_neg (by simp only [decide_eq_decide]; exact hp)]
    exact ⟨h, fun u => by simp [hp], fun _ _ h => h⟩

theorem foldl_relate {O : ForwardRegional} {n : ℕ} {v : Valuation} (hO : O.Of n v) (P : Finset ℕ) {i : ℕ} (l : List ℕ)
    (hl : ∀ j ∈ l, i < j ∧ j < n) {c : TimedCondition} (h : Cond n c) :
    Cond n (l.foldl (relateClocks O.cond P i) c) ∧
      (∀ u : Valuation, (l.foldl (relateClocks O.cond P i) c).zone.Mem u ↔
        c.zone.Mem u ∧ ∀ j ∈ l, (i ∈ P ↔ j ∈ P) → SameInterval (v i - v j) (u i - u j)) ∧
      ∀ u : Valuation, (l.foldl (relateClocks O.cond P i) c).zone.Mem u → c.Canonical →
        (l.foldl (relateClocks O.cond P i) c).Canonical := by
  induction l generalizing c with
  | nil => exact ⟨h, fun u => by simp, fun _ _ h => h⟩
  | cons j l ih =>
    obtain ⟨h1, h2, h3⟩ := relateClocks_spec hO P (hl j (by simp)).1 (hl j (by simp)).2 h
    obtain ⟨g1, g2, g3⟩ := ih (fun k hk => hl k (by simp [hk])) h1
    rw [List.foldl_cons]
    refine ⟨g1, fun u => ?_, fun u hu hc => g3 u hu (h3 u ((g2 u).1 hu).1 hc)⟩
    rw [g2, h2]
    simp only [List.forall_mem_cons]
    tauto

open TimedCondition in
theorem keepClock_spec {O : ForwardRegional} {n : ℕ} {v : Valuation} (hO : O.Of n v) (P : Finset ℕ) {i : ℕ} (hi : i < n)
    {c : TimedCondition} (h : Cond n c) :
    Cond n (keepClock O.cond P c i) ∧
      (∀ u : Valuation, (keepClock O.cond P c i).zone.Mem u ↔ c.zone.Mem u ∧ SameInterval (v i) (u i) ∧
        ∀ j, i < j → j < n → (i ∈ P ↔ j ∈ P) → SameInterval (v i - v j) (u i - u j)) ∧
      ∀ u : Valuation, (keepClock O.cond P c i).zone.Mem u → (keepClock O.cond P c i).Canonical := by
  unfold keepClock
  simp only [hO.csize]
  have e1 : O.cond.lower i (n - 1) = reg (-(v i)) := by have := lower_of hO hi; rwa [hO.csize] at this
  have e2 : O.cond.upper i (n - 1) = reg (v i) := by have := upper_of hO hi; rwa [hO.csize] at this
  rw [e1, e2]
  obtain ⟨h1, h2, h3⟩ := restrict_both h (i := i) (j := n - 1) (by omega) (by omega) (v i)
  obtain ⟨g1, g2, g3⟩ := foldl_relate hO P ((List.range n).filter fun j => decide (i < j)) (i := i)
    (fun j hj => by simpa [and_comm] using hj) h1
  refine ⟨g1, fun u => ?_, fun u hu => g3 u hu (h3 u ((g2 u).1 hu).1)⟩
  rw [g2, Zone.Mem, h2, eidx_last h.dim]
  simp only [List.mem_filter, List.mem_range, decide_eq_true_eq, and_imp, Valuation.ext, sub_zero, Zone.Mem]
  constructor
  · rintro ⟨⟨a, b⟩, k⟩; exact ⟨a, b, fun j h1 h2 => k j h2 h1⟩
  · rintro ⟨a, b, k⟩; exact ⟨⟨a, b⟩, fun j h1 h2 => k j h2 h1⟩

theorem foldl_keep {O : ForwardRegional} {n : ℕ} {v : Valuation} (hO : O.Of n v) (P : Finset ℕ) (l : List ℕ)
    (hl : ∀ i ∈ l, i < n) {c : TimedCondition} (h : Cond n c) :
    Cond n (l.foldl (keepClock O.cond P) c) ∧
      (∀ u : Valuation, (l.foldl (keepClock O.cond P) c).zone.Mem u ↔ c.zone.Mem u ∧ ∀ i ∈ l, SameInterval (v i) (u i) ∧
        ∀ j, i < j → j < n → (i ∈ P ↔ j ∈ P) → SameInterval (v i - v j) (u i - u j)) ∧
      ∀ u : Valuation, (l.foldl (keepClock O.cond P) c).zone.Mem u → l ≠ [] ∨ c.Canonical →
        (l.foldl (keepClock O.cond P) c).Canonical := by
  induction l generalizing c with
  | nil => exact ⟨h, fun u => by simp, fun _ _ h => by simpa using h⟩
  | cons i l ih =>
    obtain ⟨h1, h2, h3⟩ := keepClock_spec hO P (hl i (by simp)) h
    obtain ⟨g1, g2, g3⟩ := ih (fun k hk => hl k (by simp [hk])) h1
    rw [List.foldl_cons]
    refine ⟨g1, fun u => ?_, fun u hu _ => g3 u hu (Or.inr (h3 u ((g2 u).1 hu).1))⟩
    rw [g2, h2]
    simp only [List.forall_mem_cons]
    tauto

theorem confusable_iff {P : Finset ℕ} {n : ℕ} {v u : Valuation} : Confusable P n v u ↔
    ∀ i < n, SameInterval (v i) (u i) ∧ ∀ j, i < j → j < n → (i ∈ P ↔ j ∈ P) → SameInterval (v i - v j) (u i - u j) := by
  constructor
  · intro h i hi; exact ⟨h.clocks i hi, fun j hij hj hp => h.differences i hi j hj hp⟩
  · intro h
    refine ⟨fun i hi => (h i hi).1, fun i hi j hj hp => ?_⟩
    rcases Nat.lt_trichotomy i j with hij | rfl | hij
    · exact (h i hi).2 j hij hj hp
    · rw [sub_self, sub_self]; exact .refl _
    · have := ((h j hj).2 i hij hi hp.symm).neg
      rwa [neg_sub, neg_sub] at this

theorem _root_.LearnTA.Confusable.refl (P : Finset ℕ) (n : ℕ) (v : Valuation) : Confusable P n v v :=
  ⟨fun _ _ => .refl _, fun _ _ _ _ _ => .refl _⟩

theorem neighborsCondition_spec {O : ForwardRegional} {n : ℕ} {v : Valuation} (hO : O.Of n v) (P : Finset ℕ) :
    let c := neighborsCondition O.cond P
    c.zone.dim = n + 1 ∧ c.Integral ∧ c.Canonical ∧ c.Bounded ∧ ∀ u : Valuation, c.zone.Mem u ↔ Confusable P n v u := by
  intro c
  have h0 : Cond n ⟨Zone.top (O.cond.size + 1)⟩ := by
    refine ⟨by rw [hO.csize]; rfl, fun i _ j _ => trivial⟩
  obtain ⟨h1, h2, h3⟩ := foldl_keep hO P (List.range O.cond.size) (by rw [hO.csize]; simp) h0
  have hm : ∀ u : Valuation, c.zone.Mem u ↔ Confusable P n v u := by
    intro u
    refine (h2 u).trans ?_
    rw [ confusable_iff, hO.csize]
    simp only [List.mem_range]
    refine and_iff_right ?_
    intro i _ j _; exact trivial
  have hv := (hm v).2 (.refl P n v)
  replace h1 : Cond n c := h1
  have hc : c.Canonical := h3 v hv (Or.inl (by
    have := hO.pos
    rw [hO.csize]; intro e
    have := congrArg List.length e
    simp at this; omega))
  refine ⟨h1.dim, h1.int, hc, ?_, hm⟩
  have row : ∀ i < n, c.zone.val (i + 1) 0 ≠ .inf ∧ c.zone.val 0 (i + 1) ≠ .inf := by
    intro i hi
    have key : ∀ (a b : ℕ) (bd : Bound), a < n + 1 → b < n + 1 → a ≠ b → bd ≠ .inf →
        (∀ w : ℕ → ℚ, c.zone.Sat w → Bound.Sat (w a - w b) bd) → c.zone.val a b ≠ .inf := by
      intro a b bd ha hb hab hbd hw
      have hle := Zone.bound_le_of_incl' ((Zone.top (n + 1)).set a b bd) c.zone h1.dim.symm hc.pairNN hc.offClosed
        (fun w hs p hp q hq => by
          rw [Zone.set_val]; split
          · rename_i e; rw [e.1, e.2]; exact hw w hs
          · exact trivial) (i := a) (j := b) ha hb hab
      rw [Zone.set_val, if_pos ⟨rfl, rfl⟩] at hle
      intro e
      rw [e] at hle
      exact hbd (le_antisymm (Bound.le_inf _) hle)
    have sat : ∀ w : ℕ → ℚ, c.zone.Sat w → SameInterval (v i) (w (i + 1) - w 0) := by
      intro w hw
      have : c.zone.Mem fun k => w (k + 1) - w 0 := by
        intro p hp q hq
        have := hw p hp q hq
        have e : (Valuation.ext fun k => w (k + 1) - w 0) p - (Valuation.ext fun k => w (k + 1) - w 0) q = w p - w q := by
          cases p <;> cases q <;> simp [Valuation.ext]
        rw [e]; exact this
      exact ((hm _).1 this).clocks i hi
    refine ⟨key _ _ (reg (v i)) (by omega) (by omega) (by omega) (reg_ne_inf _) fun w hw => (sat_reg_iff.2 (sat w hw)).1,
      key _ _ (reg (-(v i))) (by omega) (by omega) (by omega) (reg_ne_inf _) fun w hw => ?_⟩
    have := (sat_reg_iff.2 (sat w hw)).2
    rwa [neg_sub] at this
  intro i hi j hj hij
  rw [h1.dim] at hi hj
  rcases Nat.eq_zero_or_pos i with rfl | h0
  · obtain ⟨j, rfl⟩ : ∃ k, j = k + 1 := ⟨j - 1, by omega⟩
    exact (row j (by omega)).2
  · obtain ⟨i, rfl⟩ : ∃ k, i = k + 1 := ⟨i - 1, by omega⟩
    rcases Nat.eq_zero_or_pos j with rfl | h0
    · exact (row i (by omega)).1
    · obtain ⟨j, rfl⟩ : ∃ k, j = k + 1 := ⟨j - 1, by omega⟩
      intro e
      have := hc.offClosed (i + 1) (by rw [h1.dim]; omega) (j + 1) (by rw [h1.dim]; omega) 0 (by rw [h1.dim]; omega) hij
      rw [e] at this
      have h1 := (row i (by omega)).1
      have h2 := (row j (by omega)).2
      cases e1 : c.zone.val (i + 1) 0 with
      | inf => exact h1 e1
      | fin a s =>
        cases e2 : c.zone.val 0 (j + 1) with
        | inf => exact h2 e2
        | fin b t => rw [e1, e2] at this; exact absurd (le_antisymm (Bound.le_inf _) this) (by simp)

/-! ### `makeNeighbors` and the constructors -/

open TimedCondition in
/-- The region of a sample of a simple condition is the condition. -/
theorem sample_region {word : List Action} (ho : ∀ a ∈ word, a ≠ unobservable) {c : TimedCondition} {n : ℕ}
    (hd : c.zone.dim = n + 1) (hn : word.length + 1 = n) (hs : c.isSimple = true) (hc : c.Canonical) (hi : c.Integral)
    (hb : c.Bounded) :
    (ForwardRegional.fromTimedWord (ElementaryLanguage.mk word c).sample).word = word ∧
      (∃ u, (ForwardRegional.fromTimedWord (ElementaryLanguage.mk word c).sample).Of n u) ∧
      ∀ u : Valuation, (ForwardRegional.fromTimedWord (ElementaryLanguage.mk word c).sample).cond.zone.Mem u ↔ c.zone.Mem u := by
  have hsz : c.size = n := by unfold TimedCondition.size; rw [hd]; rfl
  have hh := ElementaryLanguage.sampleDurations_holds c hc fun i hi => by
    rw [upper_eq, lower_eq]
    have h1 : i + 1 < c.zone.dim := by rw [hd]; omega
    exact ⟨hb _ h1 _ (eidx_lt hi) (eidx_ne (le_refl i)).symm, hb _ (eidx_lt hi) _ h1 (eidx_ne (le_refl i))⟩
  have hwf : TimedWord.WF ⟨word, ElementaryLanguage.sampleDurations c c.size⟩ := by
    show (ElementaryLanguage.sampleDurations c c.size).length = word.length + 1
    rw [hh.1, hsz, hn]
  have e1 : (ElementaryLanguage.mk word c).sample = ⟨word, ElementaryLanguage.sampleDurations c c.size⟩ := by
    unfold ElementaryLanguage.sample
    rw [show word.length + 1 = c.size by rw [hsz, hn]]
    exact TimedWord.make_observable hwf ho
  rw [e1]
  have hlen : (ElementaryLanguage.sampleDurations c n).length = n := by have := hh.1; rw [hsz] at this; exact this
  have hof : (ForwardRegional.fromTimedWord ⟨word, ElementaryLanguage.sampleDurations c n⟩).Of n
      (accV (ElementaryLanguage.sampleDurations c n)) := by
    have := ForwardRegional.fromTimedWord_of _ hwf
    simp only [hsz] at this
    rwa [hlen] at this
  have hmem : c.zone.Sat (accV (ElementaryLanguage.sampleDurations c n)).ext := by
    have := ((holds_iff_mem c hc.1 hc.diagNN _).1 hh).2
    rwa [hsz] at this
  have hr := isRegion_of_simple hi hs hmem
  rw [hsz]
  refine ⟨rfl, ⟨_, hof⟩, fun u => ?_⟩
  constructor
  · intro hu
    refine Zone.IsRegion.sat ?_ hc.diagNN
    intro i hi' j hj hij
    rw [hr i hi' j hj hij, ← hof.region i (by rw [hof.dim, ← hd]; exact hi') j (by rw [hof.dim, ← hd]; exact hj) hij]
    exact (hof.transfer hu).region i (by rw [hof.dim, ← hd]; exact hi') j (by rw [hof.dim, ← hd]; exact hj) hij
  · intro hu
    have hr' := hr.of_sat hu
    refine Zone.IsRegion.sat ?_ hof.diag
    intro i hi' j hj hij
    rw [hof.dim, ← hd] at hi' hj
    rw [hof.region i (by rw [hof.dim, ← hd]; exact hi') j (by rw [hof.dim, ← hd]; exact hj) hij, ← hr' i hi' j hj hij,
      ← hr i hi' j hj hij]

theorem makeNeighbors_spec {O : ForwardRegional} {n : ℕ} {v : Valuation} (hO : O.Of n v)
    (ho : ∀ a ∈ O.word, a ≠ unobservable) (P : Finset ℕ) :
    ∃ l, makeNeighbors O P = .ok l ∧ (∀ M ∈ l, M.word = O.word ∧ (∃ u, M.Of n u ∧ Confusable P n v u)) ∧
      (l.IsChain fun x y => x.beq y = false) ∧
      ∀ u, (∃ M ∈ l, M.cond.zone.Mem u) ↔ Confusable P n v u := by
  obtain ⟨hd, hi, hc, hb, hm⟩ := neighborsCondition_spec hO P
  obtain ⟨l, e, h1, h2, h3⟩ := TimedCondition.enumerate_spec hc hb hi
  have key := fun c (h : c ∈ l) => sample_region ho (c := c) (n := n) (by rw [(h1 c h).2.2.2.2, hd]) hO.word (h1 c h).1
    (h1 c h).2.1 (h1 c h).2.2.1 (h1 c h).2.2.2.1
  have cov : ∀ u, (∃ M ∈ l.map fun c => ForwardRegional.fromTimedWord (ElementaryLanguage.mk O.word c).sample,
      M.cond.zone.Mem u) ↔ Confusable P n v u := by
    intro u
    rw [← hm, Zone.Mem, h2]
    constructor
    · rintro ⟨M, hM, hu⟩
      obtain ⟨c, hcl, rfl⟩ := List.mem_map.1 hM
      exact ⟨c, hcl, ((key c hcl).2.2 u).1 hu⟩
    · rintro ⟨c, hcl, hu⟩; exact ⟨_, List.mem_map.2 ⟨c, hcl, rfl⟩, ((key c hcl).2.2 u).2 hu⟩
  unfold makeNeighbors
  rw [e]
  refine ⟨_, rfl, ?_, ?_, cov⟩
  · intro M hM
    obtain ⟨c, hcl, rfl⟩ := List.mem_map.1 hM
    obtain ⟨k1, ⟨u, k2⟩, k3⟩ := key c hcl
    exact ⟨k1, u, k2, (cov u).1 ⟨_, hM, k2.sat⟩⟩
  · refine List.Pairwise.isChain (List.pairwise_map.2 (h3.imp_of_mem ?_))
    intro a b ha hb' hab
    by_contra hne
    have hbe : (ForwardRegional.fromTimedWord (ElementaryLanguage.mk O.word a).sample).beq
      (ForwardRegional.fromTimedWord (ElementaryLanguage.mk O.word b).sample) = true := by simpa using hne
    obtain ⟨_, ⟨u, k2⟩, k3⟩ := key a ha
    obtain ⟨_, ⟨u', k2'⟩, k3'⟩ := key b hb'
    exact hab u.ext ⟨(k3 u).1 k2.sat, (k3' u).1 (k2.of_beq k2' hbe).2.sat⟩

theorem mem_withImplicit {O : ForwardRegional} {n : ℕ} {v : Valuation} (hO : O.Of n v) {P : Finset ℕ} {x : ℕ} :
    x ∈ withImplicit O.cond P ↔ x ∈ P ∨ (x < n ∧ ∃ k : ℤ, v x = k) := by
  unfold withImplicit
  rw [Finset.mem_union, Finset.mem_filter, Finset.mem_range, hO.csize]
  refine or_congr_right (and_congr_right fun hx => ?_)
  unfold TimedCondition.isPoint
  rw [upper_of hO hx, lower_of hO hx]
  rcases Bound.cases_int (v x) with ⟨k, e⟩ | ⟨k, h1, h2⟩
  · refine iff_of_true ?_ ⟨k, e⟩
    rw [e, reg_int, show -(k : ℚ) = ((-k : ℤ) : ℚ) by push_cast; rfl, reg_int]
    simp [Bound.isPoint]
  · refine iff_of_false ?_ ?_
    · rw [reg_of_between h1 h2, reg_neg_of_between h1 h2]; simp [Bound.isPoint]
    · rintro ⟨m, e⟩
      rw [e] at h1 h2
      have h1 : k < m := by exact_mod_cast h1
      have h2 : m < k + 1 := by exact_mod_cast h2
      omega

/-- The constructor. -/
theorem make_spec {hash : ForwardRegional → ℕ} {fuel : ℕ} {O : ForwardRegional} {n : ℕ} {v : Valuation} (hO : O.Of n v)
    (ho : ∀ a ∈ O.word, a ≠ unobservable) {P : Finset ℕ} (hP : ∀ x ∈ P, x < n) {N : Neighbors}
    (h : make hash fuel O P = .ok N) :
    N.original = O ∧ N.precise = withImplicit O.cond P ∧ N.clockSize = n ∧
      (∀ M ∈ N.neighbors, M.word = O.word ∧ ∃ u, M.Of n u ∧ AgreeOn N.precise v u) ∧
      (N.neighbors.IsChain fun x y => x.beq y = false) ∧
      (N.precise = ∅ → ∀ u, N.Covers u ↔ Confusable P n v u) ∧
      (N.precise ≠ ∅ → ∀ u, N.Covers u ↔ (∃ s, 0 ≤ s ∧ Confusable P n v fun i => u i - s) ∧ AgreeOn N.precise v u) := by
  obtain ⟨l, e, h1, h2, h3⟩ := makeNeighbors_spec hO ho P
  have hP' : ∀ x ∈ withImplicit O.cond P, x < n := fun x hx => ((mem_withImplicit hO).1 hx).elim (hP x) And.left
  unfold make at h
  rw [e] at h
  by_cases hp : withImplicit O.cond P = ∅
  · simp only [bind, Except.bind, if_pos hp, pure, Except.pure, Except.ok.injEq] at h
    subst h
    refine ⟨rfl, rfl, hO.csize, fun M hM => ?_, h2, fun _ => h3, fun hne => absurd hp hne⟩
    obtain ⟨a, u, b, _⟩ := h1 M hM
    exact ⟨a, u, b, by simp only [hp]; intro x hx; simp at hx⟩
  · simp only [bind, Except.bind, if_neg hp] at h
    cases hu : update hash fuel (withImplicit O.cond P) l O with
    | error e => rw [hu] at h; simp at h
    | ok l' =>
      rw [hu] at h
      simp only [pure, Except.pure, Except.ok.injEq] at h
      subst h
      obtain ⟨k1, k2, k3⟩ := update_cover hO (fun L hL => by obtain ⟨_, u, a, _⟩ := h1 L hL; exact ⟨u, a⟩) hP' hu
      refine ⟨rfl, rfl, hO.csize, fun M hM => ?_, k2, fun he => absurd he hp, fun _ u => ?_⟩
      · obtain ⟨⟨L, hL, eL⟩, b⟩ := k1 M hM
        exact ⟨eL.trans (h1 L hL).1, b⟩
      · show (∃ M ∈ l', _) ↔ _
        rw [k3 u]
        simp only [h3]

theorem make_returns (hash : ForwardRegional → ℕ) {O : ForwardRegional} {n : ℕ} {v : Valuation} (hO : O.Of n v)
    (ho : ∀ a ∈ O.word, a ≠ unobservable) {P : Finset ℕ} (hP : ∀ x ∈ P, x < n) :
    ∃ F, ∀ fuel, F < fuel → ∃ N, make hash fuel O P = .ok N := by
  obtain ⟨l, e, h1, h2, h3⟩ := makeNeighbors_spec hO ho P
  have hP' : ∀ x ∈ withImplicit O.cond P, x < n := fun x hx => ((mem_withImplicit hO).1 hx).elim (hP x) And.left
  unfold make
  rw [e]
  by_cases hp : withImplicit O.cond P = ∅
  · simp only [bind, Except.bind, if_pos hp, pure, Except.pure]
    exact ⟨0, fun _ _ => ⟨_, rfl⟩⟩
  · simp only [bind, Except.bind, if_neg hp]
    obtain ⟨F, hF⟩ := update_returns (hash := hash) hO (fun L hL => by obtain ⟨_, u, a, _⟩ := h1 L hL; exact ⟨u, a⟩) hP'
      (Finset.nonempty_iff_ne_empty.2 hp)
    refine ⟨F, fun fuel hf => ?_⟩
    obtain ⟨l', hl⟩ := hF fuel hf
    rw [hl]
    exact ⟨_, rfl⟩

theorem _root_.LearnTA.SameInterval.nonneg {x y : ℚ} (h : SameInterval x y) (hx : 0 ≤ x) : 0 ≤ y := by
  rw [← Int.floor_nonneg] at hx ⊢
  rw [← h.1]; exact hx

theorem same_of_mem {L : ForwardRegional} {n : ℕ} {v u : Valuation} (h : L.Of n v) (hu : L.cond.zone.Mem u) {x : ℕ}
    (hx : x < n) : SameInterval (v x) (u x) :=
  sameInterval_reg.2 ((Of.reg_eq (L' := L) h.region (h.transfer hu).region h.dim).1 x hx)

end Neighbors
end LearnTA
