import Verif.Lemmas.Zone
import Verif.Model.Resets
import Mathlib.Data.Finset.Filter

namespace LearnTA
open Bound
namespace Zone

theorem ext_update (v : Valuation) (x : ℕ) (q : ℚ) :
    Valuation.ext (Function.update v x q) = Function.update v.ext (x + 1) q := by
  funext i
  cases i with
  | zero => simp [Valuation.ext]
  | succ i =>
    by_cases h : i = x
    · subst h; simp [Valuation.ext]
    · rw [Function.update_of_ne (by omega)]; simp [Valuation.ext, Function.update_of_ne h]

theorem ext_shift (v : Valuation) (d : ℚ) (i : ℕ) :
    (v.shift d).ext (i + 1) = v.ext (i + 1) + d := rfl

@[simp] theorem ext_zero (v : Valuation) : v.ext 0 = 0 := rfl
@[simp] theorem ext_succ (v : Valuation) (i : ℕ) : v.ext (i + 1) = v i := rfl

/-! ### Elapse -/

theorem elapse_closed {z : Zone} (hc : z.Closed) : z.elapse.Closed := by
  intro i hi j hj k hk
  simp only [elapse]
  by_cases hj0 : j = 0
  · subst hj0; simp
  · by_cases hk0 : k = 0
    · subst hk0; simp
    · simp only [hj0, hk0, if_false]; exact hc i hi j hj k hk

/-- Soundness of `elapse` needs no canonicity. -/
theorem elapse_sound (z : Zone) (v : Valuation) (d : ℚ) (hd : 0 ≤ d) (h : z.Mem v) :
    z.elapse.Mem (v.shift d) := by
  intro i hi j hj
  simp only [elapse]
  cases j with
  | zero => simp
  | succ j =>
    have := h i hi (j + 1) hj
    simp only [Nat.succ_ne_zero, if_false]
    cases i with
    | zero =>
      simp only [ext_zero, ext_shift] at this ⊢
      rw [sat_iff] at this ⊢
      refine le_trans ?_ this
      rw [fin_le_fin]
      rcases lt_or_eq_of_le hd with h | h
      · left; linarith
      · right; exact ⟨by rw [← h]; ring, le_refl _⟩
    | succ i =>
      simp only [ext_shift]
      have e : v.ext (i + 1) + d - (v.ext (j + 1) + d) = v.ext (i + 1) - v.ext (j + 1) := by ring
      rw [e]; exact this

theorem elapse_mem (z : Zone) (hc : z.Closed) (hne : ∃ u, z.Mem u) (v : Valuation) :
    z.elapse.Mem v ↔ ∃ d, 0 ≤ d ∧ z.Mem (v.shift (-d)) := by
  constructor
  · intro h
    obtain ⟨u, hu⟩ := hne
    have hd := hu.diagNN
    by_cases hdim : z.dim = 0
    · exact ⟨0, le_refl _, fun i hi => by omega⟩
    have h0 : 0 < z.dim := Nat.pos_of_ne_zero hdim
    -- candidates: index `i+1` for `some i`, and the constraint `0 ≤ t` for `none`
    let l : List (Option ℕ) := none :: (List.range (z.dim - 1)).map some
    let p : Option ℕ → ℚ := fun o => match o with | none => 0 | some i => v i
    let up : Option ℕ → Bound := fun o => match o with | none => .inf | some i => z.val 0 (i + 1)
    let lo : Option ℕ → Bound := fun o => match o with | none => 0 | some i => z.val (i + 1) 0
    have hl : ∀ o ∈ l, o = none ∨ ∃ i, o = some i ∧ i + 1 < z.dim := by
      intro o ho
      simp only [l, List.mem_cons, List.mem_map, List.mem_range] at ho
      rcases ho with rfl | ⟨i, hi, rfl⟩
      · left; rfl
      · right; exact ⟨i, rfl, by omega⟩
    obtain ⟨t, ht⟩ := Bound.exists_value l p up lo (by
      intro a ha b hb
      rcases hl a ha with rfl | ⟨i, rfl, hi⟩ <;> rcases hl b hb with rfl | ⟨j, rfl, hj⟩
      · simp [up]
      · have := h 0 h0 (j + 1) hj
        simpa [elapse, p, lo, up] using this
      · simp [up]
      · have := h (i + 1) hi (j + 1) hj
        simp only [elapse, Nat.succ_ne_zero, if_false, ext_succ] at this
        exact this.mono (hc _ hi _ hj 0 h0))
    have ht0 : 0 ≤ t := by
      have := (ht none (by simp [l])).2
      simpa [p, lo] using this
    refine ⟨t, ht0, ?_⟩
    have hmem : ∀ i, i + 1 < z.dim → some i ∈ l := by
      intro i hi
      simp only [l, List.mem_cons, List.mem_map, List.mem_range]
      right; exact ⟨i, by omega, rfl⟩
    intro i hi j hj
    cases i with
    | zero =>
      cases j with
      | zero => simp only [sub_self]; exact sat_self_zero.2 (hd 0 hi)
      | succ j =>
        have := (ht (some j) (hmem j hj)).1
        simp only [p, up] at this
        have e : (0 : ℚ) - (v j + -t) = t - v j := by ring
        simpa [Valuation.shift, e] using this
    | succ i =>
      cases j with
      | zero =>
        have := (ht (some i) (hmem i hi)).2
        simp only [p, lo] at this
        simpa [Valuation.shift, sub_eq_add_neg] using this
      | succ j =>
        have := h (i + 1) hi (j + 1) hj
        simp only [elapse, Nat.succ_ne_zero, if_false, ext_succ] at this
        have e : v i + -t - (v j + -t) = v i - v j := by ring
        simpa [Valuation.shift, e] using this
  · rintro ⟨d, hd, h⟩
    have := elapse_sound z _ d hd h
    have e : (v.shift (-d)).shift d = v := by funext i; simp [Valuation.shift]
    rwa [e] at this

theorem reverseElapse_mem (z : Zone) (hc : z.Closed) (hne : ∃ u, z.Mem u) (v : Valuation) :
    z.reverseElapse.Mem v ↔ (∀ i, i + 1 < z.dim → 0 ≤ v i) ∧ ∃ d, 0 ≤ d ∧ z.Mem (v.shift d) := by
  constructor
  · intro h
    obtain ⟨u, hu⟩ := hne
    have hd := hu.diagNN
    by_cases hdim : z.dim = 0
    · exact ⟨fun i hi => by omega, 0, le_refl _, fun i hi => by omega⟩
    have h0 : 0 < z.dim := Nat.pos_of_ne_zero hdim
    refine ⟨?_, ?_⟩
    · intro i hi
      have := h 0 h0 (i + 1) hi
      simpa [reverseElapse] using this
    let l : List (Option ℕ) := none :: (List.range (z.dim - 1)).map some
    let p : Option ℕ → ℚ := fun o => match o with | none => 0 | some i => v i
    let up : Option ℕ → Bound := fun o => match o with | none => 0 | some i => z.val 0 (i + 1)
    let lo : Option ℕ → Bound := fun o => match o with | none => .inf | some i => z.val (i + 1) 0
    have hl : ∀ o ∈ l, o = none ∨ ∃ i, o = some i ∧ i + 1 < z.dim := by
      intro o ho
      simp only [l, List.mem_cons, List.mem_map, List.mem_range] at ho
      rcases ho with rfl | ⟨i, hi, rfl⟩
      · left; rfl
      · right; exact ⟨i, rfl, by omega⟩
    obtain ⟨t, ht⟩ := Bound.exists_value l p up lo (by
      intro a ha b hb
      rcases hl a ha with rfl | ⟨i, rfl, hi⟩ <;> rcases hl b hb with rfl | ⟨j, rfl, hj⟩
      · simp [lo]
      · simp [lo]
      · have := h (i + 1) hi 0 h0
        simpa [reverseElapse, p, lo, up] using this
      · have := h (i + 1) hi (j + 1) hj
        simp only [reverseElapse, Nat.succ_ne_zero, if_false, ext_succ] at this
        exact this.mono (hc _ hi _ hj 0 h0))
    have ht0 : t ≤ 0 := by
      have := (ht none (by simp [l])).1
      simpa [p, up] using this
    refine ⟨-t, by linarith, ?_⟩
    have hmem : ∀ i, i + 1 < z.dim → some i ∈ l := by
      intro i hi
      simp only [l, List.mem_cons, List.mem_map, List.mem_range]
      right; exact ⟨i, by omega, rfl⟩
    intro i hi j hj
    cases i with
    | zero =>
      cases j with
      | zero => simp only [sub_self]; exact sat_self_zero.2 (hd 0 hi)
      | succ j =>
        have := (ht (some j) (hmem j hj)).1
        simp only [p, up] at this
        have e : (0 : ℚ) - (v j + -t) = t - v j := by ring
        simpa [Valuation.shift, e] using this
    | succ i =>
      cases j with
      | zero =>
        have := (ht (some i) (hmem i hi)).2
        simp only [p, lo] at this
        simpa [Valuation.shift, sub_eq_add_neg] using this
      | succ j =>
        have := h (i + 1) hi (j + 1) hj
        simp only [reverseElapse, Nat.succ_ne_zero, if_false, ext_succ] at this
        have e : v i + -t - (v j + -t) = v i - v j := by ring
        simpa [Valuation.shift, e] using this
  · rintro ⟨hv, d, hd, h⟩ i hi j hj
    simp only [reverseElapse]
    cases i with
    | zero =>
      cases j with
      | zero => simp
      | succ j => simpa using hv j hj
    | succ i =>
      have := h (i + 1) hi j hj
      simp only [Nat.succ_ne_zero, if_false]
      cases j with
      | zero =>
        simp only [ext_shift, ext_zero] at this ⊢
        rw [sat_iff] at this ⊢
        refine le_trans ?_ this
        rw [fin_le_fin]
        rcases lt_or_eq_of_le hd with h | h
        · left; linarith
        · right; exact ⟨by rw [← h]; ring, le_refl _⟩
      | succ j =>
        simp only [ext_shift] at this
        have e : v.ext (i + 1) + d - (v.ext (j + 1) + d) = v.ext (i + 1) - v.ext (j + 1) := by ring
        rwa [e] at this

/-! ### Unconstrain, reset and updates -/

theorem satOn_ne_of_unconstrain {z : Zone} {x : ℕ} {v : Valuation} (h : (z.unconstrain x).Mem v) :
    z.SatOn ((Finset.range z.dim).filter (· ≠ x + 1)) v.ext := by
  intro i hi j hj
  simp only [Finset.mem_filter, Finset.mem_range] at hi hj
  have := h i hi.1 j hj.1
  simp only [unconstrain] at this
  rw [if_neg (by tauto)] at this
  exact this

theorem exists_of_satOn {z : Zone} (hc : z.Closed) (hd : z.DiagNN) {x : ℕ} {v : Valuation}
    (h : z.SatOn ((Finset.range z.dim).filter (· ≠ x + 1)) v.ext) (h0 : 0 < z.dim) :
    ∃ q, z.Mem (Function.update v x q) := by
  obtain ⟨w, hw, hs⟩ := extend z hc hd _ (by
    intro i hi; simp only [Finset.mem_filter, Finset.mem_range] at hi; exact hi.1) v.ext h
  refine ⟨w (x + 1), ?_⟩
  unfold Mem
  rw [ext_update]
  intro i hi j hj
  have hval : ∀ k, k < z.dim → Function.update v.ext (x + 1) (w (x + 1)) k = w k := by
    intro k hk
    by_cases e : k = x + 1
    · subst e; simp
    · rw [Function.update_of_ne e]
      exact (hw k (by simp [hk, e])).symm
  rw [hval i hi, hval j hj]
  exact hs i hi j hj

theorem unconstrain_sound (z : Zone) (x : ℕ) (v : Valuation) (q : ℚ)
    (h : z.Mem (Function.update v x q)) : (z.unconstrain x).Mem v := by
  unfold Mem at h
  rw [ext_update] at h
  intro i hi j hj
  simp only [unconstrain]
  split
  · simp
  · rename_i hne
    push Not at hne
    have := h i hi j hj
    rwa [Function.update_of_ne hne.1, Function.update_of_ne hne.2] at this

theorem unconstrain_mem (z : Zone) (hc : z.Closed) (hne : ∃ u, z.Mem u) (x : ℕ)
    (v : Valuation) : (z.unconstrain x).Mem v ↔ ∃ q, z.Mem (Function.update v x q) := by
  constructor
  · intro h
    by_cases hdim : z.dim = 0
    · exact ⟨0, fun i hi => by omega⟩
    obtain ⟨u, hu⟩ := hne
    exact exists_of_satOn hc hu.diagNN (satOn_ne_of_unconstrain h) (Nat.pos_of_ne_zero hdim)
  · rintro ⟨q, h⟩
    exact unconstrain_sound z x v q h

theorem reset_val (z : Zone) (x i j : ℕ) :
    (z.reset x).val i j =
      if i = x + 1 then (if j = 0 then .fin 0 true else if j = x + 1 then .fin 0 true else z.val 0 j)
      else if j = x + 1 then (if i = 0 then .fin 0 true else z.val i 0)
      else z.val i j := by
  simp only [reset, set_val]
  by_cases h1 : i = x + 1
  · subst h1
    by_cases h2 : j = 0
    · subst h2; simp
    · have h2' : 1 ≤ j := Nat.one_le_iff_ne_zero.2 h2
      by_cases h3 : j = x + 1
      · subst h3; simp
      · simp [h2, h2', h3]
  · by_cases h3 : j = x + 1
    · subst h3
      by_cases h4 : i = 0
      · subst h4; simp
      · have h4' : 1 ≤ i := Nat.one_le_iff_ne_zero.2 h4
        simp [h1, h4, h4']
    · simp [h1, h3]

theorem reset_mem (z : Zone) (hc : z.Closed) (hne : ∃ u, z.Mem u) (x : ℕ) (hx : x + 1 < z.dim)
    (v : Valuation) :
    (z.reset x).Mem v ↔ v x = 0 ∧ ∃ q, z.Mem (Function.update v x q) := by
  obtain ⟨u, hu⟩ := hne
  constructor
  · intro h
    have h1 := h 0 (by simp; omega) (x + 1) (by simpa using hx)
    have h2 := h (x + 1) (by simpa using hx) 0 (by simp; omega)
    rw [reset_val] at h1 h2
    simp at h1 h2
    refine ⟨le_antisymm h2 h1, ?_⟩
    apply exists_of_satOn hc hu.diagNN _ (by omega)
    intro i hi j hj
    simp only [Finset.mem_filter, Finset.mem_range] at hi hj
    have := h i hi.1 j hj.1
    rw [reset_val, if_neg hi.2, if_neg hj.2] at this
    exact this
  · rintro ⟨h0, q, h⟩
    unfold Mem at h
    rw [ext_update] at h
    intro i hi j hj
    rw [reset_dim] at hi hj
    rw [reset_val]
    have key : ∀ k, k ≠ x + 1 → Function.update v.ext (x + 1) q k = v.ext k :=
      fun k hk => Function.update_of_ne hk _ _
    by_cases h1 : i = x + 1
    · subst h1
      rw [if_pos rfl]
      by_cases h2 : j = 0
      · subst h2; simp [h0]
      · by_cases h3 : j = x + 1
        · subst h3; simp
        · rw [if_neg h2, if_neg h3]
          have := h 0 (by omega) j hj
          rw [key 0 (by omega), key j h3] at this
          simpa [h0] using this
    · rw [if_neg h1]
      by_cases h3 : j = x + 1
      · subst h3
        rw [if_pos rfl]
        by_cases h4 : i = 0
        · subst h4; simp [h0]
        · rw [if_neg h4]
          have := h i hi 0 (by omega)
          rw [key 0 (by omega), key i h1] at this
          simpa [h0] using this
      · rw [if_neg h3]
        have := h i hi j hj
        rwa [key i h1, key j h3] at this

/-- Adding the equality `index a = index b` (both entries set to `(0,true)`), in a matrix where
these entries were unconstrained. -/
theorem set_eq_sat (z : Zone) (a b : ℕ) (ha : a < z.dim) (hb : b < z.dim) (hab : a ≠ b) (q : ℚ)
    (w : ℕ → ℚ) (h1 : z.val a b = .inf) (h2 : z.val b a = .inf) :
    ((z.set a b (.fin q true)).set b a (.fin (-q) true)).Sat w ↔ z.Sat w ∧ w a - w b = q := by
  constructor
  · intro h
    refine ⟨?_, ?_⟩
    · intro i hi j hj
      have := h i hi j hj
      simp only [set_val] at this
      split at this
      · rename_i e; obtain ⟨rfl, rfl⟩ := e; rw [h2]; trivial
      · split at this
        · rename_i e; obtain ⟨rfl, rfl⟩ := e; rw [h1]; trivial
        · exact this
    · have e1 := h a ha b hb
      have e2 := h b hb a ha
      simp only [set_val] at e1 e2
      rw [if_neg (fun e => hab e.1)] at e1
      simp at e1 e2
      linarith
  · rintro ⟨h, e⟩ i hi j hj
    simp only [set_val]
    split
    · rename_i e'; obtain ⟨rfl, rfl⟩ := e'; simp; linarith
    · split
      · rename_i e'; obtain ⟨rfl, rfl⟩ := e'; simp; linarith
      · exact h i hi j hj

/-- Concrete counterpart of one step of the first loop of `applyResets`. -/
def renameStep (v : Valuation) (r : ℕ × Upd) : Valuation :=
  match r.2 with
  | .clock y => Function.update v r.1 (v y)
  | .const _ => v

/-- Concrete counterpart of one step of the second loop of `applyResets`. -/
def constStep (v : Valuation) (r : ℕ × Upd) : Valuation :=
  match r.2 with
  | .const q => Function.update v r.1 q
  | .clock _ => v

@[simp] theorem applyRenaming_dim (z : Zone) (r) : (z.applyRenaming r).dim = z.dim := by
  unfold applyRenaming; split
  · split <;> simp
  · rfl
@[simp] theorem applyConst_dim (z : Zone) (r) : (z.applyConst r).dim = z.dim := by
  unfold applyConst; split <;> simp

/-- The clocks of an update exist. -/
def UpdOK (n : ℕ) (r : ℕ × Upd) : Prop :=
  r.1 < n ∧ match r.2 with | .clock y => y < n | .const _ => True

theorem applyRenaming_sound (z : Zone) (r : ℕ × Upd) (hr : UpdOK (z.dim - 1) r) (u : Valuation)
    (hu : z.Mem u) : (z.applyRenaming r).Mem (renameStep u r) := by
  rcases r with ⟨x, y | y⟩
  · exact hu
  · simp only [UpdOK] at hr
    simp only [applyRenaming, renameStep]
    by_cases hxy : x = y
    · subst hxy; simpa using hu
    · rw [if_pos hxy, canonize_mem]
      have := (set_eq_sat (z.unconstrain x) (x + 1) (y + 1) (by simp; omega) (by simp; omega)
        (by omega) 0 (Valuation.ext (Function.update u x (u y))) (by simp [unconstrain])
        (by simp [unconstrain])).2 ⟨?_, ?_⟩
      · unfold Mem; simpa using this
      · refine unconstrain_sound z x _ (u x) ?_
        simpa using hu
      · have : y ≠ x := fun e => hxy e.symm
        simp [this]

theorem applyRenaming_complete (z : Zone) (hc : z.Closed) (hne : ∃ u, z.Mem u) (r : ℕ × Upd)
    (hr : UpdOK (z.dim - 1) r) (v : Valuation) (hv : (z.applyRenaming r).Mem v) :
    ∃ u, z.Mem u ∧ v = renameStep u r := by
  rcases r with ⟨x, y | y⟩
  · exact ⟨v, hv, rfl⟩
  · simp only [UpdOK] at hr
    simp only [applyRenaming, renameStep] at hv ⊢
    by_cases hxy : x = y
    · subst hxy
      refine ⟨v, by simpa using hv, by simp⟩
    · rw [if_pos hxy, canonize_mem] at hv
      have := (set_eq_sat (z.unconstrain x) (x + 1) (y + 1) (by simp; omega) (by simp; omega)
        (by omega) 0 v.ext (by simp [unconstrain]) (by simp [unconstrain])).1
        (by unfold Mem at hv; simpa using hv)
      obtain ⟨q, hq⟩ := (unconstrain_mem z hc hne x v).1 this.1
      refine ⟨_, hq, ?_⟩
      have e : v x = v y := by have := this.2; simp at this; linarith
      have hyx : y ≠ x := fun e => hxy e.symm
      simp [Function.update_of_ne hyx, ← e]

theorem applyConst_sound (z : Zone) (r : ℕ × Upd) (hr : UpdOK (z.dim - 1) r) (u : Valuation)
    (hu : z.Mem u) : (z.applyConst r).Mem (constStep u r) := by
  rcases r with ⟨x, q | y⟩
  · simp only [UpdOK] at hr
    simp only [applyConst, constStep]
    rw [canonize_mem]
    have := (set_eq_sat (z.unconstrain x) 0 (x + 1) (by simp; omega) (by simp; omega)
      (by omega) (-q) (Valuation.ext (Function.update u x q)) (by simp [unconstrain])
      (by simp [unconstrain])).2 ⟨?_, ?_⟩
    · unfold Mem; simpa using this
    · refine unconstrain_sound z x _ (u x) ?_
      simpa using hu
    · simp
  · exact hu

theorem applyConst_complete (z : Zone) (hc : z.Closed) (hne : ∃ u, z.Mem u) (r : ℕ × Upd)
    (hr : UpdOK (z.dim - 1) r) (v : Valuation) (hv : (z.applyConst r).Mem v) :
    ∃ u, z.Mem u ∧ v = constStep u r := by
  rcases r with ⟨x, q | y⟩
  · simp only [UpdOK] at hr
    simp only [applyConst, constStep] at hv ⊢
    rw [canonize_mem] at hv
    have := (set_eq_sat (z.unconstrain x) 0 (x + 1) (by simp; omega) (by simp; omega)
      (by omega) (-q) v.ext (by simp [unconstrain])
      (by simp [unconstrain])).1 (by unfold Mem at hv; simpa using hv)
    obtain ⟨q', hq⟩ := (unconstrain_mem z hc hne x v).1 this.1
    refine ⟨_, hq, ?_⟩
    have e : v x = q := by have := this.2; simp at this; linarith
    simp [← e]
  · exact ⟨v, hv, rfl⟩

theorem applyRenaming_closed {z : Zone} (hc : z.Closed) {r : ℕ × Upd}
    (hr : UpdOK (z.dim - 1) r) {u : Valuation} (hu : z.Mem u) : (z.applyRenaming r).Closed := by
  have := applyRenaming_sound z r hr u hu
  unfold applyRenaming at this ⊢
  split
  · rename_i y hy
    simp only [hy] at this
    split
    · rename_i h
      rw [if_pos h, canonize_mem] at this
      exact canonize_closed_of_mem this
    · exact hc
  · exact hc

theorem applyConst_closed {z : Zone} (hc : z.Closed) {r : ℕ × Upd}
    (hr : UpdOK (z.dim - 1) r) {u : Valuation} (hu : z.Mem u) : (z.applyConst r).Closed := by
  have := applyConst_sound z r hr u hu
  unfold applyConst at this ⊢
  split
  · rename_i y hy
    simp only [hy] at this
    rw [canonize_mem] at this
    exact canonize_closed_of_mem this
  · exact hc

theorem foldl_rename (z : Zone) (hc : z.Closed) (r : Resets) (hr : ∀ p ∈ r, UpdOK (z.dim - 1) p)
    (hne : ∃ u, z.Mem u) :
    (r.foldl applyRenaming z).Closed ∧ (r.foldl applyRenaming z).dim = z.dim ∧
    ∀ v, (r.foldl applyRenaming z).Mem v ↔ ∃ u, z.Mem u ∧ v = r.foldl renameStep u := by
  induction r generalizing z with
  | nil => exact ⟨hc, rfl, fun v => ⟨fun h => ⟨v, h, rfl⟩, by rintro ⟨u, hu, rfl⟩; exact hu⟩⟩
  | cons p r ih =>
    obtain ⟨u0, hu0⟩ := hne
    have hp := hr p (by simp)
    obtain ⟨i1, i2, i3⟩ := ih (z.applyRenaming p) (applyRenaming_closed hc hp hu0)
      (by intro p' hp'; rw [applyRenaming_dim]; exact hr p' (by simp [hp']))
      ⟨_, applyRenaming_sound z p hp u0 hu0⟩
    refine ⟨i1, by simpa using i2, ?_⟩
    intro v
    simp only [List.foldl_cons]
    rw [i3]
    constructor
    · rintro ⟨u, hu, rfl⟩
      obtain ⟨u', hu', rfl⟩ := applyRenaming_complete z hc ⟨u0, hu0⟩ p hp u hu
      exact ⟨u', hu', rfl⟩
    · rintro ⟨u, hu, rfl⟩
      exact ⟨_, applyRenaming_sound z p hp u hu, rfl⟩

theorem foldl_const (z : Zone) (hc : z.Closed) (r : Resets) (hr : ∀ p ∈ r, UpdOK (z.dim - 1) p)
    (hne : ∃ u, z.Mem u) :
    (r.foldl applyConst z).Closed ∧ (r.foldl applyConst z).dim = z.dim ∧
    ∀ v, (r.foldl applyConst z).Mem v ↔ ∃ u, z.Mem u ∧ v = r.foldl constStep u := by
  induction r generalizing z with
  | nil => exact ⟨hc, rfl, fun v => ⟨fun h => ⟨v, h, rfl⟩, by rintro ⟨u, hu, rfl⟩; exact hu⟩⟩
  | cons p r ih =>
    obtain ⟨u0, hu0⟩ := hne
    have hp := hr p (by simp)
    obtain ⟨i1, i2, i3⟩ := ih (z.applyConst p) (applyConst_closed hc hp hu0)
      (by intro p' hp'; rw [applyConst_dim]; exact hr p' (by simp [hp']))
      ⟨_, applyConst_sound z p hp u0 hu0⟩
    refine ⟨i1, by simpa using i2, ?_⟩
    intro v
    simp only [List.foldl_cons]
    rw [i3]
    constructor
    · rintro ⟨u, hu, rfl⟩
      obtain ⟨u', hu', rfl⟩ := applyConst_complete z hc ⟨u0, hu0⟩ p hp u hu
      exact ⟨u', hu', rfl⟩
    · rintro ⟨u, hu, rfl⟩
      exact ⟨_, applyConst_sound z p hp u hu, rfl⟩

/-- Concrete meaning of `Zone::applyResets`: renamings in sequence, then constants in sequence. -/
def seqApply (r : Resets) (v : Valuation) : Valuation := r.foldl constStep (r.foldl renameStep v)

theorem applyResets_spec (z : Zone) (hc : z.Closed) (r : Resets)
    (hr : ∀ p ∈ r, UpdOK (z.dim - 1) p) (hne : ∃ u, z.Mem u) :
    (z.applyResets r).Closed ∧ (z.applyResets r).dim = z.dim ∧
    ∀ v, (z.applyResets r).Mem v ↔ ∃ u, z.Mem u ∧ v = seqApply r u := by
  obtain ⟨a1, a2, a3⟩ := foldl_rename z hc r hr hne
  obtain ⟨u0, hu0⟩ := hne
  obtain ⟨b1, b2, b3⟩ := foldl_const _ a1 r (by rw [a2]; exact hr) ⟨_, (a3 _).2 ⟨u0, hu0, rfl⟩⟩
  refine ⟨b1, by unfold applyResets; rw [b2, a2], ?_⟩
  intro v
  unfold applyResets seqApply
  rw [b3]
  constructor
  · rintro ⟨u, hu, rfl⟩
    obtain ⟨u', hu', rfl⟩ := (a3 u).1 hu
    exact ⟨u', hu', rfl⟩
  · rintro ⟨u, hu, rfl⟩
    exact ⟨_, (a3 _).2 ⟨u, hu, rfl⟩, rfl⟩

/-- `applyResets` contains the updated valuations even for non-canonical zones. -/
theorem applyResets_sound (z : Zone) (r : Resets) (hr : ∀ p ∈ r, UpdOK (z.dim - 1) p)
    (u : Valuation) (hu : z.Mem u) :
    (z.applyResets r).Mem (seqApply r u) ∧ (z.applyResets r).dim = z.dim := by
  have h1 : ∀ (r : Resets) (z : Zone) (u : Valuation), (∀ p ∈ r, UpdOK (z.dim - 1) p) → z.Mem u →
      (r.foldl applyRenaming z).Mem (r.foldl renameStep u) ∧
      (r.foldl applyRenaming z).dim = z.dim := by
    intro r
    induction r with
    | nil => intro z u _ h; exact ⟨h, rfl⟩
    | cons p r ih =>
      intro z u hr h
      have hp := hr p (by simp)
      have := ih (z.applyRenaming p) (renameStep u p)
        (by intro p' hp'; rw [applyRenaming_dim]; exact hr p' (by simp [hp']))
        (applyRenaming_sound z p hp u h)
      simpa using this
  have h2 : ∀ (r : Resets) (z : Zone) (u : Valuation), (∀ p ∈ r, UpdOK (z.dim - 1) p) → z.Mem u →
      (r.foldl applyConst z).Mem (r.foldl constStep u) ∧
      (r.foldl applyConst z).dim = z.dim := by
    intro r
    induction r with
    | nil => intro z u _ h; exact ⟨h, rfl⟩
    | cons p r ih =>
      intro z u hr h
      have hp := hr p (by simp)
      have := ih (z.applyConst p) (constStep u p)
        (by intro p' hp'; rw [applyConst_dim]; exact hr p' (by simp [hp']))
        (applyConst_sound z p hp u h)
      simpa using this
  obtain ⟨a, b⟩ := h1 r z u hr hu
  obtain ⟨c, d⟩ := h2 r _ _ (by rw [b]; exact hr) a
  exact ⟨c, by unfold applyResets; rw [d, b]⟩

/-! ### Guards -/

theorem tightenC_sat (z : Zone) (g : Constraint) (hg : g.x + 1 < z.dim) (v : Valuation) :
    (z.tightenC g).Mem v ↔ z.Mem v ∧ g.Holds v := by
  rcases g with ⟨x, o, c⟩
  simp only at hg
  cases o <;> simp only [tightenC, Mem] <;> rw [tighten_sat _ _ _ (by omega) (by omega)] <;>
    simp [Constraint.Holds]

theorem tightenG_mem (z : Zone) (g : Guard) (hg : ∀ c ∈ g, c.x + 1 < z.dim) (v : Valuation) :
    (z.tightenG g).Mem v ↔ z.Mem v ∧ g.Holds v := by
  unfold tightenG
  induction g generalizing z with
  | nil => simp
  | cons c g ih =>
    simp only [List.foldl_cons]
    rw [ih _ (by intro c' hc'; rw [tightenC_dim]; exact hg c' (by simp [hc'])),
      tightenC_sat z c (hg c (by simp)), Guard.holds_cons, and_assoc]

theorem tightenC_closed (z : Zone) (hc : z.Closed) (g : Constraint) (hg : g.x + 1 < z.dim)
    (v : Valuation) (hv : (z.tightenC g).Mem v) : (z.tightenC g).Closed := by
  rcases g with ⟨x, o, c⟩
  simp only at hg
  cases o <;> simp only [tightenC] at hv ⊢ <;>
    exact tighten_closed z hc _ _ (by omega) (by omega) (by omega) _ v hv

theorem tightenG_closed (z : Zone) (hc : z.Closed) (g : Guard) (hg : ∀ c ∈ g, c.x + 1 < z.dim)
    (v : Valuation) (hv : (z.tightenG g).Mem v) : (z.tightenG g).Closed := by
  induction g generalizing z with
  | nil => exact hc
  | cons c g ih =>
    have hg' : ∀ c' ∈ g, c'.x + 1 < (z.tightenC c).dim := by
      intro c' hc'; rw [tightenC_dim]; exact hg c' (by simp [hc'])
    have h1 : (z.tightenC c).Mem v := by
      have : ((z.tightenC c).tightenG g).Mem v := hv
      exact ((tightenG_mem _ g hg' v).1 this).1
    exact ih _ (tightenC_closed z hc c (hg c (by simp)) v h1) hg' hv

/-- Once a negative two-cycle is visible it stays visible: `isSatisfiableNoCanonize` is right even
if a tightening on the way made the zone empty. -/
theorem tighten_two_cycle (z : Zone) (hc : z.Closed) (hd : z.DiagNN) (x y : ℕ) (hx : x < z.dim)
    (hy : y < z.dim) (hxy : x ≠ y) (c : Bound)
    (h : (z.tighten x y c).isSatisfiableNoCanonize = true) : ∃ v, (z.tighten x y c).Mem v := by
  rw [isSatisfiableNoCanonize_iff] at h
  have h1 := h x (by simpa using hx) y (by simpa using hy)
  have hle1 : (z.tighten x y c).val x y ≤ min (z.val x y) c := by
    unfold tighten
    refine (close1_le _ _ _ _).trans ((close1_le _ _ _ _).trans ?_)
    rw [set_val, if_pos ⟨rfl, rfl⟩]
  have hle2 : (z.tighten x y c).val y x ≤ z.val y x := by
    unfold tighten
    refine (close1_le _ _ _ _).trans ((close1_le _ _ _ _).trans ?_)
    rw [set_val, if_neg (fun e => hxy e.2)]
  have h2 : 0 ≤ min (z.val x y) c + z.val y x := h1.trans (add_le_add hle1 hle2)
  obtain ⟨q, hq1, hq2⟩ := (exists_sat_iff _ _).2 h2
  obtain ⟨v, hv, e⟩ := realize z hc hd hx hy hxy q (sat_min.1 hq1).1 hq2
  refine ⟨v, ?_⟩
  unfold Mem
  rw [tighten_sat z x y hx hy]
  exact ⟨hv, by rw [e]; exact (sat_min.1 hq1).2⟩

/-! ### Intersection, inclusion, abstraction -/

theorem inter_mem (z z' : Zone) (hd : z.dim = z'.dim) (v : Valuation) :
    (z.inter z').Mem v ↔ z.Mem v ∧ z'.Mem v := by
  unfold inter
  rw [canonize_mem]
  constructor
  · intro h
    exact ⟨fun i hi j hj => (sat_min.1 (h i hi j hj)).1,
      fun i hi j hj => (sat_min.1 (h i (hd ▸ hi) j (hd ▸ hj))).2⟩
  · rintro ⟨h1, h2⟩ i hi j hj
    exact sat_min.2 ⟨h1 i hi j hj, h2 i (hd ▸ hi) j (hd ▸ hj)⟩

theorem includes_iff (z z' : Zone) :
    z.includes z' = true ↔ ∀ i < z.dim, ∀ j < z.dim, z'.val i j ≤ z.val i j := by
  simp [includes, max_eq_left_iff]

theorem abstractize_ge (z : Zone) (m : ℚ) (i j : ℕ) : z.val i j ≤ (z.abstractize m).val i j := by
  simp only [abstractize]
  split
  · exact le_inf _
  · split
    · rename_i h; exact le_of_lt h
    · exact le_refl _

/-- `a` is obtained from `b` by weakening entries. -/
def Weaker (a b : Zone) : Prop := a.dim = b.dim ∧ ∀ i j, b.val i j ≤ a.val i j

theorem Weaker.refl (a : Zone) : Weaker a a := ⟨rfl, fun _ _ => le_refl _⟩
theorem Weaker.trans {a b c : Zone} (h : Weaker a b) (h' : Weaker b c) : Weaker a c :=
  ⟨h.1.trans h'.1, fun i j => (h'.2 i j).trans (h.2 i j)⟩

theorem Weaker.mem {a b : Zone} (h : Weaker a b) {v : Valuation} (hv : b.Mem v) : a.Mem v :=
  Mem.of_le h.1 (fun i _ j _ => h.2 i j) hv

theorem weaker_set_inf (z : Zone) (i j : ℕ) : Weaker (z.set i j .inf) z :=
  ⟨rfl, fun i' j' => by rw [set_val]; split <;> simp⟩

theorem extrapolateInner_weaker (maxC : ℕ → ℚ) (i : ℕ) (z : Zone) (j : ℕ) :
    Weaker (extrapolateInner maxC i z j) z := by
  unfold extrapolateInner
  split
  · exact weaker_set_inf _ _ _
  · split
    · exact weaker_set_inf _ _ _
    · split
      · exact weaker_set_inf _ _ _
      · exact Weaker.refl _

theorem foldl_weaker {α : Type*} (f : Zone → α → Zone) (hf : ∀ z a, Weaker (f z a) z) (l : List α)
    (z : Zone) : Weaker (l.foldl f z) z := by
  induction l generalizing z with
  | nil => exact Weaker.refl _
  | cons a l ih => exact (ih _).trans (hf z a)

theorem extrapolateOuter_weaker (maxC : ℕ → ℚ) (n : ℕ) (z : Zone) (i : ℕ) :
    Weaker (extrapolateOuter maxC n z i) z := by
  unfold extrapolateOuter
  dsimp only
  refine (foldl_weaker _ (extrapolateInner_weaker maxC i) _ _).trans ?_
  have h1 : Weaker (if firstGt (z.val (i + 1) 0) (maxC i) = true then z.set (i + 1) 0 inf else z) z := by
    split
    · exact weaker_set_inf _ _ _
    · exact Weaker.refl _
  refine Weaker.trans ?_ h1
  generalize (if firstGt (z.val (i + 1) 0) (maxC i) = true then z.set (i + 1) 0 inf else z) = z1
  split
  · rename_i h
    refine ⟨rfl, fun i' j' => ?_⟩
    rw [set_val]
    split
    · rename_i e; obtain ⟨rfl, rfl⟩ := e
      cases hb : z1.val 0 (i + 1) with
      | inf => rw [hb] at h; simp [negFirstGt] at h
      | fin c s =>
        rw [hb] at h
        simp [negFirstGt] at h
        rw [fin_le_fin]; left; linarith
    · exact le_refl _
  · exact Weaker.refl _

theorem extrapolate_weaker (z : Zone) (maxC : ℕ → ℚ) : Weaker (z.extrapolate maxC) z :=
  foldl_weaker _ (extrapolateOuter_weaker maxC _) _ z

/-! ### Canonising a closed zone -/

theorem canonize_same_of_closed (z : Zone) (hc : z.Closed) : z.canonize.Same z := by
  have hrow : ∀ (x : ℕ) (z' : Zone), x < z.dim → z'.Same z → ∀ i < z.dim, (closeRow x z' i).Same z := by
    intro x z' hx h i hi
    refine ⟨h.1, fun a ha b hb => ?_⟩
    have ha' : a < z'.dim := ha
    have hb' : b < z'.dim := hb
    simp only [closeRow]
    split
    · rename_i e; subst e
      rw [h.2 a ha' b hb', h.2 a ha' x (h.1 ▸ hx), h.2 x (h.1 ▸ hx) b hb', add_comm]
      exact min_eq_left (hc a (h.1 ▸ ha') b (h.1 ▸ hb') x hx)
    · exact h.2 a ha' b hb'
  have hfold : ∀ (x : ℕ) (hx : x < z.dim) (l : List ℕ) (z' : Zone), (∀ i ∈ l, i < z.dim) →
      z'.Same z → (l.foldl (closeRow x) z').Same z := by
    intro x hx l
    induction l with
    | nil => intro z' _ h; exact h
    | cons a l ih =>
      intro z' hl h
      exact ih _ (fun i hi => hl i (by simp [hi])) (hrow x z' hx h a (hl a (by simp)))
  have hfold2 : ∀ (l : List ℕ) (z' : Zone), (∀ i ∈ l, i < z.dim) →
      z'.Same z → (l.foldl close1 z').Same z := by
    intro l
    induction l with
    | nil => intro z' _ h; exact h
    | cons a l ih =>
      intro z' hl h
      refine ih _ (fun i hi => hl i (by simp [hi])) ?_
      exact hfold a (hl a (by simp)) _ _ (by intro i hi; rw [List.mem_range, h.1] at hi; exact hi) h
  exact hfold2 _ z (by intro i hi; simpa using hi) ⟨rfl, fun _ _ _ _ => rfl⟩

end Zone
end LearnTA
