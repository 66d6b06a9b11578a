import Verif.Lemmas.ApplyResets

/-!
# `applyResets(resets)` of timed conditions
-/

namespace LearnTA
namespace Zone

/-- No bound of the row `r`. -/
def RowFree (z : Zone) (r : ℕ) : Prop := ∀ j, z.val r j = .inf

theorem closeRow_rowFree {z : Zone} {r : ℕ} (h : z.RowFree r) (x i : ℕ) : (closeRow x z i).RowFree r := by
  intro j
  simp only [closeRow]
  split
  · rename_i e; subst e; simp [h _]
  · exact h j

theorem close1_rowFree {z : Zone} {r : ℕ} (h : z.RowFree r) (x : ℕ) : (z.close1 x).RowFree r := by
  unfold close1
  generalize List.range z.dim = l
  induction l generalizing z with
  | nil => exact h
  | cons a l ih => exact ih (closeRow_rowFree h x a)

theorem canonize_rowFree {z : Zone} {r : ℕ} (h : z.RowFree r) : z.canonize.RowFree r := by
  unfold canonize
  generalize List.range z.dim = l
  induction l generalizing z with
  | nil => exact h
  | cons a l ih => exact ih (close1_rowFree h a)

end Zone

namespace TimedCondition
open Neighbors Bound

theorem assignConstant_spec {c : TimedCondition} {n : ℕ} (hd : c.zone.dim = n + 1) (hc : c.zone.Closed)
    (hne : ∃ u, c.zone.Mem u) {x : ℕ} (hx : x < n) (q : ℚ) :
    ∃ c', c.assignConstant (x, .const q) = some c' ∧ c'.zone.dim = n + 1 ∧ c'.zone.Closed ∧ (∃ u, c'.zone.Mem u) ∧
      ∀ u : Valuation, c'.zone.Mem u ↔ (∃ p, c.zone.Mem (Function.update u x p)) ∧ SameInterval q (u x) := by
  set c0 : TimedCondition := ⟨c.zone.unconstrain x⟩ with hc0
  have hs : c.size = n := by unfold TimedCondition.size; rw [hd]; rfl
  have hs0 : c0.size = n := hs
  have he : c0.eidx (n - 1) = 0 := eidx_last hd
  have e1 : c0.restrictLower x (n - 1) (reg (-q)) true = c0.restrictLower x (n - 1) (reg (-q)) false := by
    apply restrictLower_force
    rw [show c0.zone.val (c0.eidx (n - 1)) (x + 1) = .inf by simp [c0, Zone.unconstrain]]
    exact Bound.le_inf _
  have e2 : (c0.restrictLower x (n - 1) (reg (-q)) false).restrictUpper x (n - 1) (reg q) true =
      (c0.restrictLower x (n - 1) (reg (-q)) false).restrictUpper x (n - 1) (reg q) false := by
    apply restrictUpper_force
    have hf : (c0.restrictLower x (n - 1) (reg (-q)) false).zone.RowFree (x + 1) := by
      rw [restrictLower_eq]
      refine Zone.canonize_rowFree fun j => ?_
      rw [Zone.set_val, if_neg (by rw [he]; omega)]
      simp [c0, Zone.unconstrain]
    rw [hf]
    exact Bound.le_inf _
  refine ⟨(c0.restrictLower x (n - 1) (reg (-q)) false).restrictUpper x (n - 1) (reg q) false, ?_, ?_, ?_⟩
  · show some (assignBounds ⟨c.zone.unconstrain x⟩ x (c.size - 1) (constantBounds q)) = _
    rw [constantBounds_eq, hs]
    unfold assignBounds
    rw [← hc0, e1, e2]
  · simpa [c0] using hd
  have hm : ∀ u : Valuation, ((c0.restrictLower x (n - 1) (reg (-q)) false).restrictUpper x (n - 1) (reg q) false).zone.Mem u ↔
      (∃ p, c.zone.Mem (Function.update u x p)) ∧ SameInterval q (u x) := by
    intro u
    unfold Zone.Mem
    rw [restrictUpper_sat _ (by omega) (by simp only [restrictLower_size, hs0]; omega), restrictLower_sat _ (by omega) (by rw [hs0]; omega),
      restrictLower_eidx, he, ← sat_reg_iff]
    have := Zone.unconstrain_mem c.zone hc hne x u
    unfold Zone.Mem at this
    rw [show c0.zone = c.zone.unconstrain x from rfl, this]
    simp only [Valuation.ext, sub_zero, zero_sub]
    tauto
  obtain ⟨u0, hu0⟩ := hne
  have hne' : ((c0.restrictLower x (n - 1) (reg (-q)) false).restrictUpper x (n - 1) (reg q) false).zone.Mem
      (Function.update u0 x q) := by
    rw [hm]
    refine ⟨⟨u0 x, ?_⟩, ?_⟩
    · rw [Function.update_idem, Function.update_eq_self]; exact hu0
    · rw [Function.update_self]; exact SameInterval.refl _
  refine ⟨?_, ⟨_, hne'⟩, hm⟩
  rw [restrictUpper_eq] at hne' ⊢
  exact Zone.canonize_closed_of_mem ((Zone.canonize_mem _ _).1 hne')

theorem applyConstants_spec {n : ℕ} (r : Resets) (hr : (r.map Prod.fst).Nodup) (hx : ∀ p ∈ r, p.1 < n)
    (hq : ∀ p ∈ r, ∃ q, p.2 = .const q) {c : TimedCondition} (hd : c.zone.dim = n + 1) (hc : c.zone.Closed)
    (hne : ∃ u, c.zone.Mem u) :
    ∃ c', c.applyConstants r = some c' ∧ c'.zone.dim = n + 1 ∧
      ∀ u : Valuation, c'.zone.Mem u ↔ (∃ w, c.zone.Mem w ∧ ∀ x, (∀ a, (x, a) ∉ r) → u x = w x) ∧
        ∀ x q, (x, .const q) ∈ r → SameInterval q (u x) := by
  unfold applyConstants
  induction r generalizing c with
  | nil =>
    refine ⟨c, rfl, hd, fun u => ⟨fun h => ⟨⟨u, h, fun _ _ => rfl⟩, by simp⟩, ?_⟩⟩
    rintro ⟨⟨w, hw, e⟩, _⟩
    rwa [show u = w from funext fun x => e x (by simp)]
  | cons p r ih =>
    obtain ⟨x, up⟩ := p
    obtain ⟨q, hq'⟩ := hq (x, up) (by simp)
    simp only at hq'
    subst hq'
    rw [List.map_cons, List.nodup_cons] at hr
    have hnx : ∀ a, (x, a) ∉ r := fun a h => hr.1 (List.mem_map.2 ⟨_, h, rfl⟩)
    obtain ⟨c1, f1, f2, f3, f4, f5⟩ := assignConstant_spec hd hc hne (hx (x, .const q) (by simp)) q
    obtain ⟨c2, g1, g2, g3⟩ := ih hr.2 (fun p hp => hx p (by simp [hp])) (fun p hp => hq p (by simp [hp])) f2 f3 f4
    refine ⟨c2, by rw [List.foldlM_cons, f1]; exact g1, g2, fun u => ?_⟩
    rw [g3]
    constructor
    · rintro ⟨⟨w, hw, e⟩, h⟩
      obtain ⟨⟨p, hp⟩, hs⟩ := (f5 w).1 hw
      refine ⟨⟨_, hp, fun y hy => ?_⟩, fun y b hy => ?_⟩
      · have hyx : y ≠ x := fun e => hy (.const q) (by rw [e]; simp)
        rw [Function.update_of_ne hyx]
        exact e y fun a ha => hy a (by simp [ha])
      · rcases List.mem_cons.1 hy with hy | hy
        · simp only [Prod.mk.injEq, Upd.const.injEq] at hy
          rw [hy.1, hy.2, e x hnx]; exact hs
        · exact h y b hy
    · rintro ⟨⟨w, hw, e⟩, h⟩
      refine ⟨⟨Function.update w x (u x), (f5 _).2 ⟨⟨w x, ?_⟩, ?_⟩, fun y hy => ?_⟩, fun y b hy => h y b (by simp [hy])⟩
      · rw [Function.update_idem, Function.update_eq_self]; exact hw
      · rw [Function.update_self]; exact h x q (by simp)
      · by_cases hyx : y = x
        · rw [hyx, Function.update_self]
        · rw [Function.update_of_ne hyx]
          refine e y fun a ha => ?_
          rcases List.mem_cons.1 ha with ha | ha
          · simp only [Prod.mk.injEq] at ha; exact hyx ha.1
          · exact hy a ha

theorem applyConstants_clock {r : Resets} {c c' : TimedCondition} (h : c.applyConstants r = some c') :
    ∀ p ∈ r, ∃ q, p.2 = .const q := by
  unfold applyConstants at h
  induction r generalizing c with
  | nil => simp
  | cons p r ih =>
    rw [List.foldlM_cons] at h
    obtain ⟨x, up⟩ := p
    cases up with
    | clock y => simp [assignConstant] at h
    | const q =>
      intro p hp
      rcases List.mem_cons.1 hp with rfl | hp
      · exact ⟨q, rfl⟩
      · exact ih h p hp

end TimedCondition
end LearnTA
