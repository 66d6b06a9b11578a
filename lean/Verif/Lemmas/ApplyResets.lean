import Verif.Lemmas.Neighbor
import Verif.Lemmas.Juxtaposed
import Verif.Lemmas.Merge
import Verif.Lemmas.Renaming

/-!
# `applyResets` of timed conditions
-/

namespace LearnTA
namespace TimedCondition
open Neighbors Bound

theorem constantBounds_eq (q : ℚ) : constantBounds q = (reg (-q), reg q) := by
  unfold constantBounds isIntegral
  rcases cases_int q with ⟨n, rfl⟩ | ⟨n, h1, h2⟩
  · have e : reg (-(n : ℚ)) = .fin (-(n : ℚ)) true := by
      rw [reg_of_int (n := -n) (by push_cast; rfl)]; push_cast; rfl
    simp [reg_int, e]
  · have hf : ⌊q⌋ = n := Int.floor_eq_iff.2 ⟨h1.le, h2⟩
    have hc : ⌈q⌉ = n + 1 := Int.ceil_eq_iff.2 ⟨by push_cast; linarith, by push_cast; linarith⟩
    rw [reg_of_between h1 h2, reg_neg_of_between h1 h2, hf, hc, if_neg (by simp; exact ne_of_gt h1)]
    push_cast; rfl

/-- One pair of bounds: the assignment is a restriction, because the bounds are the tightest ones that `κ` satisfies. -/
theorem assignBounds_spec {n : ℕ} {c : TimedCondition} (h : Cond n c) {κ : Valuation} (hκ : c.zone.Mem κ) {i j : ℕ}
    (hij : i ≤ j) (hj : j < n) :
    let d := κ (i) - κ.ext (c.eidx j)
    let c' := c.assignBounds i j (constantBounds d)
    Cond n c' ∧ c'.zone.Mem κ ∧ ∀ u : Valuation, c'.zone.Mem u ↔ c.zone.Mem u ∧ SameInterval d (u i - u.ext (c.eidx j)) := by
  intro d c'
  have hs : c.size = n := by unfold TimedCondition.size; rw [h.dim]; rfl
  have he : c.eidx j < c.zone.dim := eidx_lt (by rw [hs]; exact hj)
  have hi : i + 1 < c.zone.dim := by rw [h.dim]; omega
  obtain ⟨r1, r2, _⟩ := restrict_both h hij hj d
  have e1 : c.restrictLower i j (reg (-d)) true = c.restrictLower i j (reg (-d)) false := by
    apply restrictLower_force
    rw [← sat_iff_reg_le (h.int _ he _ hi)]
    have := hκ _ he _ hi
    have e : κ.ext (c.eidx j) - κ.ext (i + 1) = -d := by simp [d, Valuation.ext]
    rwa [e] at this
  have hm : (c.restrictLower i j (reg (-d)) false).zone.Sat κ.ext := by
    rw [restrictLower_sat _ hij (by rw [hs]; exact hj)]
    refine ⟨hκ, ?_⟩
    have e : κ.ext (c.eidx j) - κ.ext (i + 1) = -d := by simp [d, Valuation.ext]
    rw [e]; exact sat_reg _
  have e2 : (c.restrictLower i j (reg (-d)) false).restrictUpper i j (reg d) true =
      (c.restrictLower i j (reg (-d)) false).restrictUpper i j (reg d) false := by
    apply restrictUpper_force
    rw [restrictLower_eidx]
    have hint := restrictLower_integral h.int (isInt_reg (-d)) hi he false
    rw [← sat_iff_reg_le (hint _ (by simpa using hi) _ (by simpa using he))]
    exact hm _ (by simpa using hi) _ (by simpa using he)
  have ec : c' = (c.restrictLower i j (reg (-d)) false).restrictUpper i j (reg d) false := by
    show (c.restrictLower i j (constantBounds d).1 true).restrictUpper i j (constantBounds d).2 true = _
    rw [constantBounds_eq, e1, e2]
  rw [ec]
  refine ⟨r1, (r2 _).2 ⟨hκ, ?_⟩, fun u => r2 u.ext⟩
  show SameInterval d (κ i - κ.ext (c.eidx j))
  exact .refl _

theorem relateConstant_spec {n : ℕ} {x : ℕ} (hx : x < n) {κ : Valuation} (l : Resets)
    (hl : ∀ p ∈ l, ∀ q, p.2 = .const q → κ p.1 = q) {c : TimedCondition} (h : Cond n c) (hκ : c.zone.Mem κ) :
    let c' := l.foldl (relateConstant x (κ x)) c
    Cond n c' ∧ c'.zone.Mem κ ∧ ∀ u : Valuation, c'.zone.Mem u ↔ c.zone.Mem u ∧
      ∀ p ∈ l, ∀ q, p.2 = .const q → p.1 < x → SameInterval (q - κ x) (u p.1 - u x) := by
  induction l generalizing c with
  | nil => exact ⟨h, hκ, fun u => by simp⟩
  | cons p l ih =>
    have step : Cond n (relateConstant x (κ x) c p) ∧ (relateConstant x (κ x) c p).zone.Mem κ ∧
        ∀ u : Valuation, (relateConstant x (κ x) c p).zone.Mem u ↔ c.zone.Mem u ∧
          ∀ q, p.2 = .const q → p.1 < x → SameInterval (q - κ x) (u p.1 - u x) := by
      unfold relateConstant
      cases hp : p.2 with
      | clock y => exact ⟨h, hκ, fun u => by simp⟩
      | const q =>
        dsimp only
        by_cases hlt : p.1 < x
        · rw [if_pos hlt]
          have hq : κ p.1 = q := hl p (by simp) q hp
          obtain ⟨g1, g2, g3⟩ := assignBounds_spec h hκ (i := p.1) (j := x - 1) (by omega) (by omega)
          have e : c.eidx (x - 1) = x + 1 := eidx_inner h.dim (by omega) hx
          have ed : κ p.1 - κ.ext (c.eidx (x - 1)) = q - κ x := by rw [e, hq]; rfl
          rw [ed] at g1 g2 g3
          refine ⟨g1, g2, fun u => (g3 u).trans ?_⟩
          rw [e]
          simp [hlt, Valuation.ext]
        · rw [if_neg hlt]
          exact ⟨h, hκ, fun u => by simp [hlt]⟩
    obtain ⟨s1, s2, s3⟩ := step
    obtain ⟨g1, g2, g3⟩ := ih (fun p hp => hl p (by simp [hp])) s1 s2
    simp only [List.foldl_cons]
    refine ⟨g1, g2, fun u => ?_⟩
    rw [g3, s3]
    simp only [List.forall_mem_cons]
    tauto

/-- The constraints for one constant. -/
def ConstOK (r : Resets) (x : ℕ) (q : ℚ) (u : Valuation) : Prop :=
  SameInterval q (u x) ∧ ∀ p ∈ r, ∀ q2, p.2 = .const q2 → p.1 < x → SameInterval (q2 - q) (u p.1 - u x)

theorem resetStep_spec {n : ℕ} {κ : Valuation} (r : Resets) (hr : ∀ p ∈ r, ∀ q, p.2 = .const q → κ p.1 = q) (l : Resets)
    (hl : ∀ p ∈ l, p ∈ r) {s : TimedCondition × RenamingRelation} (h : Cond n s.1) (hκ : s.1.zone.Mem κ) :
    let s' := l.foldl (resetStep n r) s
    Cond n s'.1 ∧ s'.1.zone.Mem κ ∧ (∀ u : Valuation, s'.1.zone.Mem u ↔ s.1.zone.Mem u ∧
      ∀ p ∈ l, p.1 < n → ∀ q, p.2 = .const q → ConstOK r p.1 q u) ∧
      ∀ y x, (y, x) ∈ s'.2 ↔ (y, x) ∈ s.2 ∨ (x, .clock y) ∈ l ∧ x < n := by
  induction l generalizing s with
  | nil => exact ⟨h, hκ, fun u => by simp, fun y x => by simp⟩
  | cons p l ih =>
    have step : Cond n (resetStep n r s p).1 ∧ (resetStep n r s p).1.zone.Mem κ ∧
        (∀ u : Valuation, (resetStep n r s p).1.zone.Mem u ↔ s.1.zone.Mem u ∧
          (p.1 < n → ∀ q, p.2 = .const q → ConstOK r p.1 q u)) ∧
        ∀ y x, (y, x) ∈ (resetStep n r s p).2 ↔ (y, x) ∈ s.2 ∨ (x, .clock y) = p ∧ x < n := by
      obtain ⟨x, up⟩ := p
      unfold resetStep
      by_cases hlt : n ≤ x
      · simp only [if_pos hlt]
        refine ⟨h, hκ, fun u => by simp [not_lt.2 hlt], fun y z => ?_⟩
        simp only [Prod.mk.injEq]
        constructor
        · exact .inl
        · rintro (h | ⟨⟨rfl, _⟩, h⟩)
          · exact h
          · omega
      · simp only [if_neg hlt]
        rw [not_le] at hlt
        cases up with
        | clock y =>
          dsimp only
          refine ⟨h, hκ, fun u => by simp, fun y' x' => ?_⟩
          simp only [List.mem_append, List.mem_singleton, Prod.mk.injEq, Upd.clock.injEq]
          constructor
          · rintro (h | ⟨rfl, rfl⟩)
            · exact .inl h
            · exact .inr ⟨⟨rfl, rfl⟩, hlt⟩
          · rintro (h | ⟨⟨rfl, rfl⟩, _⟩)
            · exact .inl h
            · exact .inr ⟨rfl, rfl⟩
        | const q =>
          dsimp only
          have hq : κ x = q := hr (x, .const q) (hl _ (by simp)) q rfl
          obtain ⟨g1, g2, g3⟩ := assignBounds_spec h hκ (i := x) (j := n - 1) (by omega) (by omega)
          have e : s.1.eidx (n - 1) = 0 := eidx_last h.dim
          have ed : κ x - κ.ext (s.1.eidx (n - 1)) = q := by rw [e, hq]; simp [Valuation.ext]
          rw [ed] at g1 g2 g3
          obtain ⟨k1, k2, k3⟩ := relateConstant_spec hlt r hr g1 g2
          rw [hq] at k1 k2 k3
          refine ⟨k1, k2, fun u => ?_, fun y' x' => by simp⟩
          rw [k3, g3, e]
          simp only [Valuation.ext, sub_zero, ConstOK, hlt, Upd.const.injEq, forall_eq', forall_true_left, hq]
          tauto
    obtain ⟨s1, s2, s3, s4⟩ := step
    obtain ⟨g1, g2, g3, g4⟩ := ih (fun p hp => hl p (by simp [hp])) s1 s2
    simp only [List.foldl_cons]
    refine ⟨g1, g2, fun u => ?_, fun y x => ?_⟩
    · rw [g3, s3]
      simp only [List.forall_mem_cons]
      tauto
    · rw [g4, s4]
      simp only [List.mem_cons]
      tauto

theorem applyResets_spec {c : TimedCondition} (hd : 1 ≤ c.zone.dim) (hne : ∃ w, c.zone.Mem w) {r : Resets}
    (hr : (r.map Prod.fst).Nodup) {n : ℕ} (h1 : ∀ x < n, ∀ y, (x, .clock y) ∈ r → y < c.size)
    (h2 : ∀ x < n, (∀ a, (x, a) ∉ r) → x < c.size) :
    ∃ c', c.applyResets r n = some c' ∧ c'.zone.dim = n + 1 ∧ c'.zone.Closed ∧
      ∀ u : Valuation, c'.zone.Mem u ↔ ∃ w, c.zone.Mem w ∧ r.After n w u := by
  obtain ⟨w0, hw0⟩ := hne
  have hκ : ∀ p ∈ r, ∀ q, p.2 = .const q → r.apply w0 p.1 = q := by
    rintro ⟨x, a⟩ hp q rfl
    rw [Resets.apply_mem hr hp]; rfl
  have htop : Cond n ⟨Zone.top (n + 1)⟩ := ⟨rfl, fun _ _ _ _ => trivial⟩
  obtain ⟨g1, g2, g3, g4⟩ := resetStep_spec (κ := r.apply w0) r hκ r (fun _ h => h) (s := (⟨Zone.top (n + 1)⟩, [])) htop
    (fun _ _ _ _ => trivial)
  set s := r.foldl (resetStep n r) (⟨Zone.top (n + 1)⟩, []) with hs
  set rel := s.2 ++ ((List.range n).filter fun x => !r.any fun p => p.1 == x).map fun x => (x, x) with hrel
  have hmem : ∀ y x, (y, x) ∈ rel ↔ (x, .clock y) ∈ r ∧ x < n ∨ y = x ∧ x < n ∧ ∀ a, (x, a) ∉ r := by
    intro y x
    rw [hrel, List.mem_append, g4]
    simp only [List.not_mem_nil, false_or, List.mem_map, List.mem_filter, List.mem_range, Bool.not_eq_true', List.any_eq_false,
      beq_iff_eq, Prod.mk.injEq, Prod.forall]
    refine or_congr Iff.rfl ⟨?_, ?_⟩
    · rintro ⟨z, ⟨hz, ha⟩, rfl, rfl⟩
      exact ⟨rfl, hz, fun a h => ha _ _ h rfl⟩
    · rintro ⟨rfl, hx, ha⟩
      exact ⟨y, ⟨hx, fun a b h e => ha b (e ▸ h)⟩, rfl, rfl⟩
  have hall : (rel.all fun p => decide (p.1 < c.size)) = true := by
    rw [List.all_eq_true]
    rintro ⟨y, x⟩ hp
    rw [decide_eq_true_iff]
    rcases (hmem y x).1 hp with ⟨a, b⟩ | ⟨rfl, b, a⟩
    · exact h1 x b y a
    · exact h2 y b a
  set J := JuxtaposedZone.make c.zone s.1.zone with hJ
  have hcs : c.zone.dim - 1 = c.size := rfl
  have hdr : s.1.zone.dim - 1 = n := by rw [g1.dim]; rfl
  have hl : J.leftSize = c.size := rfl
  have hrs : J.rightSize = n := hdr
  have hjd : J.zone.dim = c.size + n + 1 := by rw [hJ, JuxtaposedZone.make_dim, hdr]; rfl
  have hJm : ∀ v, J.zone.Mem v ↔ c.zone.Mem v ∧ s.1.zone.Mem fun k => v (c.size + k) := by
    intro v
    rw [hJ, JuxtaposedZone.make_mem _ _ hd (by
      have := g2 0 (by rw [g1.dim]; omega) 0 (by rw [g1.dim]; omega)
      simpa [Bound.sat_self_zero] using this)]
    rfl
  have hin : J.InRange rel := by
    rintro ⟨y, x⟩ hp
    have a := List.all_eq_true.1 hall _ hp
    rw [decide_eq_true_iff] at a
    have b : x < n := by
      rcases (hmem y x).1 hp with ⟨_, b⟩ | ⟨_, b, _⟩ <;> exact b
    rw [hjd, hl]
    dsimp only at a ⊢
    omega
  have hAm : ∀ v, (J.addRenaming rel).zone.Mem v ↔ (c.zone.Mem v ∧ s.1.zone.Mem fun k => v (c.size + k)) ∧
      ∀ p ∈ rel, v p.1 = v (c.size + p.2) := by
    intro v
    rw [JuxtaposedZone.addRenaming_mem _ _ hin, hJm, hl]
  have hcongr : ∀ (z : Zone) (v v' : Valuation), (∀ k < z.dim - 1, v k = v' k) → z.Mem v → z.Mem v' := by
    intro z v v' hv hm i hi j hj
    have := hm i hi j hj
    have e : ∀ i < z.dim, v.ext i = v'.ext i := by
      intro i hi
      cases i with
      | zero => rfl
      | succ i => exact hv i (by omega)
    rwa [e i hi, e j hj] at this
  let glue : Valuation → Valuation → Valuation := fun w u k => if k < c.size then w k else u (k - c.size)
  have hg1 : ∀ w u, ∀ k < c.size, w k = glue w u k := fun w u k hk => by simp [glue, hk]
  have hg2 : ∀ w u k, glue w u (c.size + k) = u k := fun w u k => by simp [glue]
  have hglue : ∀ w u, c.zone.Mem w → s.1.zone.Mem u → (∀ p ∈ rel, w p.1 = u p.2) → (J.addRenaming rel).zone.Mem (glue w u) := by
    intro w u a b e
    rw [hAm]
    refine ⟨⟨hcongr _ _ _ (by rw [hcs]; exact hg1 w u) a, ?_⟩, ?_⟩
    · simp only [hg2]; exact b
    · intro p hp
      have hlt := List.all_eq_true.1 hall _ hp
      rw [decide_eq_true_iff] at hlt
      rw [hg2, ← hg1 w u _ hlt, e p hp]
  have hne : (J.addRenaming rel).zone.Mem (glue w0 (r.apply w0)) := by
    refine hglue _ _ hw0 g2 ?_
    rintro ⟨y, x⟩ hp
    rcases (hmem y x).1 hp with ⟨a, b⟩ | ⟨rfl, b, a⟩
    · rw [Resets.apply_mem hr a]; rfl
    · rw [Resets.apply_not_mem a]
  have hJc : J.zone.Closed := JuxtaposedZone.make_closed _ _ ((JuxtaposedZone.addRenaming_mem _ _ hin _).1 hne).1
  have hAc := JuxtaposedZone.addRenaming_closed J rel hin hJc hne.diagNN
  obtain ⟨z, e1, e2, e3, e4⟩ := JuxtaposedZone.getRight_mem (J.addRenaming rel)
    (by rw [JuxtaposedZone.addRenaming_dim, hjd]; show _ = J.leftSize + J.rightSize + 1; rw [hl, hrs]) hAc ⟨_, hne⟩
  refine ⟨⟨z⟩, ?_, ?_, e3, fun u => ?_⟩
  · unfold applyResets
    simp only [← hs, ← hrel, ← hJ]
    rw [if_pos hall, e1]
    rfl
  · rw [e2]; show J.rightSize + 1 = n + 1; rw [hrs]
  rw [e4]
  show (∃ v : Valuation, _ ∧ ∀ k < J.rightSize, u k = v (J.leftSize + k)) ↔ _
  rw [hl, hrs]
  have hafter : ∀ w, (s.1.zone.Mem u ∧ ∀ p ∈ rel, w p.1 = u p.2) ↔ r.After n w u := by
    intro w
    rw [g3]
    constructor
    · rintro ⟨⟨_, a⟩, b⟩
      refine ⟨fun x hx => ⟨fun q hq => (a (x, .const q) hq hx q rfl).1, fun y hy => ?_, fun hn => ?_⟩, ?_⟩
      · exact (b (y, x) ((hmem y x).2 (.inl ⟨hy, hx⟩))).symm
      · exact (b (x, x) ((hmem x x).2 (.inr ⟨rfl, hx, hn⟩))).symm
      · intro x hx y hy q p hq hp
        rcases Nat.lt_trichotomy x y with h | rfl | h
        · exact (a (y, .const p) hp hy p rfl).2 (x, .const q) hq q rfl h
        · have e : q = p := by
            rw [← hκ _ hq q rfl, ← hκ _ hp p rfl]
          rw [e, sub_self, sub_self]; exact .refl _
        · have := ((a (x, .const q) hq hx q rfl).2 (y, .const p) hp p rfl h).neg
          rwa [neg_sub, neg_sub] at this
    · rintro ⟨a, b⟩
      refine ⟨⟨fun _ _ _ _ => trivial, ?_⟩, ?_⟩
      · rintro ⟨x, up⟩ hp hx q rfl
        refine ⟨(a x hx).1 q hp, ?_⟩
        rintro ⟨y, up⟩ hp' q2 rfl hlt
        exact b y (lt_trans hlt hx) x hx q2 q hp' hp
      · rintro ⟨y, x⟩ hp
        rcases (hmem y x).1 hp with ⟨h, hx⟩ | ⟨rfl, hx, h⟩
        · exact ((a x hx).2.1 y h).symm
        · exact ((a y hx).2.2 h).symm
  constructor
  · rintro ⟨v, hv, hu⟩
    obtain ⟨⟨a, b⟩, d⟩ := (hAm v).1 hv
    refine ⟨v, a, (hafter v).1 ⟨hcongr _ _ _ (fun k hk => (hu k (by rw [← hdr]; exact hk)).symm) b, ?_⟩⟩
    rintro ⟨y, x⟩ hp
    have hx : x < n := by
      rcases (hmem y x).1 hp with ⟨_, b⟩ | ⟨_, b, _⟩ <;> exact b
    rw [d _ hp, hu x hx]
  · rintro ⟨w, hw, ha⟩
    obtain ⟨a, b⟩ := (hafter w).2 ha
    exact ⟨glue w u, hglue w u hw a b, fun k _ => (hg2 w u k).symm⟩

theorem applyResets_some {c c' : TimedCondition} {r : Resets} (hr : (r.map Prod.fst).Nodup) {n : ℕ}
    (h : c.applyResets r n = some c') : (∀ x < n, ∀ y, (x, .clock y) ∈ r → y < c.size) ∧
      ∀ x < n, (∀ a, (x, a) ∉ r) → x < c.size := by
  have hκ : ∀ p ∈ r, ∀ q, p.2 = .const q → r.apply (fun _ => 0) p.1 = q := by
    rintro ⟨x, a⟩ hp q rfl
    rw [Resets.apply_mem hr hp]; rfl
  have htop : Cond n ⟨Zone.top (n + 1)⟩ := ⟨rfl, fun _ _ _ _ => trivial⟩
  obtain ⟨_, _, _, g4⟩ := resetStep_spec (κ := r.apply fun _ => 0) r hκ r (fun _ h => h) (s := (⟨Zone.top (n + 1)⟩, [])) htop
    (fun _ _ _ _ => trivial)
  unfold applyResets at h
  dsimp only at h
  split at h
  · rename_i hall
    rw [List.all_eq_true] at hall
    constructor
    · intro x hx y hy
      have := hall (y, x) (List.mem_append_left _ ((g4 y x).2 (.inr ⟨hy, hx⟩)))
      simpa using this
    · intro x hx ha
      have := hall (x, x) (List.mem_append_right _ (List.mem_map.2 ⟨x, List.mem_filter.2 ⟨List.mem_range.2 hx, by
        rw [Bool.not_eq_true', List.any_eq_false]
        rintro ⟨y, a⟩ hp e
        have : y = x := by simpa using e
        exact ha a (this ▸ hp)⟩, rfl⟩))
      simpa using this
  · cases h

theorem bounded_of_intervals {c : TimedCondition} {n : ℕ} (hd : c.zone.dim = n + 1) (hc : c.Canonical)
    (hb : ∀ i < n, ∃ b, ∀ u : Valuation, c.zone.Mem u → SameInterval b (u i)) : c.Bounded := by
  have row : ∀ i < n, c.zone.val (i + 1) 0 ≠ .inf ∧ c.zone.val 0 (i + 1) ≠ .inf := by
    intro i hi
    obtain ⟨b, hb⟩ := hb i hi
    have key : ∀ (a b : ℕ) (bd : Bound), a < n + 1 → b < n + 1 → a ≠ b → bd ≠ .inf →
        (∀ w : ℕ → ℚ, c.zone.Sat w → Bound.Sat (w a - w b) bd) → c.zone.val a b ≠ .inf := by
      intro a b bd ha hb hab hbd hw
      have hle := Zone.bound_le_of_incl' ((Zone.top (n + 1)).set a b bd) c.zone hd.symm hc.pairNN hc.offClosed
        (fun w hs p hp q hq => by
          rw [Zone.set_val]; split
          · rename_i e; rw [e.1, e.2]; exact hw w hs
          · exact trivial) (i := a) (j := b) ha hb hab
      rw [Zone.set_val, if_pos ⟨rfl, rfl⟩] at hle
      intro e
      rw [e] at hle
      exact hbd (le_antisymm (Bound.le_inf _) hle)
    have sat : ∀ w : ℕ → ℚ, c.zone.Sat w → SameInterval b (w (i + 1) - w 0) := by
      intro w hw
      have : c.zone.Mem fun k => w (k + 1) - w 0 := by
        intro p hp q hq
        have := hw p hp q hq
        have e : (Valuation.ext fun k => w (k + 1) - w 0) p - (Valuation.ext fun k => w (k + 1) - w 0) q = w p - w q := by
          cases p <;> cases q <;> simp [Valuation.ext]
        rw [e]; exact this
      exact hb _ this
    refine ⟨key _ _ (reg b) (by omega) (by omega) (by omega) (reg_ne_inf _) fun w hw => (sat_reg_iff.2 (sat w hw)).1,
      key _ _ (reg (-b)) (by omega) (by omega) (by omega) (reg_ne_inf _) fun w hw => ?_⟩
    have := (sat_reg_iff.2 (sat w hw)).2
    rwa [neg_sub] at this
  intro i hi j hj hij
  rw [hd] at hi hj
  rcases Nat.eq_zero_or_pos i with rfl | h0
  · obtain ⟨j, rfl⟩ : ∃ k, j = k + 1 := ⟨j - 1, by omega⟩
    exact (row j (by omega)).2
  · obtain ⟨i, rfl⟩ : ∃ k, i = k + 1 := ⟨i - 1, by omega⟩
    rcases Nat.eq_zero_or_pos j with rfl | h0
    · exact (row i (by omega)).1
    · obtain ⟨j, rfl⟩ : ∃ k, j = k + 1 := ⟨j - 1, by omega⟩
      intro e
      have := hc.offClosed (i + 1) (by rw [hd]; omega) (j + 1) (by rw [hd]; omega) 0 (by rw [hd]; omega) hij
      rw [e] at this
      have h1 := (row i (by omega)).1
      have h2 := (row j (by omega)).2
      cases e1 : c.zone.val (i + 1) 0 with
      | inf => exact h1 e1
      | fin a s =>
        cases e2 : c.zone.val 0 (j + 1) with
        | inf => exact h2 e2
        | fin b t => rw [e1, e2] at this; exact absurd (le_antisymm (Bound.le_inf _) this) (by simp)

/-- The sample of a canonical bounded condition is in the condition. -/
theorem sample_of {word : List Action} (ho : ∀ a ∈ word, a ≠ unobservable) {c : TimedCondition} {n : ℕ}
    (hd : c.zone.dim = n + 1) (hn : word.length + 1 = n) (hc : c.Canonical) (hb : c.Bounded) :
    (ForwardRegional.fromTimedWord (ElementaryLanguage.mk word c).sample).word = word ∧
      ∃ u, (ForwardRegional.fromTimedWord (ElementaryLanguage.mk word c).sample).Of n u ∧ c.zone.Mem u := by
  have hsz : c.size = n := by unfold TimedCondition.size; rw [hd]; rfl
  have hh := ElementaryLanguage.sampleDurations_holds c hc fun i hi => by
    rw [upper_eq, lower_eq]
    have h1 : i + 1 < c.zone.dim := by rw [hd]; omega
    exact ⟨hb _ h1 _ (eidx_lt hi) (eidx_ne (le_refl i)).symm, hb _ (eidx_lt hi) _ h1 (eidx_ne (le_refl i))⟩
  have hwf : TimedWord.WF ⟨word, ElementaryLanguage.sampleDurations c c.size⟩ := by
    show (ElementaryLanguage.sampleDurations c c.size).length = word.length + 1
    rw [hh.1, hsz, hn]
  have e1 : (ElementaryLanguage.mk word c).sample = ⟨word, ElementaryLanguage.sampleDurations c c.size⟩ := by
    unfold ElementaryLanguage.sample
    rw [show word.length + 1 = c.size by rw [hsz, hn]]
    exact TimedWord.make_observable hwf ho
  rw [e1]
  have hlen : (ElementaryLanguage.sampleDurations c n).length = n := by have := hh.1; rw [hsz] at this; exact this
  have hof : (ForwardRegional.fromTimedWord ⟨word, ElementaryLanguage.sampleDurations c n⟩).Of n
      (accV (ElementaryLanguage.sampleDurations c n)) := by
    have := ForwardRegional.fromTimedWord_of _ hwf
    simp only [hsz] at this
    rwa [hlen] at this
  have hmem : c.zone.Sat (accV (ElementaryLanguage.sampleDurations c n)).ext := by
    have := ((holds_iff_mem c hc.1 hc.diagNN _).1 hh).2
    rwa [hsz] at this
  rw [hsz]
  exact ⟨rfl, _, hof, hmem⟩

end TimedCondition

/-- `applyResets` of a region: the region of a valuation after the updates. -/
theorem ForwardRegional.applyResets_of {L L' : ForwardRegional} {m : ℕ} {v : Valuation} (hL : L.Of m v) {word : List Action}
    (ho : ∀ a ∈ word, a ≠ unobservable) {r : Resets} (hr : (r.map Prod.fst).Nodup) {n : ℕ}
    (h : L.applyResets word r n = some L') :
    L'.word = word ∧ (∀ x < n, ∀ y, (x, .clock y) ∈ r → y < m) ∧ (∀ x < n, (∀ a, (x, a) ∉ r) → x < m) ∧
      ∃ u w, L'.Of n u ∧ L.cond.zone.Mem w ∧ r.After n w u := by
  unfold ForwardRegional.applyResets at h
  split at h
  · rename_i hn
    cases hc : L.cond.applyResets r n with
    | none => rw [hc] at h; cases h
    | some c' =>
      rw [hc] at h
      simp only [Option.map_some, Option.some.injEq] at h
      obtain ⟨g1, g2⟩ := TimedCondition.applyResets_some hr hc
      obtain ⟨c2, e, e1, e2, e3⟩ := TimedCondition.applyResets_spec (c := L.cond) (by rw [hL.dim]; omega) ⟨v, hL.sat⟩ hr g1 g2
      rw [hc] at e
      obtain rfl := Option.some.inj e
      have hne : ∃ u, c'.zone.Mem u := by
        refine ⟨r.apply v, (e3 _).2 ⟨v, hL.sat, ⟨fun x hx => ⟨fun q hq => ?_, fun y hy => ?_, fun ha => ?_⟩, ?_⟩⟩⟩
        · rw [Resets.apply_mem hr hq]; exact SameInterval.refl _
        · rw [Resets.apply_mem hr hy]; rfl
        · rw [Resets.apply_not_mem ha]
        · intro x hx y hy q p hq hp
          rw [Resets.apply_mem hr hq, Resets.apply_mem hr hp]; exact SameInterval.refl _
      obtain ⟨u0, hu0⟩ := hne
      have hcan : c'.Canonical := by
        refine ⟨by rw [e1]; omega, fun i hi j hj => Zone.sat_pair_nonneg hu0 hi hj, fun i hi j hj k hk _ => e2 i hi j hj k hk⟩
      rw [hL.csize] at g1 g2
      have hb := TimedCondition.bounded_of_intervals e1 hcan fun x hx => by
        by_cases hx' : ∃ a, (x, a) ∈ r
        · obtain ⟨a, ha⟩ := hx'
          cases a with
          | const q => exact ⟨q, fun u hu => by obtain ⟨w, _, h⟩ := (e3 u).1 hu; exact (h.1 x hx).1 q ha⟩
          | clock y =>
            refine ⟨v y, fun u hu => ?_⟩
            obtain ⟨w, hw, h⟩ := (e3 u).1 hu
            rw [(h.1 x hx).2.1 y ha]
            exact Neighbors.same_of_mem hL hw (g1 x hx y ha)
        · push Not at hx'
          refine ⟨v x, fun u hu => ?_⟩
          obtain ⟨w, hw, h⟩ := (e3 u).1 hu
          rw [(h.1 x hx).2.2 hx']
          exact Neighbors.same_of_mem hL hw (g2 x hx hx')
      obtain ⟨k1, u, k2, k3⟩ := TimedCondition.sample_of ho e1 hn hcan hb
      obtain ⟨w, hw, ha⟩ := (e3 u).1 k3
      rw [h] at k1 k2
      exact ⟨k1, g1, g2, u, w, k2, hw, ha⟩
  · cases h

end LearnTA
