import Verif.Model.Renaming
import Verif.Lemmas.Equivalence2
import Verif.Lemmas.Queryable
import Verif.Lemmas.Resets
import Mathlib.Data.Finset.Card
import Mathlib.Data.List.GetD

/-!
# Lemmas on renaming relations
-/

namespace LearnTA
open Bound

/-! ### `std::unique` -/

theorem uniqueBy_go_sublist {α : Type} (same : α → α → Bool) (a : α) (l : List α) :
    (uniqueBy.go same a l).Sublist l := by
  induction l generalizing a with
  | nil => exact List.Sublist.refl _
  | cons b l ih =>
    unfold uniqueBy.go
    split
    · exact (ih a).cons b
    · exact (ih b).cons_cons b

theorem uniqueBy_sublist {α : Type} (same : α → α → Bool) (l : List α) : (uniqueBy same l).Sublist l := by
  cases l with
  | nil => exact List.Sublist.refl _
  | cons a l => exact (uniqueBy_go_sublist same a l).cons_cons a

theorem uniqueBy_go_key {α : Type} (k : α → ℕ) (a : α) (l : List α)
    (h : (a :: l).Pairwise fun x y => k x ≤ k y) :
    (a :: uniqueBy.go (fun x y => k x == k y) a l).Pairwise (fun x y => k x < k y) ∧
      ∀ x ∈ l, ∃ y ∈ a :: uniqueBy.go (fun x y => k x == k y) a l, k y = k x := by
  induction l generalizing a with
  | nil => simp [uniqueBy.go]
  | cons b l ih =>
    rw [List.pairwise_cons] at h
    obtain ⟨h1, h2⟩ := h
    have h3 := List.pairwise_cons.1 h2
    unfold uniqueBy.go
    split
    · rename_i e
      have e : k a = k b := by simpa using e
      obtain ⟨g1, g2⟩ := ih a (List.pairwise_cons.2 ⟨fun x hx => h1 x (by simp [hx]), h3.2⟩)
      refine ⟨g1, ?_⟩
      intro x hx
      rcases List.mem_cons.1 hx with rfl | hx
      · exact ⟨a, by simp, e⟩
      · exact g2 x hx
    · rename_i e
      have e : k a ≠ k b := by simpa using e
      have hab : k a < k b := lt_of_le_of_ne (h1 b (by simp)) e
      obtain ⟨g1, g2⟩ := ih b h2
      refine ⟨List.pairwise_cons.2 ⟨?_, g1⟩, ?_⟩
      · intro x hx
        rcases List.mem_cons.1 hx with rfl | hx
        · exact hab
        · exact hab.trans ((List.pairwise_cons.1 g1).1 x hx)
      · intro x hx
        rcases List.mem_cons.1 hx with rfl | hx
        · exact ⟨x, by simp, rfl⟩
        · obtain ⟨y, hy, e⟩ := g2 x hx
          exact ⟨y, List.mem_cons_of_mem _ hy, e⟩

theorem uniqueBy_key {α : Type} (k : α → ℕ) (l : List α) (h : l.Pairwise fun x y => k x ≤ k y) :
    (uniqueBy (fun x y => k x == k y) l).Pairwise (fun x y => k x < k y) ∧
      ∀ x ∈ l, ∃ y ∈ uniqueBy (fun x y => k x == k y) l, k y = k x := by
  cases l with
  | nil => simp [uniqueBy]
  | cons a l =>
    obtain ⟨h1, h2⟩ := uniqueBy_go_key k a l h
    refine ⟨h1, ?_⟩
    intro x hx
    rcases List.mem_cons.1 hx with rfl | hx
    · exact ⟨x, by simp [uniqueBy], rfl⟩
    · exact h2 x hx

theorem sortUnique_spec (l : List ℕ) : (sortUnique l).Pairwise (· < ·) ∧ ∀ x, x ∈ sortUnique l ↔ x ∈ l := by
  have hs : (l.insertionSort (· ≤ ·)).Pairwise (fun x y => id x ≤ id y) := List.pairwise_insertionSort _ l
  obtain ⟨h1, h2⟩ := uniqueBy_key id _ hs
  refine ⟨h1, fun x => ⟨fun hx => ?_, fun hx => ?_⟩⟩
  · exact (List.mem_insertionSort _).1 ((uniqueBy_sublist _ _).subset hx)
  · obtain ⟨y, hy, e⟩ := h2 x ((List.mem_insertionSort _).2 hx)
    simp only [id] at e
    rw [← e]; exact hy

theorem sortUnique_nodup (l : List ℕ) : (sortUnique l).Nodup := (sortUnique_spec l).1.imp (fun h => ne_of_lt h)

theorem sortUnique_length (l : List ℕ) : (sortUnique l).length = l.toFinset.card := by
  rw [← List.toFinset_card_of_nodup (sortUnique_nodup l)]
  congr 1
  ext x; simp [(sortUnique_spec l).2 x]

/-- A strictly ascending list is determined by its members. -/
theorem eq_of_ascending {l m : List ℕ} (hl : l.Pairwise (· < ·)) (hm : m.Pairwise (· < ·))
    (h : ∀ x, x ∈ l ↔ x ∈ m) : l = m := by
  have p : l.Perm m := (List.perm_ext_iff_of_nodup (hl.imp fun h => ne_of_lt h) (hm.imp fun h => ne_of_lt h)).2 h
  exact p.eq_of_pairwise (fun a b _ _ h1 h2 => absurd h1 (by omega)) hl hm

namespace RenamingRelation
open TimedCondition Zone

theorem mem_rightVariables (r : RenamingRelation) (x : ℕ) : x ∈ r.rightVariables ↔ ∃ p ∈ r, p.2 = x := by
  unfold rightVariables; rw [(sortUnique_spec _).2]; simp

theorem isRightUnique_iff (r : RenamingRelation) : r.isRightUnique = true ↔ (r.map (·.2)).Nodup := by
  unfold isRightUnique rightVariables
  rw [sortUnique_length, beq_iff_eq]
  have : r.length = (r.map (·.2)).length := by simp
  rw [this]
  constructor
  · intro h; rw [List.card_toFinset] at h; exact List.dedup_eq_self.1 ((List.dedup_sublist _).eq_of_length h)
  · intro h; exact List.toFinset_card_of_nodup h

theorem full_iff (r : RenamingRelation) (c : TimedCondition) (hr : ∀ p ∈ r, p.2 < c.size) :
    r.full c = true ↔ ∀ x < c.size, c.pointAt x = true ∨ ∃ p ∈ r, p.2 = x := by
  unfold full
  rw [sortUnique_length, beq_iff_eq]
  set S := (r.rightVariables ++ (List.range c.size).filter fun x => c.pointAt x).toFinset with hS
  have hsub : S ⊆ Finset.range c.size := by
    intro x hx
    simp only [hS, List.mem_toFinset, List.mem_append, mem_rightVariables, List.mem_filter, List.mem_range] at hx
    rcases hx with ⟨p, hp, rfl⟩ | hx
    · simpa using hr p hp
    · simpa using hx.1
  have : S.card = c.size ↔ S = Finset.range c.size := by
    constructor
    · intro h; exact Finset.eq_of_subset_of_card_le hsub (by simp [h])
    · intro h; rw [h]; simp
  rw [this]
  constructor
  · intro h x hx
    have : x ∈ S := by rw [h]; simpa using hx
    simp only [hS, List.mem_toFinset, List.mem_append, mem_rightVariables, List.mem_filter, List.mem_range] at this
    rcases this with h | h
    · exact Or.inr h
    · exact Or.inl h.2
  · intro h
    refine Finset.Subset.antisymm hsub ?_
    intro x hx
    have hx : x < c.size := by simpa using hx
    simp only [hS, List.mem_toFinset, List.mem_append, mem_rightVariables, List.mem_filter, List.mem_range]
    rcases h x hx with h | h
    · exact Or.inr ⟨hx, h⟩
    · exact Or.inl h

/-! ### `toValuation` -/

/-- The bounds of the clocks are finite. -/
def ClocksBounded (c : TimedCondition) : Prop :=
  ∀ i < c.size, c.upper i (c.size - 1) ≠ .inf ∧ c.lower i (c.size - 1) ≠ .inf

theorem eidx_last (c : TimedCondition) : c.eidx (c.size - 1) = 0 := by simp [TimedCondition.eidx]

/-- A value within the bounds of one clock is taken in a canonical condition. -/
theorem pick {c : TimedCondition} (hc : c.Canonical) {i : ℕ} (hi : i < c.size) {t : ℚ}
    (hU : Bound.Sat t (c.upper i (c.size - 1))) (hL : Bound.Sat (-t) (c.lower i (c.size - 1))) :
    ∃ v, c.zone.Mem v ∧ v i = t := by
  rw [upper_eq, eidx_last] at hU
  rw [lower_eq, eidx_last] at hL
  have hs : c.size + 1 = c.zone.dim := by have := hc.1; unfold TimedCondition.size; omega
  obtain ⟨w', h1, h2⟩ := extend c.zone.norm hc.normClosed (norm_diagNN _) {0, i + 1}
    (by intro k hk; simp only [Finset.mem_insert, Finset.mem_singleton] at hk; simp; omega)
    (fun k => if k = i + 1 then t else 0) (by
      intro a ha b hb
      simp only [Finset.mem_insert, Finset.mem_singleton] at ha hb
      rcases ha with rfl | rfl <;> rcases hb with rfl | rfl
      · simp [norm, Bound.sat_self_zero]
      · rw [norm_val_ne _ (by omega)]; simpa using hL
      · rw [norm_val_ne _ (by omega)]; simpa using hU
      · simp [norm, Bound.sat_self_zero])
  rw [norm_sat _ hc.diagNN] at h2
  have h0 : w' 0 = 0 := by simpa using h1 0 (by simp)
  have h3 : w' (i + 1) = t := by simpa using h1 (i + 1) (by simp)
  refine ⟨fun k => w' (k + 1), ?_, h3⟩
  refine h2.congr fun k hk => ?_
  cases k with
  | zero => exact h0
  | succ k => rfl

theorem clock_sat {c : TimedCondition} (hc : 2 ≤ c.zone.dim) {v : Valuation} (h : c.zone.Mem v) {i : ℕ}
    (hi : i < c.size) :
    Bound.Sat (v i) (c.upper i (c.size - 1)) ∧ Bound.Sat (-v i) (c.lower i (c.size - 1)) := by
  rw [upper_eq, lower_eq, eidx_last]
  have hs : c.size + 1 = c.zone.dim := by unfold TimedCondition.size; omega
  have h1 := h (i + 1) (by omega) 0 (by omega)
  have h2 := h 0 (by omega) (i + 1) (by omega)
  simp only [ext_succ, ext_zero] at h1 h2
  exact ⟨by simpa using h1, by simpa using h2⟩

/-- The state of the loop of `toValuation`: the condition is a part of the original one, on which the
clocks seen so far have the values found. -/
structure ValInv (c : TimedCondition) (s : TimedCondition × List ℚ) : Prop where
  canonical : s.1.Canonical
  dim : s.1.zone.dim = c.zone.dim
  sub : ∀ w, s.1.zone.Sat w → c.zone.Sat w
  fixed : ∀ v, s.1.zone.Mem v → ∀ k < s.2.length, v k = s.2.getD k 0

theorem valStep_inv {c : TimedCondition} (hc : c.Canonical) (hb : ClocksBounded c)
    {s : TimedCondition × List ℚ} (h : ValInv c s) (hi : s.2.length < c.size) :
    ∃ s', valStep s s.2.length = some s' ∧ ValInv c s' ∧ s'.2.length = s.2.length + 1 := by
  set i := s.2.length with hii
  have hsz : s.1.size = c.size := by unfold TimedCondition.size; rw [h.dim]
  have hs : c.size + 1 = c.zone.dim := by have := hc.1; unfold TimedCondition.size; omega
  have hle : ∀ a < c.zone.dim, ∀ b < c.zone.dim, a ≠ b → s.1.zone.val a b ≤ c.zone.val a b := fun a ha b hb' hab =>
    bound_le_of_incl' _ _ h.dim.symm h.canonical.pairNN h.canonical.offClosed h.sub ha hb' hab
  have hU : s.1.upper i (s.1.size - 1) ≠ .inf := by
    intro e
    have := hle (i + 1) (by omega) 0 (by omega) (by omega)
    rw [upper_eq, eidx_last] at e
    have h2 := (hb i hi).1
    rw [upper_eq, eidx_last] at h2
    rw [e] at this
    exact h2 (le_antisymm (Bound.le_inf _) this)
  have hL : s.1.lower i (s.1.size - 1) ≠ .inf := by
    intro e
    have := hle 0 (by omega) (i + 1) (by omega) (by omega)
    rw [lower_eq, eidx_last] at e
    have h2 := (hb i hi).2
    rw [lower_eq, eidx_last] at h2
    rw [e] at this
    exact h2 (le_antisymm (Bound.le_inf _) this)
  have hp : 0 ≤ s.1.lower i (s.1.size - 1) + s.1.upper i (s.1.size - 1) := by
    rw [lower_eq, upper_eq, eidx_last]
    exact h.canonical.pairNN 0 (by rw [h.dim]; omega) (i + 1) (by rw [h.dim]; omega)
  obtain ⟨l, ls, el⟩ : ∃ l ls, s.1.lower i (s.1.size - 1) = .fin l ls := by
    cases e : s.1.lower i (s.1.size - 1) with
    | inf => exact absurd e hL
    | fin l ls => exact ⟨l, ls, rfl⟩
  obtain ⟨u, us, eu⟩ : ∃ u us, s.1.upper i (s.1.size - 1) = .fin u us := by
    cases e : s.1.upper i (s.1.size - 1) with
    | inf => exact absurd e hU
    | fin l ls => exact ⟨l, ls, rfl⟩
  have hget : ∀ (m : ℚ) (v : Valuation), (∀ k < i, v k = s.2.getD k 0) → v i = m →
      ∀ k < (s.2 ++ [m]).length, v k = (s.2 ++ [m]).getD k 0 := by
    intro m v h1 h2 k hk
    rw [List.length_append, List.length_singleton, ← hii] at hk
    rcases Nat.lt_succ_iff_lt_or_eq.1 hk with hk | rfl
    · rw [List.getD_append _ _ _ _ (by omega)]; exact h1 k hk
    · rw [List.getD_append_right _ _ _ _ (by omega)]; simpa [hii] using h2
  unfold valStep
  simp only [el, eu]
  rw [el, eu] at hp
  have hp : l = -u ∧ ls = true ∧ us = true ∨ -l < u := by
    change Bound.fin 0 true ≤ Bound.fin (l + u) (ls && us) at hp
    rw [Bound.fin_le_fin] at hp
    rcases hp with hp | ⟨hp, hs⟩
    · right; linarith
    · left
      have hs' : (ls && us) = true := by
        cases h : (ls && us) with
        | true => rfl
        | false => rw [h] at hs; exact absurd hs (by decide)
      rw [Bool.and_eq_true] at hs'
      exact ⟨by linarith, hs'.1, hs'.2⟩
  split
  · rename_i hpt
    refine ⟨_, rfl, ⟨h.canonical, h.dim, h.sub, ?_⟩, by simp [hii]⟩
    intro v hv
    refine hget u v (h.fixed v hv) ?_
    have := clock_sat (c := s.1) (by rw [h.dim]; omega) hv (i := i) (by omega)
    rw [el, eu, hpt.2.1, hpt.2.2, hpt.1] at this
    simp only [Bound.Sat, if_true] at this
    obtain ⟨h1, h2⟩ := this
    first
      | exact le_antisymm (by simpa using h1) (by simpa using h2)
      | (simp at h1 h2; linarith)
  · rename_i hpt
    have hlt : -l < u := hp.resolve_left hpt
    set m := (u - l) / 2 with hm
    obtain ⟨v0, hv0, hv0i⟩ := pick h.canonical (i := i) (t := m) (by omega)
      (by rw [eu]; cases us <;> simp [Bound.Sat] <;> linarith)
      (by rw [el]; cases ls <;> simp [Bound.Sat] <;> linarith)
    set c1 := s.1.restrictLower i (s.1.size - 1) (.fin (-m) true) false with hc1
    have d1 : c1.zone.dim = c.zone.dim := by rw [hc1, restrictLower_dim]; exact h.dim
    have s1 : c1.size = s.1.size := by unfold TimedCondition.size; rw [d1, h.dim]
    have sat1 : ∀ w, c1.zone.Sat w ↔ s.1.zone.Sat w ∧ Bound.Sat (w 0 - w (i + 1)) (.fin (-m) true) := by
      intro w
      have := restrictLower_sat s.1 (i := i) (j := s.1.size - 1) (by omega) (by omega) (.fin (-m) true) w
      rw [eidx_last] at this
      exact this
    have sat2 : ∀ w, (c1.restrictUpper i (s.1.size - 1) (.fin m true) false).zone.Sat w ↔
        c1.zone.Sat w ∧ Bound.Sat (w (i + 1) - w 0) (.fin m true) := by
      intro w
      have := restrictUpper_sat c1 (i := i) (j := c1.size - 1) (by omega) (by omega) (.fin m true) w
      rw [eidx_last, s1] at this
      exact this
    refine ⟨_, rfl, ⟨?_, ?_, ?_, ?_⟩, by simp [hii]⟩
    · show (c1.restrictUpper i (s.1.size - 1) (.fin m true) false).Canonical
      have hm0 : (c1.restrictUpper i (s.1.size - 1) (.fin m true) false).zone.Mem v0 := by
        refine (sat2 _).2 ⟨(sat1 _).2 ⟨hv0, ?_⟩, ?_⟩ <;> simp [ext_succ, ext_zero, hv0i, Bound.Sat]
      rw [restrictUpper_eq] at hm0 ⊢
      refine canonical_canonize (v := v0) ?_ ((canonize_mem _ _).1 hm0)
      simp [Zone.set, d1]; omega
    · show (c1.restrictUpper i (s.1.size - 1) (.fin m true) false).zone.dim = _
      rw [restrictUpper_dim, d1]
    · intro w hw; exact h.sub w ((sat1 w).1 ((sat2 w).1 hw).1).1
    · intro v hv
      have g2 := (sat2 _).1 hv
      have g1 := (sat1 _).1 g2.1
      refine hget m v (h.fixed v g1.1) ?_
      have e1 := g1.2
      have e2 := g2.2
      simp only [ext_succ, ext_zero, Bound.Sat] at e1 e2
      simp at e1 e2
      linarith

theorem toValuation_aux {c : TimedCondition} (hc : c.Canonical) (hb : ClocksBounded c) (n : ℕ) (hn : n ≤ c.size) :
    ∃ s, (List.range n).foldlM valStep (c, []) = some s ∧ ValInv c s ∧ s.2.length = n := by
  induction n with
  | zero => exact ⟨_, rfl, ⟨hc, rfl, fun _ h => h, by simp⟩, rfl⟩
  | succ n ih =>
    obtain ⟨s, h1, h2, h3⟩ := ih (by omega)
    obtain ⟨s', g1, g2, g3⟩ := valStep_inv hc hb h2 (by omega)
    rw [h3] at g1 g3
    refine ⟨s', ?_, g2, g3⟩
    rw [List.range_succ, List.foldlM_append, h1]
    simp [g1]

/-- `toValuation` returns a valuation of the condition. -/
theorem toValuation_mem {c : TimedCondition} (hc : c.Canonical) (hb : ClocksBounded c) :
    ∃ vals, toValuation c = some vals ∧ vals.length = c.size ∧ c.zone.Mem (fun k => vals.getD k 0) := by
  obtain ⟨s, h1, h2, h3⟩ := toValuation_aux hc hb c.size le_rfl
  refine ⟨s.2, by unfold toValuation; rw [h1]; rfl, h3, ?_⟩
  obtain ⟨v, hv⟩ := h2.canonical.nonempty
  refine Zone.Sat.congr (h2.sub _ hv) fun k hk => ?_
  cases k with
  | zero => rfl
  | succ k =>
    simp only [ext_succ]
    refine h2.fixed v hv k ?_
    rw [h3]; unfold TimedCondition.size; omega

/-! ### `toReset` -/

theorem setFirst_keys (x : ℕ) (u : Upd) (R : Resets) : (setFirst x u R).map Prod.fst = R.map Prod.fst := by
  induction R with
  | nil => rfl
  | cons p R ih => unfold setFirst; split <;> simp [*]

theorem setFirst_upd (x : ℕ) (u : Upd) (R : Resets) (hn : (R.map Prod.fst).Nodup) (hx : (R.upd x).isSome)
    (y : ℕ) : Resets.upd (setFirst x u R) y = if y = x then some u else R.upd y := by
  induction R with
  | nil => simp [Resets.upd] at hx
  | cons p R ih =>
    rw [List.map_cons, List.nodup_cons] at hn
    unfold setFirst
    split
    · rename_i e
      have hnone : Resets.upd R p.1 = none := by
        have := Resets.upd_isSome R p.1
        by_contra hcon
        have h2 : (Resets.upd R p.1).isSome = true := by
          cases h : Resets.upd R p.1 with
          | none => exact absurd h hcon
          | some _ => rfl
        rw [this, List.any_eq_true] at h2
        obtain ⟨q, hq, e⟩ := h2
        exact hn.1 (List.mem_map.2 ⟨q, hq, by simpa using e⟩)
      rw [Resets.upd_cons, Resets.upd_cons]
      by_cases hy : y = x
      · subst hy; rw [← e, hnone]; simp
      · simp [hy, show ¬ p.1 = y from fun h => hy (h ▸ e)]
    · rename_i e
      rw [Resets.upd_cons] at hx
      simp only [e, if_false, Option.or_none] at hx
      rw [Resets.upd_cons, Resets.upd_cons, ih hn.2 hx]
      by_cases hy : y = x
      · simp [hy]
      · simp [hy]

theorem resetStep_spec (vals : List ℚ) (R : Resets) (hn : (R.map Prod.fst).Nodup) (x : ℕ) :
    ((resetStep vals R x).map Prod.fst).Nodup ∧
      ∀ y, (resetStep vals R x).upd y =
        if y = x ∧ ((vals.getD x 0 = ⌊vals.getD x 0⌋) ∨ R.upd x = none) then some (.const (vals.getD x 0))
        else R.upd y := by
  have hs := Resets.upd_isSome R x
  unfold resetStep
  simp only
  split
  · rename_i h
    rw [← hs] at h
    split
    · rename_i hq
      refine ⟨by rw [setFirst_keys]; exact hn, fun y => ?_⟩
      rw [setFirst_upd x _ R hn h]
      by_cases hy : y = x
      · rw [if_pos hy, if_pos ⟨hy, Or.inl hq⟩]
      · rw [if_neg hy, if_neg fun h => hy h.1]
    · rename_i hq
      refine ⟨hn, fun y => ?_⟩
      have : R.upd x ≠ none := fun e => by simp [e] at h
      rw [if_neg]
      rintro ⟨_, h | h⟩
      · exact hq h
      · exact this h
  · rename_i h
    have hnone : R.upd x = none := by
      rw [← hs] at h
      simpa using h
    refine ⟨?_, fun y => ?_⟩
    · rw [List.map_append, List.nodup_append]
      refine ⟨hn, by simp, ?_⟩
      intro a ha b hb
      simp only [List.map_cons, List.map_nil, List.mem_singleton] at hb
      rintro rfl
      subst hb
      obtain ⟨q, hq, e⟩ := List.mem_map.1 ha
      apply h
      rw [List.any_eq_true]; exact ⟨q, hq, by simpa using e⟩
    · rw [Resets.upd_append]
      by_cases hy : y = x
      · subst hy; rw [if_pos ⟨rfl, Or.inr hnone⟩]; simp [Resets.upd]
      · simp [hy, Resets.upd, Ne.symm hy]

theorem resetFold_spec (vals : List ℚ) (R : Resets) (hn : (R.map Prod.fst).Nodup) (n : ℕ) :
    (((List.range n).foldl (resetStep vals) R).map Prod.fst).Nodup ∧
      ∀ y, ((List.range n).foldl (resetStep vals) R).upd y =
        if y < n ∧ ((vals.getD y 0 = ⌊vals.getD y 0⌋) ∨ R.upd y = none) then some (.const (vals.getD y 0))
        else R.upd y := by
  induction n with
  | zero => exact ⟨hn, by simp⟩
  | succ n ih =>
    rw [List.range_succ, List.foldl_append, List.foldl_cons, List.foldl_nil]
    obtain ⟨h1, h2⟩ := resetStep_spec vals _ ih.1 n
    refine ⟨h1, fun y => ?_⟩
    rw [h2, ih.2 n, ih.2 y]
    by_cases hy : y = n
    · subst hy; simp
    · have : y < n + 1 ↔ y < n := by omega
      simp [hy, this]

/-- The update list made by `toReset`. -/
theorem toReset_upd {r : RenamingRelation} {c : TimedCondition} {vals : List ℚ} (hv : toValuation c = some vals)
    (hr : (r.map (·.2)).Nodup) :
    ∃ R, r.toReset c = some R ∧ (R.map Prod.fst).Nodup ∧ ∀ x, R.upd x =
      if x < c.size ∧ ((vals.getD x 0 = ⌊vals.getD x 0⌋) ∨ ¬ ∃ p ∈ r, p.2 = x) then
        some (.const (vals.getD x 0))
      else (r.find? fun p => p.2 == x).map fun p => .clock p.1 := by
  have hk : ((r.map fun p => (p.2, Upd.clock p.1)).map Prod.fst).Nodup := by
    rw [List.map_map]; exact hr
  obtain ⟨h1, h2⟩ := resetFold_spec vals _ hk c.size
  have hu : ∀ x, Resets.upd (r.map fun p => (p.2, Upd.clock p.1)) x =
      (r.find? fun p => p.2 == x).map fun p => .clock p.1 := by
    intro x
    cases hf : r.find? fun p => p.2 == x with
    | none =>
      have := Resets.upd_isSome (r.map fun p => (p.2, Upd.clock p.1)) x
      rw [List.find?_eq_none] at hf
      have hfa : (r.map fun p => (p.2, Upd.clock p.1)).any (fun q => q.1 == x) = false := by
        rw [List.any_eq_false]
        intro q hq
        obtain ⟨p, hp, rfl⟩ := List.mem_map.1 hq
        exact hf p hp
      rw [hfa] at this
      simpa using this
    | some p =>
      have hp := List.mem_of_find?_eq_some hf
      have hx := List.find?_some hf
      have hx : p.2 = x := by simpa using hx
      have := Resets.upd_of_mem hk (p := (p.2, .clock p.1)) (List.mem_map.2 ⟨p, hp, rfl⟩)
      rw [← hx]; exact this
  refine ⟨_, by unfold toReset; rw [hv]; rfl, h1, fun x => ?_⟩
  rw [h2 x, hu]
  have : ((r.find? fun p => p.2 == x).map fun p => Upd.clock p.1) = none ↔ ¬ ∃ p ∈ r, p.2 = x := by
    rw [Option.map_eq_none_iff, List.find?_eq_none]
    constructor
    · rintro h ⟨p, hp, e⟩; exact h p hp (by simpa using e)
    · intro h p hp e; exact h ⟨p, hp, by simpa using e⟩
  simp only [this]

end RenamingRelation
end LearnTA
