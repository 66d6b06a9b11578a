import Mathlib.Data.Finset.Max
import Verif.Lemmas.BoxGuard
import Verif.Lemmas.MergeTrans
import Verif.Lemmas.NeighborInv
import Verif.Props.Constraint

/-!
# The union hull of boxes, and the relaxed guard of neighbours
-/

namespace LearnTA

theorem Guard.IsBox.tidy {n : ℕ} {lo : ℕ → ℤ} {up : Option (ℕ → ℤ)} {g : Guard} (h : Guard.IsBox n lo up g) :
    ∀ c ∈ g, ∀ d ∈ g, c.x = d.x → c.isUpperBound = d.isUpperBound → c = d := by
  intro c hc d hd hx hu
  have e : c.toBound = d.toBound := by
    have h1 := ((h c).1 hc).2
    have h2 := ((h d).1 hd).2
    rw [← hx, ← hu] at h2
    split at h1
    · rw [if_pos (by assumption)] at h2
      obtain ⟨u, e1, e2⟩ := h1
      obtain ⟨u', e1', e2'⟩ := h2
      rw [e1] at e1'; cases e1'
      rw [e2, e2']
    · rw [if_neg (by assumption)] at h2
      rw [h1.2, h2.2]
  rw [← Constraint.ofBound_self c, ← Constraint.ofBound_self d, hx, hu, e]

open Guard in
/-- The hull of boxes has, for every clock, the least and the greatest position. -/
theorem Guard.unionHull_boxes {α : Type} {n : ℕ} (l : List α) (g : α → Guard) (p : α → ℕ → ℤ) (hne : l ≠ [])
    (hb : ∀ a ∈ l, IsBox n (p a) (some (p a)) (g a)) (hp : ∀ a ∈ l, ∀ x < n, 0 ≤ p a x) {v : Valuation} (hv : v.Nonneg) :
    (unionHull (l.map g)).Holds v ↔ ∀ x < n, (∃ a ∈ l, p a x ≤ pos (v x)) ∧ ∃ a ∈ l, pos (v x) ≤ p a x := by
  classical
  have hbox : ∀ a ∈ l, ∀ w : Valuation, w.Nonneg → ((g a).Holds w ↔ ∀ x < n, pos (w x) = p a x) := by
    intro a ha w hw
    rw [(hb a ha).holds (hp a ha) (fun x _ => hw x)]
    refine forall_congr' fun x => imp_congr_right fun _ => ?_
    constructor
    · rintro ⟨h1, h2⟩; exact le_antisymm (h2 _ rfl) h1
    · intro e; exact ⟨e.ge, fun u hu => by cases hu; exact e.le⟩
  have hsat : ∀ a ∈ l, ∃ w : Valuation, w.Nonneg ∧ (g a).Holds w := by
    intro a ha
    refine ⟨fun x => if x < n then (p a x : ℚ) / 2 else 0, fun x => ?_, ?_⟩
    · show (0 : ℚ) ≤ if x < n then (p a x : ℚ) / 2 else 0
      split
      · have : (0 : ℚ) ≤ p a x := by exact_mod_cast hp a ha x (by assumption)
        linarith
      · exact le_refl _
    · rw [hbox a ha _ (by
        intro x
        show (0 : ℚ) ≤ if x < n then (p a x : ℚ) / 2 else 0
        split
        · have : (0 : ℚ) ≤ p a x := by exact_mod_cast hp a ha x (by assumption)
          linarith
        · exact le_refl _)]
      intro x hx
      rw [if_pos hx, pos_half]
  have hstrong := Props.C06_unionHull_strongest (l.map g) (by simpa using hne)
    (by intro g' hg'; obtain ⟨a, ha, rfl⟩ := List.mem_map.1 hg'; exact hsat a ha)
    (by intro g' hg'; obtain ⟨a, ha, rfl⟩ := List.mem_map.1 hg'; exact (hb a ha).tidy)
  constructor
  · intro hh x hx
    have hne' : l.toFinset.Nonempty := by
      obtain ⟨a, l', rfl⟩ := List.exists_cons_of_ne_nil hne
      exact ⟨a, by simp⟩
    constructor
    · obtain ⟨a, ha, hm⟩ := Finset.exists_min_image l.toFinset (fun a => p a x) hne'
      have := hstrong (Constraint.ofBound x false (lowOf (p a x))) (by
        intro g' hg' w hw hg
        obtain ⟨b, hb', rfl⟩ := List.mem_map.1 hg'
        rw [Constraint.holds_iff_bound, Constraint.ofBound_isUpper, Constraint.ofBound_toBound, Constraint.ofBound_x,
          if_neg (by decide), lowSat_lowOf, (hbox b hb' w hw).1 hg x hx]
        exact hm b (by simpa using hb')) v hv hh
      rw [Constraint.holds_iff_bound, Constraint.ofBound_isUpper, Constraint.ofBound_toBound, Constraint.ofBound_x,
          if_neg (by decide), lowSat_lowOf] at this
      exact ⟨a, by simpa using ha, this⟩
    · obtain ⟨a, ha, hm⟩ := Finset.exists_max_image l.toFinset (fun a => p a x) hne'
      have := hstrong (Constraint.ofBound x true (upOf (p a x))) (by
        intro g' hg' w hw hg
        obtain ⟨b, hb', rfl⟩ := List.mem_map.1 hg'
        rw [Constraint.holds_iff_bound, Constraint.ofBound_isUpper, Constraint.ofBound_toBound, Constraint.ofBound_x,
          if_pos rfl, upSat_upOf, (hbox b hb' w hw).1 hg x hx]
        exact hm b (by simpa using hb')) v hv hh
      rw [Constraint.holds_iff_bound, Constraint.ofBound_isUpper, Constraint.ofBound_toBound, Constraint.ofBound_x,
          if_pos rfl, upSat_upOf] at this
      exact ⟨a, by simpa using ha, this⟩
  · intro hh c hc
    have key : ∀ a ∈ l, ∃ d ∈ g a, c.isWeaker d = true := by
      intro a ha
      have := unionHull_weaker (l.map g) (g a) (List.mem_map.2 ⟨a, ha, rfl⟩)
      simp only [isWeaker, List.all_eq_true, List.any_eq_true] at this
      exact this c hc
    have hx : c.x < n := by
      obtain ⟨a, l', rfl⟩ := List.exists_cons_of_ne_nil hne
      obtain ⟨d, hd, hw⟩ := key a (by simp)
      rw [((Constraint.isWeaker_iff _ _).1 hw).1]
      exact ((hb a (by simp) d).1 hd).1
    by_cases hu : c.isUpperBound = true
    · obtain ⟨a, ha, hle⟩ := (hh c.x hx).2
      obtain ⟨d, hd, hw⟩ := key a ha
      refine Constraint.isWeaker_sound hw v ?_
      obtain ⟨e1, e2, _⟩ := (Constraint.isWeaker_iff _ _).1 hw
      obtain ⟨_, h2⟩ := (hb a ha d).1 hd
      rw [← e2, if_pos hu] at h2
      obtain ⟨u, e, e'⟩ := h2
      cases e
      rw [Constraint.holds_iff_bound, ← e2, if_pos hu, e', upSat_upOf, ← e1]
      exact hle
    · obtain ⟨a, ha, hle⟩ := (hh c.x hx).1
      obtain ⟨d, hd, hw⟩ := key a ha
      refine Constraint.isWeaker_sound hw v ?_
      obtain ⟨e1, e2, _⟩ := (Constraint.isWeaker_iff _ _).1 hw
      obtain ⟨_, h2⟩ := (hb a ha d).1 hd
      rw [← e2, if_neg hu] at h2
      rw [Constraint.holds_iff_bound, ← e2, if_neg hu, h2.2, lowSat_lowOf, ← e1]
      exact hle

namespace Neighbors

theorem pos_le_iff {x y : ℚ} : pos x ≤ pos y ↔ x ≤ y ∨ SameInterval x y := by
  constructor
  · intro h
    rcases le_or_gt x y with hle | hlt
    · exact .inl hle
    · exact .inr (sameInterval_iff.2 (le_antisymm h (pos_mono hlt.le)))
  · rintro (h | h)
    · exact pos_mono h
    · exact (sameInterval_iff.1 h).le

theorem Inv.originalGuard {N : Neighbors} {n : ℕ} {v : Valuation} (h : Inv N n v) {u : Valuation} (hu : u.Nonneg) :
    N.toOriginalGuard.Holds u ↔ ∀ x < n, SameInterval (v x) (u x) := by
  have hv := h.nonneg v (h.covers v h.original.sat)
  rw [Neighbors.toOriginalGuard, (h.original.isBox hv).1.holds (fun x hx => pos_nonneg (hv x hx)) (fun x _ => hu x)]
  refine forall_congr' fun x => imp_congr_right fun _ => ?_
  rw [sameInterval_iff]
  constructor
  · rintro ⟨h1, h2⟩; exact le_antisymm h1 (h2 _ rfl)
  · intro e; exact ⟨e.le, fun w hw => by cases hw; exact e.ge⟩

theorem Inv.relaxedGuard {N : Neighbors} {n : ℕ} {v : Valuation} (h : Inv N n v) {u : Valuation} (hu : u.Nonneg) :
    N.toRelaxedGuard.Holds u ↔ ∀ x < n, (∃ w, N.Covers w ∧ (w x ≤ u x ∨ SameInterval (w x) (u x))) ∧
      ∃ w, N.Covers w ∧ (u x ≤ w x ∨ SameInterval (u x) (w x)) := by
  classical
  have hw : ∀ M : ForwardRegional, ∃ w, M ∈ N.neighbors → M.Of n w := by
    intro M
    by_cases hM : M ∈ N.neighbors
    · obtain ⟨_, w, a, _⟩ := h.neighbors M hM
      exact ⟨w, fun _ => a⟩
    · exact ⟨fun _ => 0, fun h => absurd h hM⟩
  choose w hw using hw
  have hne : N.neighbors ≠ [] := by
    obtain ⟨L, hL, _⟩ := h.covers v h.original.sat
    exact List.ne_nil_of_mem hL
  have hn : ∀ M ∈ N.neighbors, ∀ x < n, 0 ≤ w M x := fun M hM => h.nonneg _ ⟨M, hM, (hw M hM).sat⟩
  rw [Neighbors.toRelaxedGuard, Guard.unionHull_boxes N.neighbors (fun L => L.cond.toGuard) (fun L x => pos (w L x)) hne
    (fun M hM => ((hw M hM).isBox (hn M hM)).1) (fun M hM x hx => pos_nonneg (hn M hM x hx)) hu]
  refine forall_congr' fun x => imp_congr_right fun hx => ?_
  simp only [← pos_le_iff]
  refine and_congr ⟨?_, ?_⟩ ⟨?_, ?_⟩
  · rintro ⟨M, hM, hle⟩; exact ⟨w M, ⟨M, hM, (hw M hM).sat⟩, hle⟩
  · rintro ⟨w', ⟨M, hM, hm⟩, hle⟩
    exact ⟨M, hM, by rw [sameInterval_iff.1 (same_of_mem (hw M hM) hm hx)]; exact hle⟩
  · rintro ⟨M, hM, hle⟩; exact ⟨w M, ⟨M, hM, (hw M hM).sat⟩, hle⟩
  · rintro ⟨w', ⟨M, hM, hm⟩, hle⟩
    exact ⟨M, hM, by rw [sameInterval_iff.1 (same_of_mem (hw M hM) hm hx)]; exact hle⟩

end Neighbors
end LearnTA
