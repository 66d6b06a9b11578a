import Verif.Lemmas.ZoneSample
import Verif.Spec.Updates

/-!
# Symbolic and concrete updates
-/

namespace LearnTA
open Bound
namespace Zone

theorem oneByOne_eq (r : Resets) (v : Valuation) : r.oneByOne v = seqApply r v := rfl

/-- The zone with one valuation. -/
def single (n : ℕ) (u : Valuation) : Zone := ⟨n, fun i j => .fin (u.ext i - u.ext j) true⟩

theorem single_closed (n : ℕ) (u : Valuation) : (single n u).Closed := by
  intro i _ j _ k _
  simp only [single, Bound.fin_add_fin]
  refine le_of_eq ?_
  congr 1; ring

theorem single_self (n : ℕ) (u : Valuation) : (single n u).Mem u := by
  intro i _ j _
  simp [single, Bound.Sat]

theorem single_mem {n : ℕ} {u v : Valuation} (h : (single (n + 1) u).Mem v) {x : ℕ} (hx : x < n) : v x = u x := by
  have h1 := h (x + 1) (by show x + 1 < n + 1; omega) 0 (by show 0 < n + 1; omega)
  have h2 := h 0 (by show 0 < n + 1; omega) (x + 1) (by show x + 1 < n + 1; omega)
  simp only [single, Bound.Sat, Valuation.ext] at h1 h2
  simp at h1 h2
  linarith

/-- The first copy that reads a clock an earlier copy has overwritten. -/
theorem first_raw (r : Resets) (h : ¬ NoReadAfterWrite r) : ∃ (s : Resets) (x y z : ℕ) (t : Resets),
    r = s ++ (z, .clock x) :: t ∧ NoReadAfterWrite s ∧ (x, Upd.clock y) ∈ s ∧ x ≠ y := by
  have snoc : ∀ (s : Resets) (p : ℕ × Upd), NoReadAfterWrite s → ¬ NoReadAfterWrite (s ++ [p]) →
      ∃ x y, (x, Upd.clock y) ∈ s ∧ x ≠ y ∧ p.2 = .clock x := by
    intro s p
    induction s with
    | nil => intro _ h; exact absurd ⟨by simp, trivial⟩ h
    | cons a s ih =>
      intro h1 h2
      by_cases hs : NoReadAfterWrite (s ++ [p])
      · rw [List.cons_append] at h2
        by_contra hcon
        refine h2 ⟨fun y hy hne p' hp' => ?_, hs⟩
        rcases List.mem_append.1 hp' with hp' | hp'
        · exact h1.1 y hy hne p' hp'
        · rw [List.mem_singleton] at hp'
          subst hp'
          intro he
          exact hcon ⟨a.1, y, by rw [← hy]; simp, hne, he⟩
      · obtain ⟨x, y, e1, e2, e3⟩ := ih h1.2 hs
        exact ⟨x, y, by simp [e1], e2, e3⟩
  have key : ∀ (t s : Resets), NoReadAfterWrite s → ¬ NoReadAfterWrite (s ++ t) → ∃ (s' : Resets) (x y z : ℕ) (t' : Resets),
      s ++ t = s' ++ (z, .clock x) :: t' ∧ NoReadAfterWrite s' ∧ (x, Upd.clock y) ∈ s' ∧ x ≠ y := by
    intro t
    induction t with
    | nil => intro s h1 h2; rw [List.append_nil] at h2; exact absurd h1 h2
    | cons p t ih =>
      intro s h1 h2
      have e : s ++ p :: t = (s ++ [p]) ++ t := by simp
      by_cases hp : NoReadAfterWrite (s ++ [p])
      · rw [e] at h2 ⊢
        exact ih _ hp h2
      · obtain ⟨x, y, e1, e2, e3⟩ := snoc s p h1 hp
        exact ⟨s, x, y, p.1, t, by rw [← e3], h1, e1, e2⟩
  simpa using key r [] trivial h

theorem lookup_mem {r : Resets} (hn : (r.map Prod.fst).Nodup) {p : ℕ × Upd} (hp : p ∈ r) : r.lookup p.1 = some p.2 := by
  induction r with
  | nil => cases hp
  | cons a r ih =>
    obtain ⟨h1, h2⟩ := List.nodup_cons.1 hn
    rw [List.lookup_cons]
    rcases List.mem_cons.1 hp with rfl | hp
    · simp
    · have : (p.1 == a.1) = false := by
        rw [beq_eq_false_iff_ne]
        intro e
        exact h1 (List.mem_map.2 ⟨p, hp, e⟩)
      simp only [this]
      exact ih h2 hp

theorem rename_keep (t : Resets) (v : Valuation) (z : ℕ) (h : z ∉ t.map Prod.fst) : t.foldl renameStep v z = v z := by
  induction t generalizing v with
  | nil => rfl
  | cons p t ih =>
    simp only [List.map_cons, List.mem_cons, not_or] at h
    rw [List.foldl_cons, ih _ h.2]
    obtain ⟨a, u⟩ := p
    cases u with
    | clock y => exact Function.update_of_ne h.1 _ _
    | const q => rfl

/-- If a copy reads an overwritten clock, the two ways of updating differ on all valuations with different values of the clocks. -/
theorem raw_differs {n : ℕ} {r : Resets} (hr : ∀ p ∈ r, p.1 < n ∧ ∀ y, p.2 = .clock y → y < n)
    (hn : (r.map Prod.fst).Nodup) (hraw : ¬ NoReadAfterWrite r) : ∃ x y z, x < n ∧ y < n ∧ z < n ∧ x ≠ y ∧
      ∀ v : Valuation, seqApply r v z = v y ∧ r.apply v z = v x := by
  obtain ⟨s, x, y, z, t, rfl, h1, h2, h3⟩ := first_raw r hraw
  have m : (x, Upd.clock y) ∈ s ++ (z, .clock x) :: t := List.mem_append_left _ h2
  have m' : (z, Upd.clock x) ∈ s ++ (z, .clock x) :: t := by simp
  refine ⟨x, y, z, (hr _ m).1, (hr _ m).2 y rfl, (hr _ m').1, h3, fun v => ?_⟩
  have hz := lookup_mem hn m'
  simp only at hz
  constructor
  · unfold seqApply
    rw [const_lookup _ hn, hz]
    simp only
    have hd := hn
    rw [List.map_append, List.nodup_append] at hd
    obtain ⟨d1, d2, -⟩ := hd
    rw [List.map_cons, List.nodup_cons] at d2
    rw [List.foldl_append, List.foldl_cons, rename_keep _ _ _ d2.1]
    simp only [renameStep, Function.update_self]
    rw [rename_lookup s d1 h1, lookup_mem d1 h2]
  · rw [apply_lookup _ hn, hz]
    rfl

end Zone
end LearnTA
