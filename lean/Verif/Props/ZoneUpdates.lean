import Verif.Lemmas.ZoneUpdates

/-!
# Symbolic and concrete updates of clocks (C18)
-/

namespace LearnTA.Props
open LearnTA

/-- C18: for every update list, also with several entries for a clock: on a canonical non-empty zone `applyResets` gives exactly the
valuations made by performing the copies one after the other and then the assignments. -/
theorem C18_one_by_one (z : Zone) (hc : z.Closed) (hne : ∃ u, z.Mem u) (r : Resets)
    (hr : ∀ p ∈ r, p.1 + 1 < z.dim ∧ ∀ y, p.2 = .clock y → y + 1 < z.dim) (v : Valuation) :
    (z.applyResets r).Mem v ↔ ∃ u, z.Mem u ∧ v = r.oneByOne u := by
  obtain ⟨_, _, h⟩ := Zone.applyResets_spec z hc r (by
    intro p hp
    obtain ⟨h1, h2⟩ := hr p hp
    refine ⟨by omega, ?_⟩
    split
    · rename_i y e; have := h2 y e; omega
    · trivial) hne
  exact h v

/-- C18: for update lists with one entry per clock, `applyResets` agrees with the runner, which performs the updates at once, on
all zones exactly if no copy reads a clock that an earlier copy of the list overwrites. -/
theorem C18_exact (n : ℕ) (r : Resets) (hr : ∀ p ∈ r, p.1 < n ∧ ∀ y, p.2 = .clock y → y < n)
    (hn : (r.map Prod.fst).Nodup) :
    (∀ z : Zone, z.dim = n + 1 → z.Closed → (∃ u, z.Mem u) →
      ∀ v, (z.applyResets r).Mem v ↔ ∃ u, z.Mem u ∧ v = r.apply u) ↔ Zone.NoReadAfterWrite r := by
  have hr' : ∀ z : Zone, z.dim = n + 1 → ∀ p ∈ r, p.1 + 1 < z.dim ∧ ∀ y, p.2 = .clock y → y + 1 < z.dim := by
    intro z hd p hp
    obtain ⟨h1, h2⟩ := hr p hp
    exact ⟨by omega, fun y hy => by have := h2 y hy; omega⟩
  constructor
  · intro h
    by_contra hraw
    obtain ⟨x, y, k, hx, hy, -, hne, he⟩ := Zone.raw_differs hr hn hraw
    let u : Valuation := fun i => i
    obtain ⟨u', hu', e⟩ := (C18_one_by_one (Zone.single (n + 1) u) (Zone.single_closed _ _) ⟨u, Zone.single_self _ _⟩ r
      (hr' _ rfl) (r.apply u)).1 ((h (Zone.single (n + 1) u) rfl (Zone.single_closed _ _) ⟨u, Zone.single_self _ _⟩ _).2
        ⟨u, Zone.single_self _ _, rfl⟩)
    have e1 : r.apply u k = r.oneByOne u' k := by rw [← e]
    rw [Zone.oneByOne_eq, (he u').1, (he u).2, Zone.single_mem hu' hy] at e1
    exact hne (Nat.cast_injective (R := ℚ) e1)
  · intro hraw z hd hc hne v
    rw [C18_one_by_one z hc hne r (hr' z hd) v]
    simp only [Zone.oneByOne_eq, Zone.seqApply_eq_apply r hn hraw]

/-- A list of updates that is performed in the same way, and one that is not. -/
example : Zone.NoReadAfterWrite [(0, .clock 1), (1, .const 3)] ∧ ¬ Zone.NoReadAfterWrite [(1, .clock 0), (2, .clock 1)] := by
  refine ⟨⟨?_, ?_, trivial⟩, fun h => h.1 0 rfl (by decide) _ (List.mem_singleton_self _) rfl⟩
  · intro y _ _ p' hp'; simp at hp'; subst hp'; simp
  · intro y h; simp at h

end LearnTA.Props
