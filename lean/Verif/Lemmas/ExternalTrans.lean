import Verif.Model.Hypothesis
import Verif.Lemmas.Candidates

/-!
# The transitions made of a renaming
-/

namespace LearnTA
open Zone TimedCondition

/-- The clock is set to a number that is not negative or to a clock below `n`, and there is no other entry for it. -/
structure Resets.Fine (n m : ℕ) (U : Resets) : Prop where
  nodup : (U.map Prod.fst).Nodup
  keys : ∀ p ∈ U, p.1 < m
  clocks : ∀ p ∈ U, ∀ y, p.2 = .clock y → y < n
  nonneg : ∀ p ∈ U, ∀ k, p.2 = .const k → 0 ≤ k

theorem Resets.Fine.clean {n m : ℕ} {U : Resets} (h : U.Fine n m) : U.clean.Fine n m where
  nodup := h.nodup.sublist (List.filter_sublist.map _)
  keys p hp := h.keys p (List.mem_of_mem_filter hp)
  clocks p hp := h.clocks p (List.mem_of_mem_filter hp)
  nonneg p hp := h.nonneg p (List.mem_of_mem_filter hp)

theorem RenamingRelation.toReset_fine {r : RenamingRelation} {c : TimedCondition} {n : ℕ} (hc : c.Canonical) (hs : c.Simple)
    (hn : ∀ V, c.zone.Mem V → ∀ x < c.size, 0 ≤ V x) (hu : (r.map (·.2)).Nodup)
    (hr : ∀ p ∈ r, p.1 < n ∧ p.2 < c.size) {U : Resets} (h : r.toReset c = some U) : U.Fine n c.size := by
  obtain ⟨vals, h1, h2, h3⟩ := toValuation_mem hc hs.clocksBounded
  obtain ⟨R, g1, g2, g3⟩ := toReset_upd h1 hu
  rw [h] at g1
  cases g1
  have key : ∀ p ∈ U, p.1 < c.size ∧ (p.2 = .const (vals.getD p.1 0) ∨ ∃ q ∈ r, p.2 = .clock q.1) := by
    intro p hp
    have e := Resets.upd_of_mem g2 hp
    rw [g3] at e
    split at e
    · rename_i hx
      exact ⟨hx.1, Or.inl (by simpa using e.symm)⟩
    · cases hf : r.find? fun q => q.2 == p.1 with
      | none => rw [hf] at e; cases e
      | some q =>
        rw [hf] at e
        have hq := List.mem_of_find?_eq_some hf
        have he : q.2 = p.1 := by simpa using List.find?_some hf
        exact ⟨he ▸ (hr q hq).2, Or.inr ⟨q, hq, by simpa using e.symm⟩⟩
  refine ⟨g2, fun p hp => (key p hp).1, ?_, ?_⟩
  · intro p hp y hy
    rcases (key p hp).2 with e | ⟨q, hq, e⟩
    · rw [e] at hy; cases hy
    · rw [e] at hy; cases hy; exact (hr q hq).1
  · intro p hp k hk
    obtain ⟨hx, e | ⟨q, hq, e⟩⟩ := key p hp
    · rw [e] at hk; cases hk; exact hn _ h3 _ hx
    · rw [e] at hk; cases hk

theorem canonical_size {c : TimedCondition} (h : c.Canonical) : c.size = c.zone.dim - 1 ∧ c.zone.dim = c.size + 1 := by
  have := h.1; unfold TimedCondition.size; omega

/-- The transition made of a renaming leads from every valuation of the source to a related one of the target. -/
theorem externalTransition_spec {S C : TimedCondition} (hS : S.Canonical) (hC : C.Canonical) (hCs : C.Simple)
    (hn : ∀ V, C.zone.Mem V → ∀ x < C.size, 0 ≤ V x) {r : RenamingRelation}
    (hr : ∀ p ∈ r, p.1 < S.size ∧ p.2 < C.size)
    (hrel : ∀ u, S.zone.Mem u → ∃ w, C.zone.Mem w ∧ ∀ p ∈ r, u p.1 = w p.2)
    (hf : r = [] ∨ ∀ x < C.size, C.pointAt x = true ∨ ∃ p ∈ r, p.2 = x) (q : ℕ) :
    ∃ U : Resets, externalTransition q r S C = some ⟨q, U, S.toGuard⟩ ∧ U.Fine S.size C.size ∧
      ∀ u, S.zone.Mem u → ∀ v : Valuation, (∀ x < S.size, v x = u x) →
        ∃ w, C.zone.Mem w ∧ (∀ p ∈ r, u p.1 = w p.2) ∧ ∀ x < C.size, U.apply v x = w x := by
  obtain ⟨eS, dS⟩ := canonical_size hS
  obtain ⟨eC, dC⟩ := canonical_size hC
  set j := JuxtaposedZone.make S.zone C.zone with hj
  have jl : j.leftSize = S.size := eS.symm
  have jr : j.rightSize = C.size := eC.symm
  have jd : j.zone.dim = S.size + C.size + 1 := by rw [eS, eC]; simp [hj, JuxtaposedZone.make]
  have hin : j.InRange r := by
    intro p hp
    have := hr p hp
    rw [jd, jl]
    omega
  have hmem : ∀ v, (j.addRenaming r).zone.Mem v ↔
      (S.zone.Mem v ∧ C.zone.Mem (fun k => v (S.size + k))) ∧ ∀ p ∈ r, v p.1 = v (S.size + p.2) := by
    intro v
    rw [JuxtaposedZone.addRenaming_mem j r hin, jl, hj, JuxtaposedZone.make_mem _ _ (by omega) (by
      obtain ⟨V, hV⟩ := hC.nonempty
      exact hV.diagNN 0 (by omega)), eS]
  -- joining valuations
  have hjoin : ∀ u w, S.zone.Mem u → C.zone.Mem w → (∀ p ∈ r, u p.1 = w p.2) →
      (j.addRenaming r).zone.Mem (fun k => if k < S.size then u k else w (k - S.size)) := by
    intro u w hu hw h
    rw [hmem]
    refine ⟨⟨?_, ?_⟩, ?_⟩
    · refine Zone.Sat.congr hu fun k hk => ?_
      cases k with
      | zero => rfl
      | succ k => simp only [ext_succ]; rw [if_pos (by omega)]
    · refine Zone.Sat.congr hw fun k hk => ?_
      cases k with
      | zero => rfl
      | succ k => simp only [ext_succ]; rw [if_neg (by omega)]; simp
    · intro p hp
      have := hr p hp
      rw [if_pos this.1, if_neg (by omega)]
      simpa using h p hp
  obtain ⟨u0, hu0⟩ := hS.nonempty
  obtain ⟨w0, hw0, h0⟩ := hrel u0 hu0
  have hne := hjoin u0 w0 hu0 hw0 h0
  have hcl := (JuxtaposedZone.addRenaming_satisfiable_closed j r hin (JuxtaposedZone.make_canonized _ _)
    ((JuxtaposedZone.addRenaming_satisfiable j r hin (JuxtaposedZone.make_canonized _ _)).2 ⟨_, hne⟩)).1
  have hmk : ∀ p, p ∈ (j.addRenaming r).makeRenaming → p.1 < S.size ∧ p.2 < C.size ∧
      ∀ u w, S.zone.Mem u → C.zone.Mem w → (∀ p ∈ r, u p.1 = w p.2) → u p.1 = w p.2 := by
    intro p hp
    rw [JuxtaposedZone.mem_makeRenaming] at hp
    have h1 : p.1 < S.size := by rw [← jl]; exact hp.1
    have h2 : p.2 < C.size := by rw [← jr]; exact hp.2.1
    refine ⟨h1, h2, fun u w hu hw h => ?_⟩
    have e : (j.addRenaming r).leftSize = S.size := jl
    rw [e, Nat.add_comm p.2] at hp
    have := (JuxtaposedZone.eq_iff_entries hcl hne (a := p.1) (b := S.size + p.2)
      (by rw [JuxtaposedZone.addRenaming_dim, jd]; omega) (by rw [JuxtaposedZone.addRenaming_dim, jd]; omega)
      (by omega)).2 hp.2.2 _ (hjoin u w hu hw h)
    rw [if_pos h1, if_neg (by omega)] at this
    simpa using this
  have hsub : ∀ p ∈ r, p ∈ (j.addRenaming r).makeRenaming := by
    intro p hp
    have hpr := hr p hp
    rw [JuxtaposedZone.mem_makeRenaming]
    have e : (j.addRenaming r).leftSize = S.size := jl
    have e' : (j.addRenaming r).rightSize = C.size := jr
    rw [e, e', Nat.add_comm p.2]
    refine ⟨hpr.1, hpr.2, (JuxtaposedZone.eq_iff_entries hcl hne (a := p.1) (b := S.size + p.2)
      (by rw [JuxtaposedZone.addRenaming_dim, jd]; omega) (by rw [JuxtaposedZone.addRenaming_dim, jd]; omega)
      (by omega)).1 ?_⟩
    intro v hv
    exact ((hmem v).1 hv).2 p hp
  set r' : RenamingRelation := uniqueBy (fun p q => p.2 == q.2)
    ((j.addRenaming r).makeRenaming.insertionSort fun p q => RenamingRelation.rightLe p q = true) with hr'
  have hkey := uniqueBy_key (fun p : ℕ × ℕ => p.2) _ (RenamingRelation.pairwise_rightLe (j.addRenaming r).makeRenaming)
  have hu : (r'.map (·.2)).Nodup := by
    rw [← RenamingRelation.rightUnique_iff]
    exact hkey.1.imp fun h => ne_of_lt h
  have hr'mem : ∀ p ∈ r', p ∈ (j.addRenaming r).makeRenaming := fun p hp =>
    (List.mem_insertionSort _).1 ((uniqueBy_sublist _ _).subset hp)
  have hr'range : ∀ p ∈ r', p.1 < S.size ∧ p.2 < C.size := fun p hp =>
    ⟨(hmk p (hr'mem p hp)).1, (hmk p (hr'mem p hp)).2.1⟩
  obtain ⟨U, V, g1, g2, g3⟩ := RenamingRelation.toReset_apply hC hCs hu (fun p hp => (hr'range p hp).2)
  have hfine := RenamingRelation.toReset_fine (n := S.size) hC hCs hn hu hr'range g1
  refine ⟨U.clean, ?_, hfine.clean, ?_⟩
  · unfold externalTransition
    show Option.map _ (r'.toReset C) = _
    rw [g1]
    rfl
  · intro u hus v hv
    rw [Resets.clean_apply _ hfine.nodup]
    obtain ⟨a1, a2, a3, _⟩ := g3 v
    -- the point of the target
    have hval : ∀ w, C.zone.Mem w → (∀ p ∈ r, u p.1 = w p.2) → (∀ x < C.size, (∀ p ∈ r', p.2 ≠ x) → V x = w x) →
        ∀ x < C.size, U.apply v x = w x := by
      intro w hw h hV x hx
      by_cases hpt : C.pointAt x = true
      · rw [a1 x hx hpt]; exact point_value' hx hC hpt g2 hw
      · by_cases hex : ∃ p ∈ r', p.2 = x
        · obtain ⟨p, hp, rfl⟩ := hex
          rw [a2 p hp (by simpa using hpt), hv _ (hr'range p hp).1]
          exact (hmk p (hr'mem p hp)).2.2 u w hus hw h
        · have hnone : ∀ p ∈ r', p.2 ≠ x := fun p hp e => hex ⟨p, hp, e⟩
          rw [a3 x hx hnone]
          exact hV x hx hnone
    rcases hf with rfl | hf
    · exact ⟨V, g2, by simp, hval V g2 (by simp) fun _ _ _ => rfl⟩
    · obtain ⟨w, hw, h⟩ := hrel u hus
      refine ⟨w, hw, h, hval w hw h ?_⟩
      intro x hx hnone
      rcases hf x hx with hpt | ⟨p, hp, e⟩
      · exact point_value' hx hC hpt g2 hw
      · obtain ⟨p', hp', e'⟩ := hkey.2 p ((List.mem_insertionSort _).2 (hsub p hp))
        exact absurd (e'.trans e) (hnone p' hp')
where
  point_value' {C : TimedCondition} {x : ℕ} (hx : x < C.size) (hC : C.Canonical) (hpt : C.pointAt x = true)
      {V w : Valuation} (h : C.zone.Mem V) (h' : C.zone.Mem w) : V x = w x :=
    Equivalence.point_value hx hC.1 hpt h h'

end LearnTA
