import Verif.Lemmas.ApplyResets

/-!
# The invariant of the neighbours
-/

namespace LearnTA
open Bound

theorem SameInterval.sub_int {x y : ℚ} (h : SameInterval x y) (k : ℤ) : SameInterval (x - k) (y - k) := by
  unfold SameInterval at *
  rw [Int.floor_sub_intCast, Int.floor_sub_intCast, Int.ceil_sub_intCast, Int.ceil_sub_intCast, h.1, h.2]
  exact ⟨rfl, rfl⟩

theorem SameInterval.eq_int {k : ℤ} {y : ℚ} (h : SameInterval (k : ℚ) y) : y = k := by
  have h1 := Int.floor_le y
  have h2 := Int.le_ceil y
  rw [← h.1, Int.floor_intCast] at h1
  rw [← h.2, Int.ceil_intCast] at h2
  exact le_antisymm h2 h1

namespace Neighbors
open ForwardRegional

/-! ### The objects that the constructors and the successor functions make -/

theorem _root_.LearnTA.ForwardRegional.Built.of {L : ForwardRegional} (h : L.Built) :
    (∃ n v, L.Of n v ∧ ∀ x < n, 0 ≤ v x) ∧ ∀ a ∈ L.word, a ≠ unobservable := by
  induction h with
  | init => exact ⟨⟨1, _, ForwardRegional.init_of, fun _ _ => le_refl _⟩, by intro a ha; cases ha⟩
  | word hw ho hd =>
    refine ⟨⟨_, _, ForwardRegional.fromTimedWord_of _ hw, fun x _ => ?_⟩, ho⟩
    exact List.sum_nonneg fun d hd' => hd d (List.mem_of_mem_drop hd')
  | time _ ih =>
    obtain ⟨⟨n, v, h, hv⟩, ho⟩ := ih
    obtain ⟨δ, hδ, h1, _⟩ := h.successor
    exact ⟨⟨n, _, h1, fun x hx => add_nonneg (hv x hx) hδ.le⟩, ho⟩
  | action ha _ ih =>
    obtain ⟨⟨n, v, h, hv⟩, ho⟩ := ih
    refine ⟨⟨_, _, h.successorAction _, fun x _ => ?_⟩, fun b hb => ?_⟩
    · show 0 ≤ if x < n then v x else 0
      split
      · exact hv x (by assumption)
      · exact le_refl _
    rcases List.mem_append.1 hb with hb | hb
    · exact ho b hb
    · rw [List.mem_singleton.1 hb]; exact ha
  | resets _ hw hr hq h ih =>
    obtain ⟨⟨m, v, hL, hv⟩, _⟩ := ih
    obtain ⟨e, g1, g2, u, w, hu, hwm, ha⟩ := ForwardRegional.applyResets_of hL hw hr h
    refine ⟨⟨_, u, hu, fun x hx => ?_⟩, e ▸ hw⟩
    have hn : ∀ y < m, 0 ≤ w y := fun y hy => (same_of_mem hL hwm hy).nonneg (hv y hy)
    rename_i r _ _ _
    by_cases hx' : ∃ a, (x, a) ∈ r
    · obtain ⟨a, hm⟩ := hx'
      cases a with
      | const q => exact ((ha.1 x hx).1 q hm).nonneg (hq x q hm)
      | clock y => rw [(ha.1 x hx).2.1 y hm]; exact hn y (g1 x hx y hm)
    · push Not at hx'
      rw [(ha.1 x hx).2.2 hx']
      exact hn x (g2 x hx hx')

/-- A new clock with the value zero. -/
theorem mem_successorAction {L : ForwardRegional} {n : ℕ} {v : Valuation} (h : L.Of n v) (a : Action) {u : Valuation} :
    (L.successorAction a).cond.zone.Mem u ↔ L.cond.zone.Mem u ∧ u n = 0 := by
  have hp := h.pos
  constructor
  · intro hu
    have hz := (same_of_mem (h.successorAction a) hu (x := n) (by omega))
    simp only [lt_irrefl, if_false] at hz
    have hu0 : u n = 0 := by
      unfold SameInterval at hz
      simp only [Int.floor_zero, Int.ceil_zero] at hz
      have h1 := Int.floor_le (u n)
      have h2 := Int.le_ceil (u n)
      rw [← hz.1] at h1
      rw [← hz.2] at h2
      push_cast at h1 h2
      exact le_antisymm h2 h1
    refine ⟨?_, hu0⟩
    obtain ⟨e1, e2⟩ := Of.reg_eq (L' := L) (h.successorAction a).region ((h.successorAction a).transfer hu).region
      (h.successorAction a).dim
    refine Zone.IsRegion.sat ?_ h.diag
    intro i hi j hj hij
    rw [h.dim] at hi hj
    rw [h.region i (by rw [h.dim]; exact hi) j (by rw [h.dim]; exact hj) hij]
    have f0 := fun x (hx : x < n) => e1 x (by omega)
    have f1 : ∀ x < n, reg (v x) = reg (u x) := fun x hx => by have := f0 x hx; rwa [if_pos hx] at this
    have f2 : ∀ x < n, ∀ y < n, x ≠ y → reg (v x - v y) = reg (u x - u y) := fun x hx y hy hxy => by
      have := e2 x (by omega) y (by omega) hxy; rwa [if_pos hx, if_pos hy] at this
    have f3 : ∀ x < n, reg (-v x) = reg (-u x) := fun x hx =>
      sameInterval_reg.1 (SameInterval.neg (sameInterval_reg.2 (f1 x hx)))
    cases i with
    | zero =>
      cases j with
      | zero => exact absurd rfl hij
      | succ j => show reg (0 - v j) = reg (0 - u j); rw [zero_sub, zero_sub]; exact f3 j (by omega)
    | succ i =>
      cases j with
      | zero => show reg (v i - 0) = reg (u i - 0); rw [sub_zero, sub_zero]; exact f1 i (by omega)
      | succ j => exact f2 i (by omega) j (by omega) (by omega)
  · rintro ⟨hu, h0⟩
    exact (((h.transfer hu).successorAction a).congr (v' := u) (by
      intro i hi
      by_cases e : i < n
      · rw [if_pos e]
      · rw [if_neg e, show i = n by omega, h0])).sat

/-- The invariant of the objects. -/
structure Inv (N : Neighbors) (n : ℕ) (v : Valuation) : Prop where
  original : N.original.Of n v
  observable : ∀ a ∈ N.original.word, a ≠ unobservable
  size : N.clockSize = n
  precise : ∀ x ∈ N.precise, x < n
  neighbors : ∀ M ∈ N.neighbors, M.word = N.original.word ∧ ∃ u, M.Of n u ∧ AgreeOn N.precise v u
  chain : N.neighbors.IsChain fun x y => x.beq y = false
  covers : ∀ u, N.original.cond.zone.Mem u → N.Covers u
  nonneg : ∀ u, N.Covers u → ∀ x < n, 0 ≤ u x

theorem Inv.move {N : Neighbors} {n : ℕ} {v u : Valuation} (h : Inv N n v) (hu : N.original.cond.zone.Mem u) : Inv N n u :=
  ⟨h.original.transfer hu, h.observable, h.size, h.precise, fun M hM => by
    obtain ⟨a, w, b, c⟩ := h.neighbors M hM
    exact ⟨a, w, b, fun x hx => (same_of_mem h.original hu (h.precise x hx)).symm.trans (c x hx)⟩, h.chain, h.covers, h.nonneg⟩

theorem make_inv {hash : ForwardRegional → ℕ} {fuel : ℕ} {O : ForwardRegional} {n : ℕ} {v : Valuation} (hO : O.Of n v)
    (hv : ∀ x < n, 0 ≤ v x) (ho : ∀ a ∈ O.word, a ≠ unobservable) {P : Finset ℕ} (hP : ∀ x ∈ P, x < n) {N : Neighbors}
    (h : make hash fuel O P = .ok N) : Inv N n v := by
  obtain ⟨e1, e2, e3, k1, k2, k3, k4⟩ := make_spec hO ho hP h
  refine ⟨e1 ▸ hO, e1 ▸ ho, e3, ?_, e1.symm ▸ k1, k2, ?_, ?_⟩
  · rw [e2]; exact fun x hx => ((mem_withImplicit hO).1 hx).elim (hP x) And.left
  · intro u hu
    rw [e1] at hu
    have hc : Confusable P n v u := by
      obtain ⟨f1, f2⟩ := Of.reg_eq (L' := O) hO.region (hO.transfer hu).region hO.dim
      refine ⟨fun i hi => sameInterval_reg.2 (f1 i hi), fun i hi j hj _ => ?_⟩
      by_cases hij : i = j
      · subst hij; rw [sub_self, sub_self]; exact SameInterval.refl _
      · exact sameInterval_reg.2 (f2 i hi j hj hij)
    by_cases hp : N.precise = ∅
    · exact (k3 hp u).2 hc
    · refine (k4 hp u).2 ⟨⟨0, le_refl _, by simpa using hc⟩, fun x hx => hc.clocks x ?_⟩
      rw [e2] at hx
      exact ((mem_withImplicit hO).1 hx).elim (hP x) And.left
  · intro u hu x hx
    by_cases hp : N.precise = ∅
    · exact (((k3 hp u).1 hu).clocks x hx).nonneg (hv x hx)
    · obtain ⟨⟨s, hs, hc⟩, _⟩ := (k4 hp u).1 hu
      have := (hc.clocks x hx).nonneg (hv x hx)
      linarith

theorem mem_successor_back {L : ForwardRegional} {n : ℕ} {v : Valuation} (h : L.Of n v) {u : Valuation}
    (hu : L.successor.cond.zone.Mem u) : ∃ s, 0 ≤ s ∧ L.cond.zone.Mem fun i => u i - s := by
  obtain ⟨δ, _, h1, _⟩ := h.successor
  obtain ⟨ε, h2, _, h3, _⟩ := (h1.transfer hu).back
  rw [h.back_successor] at h3
  exact ⟨ε, h2.le, h3.sat⟩

theorem Inv.successor {hash : ForwardRegional → ℕ} {fuel : ℕ} {N N' : Neighbors} {n : ℕ} {v : Valuation} (h : Inv N n v)
    (hs : N.successor hash fuel = .ok N') :
    N'.original = N.original.successor ∧ N'.precise = N.precise ∧ (∃ v', Inv N' n v') ∧
      ∀ v', N'.original.cond.zone.Mem v' → ∀ u, N'.Covers u ↔ (∃ s, 0 ≤ s ∧ N.Covers fun i => u i - s) ∧
        AgreeOn N.precise v' u := by
  unfold Neighbors.successor at hs
  cases hu : update hash fuel N.precise N.neighbors N.original.successor with
  | error e => rw [hu] at hs; simp [bind, Except.bind] at hs
  | ok l =>
    rw [hu] at hs
    simp only [bind, Except.bind, pure, Except.pure, Except.ok.injEq] at hs
    subst hs
    obtain ⟨δ, hδ, h1, _⟩ := h.original.successor
    have key := fun w (hw : N.original.successor.cond.zone.Mem w) => update_cover (h1.transfer hw)
      (fun L hL => by obtain ⟨_, u, a, _⟩ := h.neighbors L hL; exact ⟨u, a⟩) h.precise hu
    have key' : ∀ v', N.original.successor.cond.zone.Mem v' → ∀ u,
        (∃ M ∈ l, M.cond.zone.Mem u) ↔ (∃ s, 0 ≤ s ∧ N.Covers fun i => u i - s) ∧ AgreeOn N.precise v' u :=
      fun v' hv' => (key v' hv').2.2
    refine ⟨rfl, rfl, ⟨_, ⟨h1, h.observable, h.size, h.precise, fun M hM => ?_, (key _ h1.sat).2.1, fun u hu' => ?_,
      fun u hu' x hx => ?_⟩⟩, key'⟩
    · obtain ⟨⟨L, hL, e⟩, b⟩ := (key _ h1.sat).1 M hM
      exact ⟨e.trans (h.neighbors L hL).1, b⟩
    · refine (key' u hu' u).2 ⟨?_, fun x _ => SameInterval.refl _⟩
      obtain ⟨s, hs, hm⟩ := mem_successor_back h.original hu'
      exact ⟨s, hs, h.covers _ hm⟩
    · obtain ⟨⟨s, hs, hc⟩, _⟩ := (key' _ h1.sat u).1 hu'
      have := h.nonneg _ hc x hx
      linarith

theorem Inv.successorAction {N : Neighbors} {n : ℕ} {v : Valuation} (h : Inv N n v) {a : Action} (ha : a ≠ unobservable) :
    Inv (N.successorAction a) (n + 1) (fun i => if i < n then v i else 0) ∧
      ∀ u, (N.successorAction a).Covers u ↔ N.Covers u ∧ u n = 0 := by
  have cov : ∀ u, (N.successorAction a).Covers u ↔ N.Covers u ∧ u n = 0 := by
    intro u
    constructor
    · rintro ⟨M, hM, hu⟩
      obtain ⟨L, hL, rfl⟩ := List.mem_map.1 hM
      obtain ⟨_, w, hw, _⟩ := h.neighbors L hL
      obtain ⟨a1, a2⟩ := (mem_successorAction hw a).1 hu
      exact ⟨⟨L, hL, a1⟩, a2⟩
    · rintro ⟨⟨L, hL, hu⟩, h0⟩
      obtain ⟨_, w, hw, _⟩ := h.neighbors L hL
      exact ⟨_, List.mem_map.2 ⟨L, hL, rfl⟩, (mem_successorAction hw a).2 ⟨hu, h0⟩⟩
  refine ⟨⟨h.original.successorAction a, fun b hb => ?_, by rw [← h.size]; rfl, fun x hx => ?_, fun M hM => ?_, ?_, fun u hu => ?_,
      fun u hu x hx => ?_⟩, cov⟩
  · rcases List.mem_append.1 hb with hb | hb
    · exact h.observable b hb
    · rw [List.mem_singleton.1 hb]; exact ha
  · rcases Finset.mem_insert.1 hx with e | hx
    · rw [e, h.size]; omega
    · have := h.precise x hx; omega
  · obtain ⟨L, hL, rfl⟩ := List.mem_map.1 hM
    obtain ⟨e, w, hw, hag⟩ := h.neighbors L hL
    refine ⟨by show L.word ++ [a] = N.original.word ++ [a]; rw [e], _, hw.successorAction a, fun x hx => ?_⟩
    show SameInterval (if x < n then v x else 0) (if x < n then w x else 0)
    rcases Finset.mem_insert.1 hx with e | hx
    · rw [e, h.size, if_neg (lt_irrefl _), if_neg (lt_irrefl _)]; exact SameInterval.refl _
    · rw [if_pos (h.precise x hx), if_pos (h.precise x hx)]; exact hag x hx
  · refine List.isChain_map _ |>.2 (h.chain.imp_of_mem_imp ?_)
    intro L M hL hM hb
    obtain ⟨_, w, hw, _⟩ := h.neighbors L hL
    obtain ⟨_, w', hw', _⟩ := h.neighbors M hM
    by_contra hne
    have hbe : (L.successorAction a).beq (M.successorAction a) = true := by simpa using hne
    have h2 := ((hw.successorAction a).of_beq (hw'.successorAction a) hbe).2
    have h3 := hw'.transfer ((mem_successorAction hw' a).1 h2.sat).1
    have h4 := (hw.congr (v' := fun i => if i < n then w i else 0) (by intro i hi; rw [if_pos hi])).beq h3
      ((h.neighbors L hL).1.trans (h.neighbors M hM).1.symm)
    rw [hb] at h4
    exact absurd h4 (by simp)
  · obtain ⟨a1, a2⟩ := (mem_successorAction h.original a).1 hu
    exact (cov u).2 ⟨h.covers u a1, a2⟩
  · obtain ⟨a1, a2⟩ := (cov u).1 hu
    by_cases e : x = n
    · rw [e, a2]
    · exact h.nonneg u a1 x (by omega)

theorem Built.inv {N : Neighbors} (h : N.Built) : ∃ n v, Inv N n v := by
  induction h with
  | make hL hP hm =>
    obtain ⟨⟨n, v, hO, hv⟩, ho⟩ := hL.of
    exact ⟨n, v, make_inv hO hv ho (by rwa [hO.csize] at hP) hm⟩
  | time _ hs ih =>
    obtain ⟨n, v, hi⟩ := ih
    obtain ⟨v', hv'⟩ := (hi.successor hs).2.2.1
    exact ⟨n, v', hv'⟩
  | action ha _ ih =>
    obtain ⟨n, v, hi⟩ := ih
    exact ⟨_, _, (hi.successorAction ha).1⟩

/-- Only one neighbour: the original. -/
theorem Inv.isPrecise {N : Neighbors} {n : ℕ} {v : Valuation} (h : Inv N n v) :
    N.isPrecise = true ↔ ∀ u, N.Covers u → N.original.cond.zone.Mem u := by
  unfold Neighbors.isPrecise
  rw [beq_iff_eq]
  constructor
  · intro hl u ⟨L, hL, hu⟩
    obtain ⟨M, e⟩ := List.length_eq_one_iff.1 hl
    obtain ⟨L', hL', hv⟩ := h.covers v h.original.sat
    rw [e, List.mem_singleton] at hL hL'
    subst hL
    rw [hL'] at hv
    obtain ⟨_, w, hw, _⟩ := h.neighbors L (by rw [e]; simp)
    obtain ⟨e1, e2⟩ := Of.reg_eq (L' := L) (hw.transfer hv).region (hw.transfer hu).region hw.dim
    refine Zone.IsRegion.sat ?_ h.original.diag
    intro i hi j hj hij
    rw [h.original.region i hi j hj hij]
    rw [h.original.dim] at hi hj
    have r1 := (hw.transfer hv).region i (by rw [hw.dim]; exact hi) j (by rw [hw.dim]; exact hj) hij
    have r2 := (hw.transfer hu).region i (by rw [hw.dim]; exact hi) j (by rw [hw.dim]; exact hj) hij
    rw [← r1, ← r2]
  · intro hc
    have hall : ∀ M ∈ N.neighbors, M.Of n v := by
      intro M hM
      obtain ⟨_, w, hw, _⟩ := h.neighbors M hM
      have h1 := h.original.transfer (hc w ⟨M, hM, hw.sat⟩)
      have hb := hw.beq h1 (h.neighbors M hM).1
      exact (h.original.of_beq hw (beq_symm hw h1 hb)).2
    obtain ⟨L, hL, _⟩ := h.covers v h.original.sat
    cases e : N.neighbors with
    | nil => rw [e] at hL; cases hL
    | cons a l =>
      cases l with
      | nil => rfl
      | cons b l =>
        have hch := h.chain
        rw [e] at hch
        have hab := (List.isChain_cons_cons.1 hch).1
        have := (hall a (by rw [e]; simp)).beq (hall b (by rw [e]; simp))
          ((h.neighbors a (by rw [e]; simp)).1.trans (h.neighbors b (by rw [e]; simp)).1.symm)
        rw [hab] at this
        exact absurd this (by simp)

theorem _root_.LearnTA.Neighbors.Built.original {N : Neighbors} (h : N.Built) : N.original.Built := by
  induction h with
  | make hL hP h =>
    obtain ⟨⟨n, w, hO, _⟩, ho⟩ := hL.of
    rw [(make_spec hO ho (by rwa [hO.csize] at hP) h).1]; exact hL
  | time hN h ih =>
    obtain ⟨n, w, hi⟩ := hN.inv
    rw [(hi.successor h).1]
    exact .time ih
  | action ha _ ih => exact .action ha ih

end Neighbors
end LearnTA
