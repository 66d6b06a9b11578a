import Verif.Spec.Fixtures
import Verif.Lemmas.TA
import Verif.Lemmas.TAReach
import Verif.Lemmas.InOrder
import Verif.Lemmas.Over

/-!
# Lemmas: the targets of the example programs
-/

namespace LearnTA
namespace Fixture

/-- The edges describe a target with `n` states over `alphabet`, the constants of the guards are below `INT_MAX`. -/
structure EdgesOk (n : ℕ) (alphabet : List Action) (edges : List Edge) : Prop where
  src : ∀ e ∈ edges, e.tgt < n
  act : ∀ e ∈ edges, e.act ∈ alphabet
  small : ∀ e ∈ edges, e.guard.Small
  nodup : ∀ e ∈ edges, e.resets.Nodup
  det : edges.Pairwise fun e f => e.src = f.src → e.act = f.act → ∀ v : Valuation, v.Nonneg → ¬ (e.guard.Holds v ∧ f.guard.Holds v)

theorem mem_locs {acc : ℕ → Bool} {edges : List Edge} {p : ℕ} {a : Action} {t : Trans} :
    t ∈ (locs acc edges p).next a ↔ ∃ e ∈ edges, e.src = p ∧ e.act = a ∧ e.trans = t := by
  simp only [locs, List.mem_map, List.mem_filter, decide_eq_true_eq]
  constructor
  · rintro ⟨e, ⟨h1, h2, h3⟩, h4⟩; exact ⟨e, h1, h2, h3, h4⟩
  · rintro ⟨e, h1, h2, h3, h4⟩; exact ⟨e, ⟨h1, h2, h3⟩, h4⟩

/-- The clocks of the edges have an entry in `maxConstraints`. -/
def ClocksBelow (k : ℕ) (edges : List Edge) : Prop :=
  ∀ e ∈ edges, (∀ c ∈ e.guard, c.x < k) ∧ ∀ x ∈ e.resets, x < k

theorem build_clocks {n k : ℕ} {acc : ℕ → Bool} {edges : List Edge} {maxC : List ℤ} (hk : maxC.length = k)
    (h : ClocksBelow k edges) : (build n acc edges maxC).ClocksExist := by
  intro p _ a t ht
  obtain ⟨e, h1, -, -, rfl⟩ := mem_locs.1 ht
  have hk' : (build n acc edges maxC).clockSize = k := hk
  rw [hk']
  refine ⟨(h e h1).1, fun r hr => ?_⟩
  simp only [Edge.trans, List.mem_map] at hr
  obtain ⟨x, hx, rfl⟩ := hr
  exact ⟨(h e h1).2 x hx, by intro y hy; cases hy⟩

theorem build_clocks_max {n : ℕ} {acc : ℕ → Bool} {edges : List Edge} :
    (build n acc edges (TA.makeMaxConstants (locs acc edges) (List.range n))).ClocksExist := by
  intro p hp a t ht
  have := TA.makeMaxConstants_covers (locs acc edges) (List.range n) p hp a t ht
  exact ⟨fun c hc => (this.1 c hc).1, this.2⟩

theorem build_learnable {n : ℕ} {alphabet : List Action} {acc : ℕ → Bool} {edges : List Edge} {maxC : List ℤ} (hn : 0 < n)
    (hu : unobservable ∉ alphabet) (h : EdgesOk n alphabet edges) (hc : (build n acc edges maxC).ClocksExist) :
    (build n acc edges maxC).Learnable alphabet := by
  refine ⟨⟨List.nodup_range, ⟨?_, ?_⟩, hc, ?_, ?_⟩, ?_, ?_, rfl, ?_, ?_, ?_⟩
  · intro q hq
    rw [List.mem_singleton.1 hq]
    exact List.mem_range.2 hn
  · intro p _ a t ht
    obtain ⟨e, h1, -, -, rfl⟩ := mem_locs.1 ht
    exact List.mem_range.2 (h.src e h1)
  · intro p _ a t ht r hr q hq
    obtain ⟨e, h1, -, -, rfl⟩ := mem_locs.1 ht
    simp only [Edge.trans, List.mem_map] at hr
    obtain ⟨x, hx, rfl⟩ := hr
    cases hq
    exact le_refl _
  · intro p _ a t ht
    obtain ⟨e, h1, -, -, rfl⟩ := mem_locs.1 ht
    exact h.small e h1
  · intro p _
    refine List.eq_nil_iff_forall_not_mem.2 fun t ht => hu ?_
    obtain ⟨e, h1, -, h3, rfl⟩ := mem_locs.1 ht
    exact h3 ▸ h.act e h1
  · intro p _ a
    show ((edges.filter fun e => decide (e.src = p ∧ e.act = a)).map Edge.trans).Pairwise _
    rw [List.pairwise_map]
    have := h.det
    refine List.Pairwise.imp_of_mem ?_ (this.filter _)
    intro e f he hf hd v hv
    have he := List.mem_filter.1 he
    have hf := List.mem_filter.1 hf
    simp only [decide_eq_true_eq] at he hf
    exact hd (he.2.1.trans hf.2.1.symm) (he.2.2.trans hf.2.2.symm) v hv
  · intro p _ a t ht
    obtain ⟨e, h1, -, -, rfl⟩ := mem_locs.1 ht
    refine ⟨?_, ?_, ?_⟩
    · simp only [Edge.trans, List.map_map]
      have : (Prod.fst ∘ fun x : ℕ => (x, Upd.const 0)) = id := rfl
      rw [this, List.map_id]
      exact h.nodup e h1
    · simp only [Edge.trans, List.pairwise_map]
      exact List.Pairwise.imp_of_mem (R := fun _ _ => True) (fun _ _ _ => by simp) (List.pairwise_of_forall (fun _ _ => trivial))
    · intro r hr
      simp only [Edge.trans, List.mem_map] at hr
      obtain ⟨x, hx, rfl⟩ := hr
      simp
  · intro p _ a t ht r hr
    obtain ⟨e, h1, -, -, rfl⟩ := mem_locs.1 ht
    simp only [Edge.trans, List.mem_map] at hr
    obtain ⟨x, hx, rfl⟩ := hr
    exact ⟨0, by simp⟩
  · intro p _ a ha
    obtain ⟨t, ht⟩ := List.exists_mem_of_ne_nil _ ha
    obtain ⟨e, h1, -, h3, -⟩ := mem_locs.1 ht
    exact h3 ▸ h.act e h1

/-- `maxConstraints` is large enough if each constant is at most the entry of its clock. -/
theorem build_maxOK {n : ℕ} {acc : ℕ → Bool} {edges : List Edge} {maxC : List ℤ} (h0 : ∀ m ∈ maxC, 0 ≤ m)
    (h : ∀ e ∈ edges, ∀ c ∈ e.guard, c.c ≤ maxC.getD c.x 0) : (build n acc edges maxC).MaxOK := by
  refine ⟨h0, fun p _ a t ht => ?_⟩
  obtain ⟨e, h1, -, -, rfl⟩ := mem_locs.1 ht
  refine ⟨h e h1, fun r hr y hy => ?_⟩
  simp only [Edge.trans, List.mem_map] at hr
  obtain ⟨x, hx, rfl⟩ := hr
  cases hy

theorem build_maxOK_max {n : ℕ} {acc : ℕ → Bool} {edges : List Edge} :
    (build n acc edges (TA.makeMaxConstants (locs acc edges) (List.range n))).MaxOK := by
  refine ⟨TA.makeMax_nonneg _ _, fun p hp a t ht => ⟨fun c hc => ?_, fun r hr y hy => ?_⟩⟩
  · exact ((TA.makeMaxConstants_covers (locs acc edges) (List.range n) p hp a t ht).1 c hc).2
  · obtain ⟨e, h1, -, -, rfl⟩ := mem_locs.1 ht
    simp only [Edge.trans, List.mem_map] at hr
    obtain ⟨x, hx, rfl⟩ := hr
    cases hy

/-! ### Edges scaled by a factor -/

/-- All constants of the guard times `s`. -/
def Edge.scaleBy (s : ℤ) (e : Edge) : Edge := { e with guard := e.guard.map fun c => { c with c := s * c.c } }

/-- The two constraints contradict each other. -/
def contradict (c d : Constraint) : Bool :=
  c.x == d.x && match c.odr, d.odr with
  | .lt, .ge => decide (c.c ≤ d.c)
  | .lt, .gt => decide (c.c ≤ d.c)
  | .le, .ge => decide (c.c < d.c)
  | .le, .gt => decide (c.c ≤ d.c)
  | .ge, .lt => decide (d.c ≤ c.c)
  | .ge, .le => decide (d.c < c.c)
  | .gt, .lt => decide (d.c ≤ c.c)
  | .gt, .le => decide (d.c ≤ c.c)
  | _, _ => false

theorem contradict_spec {s : ℤ} (hs : 0 < s) {c d : Constraint} (h : contradict c d = true) (v : Valuation)
    (hc : Constraint.Holds { c with c := s * c.c } v) (hd : Constraint.Holds { d with c := s * d.c } v) : False := by
  obtain ⟨x, o, k⟩ := c
  obtain ⟨y, o', k'⟩ := d
  simp only [contradict, Bool.and_eq_true, beq_iff_eq] at h
  obtain ⟨rfl, h⟩ := h
  have hs' : (0 : ℚ) < s := by exact_mod_cast hs
  have key : ∀ {a b : ℤ}, a ≤ b → ((s * a : ℤ) : ℚ) ≤ ((s * b : ℤ) : ℚ) := fun hab => by
    exact_mod_cast mul_le_mul_of_nonneg_left hab hs.le
  have key' : ∀ {a b : ℤ}, a < b → ((s * a : ℤ) : ℚ) < ((s * b : ℤ) : ℚ) := fun hab => by
    exact_mod_cast mul_lt_mul_of_pos_left hab hs
  cases o <;> cases o' <;> simp only [Constraint.Holds, decide_eq_true_eq, Bool.false_eq_true] at h hc hd
  all_goals first
    | exact h
    | (have := key h; linarith)
    | (have := key' h; linarith)

/-- A check of a list of edges whose guards have constants from 0 to `m`. -/
def checkEdges (n : ℕ) (alphabet : List Action) (m : ℤ) (edges : List Edge) : Bool :=
  edges.all (fun e => decide (e.tgt < n) && alphabet.contains e.act && decide e.resets.Nodup &&
    e.guard.all fun c => decide (c.c ≤ m)) &&
  decide (edges.Pairwise fun e f => e.src ≠ f.src ∨ e.act ≠ f.act ∨ (e.guard.any fun c => f.guard.any (contradict c)) = true)

theorem checkEdges_ok {n : ℕ} {alphabet : List Action} {m s : ℤ} {edges : List Edge}
    (h : checkEdges n alphabet m edges = true) (hs : 0 < s) (hm : s * m < intMax) :
    EdgesOk n alphabet (edges.map (Edge.scaleBy s)) := by
  simp only [checkEdges, Bool.and_eq_true, List.all_eq_true, decide_eq_true_eq, List.contains_iff_mem] at h
  obtain ⟨h1, h2⟩ := h
  refine ⟨?_, ?_, ?_, ?_, ?_⟩
  · intro e he
    obtain ⟨e, he', rfl⟩ := List.mem_map.1 he
    exact (h1 e he').1.1.1
  · intro e he
    obtain ⟨e, he', rfl⟩ := List.mem_map.1 he
    exact (h1 e he').1.1.2
  · intro e he c hc
    obtain ⟨e, he', rfl⟩ := List.mem_map.1 he
    simp only [Edge.scaleBy, List.mem_map] at hc
    obtain ⟨c, hc, rfl⟩ := hc
    exact lt_of_le_of_lt (mul_le_mul_of_nonneg_left ((h1 e he').2 c hc) hs.le) hm
  · intro e he
    obtain ⟨e, he', rfl⟩ := List.mem_map.1 he
    exact (h1 e he').1.2
  · rw [List.pairwise_map]
    refine h2.imp fun {e f} hef h3 h4 v _ hv => ?_
    rcases hef with hef | hef | hef
    · exact hef h3
    · exact hef h4
    · simp only [List.any_eq_true] at hef
      obtain ⟨c, hc, d, hd, hcd⟩ := hef
      exact contradict_spec hs hcd v (hv.1 _ (List.mem_map.2 ⟨c, hc, rfl⟩)) (hv.2 _ (List.mem_map.2 ⟨d, hd, rfl⟩))

/-- The clocks of the edges do not depend on the factor. -/
theorem clocksBelow_scale {k : ℕ} {s : ℤ} {edges : List Edge} (h : ClocksBelow k edges) :
    ClocksBelow k (edges.map (Edge.scaleBy s)) := by
  intro e he
  obtain ⟨e, he', rfl⟩ := List.mem_map.1 he
  refine ⟨fun c hc => ?_, (h e he').2⟩
  simp only [Edge.scaleBy, List.mem_map] at hc
  obtain ⟨c, hc, rfl⟩ := hc
  exact (h e he').1 c hc

theorem unbalancedEdges_scale (s : ℤ) : unbalancedEdges s = (unbalancedEdges 1).map (Edge.scaleBy s) := by
  simp [unbalancedEdges, Edge.scaleBy]

theorem fischerEdges_scale (s : ℤ) : fischerEdges s = (fischerEdges 1).map (Edge.scaleBy s) := by
  simp only [fischerEdges, List.map_flatMap]
  congr 1; funext p; congr 1; funext a; congr 1; funext b
  simp [fischerStep, Edge.scaleBy]

theorem fddiEdges_scale (s : ℤ) : fddiEdges s = (fddiEdges 1).map (Edge.scaleBy s) := by
  simp [fddiEdges, fddiTT1, fddiRT1, fddiTau1, fddiTT2, fddiRT2, fddiTau2, fddiZero, Edge.scaleBy]

theorem lightEdges_scale (s : ℤ) : lightEdges s = (lightEdges 1).map (Edge.scaleBy s) := by
  simp [lightEdges, Edge.scaleBy, mul_comm]

theorem simpleEdges_scale (s : ℤ) : simpleEdges s = (simpleEdges 1).map (Edge.scaleBy s) := by
  simp [simpleEdges, Edge.scaleBy]

theorem fischer_check : checkEdges 256 abc 1 (fischerEdges 1) = true := by decide +kernel

theorem fddi_check : checkEdges 256 abcde 6 (fddiEdges 1) = true := by decide +kernel

end Fixture
end LearnTA
