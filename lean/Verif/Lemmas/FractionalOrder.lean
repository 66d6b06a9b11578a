import Verif.Spec.ElementaryLanguage
import Mathlib.Data.List.Sort
import Mathlib.Tactic.Linarith

/-!
# Fractional orders
-/

namespace LearnTA
namespace FractionalOrder

theorem getLastD_snoc (r : List (List ℕ)) (l d : List ℕ) : (r ++ [l]).getLastD d = l := by
  rw [List.getLastD_eq_getLast?, List.getLast?_append]; simp

theorem swapEnds_snoc (a l : List ℕ) (r : List (List ℕ)) :
    swapEnds (a :: (r ++ [l])) = l :: (r ++ [a]) := by
  cases r with
  | nil => simp [swapEnds]
  | cons b r =>
    simp only [List.cons_append, swapEnds]
    rw [show b :: (r ++ [l]) = (b :: r) ++ [l] by simp, List.dropLast_concat,
      getLastD_snoc]
    rfl

/-! ### The partition -/

theorem Partition.size_pos {f : FractionalOrder} (h : f.Partition) {g : List ℕ} (hg : g ∈ f.order)
    (hne : g ≠ []) : 0 < f.size := by
  obtain ⟨a, ha⟩ := List.exists_mem_of_ne_nil g hne
  have := h.perm.mem_iff.1 (List.mem_flatten.2 ⟨g, hg, ha⟩)
  have := List.mem_range.1 this
  omega

theorem Partition.mem_iff {f : FractionalOrder} (h : f.Partition) (i : ℕ) :
    (∃ g ∈ f.order, i ∈ g) ↔ i < f.size := by
  rw [← List.mem_flatten, h.perm.mem_iff, List.mem_range]

theorem Partition.nodup {f : FractionalOrder} (h : f.Partition) : f.order.flatten.Nodup :=
  h.perm.nodup_iff.2 List.nodup_range

theorem init_partition : init.Partition := by
  refine ⟨by simp [init], by simp [init, List.range_succ], by simp [init], by simp [init]⟩

/-- The two shapes of the order of a partition with at least one variable. -/
theorem Partition.shape {f : FractionalOrder} (h : f.Partition) (hs : 0 < f.size) :
    (∃ g gs, f.order = g :: gs ∧ g ≠ []) ∨ ∃ r l, f.order = [] :: (r ++ [l]) ∧ l ≠ [] := by
  rcases ho : f.order with _ | ⟨g, gs⟩
  · exact absurd ho h.ne
  · by_cases hg : g = []
    · right
      subst hg
      rcases List.eq_nil_or_concat gs with e | ⟨r, l, e⟩
      · subst e
        have := h.perm
        rw [ho] at this
        simp at this
        omega
      · rw [List.concat_eq_append] at e
        refine ⟨r, l, by rw [e], ?_⟩
        exact h.nonempty l (by rw [ho, e]; simp)
    · exact Or.inl ⟨g, gs, rfl, hg⟩

theorem successor_front {f : FractionalOrder} {g : List ℕ} {gs : List (List ℕ)} (ho : f.order = g :: gs)
    (hg : g ≠ []) : f.successor = { f with order := [] :: g :: gs } ∧ f.successorVariables = g := by
  unfold successor successorVariables
  simp [ho, List.isEmpty_iff, hg]

theorem successor_back {f : FractionalOrder} {r : List (List ℕ)} {l : List ℕ}
    (ho : f.order = [] :: (r ++ [l])) :
    f.successor = { f with order := l :: r } ∧ f.successorVariables = l := by
  unfold successor successorVariables
  simp only [ho, List.headD_cons, List.isEmpty_nil, if_true, swapEnds_snoc]
  refine ⟨?_, ?_⟩
  · congr 1
    rw [show l :: (r ++ [([] : List ℕ)]) = (l :: r) ++ [[]] by simp, List.dropLast_concat]
  · rw [show ([] : List ℕ) :: (r ++ [l]) = ([] :: r) ++ [l] by simp, getLastD_snoc]

theorem predecessor_front {f : FractionalOrder} {g : List ℕ} {gs : List (List ℕ)} (ho : f.order = g :: gs)
    (hg : g ≠ []) : f.predecessor = { f with order := [] :: (gs ++ [g]) } ∧ f.predecessorVariables = g := by
  unfold predecessor predecessorVariables
  simp only [ho, List.headD_cons, List.isEmpty_iff, hg, if_false, and_true]
  congr 1
  rw [List.cons_append, swapEnds_snoc]

theorem predecessor_back {f : FractionalOrder} {g : List ℕ} {gs : List (List ℕ)}
    (ho : f.order = [] :: g :: gs) :
    f.predecessor = { f with order := g :: gs } ∧ f.predecessorVariables = g := by
  unfold predecessor predecessorVariables
  simp [ho]

theorem perm_rotate (r : List (List ℕ)) (l : List ℕ) :
    (l :: r).flatten.Perm (r ++ [l]).flatten := by
  simp only [List.flatten_cons, List.flatten_append, List.flatten_nil, List.append_nil]
  exact List.perm_append_comm

theorem Partition.successor {f : FractionalOrder} (h : f.Partition) (hs : 0 < f.size) :
    f.successor.Partition ∧ f.successor.size = f.size := by
  rcases h.shape hs with ⟨g, gs, ho, hg⟩ | ⟨r, l, ho, hl⟩
  · rw [(successor_front ho hg).1]
    refine ⟨⟨by simp, ?_, ?_, ?_⟩, rfl⟩
    · have := h.perm; rw [ho] at this; simpa using this
    · intro x hx
      rcases List.mem_cons.1 hx with rfl | hx
      · simp
      · exact h.sorted x (by rw [ho]; exact hx)
    · intro x hx
      simp only [List.tail_cons] at hx
      rcases List.mem_cons.1 hx with rfl | hx
      · exact hg
      · exact h.nonempty x (by rw [ho]; exact hx)
  · rw [(successor_back ho).1]
    refine ⟨⟨by simp, ?_, ?_, ?_⟩, rfl⟩
    · have := h.perm; rw [ho] at this
      exact (perm_rotate r l).trans (by simpa using this)
    · intro x hx
      exact h.sorted x (by rw [ho]; simp at hx ⊢; tauto)
    · intro x hx
      exact h.nonempty x (by rw [ho]; simp at hx ⊢; tauto)

theorem Partition.predecessor {f : FractionalOrder} (h : f.Partition) (hs : 0 < f.size) :
    f.predecessor.Partition ∧ f.predecessor.size = f.size := by
  rcases h.shape hs with ⟨g, gs, ho, hg⟩ | ⟨r, l, ho, hl⟩
  · rw [(predecessor_front ho hg).1]
    refine ⟨⟨by simp, ?_, ?_, ?_⟩, rfl⟩
    · have := h.perm; rw [ho] at this
      refine List.Perm.trans ?_ this
      simpa using (perm_rotate gs g).symm
    · intro x hx
      rcases List.mem_cons.1 hx with rfl | hx
      · simp
      · exact h.sorted x (by rw [ho]; simp at hx ⊢; tauto)
    · intro x hx
      simp only [List.tail_cons, List.mem_append, List.mem_singleton] at hx
      rcases hx with hx | rfl
      · exact h.nonempty x (by rw [ho]; exact hx)
      · exact hg
  · obtain ⟨g, gs, e⟩ : ∃ g gs, r ++ [l] = g :: gs := by
      cases r with
      | nil => exact ⟨l, [], rfl⟩
      | cons a r => exact ⟨a, r ++ [l], rfl⟩
    rw [e] at ho
    rw [(predecessor_back ho).1]
    refine ⟨⟨by simp, ?_, ?_, ?_⟩, rfl⟩
    · have := h.perm; rw [ho] at this; simpa using this
    · intro x hx
      exact h.sorted x (by rw [ho]; exact List.mem_cons_of_mem _ hx)
    · intro x hx
      exact h.nonempty x (by rw [ho]; exact List.mem_cons_of_mem _ hx)

theorem predecessor_successor {f : FractionalOrder} (h : f.Partition) (hs : 0 < f.size) :
    f.successor.predecessor = f := by
  rcases h.shape hs with ⟨g, gs, ho, hg⟩ | ⟨r, l, ho, hl⟩
  · rw [(successor_front ho hg).1, (predecessor_back (g := g) (gs := gs) rfl).1, ← ho]
  · rw [(successor_back ho).1, (predecessor_front (g := l) (gs := r) rfl hl).1]
    simp only
    rw [← ho]

theorem successor_predecessor {f : FractionalOrder} (h : f.Partition) (hs : 0 < f.size) :
    f.predecessor.successor = f ∧ f.predecessor.successorVariables = f.predecessorVariables := by
  rcases h.shape hs with ⟨g, gs, ho, hg⟩ | ⟨r, l, ho, hl⟩
  · obtain ⟨e1, e2⟩ := predecessor_front ho hg
    obtain ⟨e3, e4⟩ := successor_back (f := { f with order := [] :: (gs ++ [g]) }) (r := gs) (l := g) rfl
    rw [e1, e2, e3, e4]
    exact ⟨by simp [← ho], rfl⟩
  · obtain ⟨g, gs, e⟩ : ∃ g gs, r ++ [l] = g :: gs := by
      cases r with
      | nil => exact ⟨l, [], rfl⟩
      | cons a r => exact ⟨a, r ++ [l], rfl⟩
    rw [e] at ho
    have hg : g ≠ [] := h.nonempty g (by rw [ho]; simp)
    obtain ⟨e1, e2⟩ := predecessor_back ho
    obtain ⟨e3, e4⟩ := successor_front (f := { f with order := g :: gs }) (g := g) (gs := gs) rfl hg
    rw [e1, e2, e3, e4]
    exact ⟨by simp [← ho], rfl⟩

theorem predecessorVariables_successor {f : FractionalOrder} (h : f.Partition) (hs : 0 < f.size) :
    f.successor.predecessorVariables = f.successorVariables := by
  rcases h.shape hs with ⟨g, gs, ho, hg⟩ | ⟨r, l, ho, hl⟩
  · obtain ⟨e1, e2⟩ := successor_front ho hg
    rw [e1, e2, (predecessor_back (g := g) (gs := gs) rfl).2]
  · obtain ⟨e1, e2⟩ := successor_back ho
    rw [e1, e2, (predecessor_front (g := l) (gs := r) rfl hl).2]

theorem Partition.order_eq {f : FractionalOrder} (h : f.Partition) :
    ∃ g gs, f.order = g :: gs := by
  rcases ho : f.order with _ | ⟨g, gs⟩
  · exact absurd ho h.ne
  · exact ⟨g, gs, rfl⟩

theorem Partition.extendN {f : FractionalOrder} (h : f.Partition) : f.extendN.Partition := by
  obtain ⟨g, gs, ho⟩ := h.order_eq
  have hp := h.perm
  unfold FractionalOrder.extendN
  simp only [ho, List.headD_cons, List.tail_cons] at hp ⊢
  refine ⟨by simp, ?_, ?_, ?_⟩
  · rw [List.range_succ]
    simp only [List.flatten_cons] at hp ⊢
    rw [List.append_assoc]
    refine List.Perm.trans (l₂ := (g ++ gs.flatten) ++ [f.size]) ?_ (hp.append_right _)
    rw [List.append_assoc]
    exact List.perm_append_comm.append_left g
  · intro x hx
    rcases List.mem_cons.1 hx with rfl | hx
    · rw [List.pairwise_append]
      refine ⟨h.sorted g (by rw [ho]; simp), by simp, ?_⟩
      intro a ha b hb
      rw [List.mem_singleton.1 hb]
      exact (h.mem_iff a).1 ⟨g, by rw [ho]; simp, ha⟩
    · exact h.sorted x (by rw [ho]; simp [hx])
  · intro x hx
    exact h.nonempty x (by rw [ho]; simpa using hx)

theorem removeN_extendN {f : FractionalOrder} (h : f.Partition) : f.extendN.removeN = f := by
  obtain ⟨g, gs, ho⟩ := h.order_eq
  unfold FractionalOrder.extendN FractionalOrder.removeN
  simp [ho]
  cases f; simp_all

theorem sorted_append_last {g : List ℕ} {n : ℕ} (hs : g.Pairwise (· < ·)) (hn : n ∈ g)
    (hm : ∀ i ∈ g, i ≤ n) : g = g.dropLast ++ [n] := by
  have hne : g ≠ [] := List.ne_nil_of_mem hn
  rcases List.eq_nil_or_concat g with e | ⟨r, l, e⟩
  · exact absurd e hne
  · rw [List.concat_eq_append] at e
    subst e
    simp only [List.dropLast_concat]
    rw [List.pairwise_append] at hs
    rcases List.mem_append.1 hn with h | h
    · have h1 := hs.2.2 n h l (by simp)
      have h2 := hm l (by simp)
      omega
    · simp at h; rw [h]

/-- If the last variable is in the first group, `removeN` removes it. -/
theorem removeN_of {f : FractionalOrder} (h : f.Partition) {n : ℕ} (hs : f.size = n + 1)
    (hn : n ∈ f.order.headD []) : f.removeN.Partition ∧ f.removeN.extendN = f := by
  obtain ⟨g, gs, ho⟩ := h.order_eq
  simp only [ho, List.headD_cons] at hn
  have hg : g = g.dropLast ++ [n] := sorted_append_last (h.sorted g (by rw [ho]; simp)) hn fun i hi => by
    have := (h.mem_iff i).1 ⟨g, by rw [ho]; simp, hi⟩
    omega
  have he : f.removeN.extendN = f := by
    unfold FractionalOrder.extendN FractionalOrder.removeN
    simp only [ho, List.headD_cons, List.tail_cons, hs, Nat.add_sub_cancel]
    rw [← hg]
    obtain ⟨o, n'⟩ := f
    simp only at ho hs
    rw [ho, hs]
  refine ⟨⟨by simp [FractionalOrder.removeN], ?_, ?_, ?_⟩, he⟩
  · have hp := h.perm
    rw [ho, hs, List.range_succ, List.flatten_cons, hg] at hp
    simp only [FractionalOrder.removeN, ho, List.headD_cons, List.tail_cons, List.flatten_cons, hs,
      Nat.add_sub_cancel]
    have : (g.dropLast ++ gs.flatten ++ [n]).Perm (List.range n ++ [n]) := by
      refine List.Perm.trans ?_ hp
      rw [List.append_assoc, List.append_assoc]
      exact List.perm_append_comm.append_left _
    exact (List.perm_append_right_iff _).1 this
  · intro x hx
    simp only [FractionalOrder.removeN, ho, List.headD_cons, List.tail_cons] at hx
    rcases List.mem_cons.1 hx with rfl | hx
    · exact (h.sorted g (by rw [ho]; simp)).sublist (List.dropLast_sublist g)
    · exact h.sorted x (by rw [ho]; simp [hx])
  · intro x hx
    exact h.nonempty x (by rw [ho]; simpa [FractionalOrder.removeN, ho] using hx)

theorem Partition.extendZero {f : FractionalOrder} (h : f.Partition) : f.extendZero.Partition := by
  obtain ⟨g, gs, ho⟩ := h.order_eq
  have hp := h.perm
  unfold FractionalOrder.extendZero
  simp only [ho, List.map_cons, List.headD_cons, List.tail_cons] at hp ⊢
  refine ⟨by simp, ?_, ?_, ?_⟩
  · rw [List.range_succ_eq_map]
    simp only [List.flatten_cons, List.cons_append] at hp ⊢
    refine List.Perm.cons _ ?_
    have := hp.map (· + 1)
    rw [List.map_append, List.map_flatten] at this
    exact this
  · intro x hx
    rcases List.mem_cons.1 hx with rfl | hx
    · rw [List.pairwise_cons]
      refine ⟨by simp, ?_⟩
      rw [List.pairwise_map]
      exact (h.sorted g (by rw [ho]; simp)).imp (by intros; omega)
    · obtain ⟨y, hy, rfl⟩ := List.mem_map.1 hx
      rw [List.pairwise_map]
      exact (h.sorted y (by rw [ho]; simp [hy])).imp (by intros; omega)
  · intro x hx
    simp only [List.tail_cons] at hx
    obtain ⟨y, hy, rfl⟩ := List.mem_map.1 hx
    have := h.nonempty y (by rw [ho]; simpa using hy)
    simpa using this

/-! ### The order of given fractional parts -/

/-- Invariant of the loop of the constructor. -/
def GInv (fr : ℕ → ℚ) (rest : List (ℚ × ℕ)) (idx : List ℕ) (s : ℚ × List (List ℕ)) : Prop :=
  ∃ (os : List (List ℕ)) (g : List ℕ) (Qs : List ℚ), s.2 = os ++ [g] ∧
    List.Forall₂ (fun g q => ∀ i ∈ g, fr i = q) os Qs ∧ (∀ i ∈ g, fr i = s.1) ∧
    (Qs ++ [s.1]).Pairwise (· < ·) ∧ (Qs ++ [s.1]).head? = some 0 ∧
    s.2.flatten = idx ∧ (∀ x ∈ s.2, x.Pairwise (· < ·)) ∧ (∀ x ∈ s.2.tail, x ≠ []) ∧
    ∀ p ∈ rest, s.1 ≤ p.1 ∧ (p.1 = s.1 → ∀ i ∈ g, i < p.2)

theorem groupStep_inv {fr : ℕ → ℚ} {p : ℚ × ℕ} {rest : List (ℚ × ℕ)} {idx : List ℕ}
    {s : ℚ × List (List ℕ)} (h : GInv fr (p :: rest) idx s) (hp : fr p.2 = p.1)
    (hsort : ∀ q ∈ rest, p.1 < q.1 ∨ (p.1 = q.1 ∧ p.2 < q.2)) :
    GInv fr rest (idx ++ [p.2]) (groupStep s p) := by
  obtain ⟨os, g, Qs, h1, h2, h3, h4, h5, h6, h7, h8, h9⟩ := h
  obtain ⟨hle, hlt⟩ := h9 p (by simp)
  unfold groupStep
  by_cases e : s.1 = p.1
  · simp only [e, if_true]
    rw [h1, List.dropLast_concat, getLastD_snoc]
    refine ⟨os, g ++ [p.2], Qs, rfl, h2, ?_, ?_, ?_, ?_, ?_, ?_, ?_⟩
    · intro i hi
      rcases List.mem_append.1 hi with hi | hi
      · rw [h3 i hi, e]
      · rw [List.mem_singleton.1 hi]; exact hp
    · simpa [← e] using h4
    · simpa [← e] using h5
    · rw [← h6, h1]; simp
    · intro x hx
      rcases List.mem_append.1 hx with hx | hx
      · exact h7 x (by rw [h1]; simp [hx])
      · rw [List.mem_singleton.1 hx, List.pairwise_append]
        refine ⟨h7 g (by rw [h1]; simp), by simp, ?_⟩
        intro a ha b hb
        rw [List.mem_singleton.1 hb]
        exact hlt e.symm a ha
    · intro x hx
      cases os with
      | nil => simp at hx
      | cons o os =>
        simp only [List.cons_append, List.tail_cons, List.mem_append, List.mem_singleton] at hx
        rcases hx with hx | hx
        · exact h8 x (by rw [h1]; simp [hx])
        · rw [hx]; simp
    · intro q hq
      rcases hsort q hq with hq' | ⟨hq1, hq2⟩
      · exact ⟨hq'.le, fun e' => absurd e' (ne_of_gt hq')⟩
      · refine ⟨hq1.le, fun _ i hi => ?_⟩
        rcases List.mem_append.1 hi with hi | hi
        · exact (hlt e.symm i hi).trans hq2
        · rw [List.mem_singleton.1 hi]; exact hq2
  · simp only [e, if_false]
    have hlt' : s.1 < p.1 := lt_of_le_of_ne hle e
    refine ⟨os ++ [g], [p.2], Qs ++ [s.1], by rw [h1], ?_, ?_, ?_, ?_, ?_, ?_, ?_, ?_⟩
    · exact List.rel_append h2 (List.Forall₂.cons h3 List.Forall₂.nil)
    · intro i hi; rw [List.mem_singleton.1 hi]; exact hp
    · rw [List.pairwise_append]
      refine ⟨h4, by simp, ?_⟩
      intro a ha b hb
      rw [List.mem_singleton.1 hb]
      refine lt_of_le_of_lt ?_ hlt'
      rcases List.mem_append.1 ha with ha | ha
      · exact ((List.pairwise_append.1 h4).2.2 a ha _ (by simp)).le
      · rw [List.mem_singleton.1 ha]
    · rw [List.head?_append, h5]; rfl
    · rw [← h6]; simp
    · intro x hx
      rcases List.mem_append.1 hx with hx | hx
      · exact h7 x hx
      · rw [List.mem_singleton.1 hx]; simp
    · intro x hx
      rw [h1] at hx h8
      cases os with
      | nil => simp at hx; rw [hx]; simp
      | cons o os =>
        simp only [List.cons_append, List.tail_cons, List.mem_append, List.mem_singleton] at hx h8
        rcases hx with hx | hx
        · exact h8 x hx
        · rw [hx]; simp
    · intro q hq
      rcases hsort q hq with hq' | ⟨hq1, hq2⟩
      · exact ⟨hq'.le, fun e' => absurd e' (ne_of_gt hq')⟩
      · refine ⟨hq1.le, fun _ i hi => ?_⟩
        rw [List.mem_singleton.1 hi]; exact hq2

theorem foldl_groupStep {fr : ℕ → ℚ} (rest : List (ℚ × ℕ)) {idx : List ℕ}
    {s : ℚ × List (List ℕ)} (h : GInv fr rest idx s) (hp : ∀ p ∈ rest, fr p.2 = p.1)
    (hsort : rest.Pairwise fun p q => p.1 < q.1 ∨ (p.1 = q.1 ∧ p.2 < q.2)) :
    GInv fr [] (idx ++ rest.map (·.2)) (rest.foldl groupStep s) := by
  induction rest generalizing idx s with
  | nil => simpa using h
  | cons p rest ih =>
    rw [List.pairwise_cons] at hsort
    have := ih (groupStep_inv h (hp p (by simp)) hsort.1) (fun q hq => hp q (by simp [hq])) hsort.2
    simpa using this

theorem ofFractionalParts_spec (v : ℕ → ℚ) (n : ℕ) (fs : List ℚ) (hl : fs.length = n)
    (hfs : ∀ i (h : i < fs.length), fs[i] = Int.fract (v i)) :
    (ofFractionalParts fs).size = n ∧ (ofFractionalParts fs).Partition ∧
      (ofFractionalParts fs).Describes v := by
  refine ⟨hl, ?_⟩
  have htot : ∀ a b : ℚ × ℕ, pairLe a b ∨ pairLe b a := by
    intro a b; unfold pairLe
    rcases lt_trichotomy a.1 b.1 with h | h | h
    · exact Or.inl (Or.inl h)
    · rcases le_total a.2 b.2 with h' | h'
      · exact Or.inl (Or.inr ⟨h, h'⟩)
      · exact Or.inr (Or.inr ⟨h.symm, h'⟩)
    · exact Or.inr (Or.inl h)
  have htr : ∀ a b c : ℚ × ℕ, pairLe a b → pairLe b c → pairLe a c := by
    intro a b c; unfold pairLe
    rintro (h | ⟨h, h'⟩) (g | ⟨g, g'⟩)
    · exact Or.inl (h.trans g)
    · exact Or.inl (g ▸ h)
    · exact Or.inl (h ▸ g)
    · exact Or.inr ⟨h.trans g, h'.trans g'⟩
  haveI : Std.Total (α := ℚ × ℕ) pairLe := ⟨htot⟩
  haveI : IsTrans (ℚ × ℕ) pairLe := ⟨htr⟩
  have hperm := List.perm_insertionSort pairLe fs.zipIdx
  have hs := List.pairwise_insertionSort pairLe fs.zipIdx
  have hidx : (fs.zipIdx.map (·.2)) = List.range n := by
    rw [List.zipIdx_map_snd, hl, List.range_eq_range']
  have hnd : ((fs.zipIdx.insertionSort pairLe).map (·.2)).Nodup := by
    rw [(hperm.map _).nodup_iff, hidx]; exact List.nodup_range
  have hval : ∀ p ∈ fs.zipIdx.insertionSort pairLe, Int.fract (v p.2) = p.1 := by
    intro p hp
    have := hperm.mem_iff.1 hp
    obtain ⟨h1, h2⟩ := List.mem_zipIdx' this
    rw [h2, hfs _ h1]
  have hsort : (fs.zipIdx.insertionSort pairLe).Pairwise
      fun p q => p.1 < q.1 ∨ (p.1 = q.1 ∧ p.2 < q.2) := by
    rw [List.Nodup, List.pairwise_map] at hnd
    refine (hs.and hnd).imp ?_
    rintro a b ⟨h1, h2⟩
    rcases h1 with h1 | ⟨h1, h3⟩
    · exact Or.inl h1
    · exact Or.inr ⟨h1, lt_of_le_of_ne h3 h2⟩
  have h0 : GInv (fun i => Int.fract (v i)) (fs.zipIdx.insertionSort pairLe) [] (0, [[]]) := by
    refine ⟨[], [], [], rfl, List.Forall₂.nil, by simp, by simp, by simp, by simp, by simp, by simp, ?_⟩
    intro p hp
    refine ⟨?_, by simp⟩
    rw [← hval p hp]; exact Int.fract_nonneg _
  have hf := foldl_groupStep _ h0 hval hsort
  obtain ⟨os, g, Qs, h1, h2, h3, h4, h5, h6, h7, h8, _⟩ := hf
  set s := (fs.zipIdx.insertionSort pairLe).foldl groupStep (0, [[]]) with hsdef
  have eo : (ofFractionalParts fs).order = s.2 := rfl
  have hQ : ∃ qs, Qs ++ [s.1] = 0 :: qs := by
    cases hq : Qs ++ [s.1] with
    | nil => simp at hq
    | cons a l => rw [hq] at h5; simp at h5; exact ⟨l, by rw [h5]⟩
  obtain ⟨qs, hqs⟩ := hQ
  refine ⟨⟨by rw [eo, h1]; simp, ?_, by rw [eo]; exact h7, by rw [eo]; exact h8⟩, qs, hqs ▸ h4, ?_⟩
  · rw [eo, h6]
    simp only [List.nil_append]
    show List.Perm _ (List.range fs.length)
    rw [hl, ← hidx]
    exact hperm.map _
  · rw [eo, h1, ← hqs]
    exact List.rel_append h2 (List.Forall₂.cons h3 List.Forall₂.nil)

end FractionalOrder
end LearnTA
