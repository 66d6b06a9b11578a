import Verif.Lemmas.Renaming

/-!
# Lemmas on `toGraph`
-/

namespace LearnTA
namespace Equivalence

theorem mem_pushAll (e : ℕ → List ℕ) (keys : List ℕ) (x k y : ℕ) :
    y ∈ pushAll e keys x k ↔ y ∈ e k ∨ (k ∈ keys ∧ y = x) := by
  unfold pushAll
  induction keys generalizing e with
  | nil => simp
  | cons a keys ih =>
    rw [List.foldl_cons, ih]
    by_cases h : k = a
    · subst h; simp; tauto
    · simp [Function.update_of_ne h, h]

/-- The loop invariant of `toGraph`. -/
structure GraphInv (a b : ℕ → Bound) (N M : ℕ) (s : GraphState) : Prop where
  le1 : s.v1 ≤ N
  le2 : s.v2 ≤ M
  sym : ∀ i j, i ∈ s.edges2 j ↔ j ∈ s.edges1 i
  sound : ∀ i j, i ∈ s.edges2 j → i < N ∧ j < M ∧ a i = b j
  done : ∀ i < s.v1, ∀ j < s.v2, a i = b j → i ∈ s.edges2 j
  s1 : ∀ i ∈ s.same1, i < N ∧ (s.v1 < N → a i = a s.v1)
  s2 : ∀ j ∈ s.same2, j < M ∧ (s.v1 < N → b j = a s.v1)
  cover1 : ∀ i < s.v1, s.v2 < M → a i = b s.v2 → i ∈ s.same1
  cover2 : ∀ j < s.v2, s.v1 < N → b j = a s.v1 → j ∈ s.same2
  H : ∀ i < s.v1, s.v2 < M → b s.v2 ≤ a i
  H' : ∀ i < s.v1, s.v2 < M → a i = b s.v2 → s.v1 < N ∧ a s.v1 = a i
  H2 : ∀ j < s.v2, s.v1 < N → a s.v1 ≤ b j
  K : ∀ j < s.v2, s.v1 + 1 < N → b j = a s.v1 → a (s.v1 + 1) ≠ a s.v1
  D : ∀ j < s.v2, s.v1 < N → b j = a s.v1 → s.v1 ∈ s.edges2 j

variable {a b : ℕ → Bound} {N M : ℕ}

theorem graphStep_inv (ha : ∀ i, i + 1 < N → a (i + 1) ≤ a i) (hb : ∀ j, j + 1 < M → b (j + 1) ≤ b j)
    {s : GraphState} (h : GraphInv a b N M s) (h1 : s.v1 < N) (h2 : s.v2 < M) :
    GraphInv a b N M (graphStep a b N s) ∧ (graphStep a b N s).v1 + (graphStep a b N s).v2 = s.v1 + s.v2 + 1 := by
  have ha' : ∀ i k, i ≤ k → k < N → a k ≤ a i := by
    intro i k hik hk
    induction k, hik using Nat.le_induction with
    | base => exact le_rfl
    | succ k hik ih => exact (ha k hk).trans (ih (by omega))
  have hb' : ∀ i k, i ≤ k → k < M → b k ≤ b i := by
    intro i k hik hk
    induction k, hik using Nat.le_induction with
    | base => exact le_rfl
    | succ k hik ih => exact (hb k hk).trans (ih (by omega))
  by_cases he : a s.v1 = b s.v2
  · set e1 := Function.update (pushAll (Function.update s.edges1 s.v1 (s.edges1 s.v1 ++ s.same2)) s.same1 s.v2)
      s.v1 ((pushAll (Function.update s.edges1 s.v1 (s.edges1 s.v1 ++ s.same2)) s.same1 s.v2) s.v1 ++ [s.v2]) with he1
    set e2 := Function.update (Function.update (pushAll s.edges2 s.same2 s.v1) s.v2
      (pushAll s.edges2 s.same2 s.v1 s.v2 ++ s.same1)) s.v2 ((Function.update (pushAll s.edges2 s.same2 s.v1) s.v2
      (pushAll s.edges2 s.same2 s.v1 s.v2 ++ s.same1)) s.v2 ++ [s.v1]) with he2
    have m2 : ∀ i j, i ∈ e2 j ↔ i ∈ s.edges2 j ∨ (j ∈ s.same2 ∧ i = s.v1) ∨ (j = s.v2 ∧ i ∈ s.same1) ∨
        (j = s.v2 ∧ i = s.v1) := by
      intro i j
      rw [he2]
      by_cases hj : j = s.v2
      · subst hj; simp [mem_pushAll, or_assoc]
      · simp [Function.update_of_ne hj, mem_pushAll, hj]
    have m1 : ∀ i j, j ∈ e1 i ↔ j ∈ s.edges1 i ∨ (i = s.v1 ∧ j ∈ s.same2) ∨ (i ∈ s.same1 ∧ j = s.v2) ∨
        (i = s.v1 ∧ j = s.v2) := by
      intro i j
      rw [he1]
      by_cases hi : i = s.v1
      · subst hi; simp [mem_pushAll, or_assoc]
      · simp [Function.update_of_ne hi, mem_pushAll, hi]
    have sym' : ∀ i j, i ∈ e2 j ↔ j ∈ e1 i := by
      intro i j
      rw [m1, m2, h.sym]
      tauto
    have sound' : ∀ i j, i ∈ e2 j → i < N ∧ j < M ∧ a i = b j := by
      intro i j hij
      rcases (m2 i j).1 hij with g | ⟨g, rfl⟩ | ⟨rfl, g⟩ | ⟨rfl, rfl⟩
      · exact h.sound i j g
      · exact ⟨h1, (h.s2 j g).1, ((h.s2 j g).2 h1).symm⟩
      · exact ⟨(h.s1 i g).1, h2, by rw [(h.s1 i g).2 h1, he]⟩
      · exact ⟨h1, h2, he⟩
    by_cases hn : s.v1 + 1 < N ∧ a s.v1 = a (s.v1 + 1)
    · have hs : graphStep a b N s = ⟨s.v1 + 1, s.v2, e1, e2, s.same1 ++ [s.v1], s.same2 ++ [s.v2]⟩ := by
        unfold graphStep; rw [if_pos he]; simp only; rw [if_pos hn]
      rw [hs]
      obtain ⟨hn1, hn2⟩ := hn
      have nK : ∀ j < s.v2, b j ≠ a s.v1 := fun j hj e => h.K j hj hn1 e hn2.symm
      refine ⟨⟨by simp only; omega, h.le2, sym', sound', ?_, ?_, ?_, ?_, ?_, ?_, ?_, ?_, ?_, ?_⟩, by simp; omega⟩ <;> simp only
      · intro i hi j hj e
        rw [m2]
        rcases Nat.lt_succ_iff_lt_or_eq.1 hi with hi | rfl
        · exact Or.inl (h.done i hi j hj e)
        · exact absurd e.symm (nK j hj)
      · intro i hi
        rcases List.mem_append.1 hi with hi | hi
        · exact ⟨(h.s1 i hi).1, fun _ => by rw [(h.s1 i hi).2 h1, hn2]⟩
        · simp only [List.mem_singleton] at hi; subst hi; exact ⟨h1, fun _ => hn2⟩
      · intro i hi
        rcases List.mem_append.1 hi with hi | hi
        · exact ⟨(h.s2 i hi).1, fun _ => by rw [(h.s2 i hi).2 h1, hn2]⟩
        · simp only [List.mem_singleton] at hi; subst hi; exact ⟨h2, fun _ => by rw [← he, hn2]⟩
      · intro i hi _ e
        rcases Nat.lt_succ_iff_lt_or_eq.1 hi with hi | rfl
        · exact List.mem_append_left _ (h.cover1 i hi h2 e)
        · simp
      · intro j hj _ e
        exact absurd (e.trans hn2.symm) (nK j hj)
      · intro i hi _
        rcases Nat.lt_succ_iff_lt_or_eq.1 hi with hi | rfl
        · exact h.H i hi h2
        · exact he.ge
      · intro i hi _ e
        exact ⟨hn1, by rw [e, ← hn2, he]⟩
      · intro j hj _; rw [← hn2]; exact h.H2 j hj h1
      · intro j hj _ e; exact absurd (e.trans hn2.symm) (nK j hj)
      · intro j hj _ e; exact absurd (e.trans hn2.symm) (nK j hj)
    · have hs : graphStep a b N s = ⟨s.v1, s.v2 + 1, e1, e2, s.same1 ++ [s.v1], s.same2 ++ [s.v2]⟩ := by
        unfold graphStep; rw [if_pos he]; simp only; rw [if_neg hn]
      rw [hs]
      refine ⟨⟨h.le1, by simp only; omega, sym', sound', ?_, ?_, ?_, ?_, ?_, ?_, ?_, ?_, ?_, ?_⟩, by simp; omega⟩ <;> simp only
      · intro i hi j hj e
        rw [m2]
        rcases Nat.lt_succ_iff_lt_or_eq.1 hj with hj | rfl
        · exact Or.inl (h.done i hi j hj e)
        · exact Or.inr (Or.inr (Or.inl ⟨rfl, h.cover1 i hi h2 e⟩))
      · intro i hi
        rcases List.mem_append.1 hi with hi | hi
        · exact h.s1 i hi
        · simp only [List.mem_singleton] at hi; subst hi; exact ⟨h1, fun _ => rfl⟩
      · intro i hi
        rcases List.mem_append.1 hi with hi | hi
        · exact h.s2 i hi
        · simp only [List.mem_singleton] at hi; subst hi; exact ⟨h2, fun _ => he.symm⟩
      · intro i hi h2' e
        refine List.mem_append_left _ (h.cover1 i hi h2 ?_)
        have g1 := ha' i s.v1 hi.le h1
        have g2 := hb s.v2 h2'
        refine le_antisymm ?_ ?_
        · rw [e]; exact g2
        · rw [← he]; exact g1
      · intro j hj _ e
        rcases Nat.lt_succ_iff_lt_or_eq.1 hj with hj | rfl
        · exact List.mem_append_left _ (h.cover2 j hj h1 e)
        · simp
      · intro i hi h2'; exact (hb s.v2 h2').trans (h.H i hi h2)
      · intro i hi h2' e
        have g1 := ha' i s.v1 hi.le h1
        have g2 := hb s.v2 h2'
        refine ⟨h1, le_antisymm g1 ?_⟩
        rw [e, he]; exact g2
      · intro j hj _
        rcases Nat.lt_succ_iff_lt_or_eq.1 hj with hj | rfl
        · exact h.H2 j hj h1
        · exact he.le
      · intro j hj hN e e'; exact hn ⟨hN, e'.symm⟩
      · intro j hj _ e
        rw [m2]
        rcases Nat.lt_succ_iff_lt_or_eq.1 hj with hj | rfl
        · exact Or.inl (h.D j hj h1 e)
        · exact Or.inr (Or.inr (Or.inr ⟨rfl, rfl⟩))
  · by_cases hlt : a s.v1 < b s.v2
    · have hs : graphStep a b N s = ⟨s.v1, s.v2 + 1, s.edges1, s.edges2, [], []⟩ := by
        unfold graphStep; rw [if_neg he, if_pos hlt]
      rw [hs]
      have gt : ∀ i < s.v1, b s.v2 < a i := by
        intro i hi
        refine lt_of_le_of_ne (h.H i hi h2) fun e => ?_
        exact he ((h.H' i hi h2 e.symm).2.trans e.symm)
      refine ⟨⟨h.le1, by simp only; omega, h.sym, h.sound, ?_, by simp, by simp, ?_, ?_, ?_, ?_, ?_, ?_, ?_⟩, by simp; omega⟩ <;>
        simp only
      · intro i hi j hj e
        rcases Nat.lt_succ_iff_lt_or_eq.1 hj with hj | rfl
        · exact h.done i hi j hj e
        · exact absurd e (gt i hi).ne'
      · intro i hi h2' e; exact absurd e ((hb s.v2 h2').trans_lt (gt i hi)).ne'
      · intro j hj _ e; exact absurd e (hlt.trans_le (hb' j s.v2 (by omega) h2)).ne'
      · intro i hi h2'; exact (hb s.v2 h2').trans (gt i hi).le
      · intro i hi h2' e; exact absurd e ((hb s.v2 h2').trans_lt (gt i hi)).ne'
      · intro j hj _; exact (hlt.trans_le (hb' j s.v2 (by omega) h2)).le
      · intro j hj _ e; exact absurd e (hlt.trans_le (hb' j s.v2 (by omega) h2)).ne'
      · intro j hj _ e; exact absurd e (hlt.trans_le (hb' j s.v2 (by omega) h2)).ne'
    · have hgt : b s.v2 < a s.v1 := lt_of_le_of_ne (not_lt.1 hlt) (Ne.symm he)
      have hs : graphStep a b N s = ⟨s.v1 + 1, s.v2, s.edges1, s.edges2, [], []⟩ := by
        unfold graphStep; rw [if_neg he, if_neg hlt]
      rw [hs]
      have gt : ∀ i < s.v1 + 1, b s.v2 < a i := fun i hi => hgt.trans_le (ha' i s.v1 (by omega) h1)
      have ne : ∀ j < s.v2, s.v1 + 1 < N → b j ≠ a (s.v1 + 1) := by
        intro j hj hN e
        have g1 := h.H2 j hj h1
        have g2 := ha s.v1 hN
        have g3 : a s.v1 = a (s.v1 + 1) := le_antisymm (by rw [← e]; exact g1) g2
        exact h.K j hj hN (by rw [e, g3]) g3.symm
      refine ⟨⟨by simp only; omega, h.le2, h.sym, h.sound, ?_, by simp, by simp, ?_, ?_, ?_, ?_, ?_, ?_, ?_⟩, by simp; omega⟩ <;>
        simp only
      · intro i hi j hj e
        rcases Nat.lt_succ_iff_lt_or_eq.1 hi with hi | rfl
        · exact h.done i hi j hj e
        · exact h.D j hj h1 e.symm
      · intro i hi _ e; exact absurd e (gt i hi).ne'
      · intro j hj hN e; exact absurd e (ne j hj hN)
      · intro i hi _; exact (gt i hi).le
      · intro i hi _ e; exact absurd e (gt i hi).ne'
      · intro j hj hN; exact (ha s.v1 hN).trans (h.H2 j hj h1)
      · intro j hj hN e; exact absurd e (ne j hj (by omega))
      · intro j hj hN e; exact absurd e (ne j hj hN)

theorem graphLoop_inv (ha : ∀ i, i + 1 < N → a (i + 1) ≤ a i) (hb : ∀ j, j + 1 < M → b (j + 1) ≤ b j)
    (n : ℕ) {s : GraphState} (h : GraphInv a b N M s) (hn : N + M ≤ n + s.v1 + s.v2) :
    GraphInv a b N M (graphLoop a b N M n s) ∧
      ((graphLoop a b N M n s).v1 = N ∨ (graphLoop a b N M n s).v2 = M) := by
  induction n generalizing s with
  | zero =>
    have := h.le1; have := h.le2
    exact ⟨h, by simp only [graphLoop]; omega⟩
  | succ n ih =>
    unfold graphLoop
    split
    · rename_i hv
      obtain ⟨g1, g2⟩ := graphStep_inv ha hb h hv.1 hv.2
      exact ih g1 (by omega)
    · rename_i hv
      have := h.le1; have := h.le2
      exact ⟨h, by omega⟩

theorem graph_complete (ha : ∀ i, i + 1 < N → a (i + 1) ≤ a i) (hb : ∀ j, j + 1 < M → b (j + 1) ≤ b j)
    {s : GraphState} (h : GraphInv a b N M s) (he : s.v1 = N ∨ s.v2 = M) {i j : ℕ} (hi : i < N) (hj : j < M) :
    i ∈ s.edges2 j ↔ a i = b j := by
  have ha' : ∀ i k, i ≤ k → k < N → a k ≤ a i := by
    intro i k hik hk
    induction k, hik using Nat.le_induction with
    | base => exact le_rfl
    | succ k hik ih => exact (ha k hk).trans (ih (by omega))
  have hb' : ∀ i k, i ≤ k → k < M → b k ≤ b i := by
    intro i k hik hk
    induction k, hik using Nat.le_induction with
    | base => exact le_rfl
    | succ k hik ih => exact (hb k hk).trans (ih (by omega))
  refine ⟨fun g => (h.sound i j g).2.2, fun e => ?_⟩
  have l1 := h.le1
  have l2 := h.le2
  rcases Nat.lt_or_ge i s.v1 with h1 | h1
  · rcases Nat.lt_or_ge j s.v2 with h2 | h2
    · exact h.done i h1 j h2 e
    · have hv : s.v1 = N := by omega
      have g1 := h.H i h1 (by omega)
      have g2 := hb' s.v2 j h2 hj
      have := h.H' i h1 (by omega) (le_antisymm (by rw [e]; exact g2) g1)
      omega
  · have hv : s.v2 = M := by omega
    have g1 := h.H2 j (by omega) (by omega)
    have g2 := ha' s.v1 i h1 hi
    have g3 : b j = a s.v1 := le_antisymm (by rw [← e]; exact g2) g1
    rcases Nat.lt_or_eq_of_le h1 with h1 | h1
    · refine absurd ?_ (h.K j (by omega) (by omega) g3)
      refine le_antisymm (ha _ (by omega)) ?_
      rw [← g3, ← e]; exact ha' (s.v1 + 1) i (by omega) hi
    · rw [← h1]; exact h.D j (by omega) (by omega) g3

theorem init_inv : GraphInv a b N M ⟨0, 0, fun _ => [], fun _ => [], [], []⟩ := by
  constructor <;> simp

/-- The graph is the relation "same upper bound". -/
theorem toGraph_spec {left right : TimedCondition}
    (ha : ∀ i, i + 1 < left.size → left.upper (i + 1) (left.size - 1) ≤ left.upper i (left.size - 1))
    (hb : ∀ j, j + 1 < right.size → right.upper (j + 1) (right.size - 1) ≤ right.upper j (right.size - 1)) :
    (∀ j < right.size, ((toGraph left right).2.getD j []).Pairwise (· < ·) ∧ ∀ i,
      i ∈ (toGraph left right).2.getD j [] ↔
        i < left.size ∧ left.upper i (left.size - 1) = right.upper j (right.size - 1)) ∧
    (∀ i < left.size, ((toGraph left right).1.getD i []).Pairwise (· < ·) ∧ ∀ j,
      j ∈ (toGraph left right).1.getD i [] ↔
        j < right.size ∧ left.upper i (left.size - 1) = right.upper j (right.size - 1)) := by
  obtain ⟨h1, h2⟩ := graphLoop_inv ha hb (left.size + right.size) (init_inv (N := left.size) (M := right.size))
    (by simp)
  have hc := fun i j hi hj => graph_complete ha hb h1 h2 (i := i) (j := j) hi hj
  constructor
  · intro j hj
    have e : (toGraph left right).2.getD j [] = sortUnique ((graphLoop (fun i => left.upper i (left.size - 1))
        (fun j => right.upper j (right.size - 1)) left.size right.size (left.size + right.size)
        ⟨0, 0, fun _ => [], fun _ => [], [], []⟩).edges2 j) := by
      unfold toGraph
      simp [List.getD_eq_getElem?_getD, hj]
    rw [e]
    refine ⟨(sortUnique_spec _).1, fun i => ?_⟩
    rw [(sortUnique_spec _).2]
    constructor
    · intro h
      have := h1.sound i j h
      exact ⟨this.1, this.2.2⟩
    · rintro ⟨g1, g2⟩; exact (hc i j g1 hj).2 g2
  · intro i hi
    have e : (toGraph left right).1.getD i [] = sortUnique ((graphLoop (fun i => left.upper i (left.size - 1))
        (fun j => right.upper j (right.size - 1)) left.size right.size (left.size + right.size)
        ⟨0, 0, fun _ => [], fun _ => [], [], []⟩).edges1 i) := by
      unfold toGraph
      simp [List.getD_eq_getElem?_getD, hi]
    rw [e]
    refine ⟨(sortUnique_spec _).1, fun j => ?_⟩
    rw [(sortUnique_spec _).2, ← h1.sym]
    constructor
    · intro h
      have := h1.sound i j h
      exact ⟨this.2.1, this.2.2⟩
    · rintro ⟨g1, g2⟩; exact (hc i j hi g1).2 g2

end Equivalence
end LearnTA
