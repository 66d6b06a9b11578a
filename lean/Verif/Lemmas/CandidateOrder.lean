import Verif.Lemmas.HypEdges
import Verif.Lemmas.Candidates

/-!
# The order in which the candidates are tried
-/

namespace LearnTA
namespace Equivalence

/-- The lexicographic order of pairs. -/
def PairLt (p q : ℕ × ℕ) : Prop := p.1 < q.1 ∨ p.1 = q.1 ∧ p.2 < q.2

theorem pairLt_iff' (p q : ℕ × ℕ) : pairLt p q = true ↔ PairLt p q := by
  unfold pairLt PairLt; simp

theorem relLe_iff (a b : List (ℕ × ℕ)) : relLe a b = true ↔ a = b ∨ List.Lex PairLt a b := by
  induction a generalizing b with
  | nil =>
    cases b with
    | nil => simp [relLe]
    | cons q m => simp only [relLe, true_iff]; exact .inr .nil
  | cons p l ih =>
    cases b with
    | nil =>
      simp only [relLe, Bool.false_eq_true, false_iff]
      rintro (h | h)
      · cases h
      · cases h
    | cons q m =>
      unfold relLe
      rw [Bool.or_eq_true, Bool.and_eq_true, pairLt_iff', ih, beq_iff_eq]
      constructor
      · rintro (h | ⟨rfl, rfl | h⟩)
        · exact .inr (.rel h)
        · exact .inl rfl
        · exact .inr (.cons h)
      · rintro (h | h)
        · cases h; exact .inr ⟨rfl, .inl rfl⟩
        · cases h with
          | rel h => exact .inl h
          | cons h => exact .inr ⟨rfl, .inr h⟩

theorem PairLt.trich (p q : ℕ × ℕ) : PairLt p q ∨ p = q ∨ PairLt q p := by
  unfold PairLt
  rcases Nat.lt_trichotomy p.1 q.1 with h | h | h
  · exact .inl (.inl h)
  · rcases Nat.lt_trichotomy p.2 q.2 with h' | h' | h'
    · exact .inl (.inr ⟨h, h'⟩)
    · exact .inr (.inl (Prod.ext h h'))
    · exact .inr (.inr (.inr ⟨h.symm, h'⟩))
  · exact .inr (.inr (.inl h))

theorem PairLt.trans {p q r : ℕ × ℕ} (h : PairLt p q) (h' : PairLt q r) : PairLt p r := by
  unfold PairLt at *; omega

theorem PairLt.irrefl (p : ℕ × ℕ) : ¬ PairLt p p := by unfold PairLt; omega

theorem lex_trans {a b c : List (ℕ × ℕ)} (h : List.Lex PairLt a b) (h' : List.Lex PairLt b c) : List.Lex PairLt a c := by
  induction h generalizing c with
  | nil => cases h' <;> exact .nil
  | rel h =>
    cases h' with
    | rel h' => exact .rel (h.trans h')
    | cons h' => exact .rel h
  | cons h ih =>
    cases h' with
    | rel h' => exact .rel h'
    | cons h' => exact .cons (ih h')

theorem lex_irrefl {a b : List (ℕ × ℕ)} (h : List.Lex PairLt a b) : a ≠ b := by
  induction h with
  | nil => intro h; cases h
  | rel h => intro e; cases e; exact PairLt.irrefl _ h
  | cons h ih => intro e; cases e; exact ih rfl

theorem lex_total (a b : List (ℕ × ℕ)) : List.Lex PairLt a b ∨ a = b ∨ List.Lex PairLt b a := by
  induction a generalizing b with
  | nil =>
    cases b with
    | nil => exact .inr (.inl rfl)
    | cons q m => exact .inl .nil
  | cons p l ih =>
    cases b with
    | nil => exact .inr (.inr .nil)
    | cons q m =>
      rcases PairLt.trich p q with h | rfl | h
      · exact .inl (.rel h)
      · rcases ih m with h | rfl | h
        · exact .inl (.cons h)
        · exact .inr (.inl rfl)
        · exact .inr (.inr (.cons h))
      · exact .inr (.inr (.rel h))

theorem generateDeterministicCandidates_order (left right : TimedCondition) (lc rc : List ℕ)
    (graph : List (List ℕ) × List (List ℕ)) (cs : List RenamingRelation)
    (h : generateDeterministicCandidates left right lc rc graph = some cs) : cs.Pairwise (List.Lex PairLt) := by
  unfold generateDeterministicCandidates at h
  rw [Option.map_eq_some_iff] at h
  obtain ⟨ds, -, rfl⟩ := h
  generalize ((ds ++ [[]]).filter _) = l
  have htot : Std.Total (fun a b : List (ℕ × ℕ) => relLe a b = true) := ⟨by
    intro a b
    rw [relLe_iff, relLe_iff]
    rcases lex_total a b with h | h | h
    · exact .inl (.inr h)
    · exact .inl (.inl h)
    · exact .inr (.inr h)⟩
  have htr : IsTrans (List (ℕ × ℕ)) (fun a b => relLe a b = true) := ⟨by
    intro a b c
    rw [relLe_iff, relLe_iff, relLe_iff]
    rintro (rfl | h) (rfl | h')
    · exact .inl rfl
    · exact .inr h'
    · exact .inr h
    · exact .inr (lex_trans h h')⟩
  have hanti : ∀ a b : List (ℕ × ℕ), relLe a b = true → relLe b a = true → a = b := by
    intro a b
    rw [relLe_iff, relLe_iff]
    rintro (rfl | h) (h' | h')
    · rfl
    · rfl
    · exact h'.symm
    · exact absurd rfl (lex_irrefl (lex_trans h h'))
  have hs := List.pairwise_insertionSort (fun a b : List (ℕ × ℕ) => relLe a b = true) l
  generalize l.insertionSort (fun a b : List (ℕ × ℕ) => relLe a b = true) = l' at hs
  cases l' with
  | nil => simp [uniqueBy]
  | cons a l' =>
    have h1 := (ObsTable.uniqueBy_go_eq (fun a b : List (ℕ × ℕ) => relLe a b = true) hanti
      (fun a b c h h' => htr.trans a b c h h') a l' hs).1
    have h2 := hs.sublist (uniqueBy_sublist (fun a b => a == b) (a :: l'))
    exact (h2.and h1).imp fun {x y} hxy => by
      rcases (relLe_iff _ _).1 hxy.1 with h | h
      · exact absurd h hxy.2
      · exact h

end Equivalence
end LearnTA
