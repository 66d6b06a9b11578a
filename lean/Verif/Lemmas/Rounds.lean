import Verif.Lemmas.Counterexample
import Verif.Lemmas.ObservationTable7
import Mathlib.Data.Finset.Card
import Mathlib.Data.Finset.Powerset
import Mathlib.Data.Finset.Prod

/-!
# Lemmas: merges that are refuted
-/

namespace LearnTA
namespace ObsTable
variable {σ : Type} {f : TimedWord → Bool} {T T' T'' : ObsTable σ}

/-- Words of `p` and `q` whose clocks agree as the edges say agree on all continuations by the suffixes. -/
def Agrees (f : TimedWord → Bool) (p q : ForwardRegional) (suffixes : List ElementaryLanguage) (edges : Finset (ℕ × ℕ)) : Prop :=
  ∀ w w', p.toElementaryLanguage.Mem w → q.toElementaryLanguage.Mem w' →
    (∀ e ∈ edges, (w.durations.drop e.1).sum = (w'.durations.drop e.2).sum) →
    ∀ s ∈ suffixes, ∀ u, s.Mem u → f (w.append u) = f (w'.append u)

/-- The edges merge two prefixes according to the suffixes of `T`, but not according to those of `T'`. -/
def Refuted (f : TimedWord → Bool) (T T' : ObsTable σ) (x : (ℕ × ℕ) × Finset (ℕ × ℕ)) : Prop :=
  ∃ p q, T'.prefixes[x.1.1]? = some p ∧ T'.prefixes[x.1.2]? = some q ∧
    (∀ e ∈ x.2, e.1 ≤ p.word.length ∧ e.2 ≤ q.word.length) ∧ Agrees f p q T.sufs x.2 ∧ ¬ Agrees f p q T'.sufs x.2

theorem Agrees.anti {p q : ForwardRegional} {l l' : List ElementaryLanguage} {E : Finset (ℕ × ℕ)} (h : Agrees f p q l' E)
    (hl : ∀ s ∈ l, s ∈ l') : Agrees f p q l E :=
  fun w w' h1 h2 h3 s hs u hu => h w w' h1 h2 h3 s (hl s hs) u hu

theorem Grew.sufs_sub (h : Grew T T') : ∀ s ∈ T.sufs, s ∈ T'.sufs := by
  intro s hs
  unfold sufs at hs ⊢
  obtain ⟨t, ht, rfl⟩ := List.mem_map.1 hs
  exact List.mem_map.2 ⟨t, h.suffixes.subset ht, rfl⟩

theorem Refuted.weaken {x : (ℕ × ℕ) × Finset (ℕ × ℕ)} (h : Refuted f T' T'' x) (hg : Grew T T') : Refuted f T T'' x := by
  obtain ⟨p, q, h1, h2, h3, h4, h5⟩ := h
  exact ⟨p, q, h1, h2, h3, h4.anti hg.sufs_sub, h5⟩

theorem Refuted.later {x : (ℕ × ℕ) × Finset (ℕ × ℕ)} (h : Refuted f T T' x) (hg : Grew T' T'') : Refuted f T T'' x := by
  obtain ⟨p, q, h1, h2, h3, h4, h5⟩ := h
  exact ⟨p, q, hg.get h1, hg.get h2, h3, h4, fun hc => h5 (hc.anti hg.sufs_sub)⟩

/-- What is refuted first is not refuted again. -/
theorem Refuted.once {x : (ℕ × ℕ) × Finset (ℕ × ℕ)} (h : Refuted f T T' x) (h' : Refuted f T' T'' x) (hg : Grew T' T'') : False := by
  obtain ⟨p, q, h1, h2, h3, h4, h5⟩ := h
  obtain ⟨p', q', g1, g2, g3, g4, g5⟩ := h'
  have e1 := hg.get h1
  have e2 := hg.get h2
  rw [g1, Option.some.injEq] at e1
  rw [g2, Option.some.injEq] at e2
  subst e1; subst e2
  exact h5 g4

/-- A counterexample refutes a merge. -/
theorem Separated.refuted {w : TimedWord} (h : Separated f w T T') : ∃ x, Refuted f T T' x := by
  obtain ⟨hg, ⟨h1, _⟩, s, hs, _, h2, _, i, j, p, q, r, _, _, h3, h4, h5, h6, u, u', h7, h8, h9, h10⟩ := h
  refine ⟨((i, j), r.toFinset), p, q, by rw [h1]; exact h3, by rw [h1]; exact h4, fun e he => h5 e (List.mem_toFinset.1 he),
    fun w w' a b c => h6.agree w w' a b fun e he => c e (List.mem_toFinset.2 he), fun hc => h10 ?_⟩
  refine hc u u' h7 h8 (fun e he => h9 e (List.mem_toFinset.1 he)) (BackwardRegional.fromTimedWord s).toElementaryLanguage ?_ s
    (fromTimedWord_good hs).2
  unfold sufs
  rw [h2]
  simp

/-- There are not more merges than this. -/
theorem refuted_count {l : List ((ℕ × ℕ) × Finset (ℕ × ℕ))} (hn : l.Nodup) (h : ∀ x ∈ l, Refuted f T T' x) {L : ℕ}
    (hL : ∀ p ∈ T'.prefixes, p.word.length ≤ L) : l.length ≤ T'.prefixes.length ^ 2 * 2 ^ (L + 1) ^ 2 := by
  classical
  let U : Finset ((ℕ × ℕ) × Finset (ℕ × ℕ)) :=
    (Finset.range T'.prefixes.length ×ˢ Finset.range T'.prefixes.length) ×ˢ
      (Finset.range (L + 1) ×ˢ Finset.range (L + 1)).powerset
  have hU : U.card = T'.prefixes.length ^ 2 * 2 ^ (L + 1) ^ 2 := by
    simp only [U, Finset.card_product, Finset.card_range, Finset.card_powerset, sq]
  rw [← hU, ← List.toFinset_card_of_nodup hn]
  refine Finset.card_le_card fun x hx => ?_
  obtain ⟨p, q, h1, h2, h3, _⟩ := h x (List.mem_toFinset.1 hx)
  have l1 := (List.getElem?_eq_some_iff.1 h1).1
  have l2 := (List.getElem?_eq_some_iff.1 h2).1
  have b1 := hL p (List.mem_of_getElem? h1)
  have b2 := hL q (List.mem_of_getElem? h2)
  simp only [U, Finset.mem_product, Finset.mem_range, Finset.mem_powerset]
  refine ⟨⟨l1, l2⟩, fun e he => ?_⟩
  have := h3 e he
  simp only [Finset.mem_product, Finset.mem_range]
  omega

end ObsTable
end LearnTA
