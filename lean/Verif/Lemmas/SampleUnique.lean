import Verif.Lemmas.ElementarySample

/-!
# The delay that `sample` chooses is the middle of the admissible ones
-/

namespace LearnTA
namespace ElementaryLanguage
open TimedCondition

/-- The delay `t` is possible after the delays `ds`. -/
def Adm (c : TimedCondition) (ds : List ℚ) (t : ℚ) : Prop :=
  ∀ j ≤ ds.length, Bound.Sat (accV ds j + t) (c.upper j ds.length) ∧ Bound.Sat (-(accV ds j + t)) (c.lower j ds.length)

theorem partial_snoc (c : TimedCondition) (ds : List ℚ) (t : ℚ) : Partial c (ds ++ [t]) ↔ Partial c ds ∧ Adm c ds t := by
  have e0 : ∀ j ≤ ds.length, T (ds ++ [t]) j ds.length = accV ds j + t := fun j hj => by
    rw [T_eq _ hj, accV_append ds _ hj, accV_ge (ds ++ _) (i := ds.length + 1) (by simp), sub_zero]
  have e1 : ∀ j k, j ≤ k → k < ds.length → T (ds ++ [t]) j k = T ds j k := fun j k hjk hk => by
    rw [T_eq _ hjk, accV_append ds _ (by omega), accV_append ds _ (by omega), add_sub_add_right_eq_sub, ← T_eq _ hjk]
  constructor
  · intro h
    refine ⟨fun j k hjk hk => ?_, fun j hj => ?_⟩
    · rw [← e1 j k hjk hk]; exact h j k hjk (by simp; omega)
    · rw [← e0 j hj]; exact h j ds.length hj (by simp)
  · rintro ⟨h1, h2⟩ j k hjk hk
    simp only [List.length_append, List.length_singleton] at hk
    by_cases e : k = ds.length
    · subst e; rw [e0 j hjk]; exact h2 j hjk
    · rw [e1 j k hjk (by omega)]; exact h1 j k hjk (by omega)

theorem Adm.convex {c : TimedCondition} {ds : List ℚ} {a b t : ℚ} (ha : Adm c ds a) (hb : Adm c ds b) (h1 : a ≤ t) (h2 : t ≤ b) :
    Adm c ds t := by
  have mono : ∀ {x y : ℚ} {B : Bound}, Bound.Sat x B → y ≤ x → Bound.Sat y B := by
    intro x y B h hy
    cases B with
    | inf => trivial
    | fin q s => cases s <;> simp at h ⊢ <;> linarith
  exact fun j hj => ⟨mono (hb j hj).1 (by linarith), mono (ha j hj).2 (by linarith)⟩

theorem sampleStep_mid (c : TimedCondition) (ds : List ℚ)
    (hb : c.upper ds.length ds.length ≠ .inf ∧ c.lower ds.length ds.length ≠ .inf) :
    ∃ lo hi, (∀ t, Adm c ds t → sampleStep c ds = (lo + hi) * (1 / 2)) ∧ (∀ t, Adm c ds t → lo ≤ t ∧ t ≤ hi) ∧
      ∀ t, lo < t → t < hi → Adm c ds t := by
  obtain ⟨hb1, hb2⟩ := hb
  obtain ⟨u, us, hu⟩ : ∃ u us, c.upper ds.length ds.length = .fin u us := by
    cases e : c.upper ds.length ds.length with
    | fin a b => exact ⟨a, b, rfl⟩
    | inf => exact absurd e hb1
  obtain ⟨l, ls, hl'⟩ : ∃ u us, c.lower ds.length ds.length = .fin u us := by
    cases e : c.lower ds.length ds.length with
    | fin a b => exact ⟨a, b, rfl⟩
    | inf => exact absurd e hb2
  have hend : ∀ t, Adm c ds t → t ≤ u ∧ -l ≤ t := by
    intro t ht
    have htl := ht ds.length (le_refl _)
    rw [accV_ge ds (le_refl _), zero_add, hu, hl'] at htl
    constructor
    · have := htl.1; cases us <;> simp at this <;> linarith
    · have := htl.2; cases ls <;> simp at this <;> linarith
  by_cases hp : Bound.isPoint (c.upper ds.length ds.length) (c.lower ds.length ds.length) = true
  · have hp' := hp
    rw [hu, hl'] at hp'
    simp only [Bound.isPoint, Bool.and_eq_true, decide_eq_true_eq] at hp'
    obtain ⟨⟨e1, e2⟩, e3⟩ := hp'
    refine ⟨u, u, fun t _ => ?_, fun t ht => ?_, fun t h1 h2 => absurd (h1.trans h2) (lt_irrefl _)⟩
    · unfold sampleStep; simp only [hp, if_true]; rw [hu]; simp only [first]; ring
    · obtain ⟨g1, g2⟩ := hend t ht
      exact ⟨by linarith, g1⟩
  · have hspec := inner_spec c ds (negFirst (c.lower ds.length ds.length))
      (first (c.upper ds.length ds.length)) ds.length 0 (by omega)
    simp only at hspec
    set r := (List.range' 0 ds.length).foldr (fun j s => sampleInner c ds ds.length s j)
      (0, negFirst (c.lower ds.length ds.length), first (c.upper ds.length ds.length)) with hr
    obtain ⟨_, ⟨a1, a2, a3⟩, ⟨b1, b2, b3⟩⟩ := hspec
    rw [hu] at b1 b3
    rw [hl'] at a1 a3
    simp only [negFirst, first] at a1 a3 b1 b3
    refine ⟨r.2.1, r.2.2, fun t _ => ?_, fun t ht => ⟨?_, ?_⟩, fun t h1 h2 j hj => ⟨?_, ?_⟩⟩
    · unfold sampleStep
      simp only [hp]
      rw [List.foldl_reverse, List.range_eq_range']
      rfl
    · refine a3 t (hend t ht).2 fun j _ hj k s hk => ?_
      have := (ht j (by omega)).2
      rw [hk] at this
      cases s <;> simp at this <;> linarith
    · refine b3 t (hend t ht).1 fun j _ hj k s hk => ?_
      have := (ht j (by omega)).1
      rw [hk] at this
      cases s <;> simp at this <;> linarith
    · cases hk : c.upper j ds.length with
      | inf => trivial
      | fin k s =>
        have : accV ds j + t < k := by
          rcases Nat.lt_or_eq_of_le hj with h' | h'
          · have := b2 j (by omega) h' k s hk; linarith
          · subst h'
            rw [hu] at hk
            rw [accV_ge ds (le_refl _)]
            cases hk; linarith
        cases s <;> simp <;> linarith
    · cases hk : c.lower j ds.length with
      | inf => trivial
      | fin k s =>
        have : -(accV ds j + t) < k := by
          rcases Nat.lt_or_eq_of_le hj with h' | h'
          · have := a2 j (by omega) h' k s hk; linarith
          · subst h'
            rw [hl'] at hk
            rw [accV_ge ds (le_refl _)]
            cases hk; linarith
        cases s <;> simp <;> linarith

/-- If the same delays are possible, the same delay is chosen. -/
theorem sampleStep_unique {c c' : TimedCondition} {ds : List ℚ}
    (hb : c.upper ds.length ds.length ≠ .inf ∧ c.lower ds.length ds.length ≠ .inf)
    (hb' : c'.upper ds.length ds.length ≠ .inf ∧ c'.lower ds.length ds.length ≠ .inf)
    {t : ℚ} (ht : Adm c ds t) (h : ∀ t, Adm c ds t ↔ Adm c' ds t) : sampleStep c ds = sampleStep c' ds := by
  obtain ⟨lo, hi, e1, e2, e3⟩ := sampleStep_mid c ds hb
  obtain ⟨lo', hi', f1, f2, f3⟩ := sampleStep_mid c' ds hb'
  have ht' := (h t).1 ht
  rw [e1 t ht, f1 t ht']
  have key : ∀ {lo hi lo' hi' : ℚ} {A : ℚ → Prop}, (∀ t, A t → lo ≤ t ∧ t ≤ hi) → (∀ t, lo' < t → t < hi' → A t) → A t →
      (lo' ≤ t ∧ t ≤ hi') → lo ≤ lo' ∧ hi' ≤ hi := by
    intro lo hi lo' hi' A g1 g2 gt gt'
    obtain ⟨k1, k2⟩ := g1 t gt
    constructor
    · by_contra hc
      push Not at hc
      rcases lt_or_eq_of_le gt'.1 with hlt | heq
      · have h3 : lo' < min lo hi' := by
          refine lt_min hc ?_
          exact lt_of_lt_of_le hlt gt'.2
        have := (g1 ((lo' + min lo hi') / 2) (g2 _ (by linarith) (by have := min_le_right lo hi'; linarith))).1
        have := min_le_left lo hi'
        linarith
      · linarith
    · by_contra hc
      push Not at hc
      rcases lt_or_eq_of_le gt'.2 with hlt | heq
      · have h3 : max hi lo' < hi' := max_lt hc (lt_of_le_of_lt gt'.1 hlt)
        have := (g1 ((hi' + max hi lo') / 2) (g2 _ (by have := le_max_right hi lo'; linarith) (by linarith))).2
        have := le_max_left hi lo'
        linarith
      · linarith
  obtain ⟨k1, k2⟩ := key (A := Adm c ds) e2 (fun s a b => (h s).2 (f3 s a b)) ht (f2 t ht')
  obtain ⟨k3, k4⟩ := key (A := Adm c' ds) f2 (fun s a b => (h s).1 (e3 s a b)) ht' (e2 t ht)
  rw [le_antisymm k1 k3, le_antisymm k4 k2]

/-- A beginning can be completed to a word. -/
theorem partial_complete (c : TimedCondition) (hc : c.Canonical) : ∀ (m : ℕ) (ds : List ℚ), ds.length + m = c.size →
    Partial c ds → ∃ es, c.Holds (ds ++ es) := by
  intro m
  induction m with
  | zero => intro ds hl h; exact ⟨[], by simp; omega, fun i j hij hj => by simpa using h i j hij (by omega)⟩
  | succ m ih =>
    intro ds hl h
    obtain ⟨t, ht⟩ := exists_next c hc ds (by omega) h
    obtain ⟨es, he⟩ := ih (ds ++ [t]) (by simp; omega) ((partial_snoc c ds t).2 ⟨h, ht⟩)
    exact ⟨t :: es, by simpa using he⟩

/-- Beginnings of the words of a condition. -/
theorem partial_take {c : TimedCondition} {d : List ℚ} (h : c.Holds d) (k : ℕ) : Partial c (d.take k) := by
  intro i j hij hj
  simp only [List.length_take] at hj
  have : T (d.take k) i j = T d i j := by
    unfold T
    rw [List.drop_take, List.take_take, min_eq_left (by omega)]
  rw [this]
  exact h.2 i j hij (by rw [← h.1]; omega)

theorem sampleDurations_take (c : TimedCondition) : ∀ {n k : ℕ}, k ≤ n → (sampleDurations c n).take k = sampleDurations c k := by
  have hl : ∀ n, (sampleDurations c n).length = n := by
    intro n
    induction n with
    | zero => rfl
    | succ n ih => simp [sampleDurations, List.range_succ, List.foldl_append] at ih ⊢; exact ih
  intro n
  induction n with
  | zero => intro k hk; obtain rfl : k = 0 := by omega
            rfl
  | succ n ih =>
    intro k hk
    by_cases e : k = n + 1
    · subst e; rw [List.take_of_length_le (by rw [hl])]
    · have : sampleDurations c (n + 1) = sampleDurations c n ++ [sampleStep c (sampleDurations c n)] := by
        simp [sampleDurations, List.range_succ, List.foldl_append]
      rw [this, List.take_append_of_le_length (by rw [hl]; omega), ih (by omega)]

theorem sampleDurations_getD (c : TimedCondition) {n k : ℕ} (hk : k < n) :
    (sampleDurations c n).getD k 0 = sampleStep c ((sampleDurations c n).take k) := by
  have hl : ∀ n, (sampleDurations c n).length = n := by
    intro n
    induction n with
    | zero => rfl
    | succ n ih => simp [sampleDurations, List.range_succ, List.foldl_append] at ih ⊢; exact ih
  rw [sampleDurations_take c hk.le]
  have h1 := sampleDurations_take c (n := n) (k := k + 1) (by omega)
  have h2 : sampleDurations c (k + 1) = sampleDurations c k ++ [sampleStep c (sampleDurations c k)] := by
    simp [sampleDurations, List.range_succ, List.foldl_append]
  rw [h2] at h1
  have h3 : (sampleDurations c n).getD k 0 = ((sampleDurations c n).take (k + 1)).getD k 0 := by
    simp [List.getD_eq_getElem?_getD]
  rw [h3, h1, List.getD_eq_getElem?_getD, List.getElem?_append_right (by rw [hl]), hl]
  simp

end ElementaryLanguage
end LearnTA
