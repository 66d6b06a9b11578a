import Verif.Lemmas.Region
import Mathlib.Data.List.Pairwise

/-!
# `TimedCondition::enumerate`
-/

namespace LearnTA
open Zone Bound
namespace TimedCondition

/-! ### The intervals -/

/-- The current upper bound as a function of the lower bound. -/
def curOf (l : ℤ) (ls : Bool) : Bound := if ls then .fin (-l) true else .fin (-l + 1) false

theorem splitLoop_cover (u : ℤ) (us : Bool) (fuel : ℕ) (l : ℤ) (ls : Bool)
    (hf : 2 * (u + l) + (if ls then 1 else 0) ≤ (fuel : ℤ)) {q : ℚ}
    (h1 : Sat q (.fin u us)) (h2 : Sat (-q) (.fin l ls)) :
    ∃ p ∈ splitLoop (.fin u us) fuel l ls (curOf l ls), Sat (-q) p.1 ∧ Sat q p.2 := by
  have hu : q ≤ u := by cases us <;> simp at h1 <;> linarith
  have hl : -(l : ℚ) ≤ q := by cases ls <;> simp at h2 <;> linarith
  have hle : -l ≤ u := by
    have : -(l : ℚ) ≤ u := hl.trans hu
    exact_mod_cast this
  induction fuel generalizing l ls with
  | zero =>
    exfalso
    cases ls with
    | true => simp at hf; omega
    | false =>
      simp at hf
      have : (-(l : ℚ)) < u := by simp at h2; linarith
      have : -l < u := by exact_mod_cast this
      omega
  | succ n ih =>
    cases ls with
    | true =>
      have hc : curOf l true ≤ .fin u us := by
        simp only [curOf, if_true]
        have := (sat_iff _ _).1 h1
        refine le_trans ?_ this
        rw [fin_le_fin]
        rcases lt_or_eq_of_le hl with h | h
        · exact Or.inl h
        · exact Or.inr ⟨h, le_refl _⟩
      simp only [splitLoop, hc, if_true]
      by_cases hq : q = -(l : ℚ)
      · refine ⟨_, List.mem_cons_self .., ?_, ?_⟩
        · simp [hq]
        · simp [curOf, hq]
      · have hlt : -(l : ℚ) < q := lt_of_le_of_ne hl (Ne.symm hq)
        have e : (Bound.fin (-(l : ℚ) + 1) false) = curOf l false := by simp [curOf]
        rw [e]
        obtain ⟨p, hp, h⟩ := ih l false (by simp at hf ⊢; omega) (by simp; linarith) hl hle
        exact ⟨p, List.mem_cons_of_mem _ hp, h⟩
    | false =>
      have hlt : -(l : ℚ) < q := by simp at h2; linarith
      have hlt2 : -l < u := by
        have : -(l : ℚ) < u := lt_of_lt_of_le hlt hu
        exact_mod_cast this
      have hlt3 : (-(l : ℚ) + 1) ≤ u := by
        have : -l + 1 ≤ u := hlt2
        exact_mod_cast this
      have hc : curOf l false ≤ .fin u us := by
        simp only [curOf, Bool.false_eq_true, if_false, fin_le_fin]
        rcases lt_or_eq_of_le hlt3 with h | h
        · exact Or.inl h
        · exact Or.inr ⟨h, by simp⟩
      simp only [splitLoop, hc, if_true, Bool.false_eq_true, if_false]
      by_cases hq : q < -(l : ℚ) + 1
      · refine ⟨_, List.mem_cons_self .., ?_, ?_⟩
        · simpa using h2
        · simpa [curOf] using hq
      · have hge : -(l : ℚ) + 1 ≤ q := not_lt.1 hq
        have e : (Bound.fin (-(l : ℚ) + 1) true) = curOf (l - 1) true := by
          simp only [curOf, if_true]; congr 1; push_cast; ring
        have e' : (l : ℚ) - 1 = ((l - 1 : ℤ) : ℚ) := by push_cast; rfl
        rw [e, e']
        obtain ⟨p, hp, h⟩ := ih (l - 1) true (by simp at hf ⊢; omega) (by simp; linarith)
          (by push_cast; linarith) (by omega)
        exact ⟨p, List.mem_cons_of_mem _ hp, h⟩

/-- Shape of a piece. -/
def PieceOK (p : Bound × Bound) : Prop :=
  IsInt p.1 ∧ IsInt p.2 ∧ p.1 ≠ .inf ∧ p.2 ≠ .inf ∧
    (Bound.isPoint p.2 p.1 = true ∨ Bound.isUnitOpen p.2 p.1 = true)

theorem splitLoop_shape (up : Bound) (fuel : ℕ) (l : ℤ) (ls : Bool) :
    (∀ p ∈ splitLoop up fuel l ls (curOf l ls), PieceOK p ∧ ∀ q, Sat (-q) p.1 → Sat (-q) (.fin l ls)) ∧
    (splitLoop up fuel l ls (curOf l ls)).Pairwise
      (fun p p' => ∀ q, ¬ ((Sat (-q) p.1 ∧ Sat q p.2) ∧ Sat (-q) p'.1 ∧ Sat q p'.2)) := by
  induction fuel generalizing l ls with
  | zero => simp [splitLoop]
  | succ n ih =>
    by_cases hc : curOf l ls ≤ up
    · cases ls with
      | true =>
        have e : (Bound.fin (-(l : ℚ) + 1) false) = curOf l false := by simp [curOf]
        obtain ⟨h1, h2⟩ := ih l false
        simp only [splitLoop, hc, if_true, e]
        refine ⟨?_, ?_⟩
        · intro p hp
          rcases List.mem_cons.1 hp with rfl | hp
          · refine ⟨⟨⟨l, rfl⟩, ⟨-l, by push_cast; rfl⟩, by simp, by simp [curOf], Or.inl ?_⟩, fun q h => h⟩
            simp [curOf, Bound.isPoint]
          · obtain ⟨g1, g2⟩ := h1 p hp
            refine ⟨g1, fun q h => ?_⟩
            have := g2 q h
            simp at this ⊢; linarith
        · rw [List.pairwise_cons]
          refine ⟨fun p hp q => ?_, h2⟩
          rintro ⟨⟨a1, a2⟩, a3, a4⟩
          have := (h1 p hp).2 q a3
          simp [curOf] at a2 this
          linarith
      | false =>
        have e : (Bound.fin (-(l : ℚ) + 1) true) = curOf (l - 1) true := by
          simp only [curOf, if_true]; congr 1; push_cast; ring
        have e' : (l : ℚ) - 1 = ((l - 1 : ℤ) : ℚ) := by push_cast; rfl
        obtain ⟨h1, h2⟩ := ih (l - 1) true
        simp only [splitLoop, hc, if_true, Bool.false_eq_true, if_false, e, e']
        refine ⟨?_, ?_⟩
        · intro p hp
          rcases List.mem_cons.1 hp with rfl | hp
          · refine ⟨⟨⟨l, rfl⟩, ⟨-l + 1, by push_cast; rfl⟩, by simp, by simp [curOf], Or.inr ?_⟩, fun q h => h⟩
            simp [curOf, Bound.isUnitOpen]
          · obtain ⟨g1, g2⟩ := h1 p hp
            refine ⟨g1, fun q h => ?_⟩
            have := g2 q h
            simp at this ⊢; linarith
        · rw [List.pairwise_cons]
          refine ⟨fun p hp q => ?_, h2⟩
          rintro ⟨⟨a1, a2⟩, a3, a4⟩
          have := (h1 p hp).2 q a3
          simp [curOf] at a2 this
          linarith
    · simp [splitLoop, hc]

theorem splitBounds_spec {lo up : Bound} (hl : IsInt lo) (hu : IsInt up) (hl' : lo ≠ .inf) (hu' : up ≠ .inf) :
    ∃ ps, splitBounds lo up = some ps ∧ (∀ p ∈ ps, PieceOK p) ∧
      ps.Pairwise (fun p p' => ∀ q, ¬ ((Sat (-q) p.1 ∧ Sat q p.2) ∧ Sat (-q) p'.1 ∧ Sat q p'.2)) ∧
      ∀ q, Sat q up → Sat (-q) lo → ∃ p ∈ ps, Sat (-q) p.1 ∧ Sat q p.2 := by
  cases lo with
  | inf => exact absurd rfl hl'
  | fin l ls =>
    cases up with
    | inf => exact absurd rfl hu'
    | fin u us =>
      obtain ⟨l, rfl⟩ := hl
      obtain ⟨u, rfl⟩ := hu
      have e : (if ls then Bound.fin (-(l : ℚ)) true else .fin (-l + 1) false) = curOf l ls := by
        simp [curOf]
      refine ⟨splitLoop (.fin u us) ((2 * ⌊(u : ℚ) + l⌋ + 3).toNat) l ls (curOf l ls), ?_, ?_, ?_, ?_⟩
      · simp only [splitBounds, e]
      · intro p hp; exact ((splitLoop_shape _ _ l ls).1 p hp).1
      · exact (splitLoop_shape _ _ l ls).2
      · intro q h1 h2
        refine splitLoop_cover u us _ l ls ?_ h1 h2
        have ef : ⌊(u : ℚ) + l⌋ = u + l := by
          have : (u : ℚ) + l = ((u + l : ℤ) : ℚ) := by push_cast; rfl
          rw [this, Int.floor_intCast]
        rw [ef]
        have := Int.self_le_toNat (2 * (u + l) + 3)
        split <;> omega

/-! ### One condition -/

/-- The conditions that replace `c` when the pair `(i, j)` is treated. -/
def pieces (i j : ℕ) (c : TimedCondition) : List TimedCondition :=
  if c.isSimple then [c]
  else if Bound.isPoint (c.upper i j) (c.lower i j) || Bound.isUnitOpen (c.upper i j) (c.lower i j) then [c]
  else ((splitBounds (c.lower i j) (c.upper i j)).getD []).map fun p =>
    (c.restrictLower i j p.1 false).restrictUpper i j p.2 false

theorem foldl_enumPut (l : List TimedCondition) (acc : List TimedCondition × List TimedCondition) :
    l.foldl enumPut acc = (acc.1 ++ l.filter (·.isSimple), acc.2 ++ l.filter (!·.isSimple)) := by
  induction l generalizing acc with
  | nil => simp
  | cons a l ih =>
    rw [List.foldl_cons, ih]
    unfold enumPut
    by_cases h : a.isSimple = true <;> simp [h]

theorem enumOne_eq (i j : ℕ) (acc : List TimedCondition × List TimedCondition) (c : TimedCondition)
    (h : (splitBounds (c.lower i j) (c.upper i j)).isSome) :
    enumOne i j acc c = some (acc.1 ++ (pieces i j c).filter (·.isSimple),
      acc.2 ++ (pieces i j c).filter (!·.isSimple)) := by
  unfold enumOne pieces
  by_cases hs : c.isSimple = true
  · simp [hs]
  · simp only [hs, if_false, Bool.false_eq_true]
    split
    · simp [hs]
    · obtain ⟨ps, hps⟩ := Option.isSome_iff_exists.1 h
      rw [hps]
      simp only [Option.map_some, Option.getD_some]
      rw [← foldl_enumPut, List.foldl_map]

theorem foldlM_enumOne (i j : ℕ) (l : List TimedCondition)
    (h : ∀ c ∈ l, (splitBounds (c.lower i j) (c.upper i j)).isSome)
    (acc : List TimedCondition × List TimedCondition) :
    l.foldlM (enumOne i j) acc = some (acc.1 ++ (l.flatMap (pieces i j)).filter (·.isSimple),
      acc.2 ++ (l.flatMap (pieces i j)).filter (!·.isSimple)) := by
  induction l generalizing acc with
  | nil => simp
  | cons a l ih =>
    rw [List.foldlM_cons, enumOne_eq _ _ _ _ (h a (by simp))]
    simp only [Option.bind_eq_bind, Option.bind_some]
    rw [ih fun c hc => h c (by simp [hc])]
    simp [List.filter_append]

/-- Invariant of each condition in the lists of `enumerate`. -/
structure EOK (n : ℕ) (c : TimedCondition) : Prop where
  dim : c.zone.dim = n + 1
  int : c.Integral
  bnd : c.Bounded
  neg : c.zone.NegDiag
  good : (∀ i < c.zone.dim, ∀ j < c.zone.dim, i ≠ j → 0 ≤ c.zone.val i j + c.zone.val j i) →
    ∃ v, c.zone.Mem v

theorem EOK.size {n : ℕ} {c : TimedCondition} (h : EOK n c) : c.size = n := by
  unfold TimedCondition.size; rw [h.dim]; omega

theorem EOK.piece {n : ℕ} {c : TimedCondition} (h : EOK n c) {i j : ℕ} (hij : i ≤ j) (hj : j < n)
    {p : Bound × Bound} (hp : PieceOK p) :
    EOK n ((c.restrictLower i j p.1 false).restrictUpper i j p.2 false) := by
  have hjs : j < c.size := by rw [h.size]; exact hj
  have he := eidx_lt hjs
  have hi : i + 1 < c.zone.dim := by rw [h.dim]; omega
  have hne : c.eidx j ≠ i + 1 := eidx_ne hij
  have hneg1 : (c.restrictLower i j p.1 false).zone.NegDiag := by
    rw [restrictLower_eq]; exact canonize_negDiag (set_negDiag h.neg hne (by simp))
  have hneg2 : ((c.restrictLower i j p.1 false).zone.set (i + 1) (c.eidx j)
      (min p.2 ((c.restrictLower i j p.1 false).zone.val (i + 1) (c.eidx j)))).NegDiag :=
    set_negDiag hneg1 (Ne.symm hne) (by simp)
  have e2 : ((c.restrictLower i j p.1 false).restrictUpper i j p.2 false).zone =
      ((c.restrictLower i j p.1 false).zone.set (i + 1) (c.eidx j)
      (min p.2 ((c.restrictLower i j p.1 false).zone.val (i + 1) (c.eidx j)))).canonize := by
    rw [restrictUpper_eq]; simp
  refine ⟨by simpa using h.dim, ?_, ?_, ?_, ?_⟩
  · exact restrictUpper_integral (restrictLower_integral h.int hp.1 hi he _) hp.2.1 (by simpa using hi)
      (by simpa using he) _
  · intro a ha b hb hab e
    have := (restrictUpper_le (c.restrictLower i j p.1 false) i j p.2 a b).trans
      (restrictLower_le c i j p.1 a b)
    rw [e] at this
    simp only [restrictUpper_dim, restrictLower_dim] at ha hb
    exact h.bnd a ha b hb hab (le_antisymm (le_inf _) this)
  · rw [e2]; exact canonize_negDiag hneg2
  · intro hpair
    rw [e2] at hpair ⊢
    obtain ⟨v, hv⟩ := canonize_mem_of_pairs hneg2 (by simpa using hpair)
    exact ⟨v, (canonize_mem _ v).2 hv⟩

/-- The bounds of the pair `(i, j)` are the tightest for every member. -/
def Tight (c : TimedCondition) (i j : ℕ) : Prop :=
  ∀ w, c.zone.Sat w → c.zone.val (i + 1) (c.eidx j) = reg (w (i + 1) - w (c.eidx j)) ∧
    c.zone.val (c.eidx j) (i + 1) = reg (w (c.eidx j) - w (i + 1))

theorem pieces_spec {n : ℕ} {c : TimedCondition} (h : EOK n c) {i j : ℕ} (hij : i ≤ j) (hj : j < n) :
    (splitBounds (c.lower i j) (c.upper i j)).isSome ∧
    (∀ x ∈ pieces i j c, EOK n x) ∧
    (∀ w, c.zone.Sat w ↔ ∃ x ∈ pieces i j c, x.zone.Sat w) ∧
    (pieces i j c).Pairwise (fun x y => ∀ w, ¬ (x.zone.Sat w ∧ y.zone.Sat w)) ∧
    (∀ x ∈ pieces i j c, x.isSimple = false → Tight x i j) ∧
    (∀ x ∈ pieces i j c, ∀ i' j', i' ≤ j' → j' < n → Tight c i' j' → Tight x i' j') := by
  have hjs : j < c.size := by rw [h.size]; exact hj
  have he := eidx_lt hjs
  have hi : i + 1 < c.zone.dim := by rw [h.dim]; omega
  have hne : c.eidx j ≠ i + 1 := eidx_ne hij
  obtain ⟨ps, hps, hok, hdis, hcov⟩ := splitBounds_spec (lo := c.lower i j) (up := c.upper i j)
    (by rw [lower_eq]; exact h.int _ he _ hi) (by rw [upper_eq]; exact h.int _ hi _ he)
    (by rw [lower_eq]; exact h.bnd _ he _ hi hne) (by rw [upper_eq]; exact h.bnd _ hi _ he (Ne.symm hne))
  refine ⟨by rw [hps]; rfl, ?_⟩
  unfold pieces
  by_cases hs : c.isSimple = true
  · simp only [hs, if_true]
    refine ⟨by simpa using h, by simp, by simp, by simp [hs], by simp⟩
  simp only [hs, Bool.false_eq_true, if_false]
  by_cases hp : (Bound.isPoint (c.upper i j) (c.lower i j) ||
      Bound.isUnitOpen (c.upper i j) (c.lower i j)) = true
  · simp only [hp, if_true]
    refine ⟨by simpa using h, by simp, by simp, ?_, by simp⟩
    intro x hx _
    rw [List.mem_singleton.1 hx]
    intro w hw
    rw [Bool.or_eq_true, upper_eq, lower_eq] at hp
    have h2 := hw _ he _ hi
    have e : w (c.eidx j) - w (i + 1) = -(w (i + 1) - w (c.eidx j)) := by ring
    rw [e] at h2 ⊢
    exact reg_of_simple (h.int _ hi _ he) hp (hw _ hi _ he) h2
  · simp only [hp, Bool.false_eq_true, if_false, hps, Option.getD_some]
    have hsat : ∀ (p : Bound × Bound) w, ((c.restrictLower i j p.1 false).restrictUpper i j p.2 false).zone.Sat w ↔
        c.zone.Sat w ∧ Sat (-(w (i + 1) - w (c.eidx j))) p.1 ∧ Sat (w (i + 1) - w (c.eidx j)) p.2 := by
      intro p w
      rw [restrictUpper_sat _ hij (by simpa using hjs), restrictLower_sat _ hij hjs]
      simp only [restrictLower_eidx, neg_sub, and_assoc]
    refine ⟨?_, ?_, ?_, ?_, ?_⟩
    · intro x hx
      obtain ⟨p, hp, rfl⟩ := List.mem_map.1 hx
      exact h.piece hij hj (hok p hp)
    · intro w
      constructor
      · intro hw
        have h1 := hw _ hi _ he
        have h2 := hw _ he _ hi
        rw [show w (c.eidx j) - w (i + 1) = -(w (i + 1) - w (c.eidx j)) by ring] at h2
        rw [← upper_eq] at h1; rw [← lower_eq] at h2
        obtain ⟨p, hp, hpq⟩ := hcov _ h1 h2
        exact ⟨_, List.mem_map.2 ⟨p, hp, rfl⟩, (hsat p w).2 ⟨hw, hpq⟩⟩
      · rintro ⟨x, hx, hw⟩
        obtain ⟨p, hp, rfl⟩ := List.mem_map.1 hx
        exact ((hsat p w).1 hw).1
    · rw [List.pairwise_map]
      refine hdis.imp ?_
      intro p p' hpp w hww
      exact hpp _ ⟨((hsat p w).1 hww.1).2, ((hsat p' w).1 hww.2).2⟩
    · intro x hx _ w hw
      obtain ⟨p, hp, rfl⟩ := List.mem_map.1 hx
      have hpk := hok p hp
      obtain ⟨_, h1, h2⟩ := (hsat p w).1 hw
      obtain ⟨e1, e2⟩ := reg_of_simple hpk.2.1 hpk.2.2.2.2 h2 h1
      have hE := h.piece hij hj hpk
      have g1 := reg_le (hE.int _ (by simpa using hi) _ (by simpa using he)) (hw _ (by simpa using hi) _ (by simpa using he))
      have g2 := reg_le (hE.int _ (by simpa using he) _ (by simpa using hi)) (hw _ (by simpa using he) _ (by simpa using hi))
      have k1 := restrictUpper_le_bound (c.restrictLower i j p.1 false) i j p.2
      have k2 := (restrictUpper_le (c.restrictLower i j p.1 false) i j p.2 (c.eidx j) (i + 1)).trans
        (restrictLower_le_bound c i j p.1)
      simp only [restrictLower_eidx, restrictUpper_eidx] at k1 ⊢
      refine ⟨le_antisymm (k1.trans (le_of_eq e1)) g1, le_antisymm (k2.trans (le_of_eq ?_)) g2⟩
      rw [e2]; congr 1; ring
    · intro x hx i' j' hij' hj' ht w hw
      obtain ⟨p, hp, rfl⟩ := List.mem_map.1 hx
      obtain ⟨hcw, _⟩ := (hsat p w).1 hw
      obtain ⟨t1, t2⟩ := ht w hcw
      have hE := h.piece hij hj (hok p hp)
      have hj's : j' < c.size := by rw [h.size]; exact hj'
      have he' := eidx_lt hj's
      have hi' : i' + 1 < c.zone.dim := by rw [h.dim]; omega
      have g1 := reg_le (hE.int _ (by simpa using hi') _ (by simpa using he')) (hw _ (by simpa using hi') _ (by simpa using he'))
      have g2 := reg_le (hE.int _ (by simpa using he') _ (by simpa using hi')) (hw _ (by simpa using he') _ (by simpa using hi'))
      have k : ∀ a b, ((c.restrictLower i j p.1 false).restrictUpper i j p.2 false).zone.val a b ≤ c.zone.val a b :=
        fun a b => (restrictUpper_le _ _ _ _ _ _).trans (restrictLower_le _ _ _ _ _ _)
      simp only [restrictLower_eidx, restrictUpper_eidx]
      exact ⟨le_antisymm ((k _ _).trans (le_of_eq t1)) g1, le_antisymm ((k _ _).trans (le_of_eq t2)) g2⟩

/-! ### All pairs -/

/-- No common member. -/
def Disj (x y : TimedCondition) : Prop := ∀ w, ¬ (x.zone.Sat w ∧ y.zone.Sat w)

theorem Disj.symm {x y : TimedCondition} (h : Disj x y) : Disj y x := fun w hw => h w hw.symm

/-- Invariant of the loops of `enumerate`. -/
structure EInv (n : ℕ) (c : TimedCondition) (done : List (ℕ × ℕ))
    (s : List TimedCondition × List TimedCondition) : Prop where
  ok : ∀ x ∈ s.1 ++ s.2, EOK n x
  simple : ∀ x ∈ s.1, x.isSimple = true
  notSimple : ∀ x ∈ s.2, x.isSimple = false
  cover : ∀ w, c.zone.Sat w ↔ ∃ x ∈ s.1 ++ s.2, x.zone.Sat w
  disj : (s.1 ++ s.2).Pairwise Disj
  tight : ∀ x ∈ s.2, ∀ p ∈ done, p.1 ≤ p.2 → p.2 < n → Tight x p.1 p.2

theorem pairwise_flatMap_of {α : Type*} {R : α → α → Prop} {l : List α} {f : α → List α}
    (h1 : ∀ x ∈ l, (f x).Pairwise R) (h2 : l.Pairwise fun x y => ∀ a ∈ f x, ∀ b ∈ f y, R a b) :
    (l.flatMap f).Pairwise R := by
  induction l with
  | nil => simp
  | cons a l ih =>
    rw [List.pairwise_cons] at h2
    rw [List.flatMap_cons, List.pairwise_append]
    refine ⟨h1 a (by simp), ih (fun x hx => h1 x (by simp [hx])) h2.2, ?_⟩
    intro x hx y hy
    obtain ⟨z, hz, hy⟩ := List.mem_flatMap.1 hy
    exact h2.1 z hz x hx y hy

theorem mem_filter_split (l : List TimedCondition) (x : TimedCondition) :
    x ∈ l.filter (·.isSimple) ++ l.filter (!·.isSimple) ↔ x ∈ l := by
  simp only [List.mem_append, List.mem_filter]
  cases h : x.isSimple <;> simp

theorem pairwise_filter_split {l : List TimedCondition} (h : l.Pairwise Disj) :
    (l.filter (·.isSimple) ++ l.filter (!·.isSimple)).Pairwise Disj := by
  rw [List.pairwise_append]
  refine ⟨h.filter _, h.filter _, ?_⟩
  intro x hx y hy
  obtain ⟨hx, hxs⟩ := List.mem_filter.1 hx
  obtain ⟨hy, hys⟩ := List.mem_filter.1 hy
  have hne : x ≠ y := by rintro rfl; simp_all
  haveI : Std.Symm Disj := ⟨fun _ _ h => h.symm⟩
  exact h.forall hx hy hne

theorem enumPair_inv {n : ℕ} {c : TimedCondition} {done : List (ℕ × ℕ)}
    {s : List TimedCondition × List TimedCondition} (h : EInv n c done s) {p : ℕ × ℕ}
    (hp : p.1 ≤ p.2 ∧ p.2 < n) : ∃ s', enumPair s p = some s' ∧ EInv n c (done ++ [p]) s' := by
  have hpc := fun x (hx : x ∈ s.2) => pieces_spec (h.ok x (by simp [hx])) hp.1 hp.2
  unfold enumPair
  rw [foldlM_enumOne p.1 p.2 s.2 (fun x hx => (hpc x hx).1)]
  refine ⟨_, rfl, ?_⟩
  simp only [List.nil_append]
  have hmem : ∀ x, x ∈ (s.1 ++ (s.2.flatMap (pieces p.1 p.2)).filter (·.isSimple)) ++
      (s.2.flatMap (pieces p.1 p.2)).filter (!·.isSimple) ↔
        x ∈ s.1 ∨ ∃ y ∈ s.2, x ∈ pieces p.1 p.2 y := by
    intro x
    rw [List.append_assoc, List.mem_append, mem_filter_split, List.mem_flatMap]
  refine ⟨?_, ?_, ?_, ?_, ?_, ?_⟩
  · intro x hx
    rcases (hmem x).1 hx with hx | ⟨y, hy, hx⟩
    · exact h.ok x (by simp [hx])
    · exact (hpc y hy).2.1 x hx
  · intro x hx
    rcases List.mem_append.1 hx with hx | hx
    · exact h.simple x hx
    · simpa using (List.mem_filter.1 hx).2
  · intro x hx
    simpa using (List.mem_filter.1 hx).2
  · intro w
    rw [h.cover w]
    constructor
    · rintro ⟨x, hx, hw⟩
      rcases List.mem_append.1 hx with hx | hx
      · exact ⟨x, (hmem x).2 (Or.inl hx), hw⟩
      · obtain ⟨y, hy, hyw⟩ := ((hpc x hx).2.2.1 w).1 hw
        exact ⟨y, (hmem y).2 (Or.inr ⟨x, hx, hy⟩), hyw⟩
    · rintro ⟨x, hx, hw⟩
      rcases (hmem x).1 hx with hx | ⟨y, hy, hx⟩
      · exact ⟨x, by simp [hx], hw⟩
      · exact ⟨y, by simp [hy], ((hpc y hy).2.2.1 w).2 ⟨x, hx, hw⟩⟩
  · have hd := h.disj
    rw [List.pairwise_append] at hd
    obtain ⟨d1, d2, d3⟩ := hd
    rw [List.append_assoc, List.pairwise_append]
    refine ⟨d1, ?_, ?_⟩
    · apply pairwise_filter_split
      apply pairwise_flatMap_of (fun x hx => (hpc x hx).2.2.2.1)
      refine (List.Pairwise.and_mem.1 d2).imp ?_
      rintro x y ⟨hx, hy, hxy⟩ a ha b hb w ⟨hwa, hwb⟩
      exact hxy w ⟨((hpc x hx).2.2.1 w).2 ⟨a, ha, hwa⟩, ((hpc y hy).2.2.1 w).2 ⟨b, hb, hwb⟩⟩
    · intro x hx y hy w ⟨hwx, hwy⟩
      obtain ⟨z, hz, hyz⟩ := List.mem_flatMap.1 ((mem_filter_split _ _).1 hy)
      exact d3 x hx z hz w ⟨hwx, ((hpc z hz).2.2.1 w).2 ⟨y, hyz, hwy⟩⟩
  · intro x hx q hq hq1 hq2
    obtain ⟨hx, hxs⟩ := List.mem_filter.1 hx
    obtain ⟨y, hy, hxy⟩ := List.mem_flatMap.1 hx
    rcases List.mem_append.1 hq with hq | hq
    · exact (hpc y hy).2.2.2.2.2 x hxy q.1 q.2 hq1 hq2 (h.tight y hy q hq hq1 hq2)
    · rw [List.mem_singleton.1 hq]
      exact (hpc y hy).2.2.2.2.1 x hxy (by simpa using hxs)

theorem foldlM_enumPair {n : ℕ} {c : TimedCondition} (ps : List (ℕ × ℕ))
    (hps : ∀ p ∈ ps, p.1 ≤ p.2 ∧ p.2 < n) {done : List (ℕ × ℕ)}
    {s : List TimedCondition × List TimedCondition} (h : EInv n c done s) :
    ∃ s', ps.foldlM enumPair s = some s' ∧ EInv n c (done ++ ps) s' := by
  induction ps generalizing done s with
  | nil => exact ⟨s, rfl, by simpa using h⟩
  | cons p ps ih =>
    obtain ⟨s1, e1, h1⟩ := enumPair_inv h (hps p (by simp))
    obtain ⟨s2, e2, h2⟩ := ih (fun q hq => hps q (by simp [hq])) h1
    refine ⟨s2, ?_, by simpa using h2⟩
    rw [List.foldlM_cons, e1]
    exact e2

theorem isRegion_of_tight {c : TimedCondition} {w : ℕ → ℚ} (hd : 2 ≤ c.zone.dim)
    (h : ∀ i j, i ≤ j → j < c.size → c.zone.val (i + 1) (c.eidx j) = reg (w (i + 1) - w (c.eidx j)) ∧
      c.zone.val (c.eidx j) (i + 1) = reg (w (c.eidx j) - w (i + 1))) : c.zone.IsRegion w := by
  have hs : c.size + 1 = c.zone.dim := by unfold size; omega
  intro i hi j hj hij
  rcases Nat.lt_or_gt_of_ne hij with hlt | hlt
  · cases i with
    | zero =>
      have := (h (j - 1) (c.size - 1) (by omega) (by omega)).2
      simp only [eidx, if_true] at this
      rwa [show j - 1 + 1 = j by omega] at this
    | succ i =>
      have := (h i (j - 2) (by omega) (by omega)).1
      simp only [eidx] at this
      rw [if_neg (by omega)] at this
      rwa [show j - 2 + 2 = j by omega] at this
  · cases j with
    | zero =>
      have := (h (i - 1) (c.size - 1) (by omega) (by omega)).1
      simp only [eidx, if_true] at this
      rwa [show i - 1 + 1 = i by omega] at this
    | succ j =>
      have := (h j (i - 2) (by omega) (by omega)).2
      simp only [eidx] at this
      rw [if_neg (by omega)] at this
      rwa [show i - 2 + 2 = i by omega] at this

theorem simple_pair_nonneg {c : TimedCondition} (h : c.isSimple = true) {i j : ℕ} (hi : i < c.zone.dim)
    (hj : j < c.zone.dim) (hij : i ≠ j) : 0 ≤ c.zone.val i j + c.zone.val j i := by
  rw [isSimple_iff] at h
  have key : ∀ a b : Bound, (Bound.isPoint a b = true ∨ Bound.isUnitOpen a b = true) → 0 ≤ a + b := by
    intro a b hab
    cases a with
    | inf => simp
    | fin a as =>
      cases b with
      | inf => simp
      | fin b bs =>
        rcases hab with hab | hab
        · simp only [Bound.isPoint, Bool.and_eq_true, decide_eq_true_eq] at hab
          obtain ⟨⟨e, rfl⟩, rfl⟩ := hab
          rw [← sat_self_zero]; simp; linarith
        · simp only [isUnitOpen, Bool.and_eq_true, decide_eq_true_eq, Bool.not_eq_true'] at hab
          obtain ⟨⟨e, rfl⟩, rfl⟩ := hab
          rw [← sat_self_zero]; simp; linarith
  rcases Nat.lt_or_gt_of_ne hij with hlt | hlt
  · exact key _ _ (h i hi j hj hlt)
  · rw [add_comm]; exact key _ _ (h j hj i hi hlt)

/-- `enumerate` gives disjoint regions that cover the condition. -/
theorem enumerate_spec {c : TimedCondition} (hc : c.Canonical) (hb : c.Bounded) (hi : c.Integral) :
    ∃ l, c.enumerate = some l ∧
      (∀ x ∈ l, x.isSimple = true ∧ x.Canonical ∧ x.Integral ∧ x.Bounded ∧ x.zone.dim = c.zone.dim) ∧
      (∀ w, c.zone.Sat w ↔ ∃ x ∈ l, x.zone.Sat w) ∧ l.Pairwise Disj := by
  unfold enumerate
  by_cases hs : c.isSimple = true
  · simp only [hs, if_true]
    exact ⟨[c], rfl, by simp [hs, hc, hi, hb], by simp, by simp⟩
  simp only [hs, Bool.false_eq_true, if_false]
  have hs1 : c.size + 1 = c.zone.dim := by have := hc.1; unfold size; omega
  have h0 : EOK c.size c := ⟨hs1.symm, hi, hb, hc.diagNN.negDiag, fun _ => hc.nonempty⟩
  have hI : EInv c.size c [] ([], [c]) := by
    refine ⟨?_, by simp, ?_, by simp, by simp, by simp⟩
    · intro x hx; simp at hx; rw [hx]; exact h0
    · intro x hx; simp at hx; rw [hx]; simpa using hs
  obtain ⟨s, e, hs'⟩ := foldlM_enumPair (pairs c.size) (fun p hp => mem_pairs.1 hp) hI
  rw [e]
  refine ⟨s.1, rfl, ?_, ?_, ?_⟩
  · intro x hx
    have hE := hs'.ok x (by simp [hx])
    have hsx := hs'.simple x hx
    obtain ⟨v, hv⟩ := hE.good fun i hi j hj hij => simple_pair_nonneg hsx hi hj hij
    have hdx : x.zone.dim = c.zone.dim := by rw [hE.dim, hs1]
    exact ⟨hsx, canonical_of_isRegion (hdx ▸ hc.1) hv.diagNN (isRegion_of_simple hE.int hsx hv),
      hE.int, hE.bnd, hdx⟩
  · intro w
    rw [hs'.cover w]
    constructor
    · rintro ⟨x, hx, hw⟩
      rcases List.mem_append.1 hx with hx | hx
      · exact ⟨x, hx, hw⟩
      · exfalso
        have hE := hs'.ok x (by simp [hx])
        have hdx : x.zone.dim = c.zone.dim := by rw [hE.dim, hs1]
        have : x.zone.IsRegion w := by
          apply isRegion_of_tight (hdx ▸ hc.1)
          intro i j hij hj
          rw [hE.size] at hj
          exact hs'.tight x hx (i, j) (by simpa using mem_pairs.2 ⟨hij, hj⟩) hij hj w hw
        have h1 := simple_of_isRegion this
        rw [hs'.notSimple x hx] at h1
        exact absurd h1 (by simp)
    · rintro ⟨x, hx, hw⟩; exact ⟨x, by simp [hx], hw⟩
  · exact (List.pairwise_append.1 hs'.disj).1

end TimedCondition
end LearnTA
