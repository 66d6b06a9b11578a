import Verif.Lemmas.TimedCondition
import Mathlib.Tactic.Linarith
import Mathlib.Algebra.Order.Floor.Ring

/-!
# Regions: the tightest integral bounds of a valuation
-/

namespace LearnTA
namespace Bound

/-- The tightest integral upper bound of a number. -/
def reg (q : ℚ) : Bound := if (⌊q⌋ : ℚ) = q then fin q true else fin (⌊q⌋ + 1) false

theorem reg_int (n : ℤ) : reg n = fin n true := by simp [reg]

theorem reg_of_int {q : ℚ} {n : ℤ} (h : q = n) : reg q = fin n true := by subst h; exact reg_int n

theorem reg_of_between {q : ℚ} {n : ℤ} (h1 : (n : ℚ) < q) (h2 : q < n + 1) :
    reg q = fin (n + 1) false := by
  have e : ⌊q⌋ = n := Int.floor_eq_iff.2 ⟨h1.le, h2⟩
  unfold reg
  rw [e, if_neg (ne_of_lt h1)]

theorem cases_int (q : ℚ) : (∃ n : ℤ, q = n) ∨ ∃ n : ℤ, (n : ℚ) < q ∧ q < n + 1 := by
  by_cases h : (⌊q⌋ : ℚ) = q
  · exact Or.inl ⟨_, h.symm⟩
  · exact Or.inr ⟨⌊q⌋, lt_of_le_of_ne (Int.floor_le q) h, Int.lt_floor_add_one q⟩

theorem reg_neg_of_between {q : ℚ} {n : ℤ} (h1 : (n : ℚ) < q) (h2 : q < n + 1) :
    reg (-q) = fin (-n) false := by
  have := reg_of_between (q := -q) (n := -n - 1) (by push_cast; linarith) (by push_cast; linarith)
  rw [this]; push_cast; congr 1; ring

theorem sat_reg (q : ℚ) : Sat q (reg q) := by
  rcases cases_int q with ⟨n, rfl⟩ | ⟨n, h1, h2⟩
  · rw [reg_int]; simp
  · rw [reg_of_between h1 h2]; simpa using h2

theorem isInt_reg (q : ℚ) : IsInt (reg q) := by
  rcases cases_int q with ⟨n, rfl⟩ | ⟨n, h1, h2⟩
  · rw [reg_int]; exact ⟨n, rfl⟩
  · rw [reg_of_between h1 h2]; exact ⟨n + 1, by push_cast; rfl⟩

theorem reg_le {q : ℚ} {b : Bound} (hb : IsInt b) (h : Sat q b) : reg q ≤ b := by
  cases b with
  | inf => simp
  | fin c s =>
    obtain ⟨m, rfl⟩ := hb
    rcases cases_int q with ⟨n, rfl⟩ | ⟨n, h1, h2⟩
    · rw [reg_int]; rwa [sat_iff] at h
    · rw [reg_of_between h1 h2]
      have h' : q ≤ m := by cases s <;> simp at h <;> linarith
      have : (n : ℚ) < m := lt_of_lt_of_le h1 h'
      have : n < m := by exact_mod_cast this
      have : n + 1 ≤ m := this
      rcases lt_or_eq_of_le this with h3 | h3
      · rw [fin_le_fin]; left; exact_mod_cast h3
      · rw [fin_le_fin]; right; exact ⟨by exact_mod_cast h3, by simp⟩

theorem reg_same {q q' : ℚ} (h1 : Sat q' (reg q)) (h2 : Sat (-q') (reg (-q))) : reg q' = reg q := by
  rcases cases_int q with ⟨n, rfl⟩ | ⟨n, g1, g2⟩
  · have e : -((n : ℤ) : ℚ) = ((-n : ℤ) : ℚ) := by push_cast; rfl
    rw [e] at h2
    rw [reg_int] at h1 h2
    simp at h1 h2
    have : q' = n := le_antisymm h1 h2
    rw [this]
  · rw [reg_neg_of_between g1 g2] at h2
    rw [reg_of_between g1 g2] at h1 ⊢
    simp at h1 h2
    exact reg_of_between h2 h1

theorem IsInt.add {a b : Bound} (ha : IsInt a) (hb : IsInt b) : IsInt (a + b) := by
  cases a <;> cases b <;> simp [IsInt] at *
  obtain ⟨m, rfl⟩ := ha; obtain ⟨n, rfl⟩ := hb
  exact ⟨m + n, by push_cast; rfl⟩

theorem IsInt.min {a b : Bound} (ha : IsInt a) (hb : IsInt b) : IsInt (min a b) := by
  rcases le_total a b with h | h
  · rwa [min_eq_left h]
  · rwa [min_eq_right h]

theorem IsInt.max {a b : Bound} (ha : IsInt a) (hb : IsInt b) : IsInt (max a b) := by
  rcases le_total a b with h | h
  · rwa [max_eq_right h]
  · rwa [max_eq_left h]

theorem reg_subadd (a b : ℚ) : reg (a + b) ≤ reg a + reg b :=
  reg_le ((isInt_reg a).add (isInt_reg b)) ((sat_reg a).add (sat_reg b))

theorem reg_ne_inf (q : ℚ) : reg q ≠ .inf := by unfold reg; split <;> simp

/-- Bounds forming a point or an open unit interval are the tightest bounds of each number between
them. -/
theorem reg_of_simple {u l : Bound} (hi : IsInt u) (h : isPoint u l = true ∨ isUnitOpen u l = true)
    {q : ℚ} (h1 : Sat q u) (h2 : Sat (-q) l) : u = reg q ∧ l = reg (-q) := by
  cases u with
  | inf => simp [isPoint, isUnitOpen] at h
  | fin u us =>
    cases l with
    | inf => simp [isPoint, isUnitOpen] at h
    | fin l ls =>
      obtain ⟨n, rfl⟩ := hi
      rcases h with h | h
      · simp only [isPoint, Bool.and_eq_true, decide_eq_true_eq] at h
        obtain ⟨⟨e, rfl⟩, rfl⟩ := h
        simp at h1 h2
        have e1 : q = n := by linarith
        have e2 : -q = ((-n : ℤ) : ℚ) := by push_cast; rw [e1]
        rw [reg_of_int e1, reg_of_int e2]
        have : l = -(n : ℚ) := by linarith
        exact ⟨rfl, by rw [this]; push_cast; rfl⟩
      · simp only [isUnitOpen, Bool.and_eq_true, decide_eq_true_eq, Bool.not_eq_true'] at h
        obtain ⟨⟨e, rfl⟩, rfl⟩ := h
        simp at h1 h2
        have g1 : ((n - 1 : ℤ) : ℚ) < q := by push_cast; linarith
        have g2 : q < ((n - 1 : ℤ) : ℚ) + 1 := by push_cast; linarith
        rw [reg_of_between g1 g2, reg_neg_of_between g1 g2]
        refine ⟨by push_cast; congr 1; ring, ?_⟩
        have : l = 1 - (n : ℚ) := by linarith
        rw [this]; push_cast; congr 1; ring

theorem simple_reg (q : ℚ) : isPoint (reg q) (reg (-q)) = true ∨ isUnitOpen (reg q) (reg (-q)) = true := by
  rcases cases_int q with ⟨n, rfl⟩ | ⟨n, h1, h2⟩
  · left
    have e : -((n : ℤ) : ℚ) = ((-n : ℤ) : ℚ) := by push_cast; rfl
    rw [e, reg_int, reg_int]; simp [isPoint]
  · right
    rw [reg_of_between h1 h2, reg_neg_of_between h1 h2]; simp [isUnitOpen]

end Bound

open Bound

namespace Zone

/-- The entries are the tightest integral bounds of the valuation `w` of the indices. -/
def IsRegion (z : Zone) (w : ℕ → ℚ) : Prop :=
  ∀ i < z.dim, ∀ j < z.dim, i ≠ j → z.val i j = reg (w i - w j)

/-- All entries are integral. -/
def IntZ (z : Zone) : Prop := ∀ i < z.dim, ∀ j < z.dim, IsInt (z.val i j)

theorem IsRegion.sat {z : Zone} {w : ℕ → ℚ} (h : z.IsRegion w) (hd : z.DiagNN) : z.Sat w := by
  intro i hi j hj
  by_cases hij : i = j
  · subst hij; rw [sub_self, sat_self_zero]; exact hd i hi
  · rw [h i hi j hj hij]; exact sat_reg _

theorem IsRegion.of_sat {z : Zone} {w w' : ℕ → ℚ} (h : z.IsRegion w) (hs : z.Sat w') :
    z.IsRegion w' := by
  intro i hi j hj hij
  rw [h i hi j hj hij]
  have h1 := hs i hi j hj
  have h2 := hs j hj i hi
  rw [h i hi j hj hij] at h1
  rw [h j hj i hi (Ne.symm hij)] at h2
  have e1 : w' j - w' i = -(w' i - w' j) := by ring
  have e2 : w j - w i = -(w i - w j) := by ring
  rw [e1, e2] at h2
  exact (reg_same h1 h2).symm

theorem IsRegion.congr {z : Zone} {w w' : ℕ → ℚ} (h : z.IsRegion w) (he : ∀ i < z.dim, w i = w' i) :
    z.IsRegion w' := by
  intro i hi j hj hij; rw [← he i hi, ← he j hj]; exact h i hi j hj hij

theorem IsRegion.shift {z : Zone} {w : ℕ → ℚ} (h : z.IsRegion w) (q : ℚ) :
    z.IsRegion (fun i => w i - q) := by
  intro i hi j hj hij
  rw [h i hi j hj hij]; congr 1; ring

theorem IsRegion.offClosed {z : Zone} {w : ℕ → ℚ} (h : z.IsRegion w) (hd : z.DiagNN) :
    z.OffClosed := by
  intro i hi j hj k hk hij
  by_cases hik : i = k
  · subst hik
    calc z.val i j = 0 + z.val i j := (zero_add _).symm
      _ ≤ _ := add_le_add (hd i hi) (le_refl _)
  by_cases hkj : k = j
  · subst hkj
    calc z.val i k = z.val i k + 0 := (add_zero _).symm
      _ ≤ _ := add_le_add (le_refl _) (hd k hk)
  rw [h i hi j hj hij, h i hi k hk hik, h k hk j hj hkj]
  have := reg_subadd (w i - w k) (w k - w j)
  rwa [sub_add_sub_cancel] at this

/-- Two regions with a common member have the same entries. -/
theorem IsRegion.unique {z z' : Zone} {w w' : ℕ → ℚ} (h : z.IsRegion w) (h' : z'.IsRegion w')
    (hdim : z.dim = z'.dim) {u : ℕ → ℚ} (hu : z.Sat u) (hu' : z'.Sat u) :
    ∀ i < z.dim, ∀ j < z.dim, i ≠ j → z.val i j = z'.val i j := by
  intro i hi j hj hij
  rw [(h.of_sat hu) i hi j hj hij, (h'.of_sat hu') i (hdim ▸ hi) j (hdim ▸ hj) hij]

theorem closeRow_intZ {z : Zone} (h : z.IntZ) {x i : ℕ} (hx : x < z.dim) (hi : i < z.dim) :
    (closeRow x z i).IntZ := by
  intro a ha b hb
  simp only [closeRow]
  split
  · exact (h i hi b hb).min ((h x hx b hb).add (h i hi x hx))
  · exact h a ha b hb

theorem foldl_closeRow_intZ {z : Zone} (h : z.IntZ) {x : ℕ} (hx : x < z.dim) (l : List ℕ)
    (hl : ∀ i ∈ l, i < z.dim) : (l.foldl (closeRow x) z).IntZ := by
  induction l generalizing z with
  | nil => exact h
  | cons a l ih =>
    exact ih (closeRow_intZ h hx (hl a (by simp))) hx fun i hi => hl i (by simp [hi])

theorem close1_intZ {z : Zone} (h : z.IntZ) {x : ℕ} (hx : x < z.dim) : (z.close1 x).IntZ :=
  foldl_closeRow_intZ h hx _ (by simp)

theorem foldl_close1_intZ {z : Zone} (h : z.IntZ) (l : List ℕ) (hl : ∀ i ∈ l, i < z.dim) :
    (l.foldl close1 z).IntZ := by
  induction l generalizing z with
  | nil => exact h
  | cons a l ih =>
    exact ih (close1_intZ h (hl a (by simp))) fun i hi => by simpa using hl i (by simp [hi])

theorem canonize_intZ {z : Zone} (h : z.IntZ) : z.canonize.IntZ :=
  foldl_close1_intZ h _ (by simp)

theorem set_intZ {z : Zone} (h : z.IntZ) {i j : ℕ} {b : Bound} (hb : IsInt b) : (z.set i j b).IntZ := by
  intro a ha c hc
  rw [set_val]; split
  · exact hb
  · exact h a ha c hc

/-- A negative entry of the diagonal comes with a pair of incompatible bounds. -/
def NegDiag (z : Zone) : Prop :=
  ∀ i < z.dim, 0 ≤ z.val i i ∨ ∃ x < z.dim, x ≠ i ∧ z.val i x + z.val x i < 0

theorem DiagNN.negDiag {z : Zone} (h : z.DiagNN) : z.NegDiag := fun i hi => Or.inl (h i hi)

theorem NegDiag.of_le {z z' : Zone} (h : z.NegDiag) (hd : z'.dim = z.dim)
    (hle : ∀ i < z.dim, ∀ j < z.dim, z'.val i j ≤ z.val i j)
    (hdiag : ∀ i < z.dim, z'.val i i = z.val i i) : z'.NegDiag := by
  intro i hi
  rw [hd] at hi
  rcases h i hi with h0 | ⟨x, hx, hxi, hlt⟩
  · left; rw [hdiag i hi]; exact h0
  · right
    exact ⟨x, hd ▸ hx, hxi, lt_of_le_of_lt (add_le_add (hle i hi x hx) (hle x hx i hi)) hlt⟩

theorem closeRow_negDiag {z : Zone} (h : z.NegDiag) {x i : ℕ} (hx : x < z.dim) :
    (closeRow x z i).NegDiag := by
  intro a ha
  have ha : a < z.dim := ha
  have hle : ∀ p q, (closeRow x z i).val p q ≤ z.val p q := closeRow_le x z i
  have old : (∃ y < z.dim, y ≠ a ∧ z.val a y + z.val y a < 0) →
      0 ≤ (closeRow x z i).val a a ∨ ∃ y < (closeRow x z i).dim, y ≠ a ∧
        (closeRow x z i).val a y + (closeRow x z i).val y a < 0 := by
    rintro ⟨y, hy, hya, hlt⟩
    exact Or.inr ⟨y, hy, hya, lt_of_le_of_lt (add_le_add (hle _ _) (hle _ _)) hlt⟩
  rcases h a ha with h0 | h0
  · by_cases hai : a = i
    · subst hai
      by_cases hxa : x = a
      · subst hxa
        left
        simp only [closeRow, if_true]
        exact le_min h0 (add_nonneg h0 h0)
      · by_cases hlt : z.val a x + z.val x a < 0
        · exact old ⟨x, hx, hxa, hlt⟩
        · left
          simp only [closeRow, if_true]
          refine le_min h0 ?_
          rw [add_comm]; exact not_lt.1 hlt
    · left; simpa [closeRow, hai] using h0
  · exact old h0

theorem foldl_closeRow_negDiag {z : Zone} (h : z.NegDiag) {x : ℕ} (hx : x < z.dim) (l : List ℕ) :
    (l.foldl (closeRow x) z).NegDiag := by
  induction l generalizing z with
  | nil => exact h
  | cons a l ih => exact ih (closeRow_negDiag h hx) hx

theorem canonize_negDiag {z : Zone} (h : z.NegDiag) : z.canonize.NegDiag := by
  have : ∀ (l : List ℕ) (z : Zone), z.NegDiag → (∀ i ∈ l, i < z.dim) → (l.foldl close1 z).NegDiag := by
    intro l
    induction l with
    | nil => intro z h _; exact h
    | cons a l ih =>
      intro z h hl
      refine ih _ (foldl_closeRow_negDiag h (hl a (by simp)) _) fun i hi => ?_
      simpa using hl i (by simp [hi])
  exact this _ z h (by simp)

theorem set_negDiag {z : Zone} (h : z.NegDiag) {i j : ℕ} (hij : i ≠ j) {b : Bound}
    (hb : b ≤ z.val i j) : (z.set i j b).NegDiag := by
  refine h.of_le rfl ?_ ?_
  · intro a _ c _
    rw [set_val]; split
    · rename_i e; rw [e.1, e.2]; exact hb
    · exact le_refl _
  · intro a _
    rw [set_val, if_neg]; rintro ⟨rfl, rfl⟩; exact hij rfl

/-- In a canonized zone, compatible pairs of different indices are enough for satisfiability. -/
theorem canonize_mem_of_pairs {z : Zone} (h : z.NegDiag)
    (hp : ∀ i < z.dim, ∀ j < z.dim, i ≠ j → 0 ≤ z.canonize.val i j + z.canonize.val j i) :
    ∃ v, z.Mem v := by
  rw [← isSatisfiable_iff]
  unfold isSatisfiable
  rw [isSatisfiableNoCanonize_iff]
  intro i hi j hj
  simp only [canonize_dim] at hi hj
  by_cases hij : i = j
  · subst hij
    have h0 : 0 ≤ z.canonize.val i i := by
      rcases canonize_negDiag h i (by simpa using hi) with h0 | ⟨x, hx, hxi, hlt⟩
      · exact h0
      · exact absurd (hp i hi x (by simpa using hx) (Ne.symm hxi)) (not_le.2 hlt)
    exact add_nonneg h0 h0
  · exact hp i hi j hj hij

end Zone

namespace TimedCondition
open Zone

theorem isSimple_iff (c : TimedCondition) : c.isSimple = true ↔
    ∀ i < c.zone.dim, ∀ j < c.zone.dim, i < j →
      Bound.isPoint (c.zone.val i j) (c.zone.val j i) = true ∨
        Bound.isUnitOpen (c.zone.val i j) (c.zone.val j i) = true := by
  unfold isSimple
  simp only [List.all_eq_true, List.mem_range]
  constructor
  · intro h i hi j hj hij
    have := h i hi j hj
    simpa [hij] using this
  · intro h i hi j hj
    split
    · rename_i hij; simpa using h i hi j hj hij
    · rfl

theorem isRegion_of_simple {c : TimedCondition} (hi : c.Integral) (hs : c.isSimple = true) {w : ℕ → ℚ}
    (hw : c.zone.Sat w) : c.zone.IsRegion w := by
  rw [isSimple_iff] at hs
  intro i hi' j hj hij
  rcases Nat.lt_or_gt_of_ne hij with h | h
  · have h2 := hw j hj i hi'
    rw [show w j - w i = -(w i - w j) by ring] at h2
    exact (reg_of_simple (hi i hi' j hj) (hs i hi' j hj h) (hw i hi' j hj) h2).1
  · have h2 := hw i hi' j hj
    rw [show w i - w j = -(w j - w i) by ring] at h2
    have := (reg_of_simple (hi j hj i hi') (hs j hj i hi' h) (hw j hj i hi') h2).2
    rw [this]; congr 1; ring

theorem simple_of_isRegion {c : TimedCondition} {w : ℕ → ℚ} (h : c.zone.IsRegion w) :
    c.isSimple = true := by
  rw [isSimple_iff]
  intro i hi j hj hij
  rw [h i hi j hj (by omega), h j hj i hi (by omega), show w j - w i = -(w i - w j) by ring]
  exact simple_reg _

theorem canonical_of_isRegion {c : TimedCondition} {w : ℕ → ℚ} (h2 : 2 ≤ c.zone.dim)
    (hd : c.zone.DiagNN) (h : c.zone.IsRegion w) : c.Canonical :=
  ⟨h2, (h.sat hd).pairNN, h.offClosed hd⟩

theorem integral_of_isRegion {c : TimedCondition} {w : ℕ → ℚ} (h : c.zone.IsRegion w)
    {i j : ℕ} (hi : i < c.zone.dim) (hj : j < c.zone.dim) (hij : i ≠ j) : IsInt (c.zone.val i j) := by
  rw [h i hi j hj hij]; exact isInt_reg _

theorem bounded_of_isRegion {c : TimedCondition} {w : ℕ → ℚ} (h : c.zone.IsRegion w) : c.Bounded := by
  intro i hi j hj hij
  rw [h i hi j hj hij]; exact reg_ne_inf _

/-- Regions are simple in the sense of the specification. -/
theorem Simple.of_isRegion {c : TimedCondition} {w : ℕ → ℚ} (h : c.zone.IsRegion w) : c.Simple := by
  intro i j hij hj
  rw [upper_eq, lower_eq]
  have h1 := eidx_lt hj
  have h2 : i + 1 < c.zone.dim := by unfold size at hj; omega
  rw [h _ h2 _ h1 (Ne.symm (eidx_ne hij)), h _ h1 _ h2 (eidx_ne hij),
    show w (c.eidx j) - w (i + 1) = -(w (i + 1) - w (c.eidx j)) by ring]
  rcases cases_int (w (i + 1) - w (c.eidx j)) with ⟨n, e⟩ | ⟨n, g1, g2⟩
  · refine ⟨n, Or.inl ⟨by rw [reg_of_int e], ?_⟩⟩
    rw [e, reg_of_int (n := -n) (by push_cast; rfl)]; push_cast; rfl
  · exact ⟨n, Or.inr ⟨reg_of_between g1 g2, reg_neg_of_between g1 g2⟩⟩

theorem restrictUpper_integral {c : TimedCondition} (h : c.Integral) {i j : ℕ} {b : Bound} (hb : IsInt b)
    (hi : i + 1 < c.zone.dim) (hj : c.eidx j < c.zone.dim) (f : Bool) : (c.restrictUpper i j b f).Integral := by
  rw [restrictUpper_eq]
  refine canonize_intZ (set_intZ h ?_)
  split
  · exact hb
  · exact hb.min (h _ hi _ hj)

theorem restrictLower_integral {c : TimedCondition} (h : c.Integral) {i j : ℕ} {b : Bound} (hb : IsInt b)
    (hi : i + 1 < c.zone.dim) (hj : c.eidx j < c.zone.dim) (f : Bool) : (c.restrictLower i j b f).Integral := by
  rw [restrictLower_eq]
  refine canonize_intZ (set_intZ h ?_)
  split
  · exact hb
  · exact hb.min (h _ hj _ hi)

theorem restrictUpper_le (c : TimedCondition) (i j : ℕ) (b : Bound) (p q : ℕ) :
    (c.restrictUpper i j b false).zone.val p q ≤ c.zone.val p q := by
  rw [restrictUpper_eq]
  refine (canonize_le _ _ _).trans ?_
  rw [set_val]; split
  · rename_i e; rw [e.1, e.2]; exact min_le_right _ _
  · exact le_refl _

theorem restrictLower_le (c : TimedCondition) (i j : ℕ) (b : Bound) (p q : ℕ) :
    (c.restrictLower i j b false).zone.val p q ≤ c.zone.val p q := by
  rw [restrictLower_eq]
  refine (canonize_le _ _ _).trans ?_
  rw [set_val]; split
  · rename_i e; rw [e.1, e.2]; exact min_le_right _ _
  · exact le_refl _

theorem restrictUpper_le_bound (c : TimedCondition) (i j : ℕ) (b : Bound) :
    (c.restrictUpper i j b false).zone.val (i + 1) (c.eidx j) ≤ b := by
  rw [restrictUpper_eq]
  refine (canonize_le _ _ _).trans ?_
  rw [set_val, if_pos ⟨rfl, rfl⟩]; exact min_le_left _ _

theorem restrictLower_le_bound (c : TimedCondition) (i j : ℕ) (b : Bound) :
    (c.restrictLower i j b false).zone.val (c.eidx j) (i + 1) ≤ b := by
  rw [restrictLower_eq]
  refine (canonize_le _ _ _).trans ?_
  rw [set_val, if_pos ⟨rfl, rfl⟩]; exact min_le_left _ _

theorem restrictUpper_force {c : TimedCondition} {i j : ℕ} {b : Bound}
    (h : b ≤ c.zone.val (i + 1) (c.eidx j)) : c.restrictUpper i j b true = c.restrictUpper i j b false := by
  rw [restrictUpper_eq, restrictUpper_eq]; simp [min_eq_left h]

theorem restrictLower_force {c : TimedCondition} {i j : ℕ} {b : Bound}
    (h : b ≤ c.zone.val (c.eidx j) (i + 1)) : c.restrictLower i j b true = c.restrictLower i j b false := by
  rw [restrictLower_eq, restrictLower_eq]; simp [min_eq_left h]

/-! ### The region of concrete sums -/

/-- Valuation of the indices by the accumulated durations. -/
def accExt (acc : List ℚ) : ℕ → ℚ := Valuation.ext fun i => acc.getD i 0

theorem concreteDifference_eq (acc : List ℚ) {c : TimedCondition} (hc : c.size = acc.length) (i : ℕ) {j : ℕ}
    (hj : j < acc.length) : concreteDifference acc i j = accExt acc (i + 1) - accExt acc (c.eidx j) := by
  unfold concreteDifference accExt eidx
  rw [hc]
  by_cases h : j = acc.length - 1
  · rw [if_neg (by omega), if_pos h]; rfl
  · rw [if_pos (by omega), if_neg h]; rfl

theorem foldl_pairs {α : Type*} (f : α → ℕ → ℕ → α) (n : ℕ) (x : α) :
    (List.range n).foldl (fun c i => (List.range' i (n - i)).foldl (fun c j => f c i j) c) x =
      (pairs n).foldl (fun c p => f c p.1 p.2) x := by
  unfold pairs
  rw [List.foldl_flatMap]
  congr 1
  funext c i
  rw [List.foldl_map]

theorem mem_pairs {n : ℕ} {p : ℕ × ℕ} : p ∈ pairs n ↔ p.1 ≤ p.2 ∧ p.2 < n := by
  unfold pairs
  rcases p with ⟨i, j⟩
  simp only [List.mem_flatMap, List.mem_range, List.mem_map, List.mem_range'_1, Prod.mk.injEq]
  constructor
  · rintro ⟨a, ha, b, hb, rfl, rfl⟩; omega
  · rintro ⟨h1, h2⟩; exact ⟨i, by omega, j, by omega, rfl, rfl⟩

/-- Invariant of the constructor. -/
def RegInv (acc : List ℚ) (c : TimedCondition) : Prop :=
  c.zone.dim = acc.length + 1 ∧ c.Integral ∧ c.zone.Sat (accExt acc)

theorem regionStep_spec (acc : List ℚ) {c : TimedCondition} (h : RegInv acc c) {i j : ℕ} (hij : i ≤ j)
    (hj : j < acc.length) :
    RegInv acc (regionStep acc i c j) ∧
    (∀ p q, (regionStep acc i c j).zone.val p q ≤ c.zone.val p q) ∧
    (regionStep acc i c j).zone.val (i + 1) (c.eidx j) ≤
      reg (accExt acc (i + 1) - accExt acc (c.eidx j)) ∧
    (regionStep acc i c j).zone.val (c.eidx j) (i + 1) ≤
      reg (accExt acc (c.eidx j) - accExt acc (i + 1)) := by
  obtain ⟨hdim, hint, hsat⟩ := h
  have hsz : c.size = acc.length := by unfold size; omega
  have hjs : j < c.size := by omega
  have he := eidx_lt hjs
  have hi : i + 1 < c.zone.dim := by omega
  set d := accExt acc (i + 1) - accExt acc (c.eidx j) with hd
  have hneg : accExt acc (c.eidx j) - accExt acc (i + 1) = -d := by rw [hd]; ring
  have key : regionStep acc i c j =
      (c.restrictUpper i j (reg d) false).restrictLower i j (reg (-d)) false := by
    have e1 : reg d ≤ c.zone.val (i + 1) (c.eidx j) := reg_le (hint _ hi _ he) (hsat _ hi _ he)
    have hU : (c.restrictUpper i j (reg d) false).Integral := restrictUpper_integral hint (isInt_reg _) hi he _
    have hUs : (c.restrictUpper i j (reg d) false).zone.Sat (accExt acc) := by
      rw [restrictUpper_sat c hij hjs]; exact ⟨hsat, sat_reg _⟩
    have e2 : reg (-d) ≤ (c.restrictUpper i j (reg d) false).zone.val
        ((c.restrictUpper i j (reg d) false).eidx j) (i + 1) := by
      simp only [restrictUpper_eidx]
      refine reg_le (hU _ (by simpa using he) _ (by simpa using hi)) ?_
      rw [← hneg]; exact hUs _ (by simpa using he) _ (by simpa using hi)
    rw [← restrictUpper_force e1] at e2 ⊢
    rw [← restrictLower_force e2]
    unfold regionStep
    simp only
    rw [concreteDifference_eq acc hsz i hj, ← hd]
    rcases cases_int d with ⟨n, e⟩ | ⟨n, g1, g2⟩
    · rw [if_pos (by rw [e]; simp), reg_of_int e, reg_of_int (n := -n) (by rw [e]; push_cast; rfl), e]
      push_cast; rfl
    · have ef : ⌊d⌋ = n := Int.floor_eq_iff.2 ⟨g1.le, g2⟩
      rw [ef, if_neg (ne_of_lt g1), reg_of_between g1 g2, reg_neg_of_between g1 g2]
  have hU : (c.restrictUpper i j (reg d) false).Integral := restrictUpper_integral hint (isInt_reg _) hi he _
  have hUs : (c.restrictUpper i j (reg d) false).zone.Sat (accExt acc) := by
    rw [restrictUpper_sat c hij hjs]; exact ⟨hsat, sat_reg _⟩
  rw [key]
  refine ⟨⟨by simpa using hdim, ?_, ?_⟩, ?_, ?_, ?_⟩
  · exact restrictLower_integral hU (isInt_reg _) (by simpa using hi) (by simpa using he) _
  · rw [restrictLower_sat _ hij (by simpa using hjs)]
    refine ⟨hUs, ?_⟩
    simp only [restrictUpper_eidx, hneg]; exact sat_reg _
  · intro p q; exact (restrictLower_le _ _ _ _ _ _).trans (restrictUpper_le _ _ _ _ _ _)
  · exact (restrictLower_le _ _ _ _ _ _).trans (restrictUpper_le_bound _ _ _ _)
  · have := restrictLower_le_bound (c.restrictUpper i j (reg d) false) i j (reg (-d))
    rw [restrictUpper_eidx] at this
    rw [hneg]; exact this

theorem foldl_regionStep (acc : List ℚ) (l : List (ℕ × ℕ)) (hl : ∀ p ∈ l, p.1 ≤ p.2 ∧ p.2 < acc.length)
    {c : TimedCondition} (h : RegInv acc c) :
    let c' := l.foldl (fun c p => regionStep acc p.1 c p.2) c
    RegInv acc c' ∧ (∀ p q, c'.zone.val p q ≤ c.zone.val p q) ∧
    ∀ p ∈ l, c'.zone.val (p.1 + 1) (c.eidx p.2) ≤ reg (accExt acc (p.1 + 1) - accExt acc (c.eidx p.2)) ∧
      c'.zone.val (c.eidx p.2) (p.1 + 1) ≤ reg (accExt acc (c.eidx p.2) - accExt acc (p.1 + 1)) := by
  induction l generalizing c with
  | nil => exact ⟨h, fun _ _ => le_refl _, by simp⟩
  | cons a l ih =>
    obtain ⟨h1, h2, h3, h4⟩ := regionStep_spec acc h (hl a (by simp)).1 (hl a (by simp)).2
    obtain ⟨g1, g2, g3⟩ := ih (fun p hp => hl p (by simp [hp])) h1
    refine ⟨g1, fun p q => (g2 p q).trans (h2 p q), ?_⟩
    have ee : ∀ k, (regionStep acc a.1 c a.2).eidx k = c.eidx k := by
      intro k; unfold eidx size; rw [h1.1, h.1]
    intro p hp
    rcases List.mem_cons.1 hp with rfl | hp
    · exact ⟨(g2 _ _).trans h3, (g2 _ _).trans h4⟩
    · have := g3 p hp
      rwa [ee] at this

/-- The constructor from concrete sums gives the region of these sums. -/
theorem ofAccumulated_isRegion (acc : List ℚ) :
    (ofAccumulated acc).zone.dim = acc.length + 1 ∧ (ofAccumulated acc).Integral ∧
    (ofAccumulated acc).zone.Sat (accExt acc) ∧ (ofAccumulated acc).zone.IsRegion (accExt acc) := by
  have e : ofAccumulated acc = (pairs acc.length).foldl (fun c p => regionStep acc p.1 c p.2)
      ⟨Zone.top (acc.length + 1)⟩ := foldl_pairs (fun c i j => regionStep acc i c j) _ _
  have h0 : RegInv acc ⟨Zone.top (acc.length + 1)⟩ := by
    refine ⟨rfl, ?_, ?_⟩
    · intro i _ j _; simp [Zone.top, IsInt]
    · intro i _ j _; simp [Zone.top]
  obtain ⟨⟨h1, h2, h3⟩, _, h5⟩ := foldl_regionStep acc (pairs acc.length) (fun p hp => mem_pairs.1 hp) h0
  rw [← e] at h1 h2 h3 h5
  refine ⟨h1, h2, h3, ?_⟩
  have hup : ∀ i < acc.length + 1, ∀ j < acc.length + 1, i ≠ j →
      (ofAccumulated acc).zone.val i j ≤ reg (accExt acc i - accExt acc j) := by
    intro i hi j hj hij
    have hsz : (TimedCondition.mk (Zone.top (acc.length + 1))).size = acc.length := rfl
    rcases Nat.lt_or_gt_of_ne hij with h | h
    · cases i with
      | zero =>
        have := (h5 (j - 1, acc.length - 1) (mem_pairs.2 ⟨by simp; omega, by simp; omega⟩)).2
        simp only [eidx, hsz, if_true] at this
        rwa [show j - 1 + 1 = j by omega] at this
      | succ i =>
        have := (h5 (i, j - 2) (mem_pairs.2 ⟨by simp; omega, by simp; omega⟩)).1
        simp only [eidx, hsz] at this
        rw [if_neg (by omega)] at this
        rwa [show j - 2 + 2 = j by omega] at this
    · cases j with
      | zero =>
        have := (h5 (i - 1, acc.length - 1) (mem_pairs.2 ⟨by simp; omega, by simp; omega⟩)).1
        simp only [eidx, hsz, if_true] at this
        rwa [show i - 1 + 1 = i by omega] at this
      | succ j =>
        have := (h5 (j, i - 2) (mem_pairs.2 ⟨by simp; omega, by simp; omega⟩)).2
        simp only [eidx, hsz] at this
        rw [if_neg (by omega)] at this
        rwa [show i - 2 + 2 = i by omega] at this
  intro i hi j hj hij
  exact le_antisymm (hup i (by omega) j (by omega) hij) (reg_le (h2 i hi j hj) (h3 i hi j hj))

end TimedCondition
end LearnTA
