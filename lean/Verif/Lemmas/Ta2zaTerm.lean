import Verif.Lemmas.Ta2zaSem
import Mathlib.Order.WellQuasiOrder
import Mathlib.Data.Fintype.Sum
import Mathlib.Data.Fintype.Prod
import Mathlib.Data.Finite.Sum
import Mathlib.Data.Finite.Prod
import Mathlib.Data.Nat.Lattice
import Mathlib.Algebra.Order.BigOperators.Group.List
import Mathlib.Tactic.FieldSimp
import Mathlib.Data.Rat.Floor

/-! `ta2za` terminates: its zones have entries on a grid, bounded from above, and no zone is added
that is included in an earlier one of the same state (Dickson's lemma). -/

namespace LearnTA
open Bound

namespace Bound

/-- The bound is a multiple of `1/D`. -/
def Grid (D : ℕ) : Bound → Prop
  | fin c _ => ∃ k : ℤ, c = k / D
  | inf => True

/-- The bound is at most `B` or infinite. -/
def Below (B : ℚ) : Bound → Prop
  | fin c _ => c ≤ B
  | inf => True

theorem Grid.add {D : ℕ} {a b : Bound} (ha : Grid D a) (hb : Grid D b) : Grid D (a + b) := by
  cases a <;> cases b <;> simp [Grid] at *
  obtain ⟨k, rfl⟩ := ha
  obtain ⟨l, rfl⟩ := hb
  exact ⟨k + l, by push_cast; ring⟩

theorem Grid.min {D : ℕ} {a b : Bound} (ha : Grid D a) (hb : Grid D b) : Grid D (min a b) := by
  rcases le_total a b with h | h
  · rwa [min_eq_left h]
  · rwa [min_eq_right h]

theorem Grid.int {D : ℕ} (hD : 0 < D) (k : ℤ) (s : Bool) : Grid D (fin (k : ℚ) s) := by
  refine ⟨k * D, ?_⟩
  have : (D : ℚ) ≠ 0 := by exact_mod_cast hD.ne'
  push_cast; field_simp

theorem Below.mono {B B' : ℚ} (h : B ≤ B') {b : Bound} (hb : Below B b) : Below B' b := by
  cases b with
  | inf => trivial
  | fin c s => exact le_trans hb h

theorem Below.of_le {B : ℚ} {a b : Bound} (h : a ≤ b) (hb : b ≠ inf) (hB : Below B b) :
    Below B a := by
  cases b with
  | inf => exact absurd rfl hb
  | fin c s =>
    cases a with
    | inf => simp at h
    | fin c' s' =>
      simp only [Below] at hB ⊢
      rw [fin_le_fin] at h
      rcases h with h | h
      · linarith
      · linarith [h.1]

/-- The rank of a bound: smaller bounds have larger ranks. -/
def rank (D : ℕ) (B : ℚ) : Bound → ℕ
  | inf => 0
  | fin c s => 2 * (⌊D * (B - c)⌋).toNat + (if s then 1 else 2)

theorem le_of_rank {D : ℕ} (hD : 0 < D) {B : ℚ} {a b : Bound} (ha : Grid D a) (hb : Grid D b)
    (hA : Below B a) (hB : Below B b) (h : rank D B a ≤ rank D B b) : b ≤ a := by
  cases a with
  | inf => exact le_inf _
  | fin c s =>
    cases b with
    | inf => exfalso; simp only [rank] at h; split at h <;> omega
    | fin c' s' =>
      obtain ⟨k, rfl⟩ := ha
      obtain ⟨l, rfl⟩ := hb
      have hD' : (0 : ℚ) < D := by exact_mod_cast hD
      have e : ∀ k : ℤ, (D : ℚ) * (B - k / D) = D * B - k := by
        intro k; field_simp
      simp only [rank, e] at h
      rw [Int.floor_sub_intCast, Int.floor_sub_intCast] at h
      simp only [Below] at hA hB
      have h1 : k ≤ ⌊(D : ℚ) * B⌋ := by
        rw [Int.le_floor]; rw [div_le_iff₀ hD'] at hA; linarith
      have h2 : l ≤ ⌊(D : ℚ) * B⌋ := by
        rw [Int.le_floor]; rw [div_le_iff₀ hD'] at hB; linarith
      rw [fin_le_fin]
      rcases lt_trichotomy l k with hlt | heq | hgt
      · left; rw [div_lt_div_iff_of_pos_right hD']; exact_mod_cast hlt
      · right
        subst heq
        refine ⟨rfl, ?_⟩
        cases s <;> cases s' <;> simp at h ⊢
      · exfalso
        split at h <;> split at h <;> omega

end Bound

namespace Zone

/-- All entries are multiples of `1/D`. -/
def GridZ (D : ℕ) (z : Zone) : Prop := ∀ i j, Grid D (z.val i j)

/-- All entries are at most `B` or infinite. -/
def BelowZ (B : ℚ) (z : Zone) : Prop := ∀ i < z.dim, ∀ j < z.dim, Below B (z.val i j)

theorem fold_grid {α : Type*} {D : ℕ} (f : Zone → α → Zone) (l : List α)
    (hf : ∀ z, ∀ a ∈ l, GridZ D z → GridZ D (f z a)) (z : Zone) (h : GridZ D z) :
    GridZ D (l.foldl f z) := by
  induction l generalizing z with
  | nil => exact h
  | cons a l ih =>
    exact ih (fun z b hb => hf z b (List.mem_cons_of_mem _ hb)) _ (hf z a List.mem_cons_self h)

theorem GridZ.set {D : ℕ} {z : Zone} (h : GridZ D z) (i j : ℕ) {b : Bound} (hb : Grid D b) :
    GridZ D (z.set i j b) := by
  intro a c
  rw [set_val]
  split
  · exact hb
  · exact h a c

theorem GridZ.closeRow {D : ℕ} {z : Zone} (h : GridZ D z) (x i : ℕ) : GridZ D (closeRow x z i) := by
  intro a c
  simp only [Zone.closeRow]
  split
  · exact (h i c).min ((h x c).add (h i x))
  · exact h a c

theorem GridZ.close1 {D : ℕ} {z : Zone} (h : GridZ D z) (x : ℕ) : GridZ D (z.close1 x) :=
  fold_grid _ _ (fun _ a _ h => h.closeRow x a) _ h

theorem GridZ.canonize {D : ℕ} {z : Zone} (h : GridZ D z) : GridZ D z.canonize :=
  fold_grid _ _ (fun _ a _ h => h.close1 a) _ h

theorem GridZ.tighten {D : ℕ} {z : Zone} (h : GridZ D z) (x y : ℕ) {b : Bound} (hb : Grid D b) :
    GridZ D (z.tighten x y b) := ((h.set x y ((h x y).min hb)).close1 x).close1 y

theorem GridZ.tightenG {D : ℕ} (hD : 0 < D) {z : Zone} (h : GridZ D z) (g : Guard) :
    GridZ D (z.tightenG g) := by
  apply fold_grid _ _ _ _ h
  intro z c _ hz
  have e : ∀ s, Grid D (.fin (-(c.c : ℚ)) s) := fun s => by
    have := Grid.int hD (-c.c) s; push_cast at this; exact this
  unfold tightenC
  split
  · exact hz.tighten _ _ (e _)
  · exact hz.tighten _ _ (e _)
  · exact hz.tighten _ _ (Grid.int hD _ _)
  · exact hz.tighten _ _ (Grid.int hD _ _)

theorem GridZ.unconstrain {D : ℕ} {z : Zone} (h : GridZ D z) (x : ℕ) : GridZ D (z.unconstrain x) := by
  intro i j
  simp only [Zone.unconstrain]
  split
  · trivial
  · exact h i j

theorem grid_zero {D : ℕ} (s : Bool) : Grid D (.fin 0 s) := ⟨0, by simp⟩

theorem GridZ.applyResets {D : ℕ} {z : Zone} (h : GridZ D z) (r : Resets)
    (hr : ∀ p ∈ r, ∀ q, p.2 = .const q → Grid D (.fin q true)) : GridZ D (z.applyResets r) := by
  unfold Zone.applyResets
  refine fold_grid _ _ ?_ _ (fold_grid _ _ ?_ _ h)
  · intro z p hp hz
    unfold applyConst
    split
    · rename_i q e
      have hq := hr p hp q e
      have hq' : Grid D (.fin (-q) true) := by
        obtain ⟨k, hk⟩ := hq
        exact ⟨-k, by rw [hk]; push_cast; ring⟩
      exact (((hz.unconstrain _).set _ _ hq').set _ _ hq).canonize
    · exact hz
  · intro z p _ hz
    unfold applyRenaming
    split
    · split
      · exact (((hz.unconstrain _).set _ _ (grid_zero _)).set _ _ (grid_zero _)).canonize
      · exact hz
    · exact hz

theorem GridZ.fillDiag {D : ℕ} {z : Zone} (h : GridZ D z) : GridZ D z.fillDiag := by
  intro i j
  simp only [Zone.fillDiag]
  split
  · exact grid_zero _
  · exact h i j

theorem GridZ.elapse {D : ℕ} {z : Zone} (h : GridZ D z) : GridZ D z.elapse := by
  intro i j
  simp only [Zone.elapse]
  split
  · trivial
  · exact h i j

theorem GridZ.extrapolate {D : ℕ} {z : Zone} (h : GridZ D z) {m : ℕ → ℚ}
    (hm : ∀ x, Grid D (.fin (-m x) false)) : GridZ D (z.extrapolate m) := by
  unfold Zone.extrapolate
  apply fold_grid _ _ _ _ h
  intro z i _ hz
  unfold extrapolateOuter
  apply fold_grid
  · intro z j _ hz
    unfold extrapolateInner
    split
    · exact hz.set _ _ trivial
    · split
      · exact hz.set _ _ trivial
      · split
        · exact hz.set _ _ trivial
        · exact hz
  · have h1 : GridZ D (if firstGt (z.val (i + 1) 0) (m i) then z.set (i + 1) 0 .inf else z) := by
      split
      · exact hz.set _ _ trivial
      · exact hz
    generalize (if firstGt (z.val (i + 1) 0) (m i) then z.set (i + 1) 0 .inf else z) = z1 at h1 ⊢
    split
    · exact h1.set _ _ (hm i)
    · exact h1

/-! ### Upper bounds -/

theorem below_of_not_firstGt {b : Bound} {m : ℚ} (h : firstGt b m = false) : Below m b := by
  cases b with
  | inf => simp [firstGt] at h
  | fin c s => simpa [firstGt, Below] using h

/-- Row `i + 1` is bounded by the threshold of its clock, up to column `k`. -/
def RowOK (m : ℕ → ℚ) (i k : ℕ) (z : Zone) : Prop :=
  Below (m i) (z.val (i + 1) 0) ∧ ∀ j < k, Below (m i) (z.val (i + 1) (j + 1))

theorem rowOK_set_inf {m : ℕ → ℚ} {i k : ℕ} {z : Zone} (h : RowOK m i k z) (a b : ℕ) :
    RowOK m i k (z.set a b .inf) := by
  refine ⟨?_, fun j hj => ?_⟩
  · rw [set_val]; split
    · trivial
    · exact h.1
  · rw [set_val]; split
    · trivial
    · exact h.2 j hj

theorem rowOK_inner {m : ℕ → ℚ} {i k : ℕ} {z : Zone} (h : RowOK m i k z) (a b : ℕ) :
    RowOK m i k (extrapolateInner m a z b) := by
  unfold extrapolateInner
  split
  · exact rowOK_set_inf h _ _
  · split
    · exact rowOK_set_inf h _ _
    · split
      · exact rowOK_set_inf h _ _
      · exact h

theorem rowOK_set_zero {m : ℕ → ℚ} {i k : ℕ} {z : Zone} (h : RowOK m i k z) (b : ℕ) (c : Bound) :
    RowOK m i k (z.set 0 b c) := by
  refine ⟨?_, fun j hj => ?_⟩
  · rw [set_val, if_neg (by omega)]; exact h.1
  · rw [set_val, if_neg (by omega)]; exact h.2 j hj

theorem rowOK_outer {m : ℕ → ℚ} {i k n : ℕ} {z : Zone} (h : RowOK m i k z) (a : ℕ) :
    RowOK m i k (extrapolateOuter m n z a) := by
  unfold extrapolateOuter
  have key : ∀ (l : List ℕ) (z : Zone), RowOK m i k z → RowOK m i k (l.foldl (extrapolateInner m a) z) := by
    intro l
    induction l with
    | nil => intro z h; exact h
    | cons b l ih => intro z h; exact ih _ (rowOK_inner h a b)
  apply key
  have h1 : RowOK m i k (if firstGt (z.val (a + 1) 0) (m a) then z.set (a + 1) 0 .inf else z) := by
    split
    · exact rowOK_set_inf h _ _
    · exact h
  generalize (if firstGt (z.val (a + 1) 0) (m a) then z.set (a + 1) 0 .inf else z) = z1 at h1 ⊢
  split
  · exact rowOK_set_zero h1 _ _
  · exact h1

theorem rowOK_self (m : ℕ → ℚ) (i n : ℕ) (z : Zone) : RowOK m i n (extrapolateOuter m n z i) := by
  unfold extrapolateOuter
  have key : ∀ (k : ℕ) (z : Zone), RowOK m i 0 z →
      RowOK m i k ((List.range k).foldl (extrapolateInner m i) z) := by
    intro k
    induction k with
    | zero => intro z h; exact h
    | succ k ih =>
      intro z h
      rw [List.range_succ, List.foldl_append]
      simp only [List.foldl_cons, List.foldl_nil]
      have h1 := rowOK_inner (ih z h) i k
      set z' := (List.range k).foldl (extrapolateInner m i) z
      refine ⟨h1.1, fun j hj => ?_⟩
      by_cases e : j = k
      · subst e
        unfold extrapolateInner
        have hinf : ∀ (z : Zone), Below (m i) ((z.set (i + 1) (j + 1) .inf).val (i + 1) (j + 1)) := by
          intro z; rw [set_val, if_pos ⟨rfl, rfl⟩]; trivial
        split
        · exact hinf _
        · rename_i hf
          split
          · exact hinf _
          · split
            · exact hinf _
            · exact below_of_not_firstGt (by simpa using hf)
      · exact h1.2 j (by omega)
  apply key
  refine ⟨?_, fun j hj => absurd hj (Nat.not_lt_zero j)⟩
  have h1 : Below (m i)
      ((if firstGt (z.val (i + 1) 0) (m i) then z.set (i + 1) 0 .inf else z).val (i + 1) 0) := by
    split
    · rw [set_val, if_pos ⟨rfl, rfl⟩]; trivial
    · rename_i hf
      exact below_of_not_firstGt (by simpa using hf)
  generalize (if firstGt (z.val (i + 1) 0) (m i) then z.set (i + 1) 0 .inf else z) = z1 at h1 ⊢
  split
  · rw [set_val, if_neg (by omega)]; exact h1
  · exact h1

theorem rowOK_extrapolate (m : ℕ → ℚ) (z : Zone) (i : ℕ) (hi : i < z.dim - 1) :
    RowOK m i (z.dim - 1) (z.extrapolate m) := by
  unfold extrapolate
  generalize z.dim - 1 = n at hi
  have key : ∀ (l : List ℕ) (z : Zone), i ∈ l →
      RowOK m i n (l.foldl (extrapolateOuter m n) z) := by
    intro l
    induction l with
    | nil => intro z h; simp at h
    | cons a l ih =>
      intro z h
      simp only [List.foldl_cons]
      by_cases hl : i ∈ l
      · exact ih _ hl
      · have : i = a := by simpa [hl] using h
        subst this
        have hs : ∀ (l : List ℕ) (z : Zone), RowOK m i n z →
            RowOK m i n (l.foldl (extrapolateOuter m n) z) := by
          intro l
          induction l with
          | nil => intro z h; exact h
          | cons b l ih => intro z h; exact ih _ (rowOK_outer h b)
        exact hs l _ (rowOK_self m i n z)
  exact key _ _ (List.mem_range.2 hi)

theorem extrapolate_below {m : ℕ → ℚ} {B : ℚ} (hm : ∀ x, m x ≤ B) (hm0 : ∀ x, 0 ≤ m x) (z : Zone)
    (hd : z.val 0 0 = 0) (hnn : ∀ i, i + 1 < z.dim → z.val 0 (i + 1) ≤ 0) (hB : 0 ≤ B) :
    BelowZ B (z.extrapolate m) := by
  have hx := extra_extrapolate m z
  intro i hi j hj
  rw [hx.dim] at hi hj
  cases i with
  | zero =>
    cases j with
    | zero => rw [hx.zz, hd]; exact hB
    | succ j =>
      rcases hx.lo j with e | ⟨_, e⟩
      · rw [e]; exact Below.of_le (hnn j hj) (by simp [zero_def]) hB
      · rw [e]; simp only [Below]; linarith [hm0 j]
  | succ i =>
    have h := rowOK_extrapolate m z i (by omega)
    cases j with
    | zero => exact h.1.mono (hm i)
    | succ j => exact (h.2 j (by omega)).mono (hm i)

theorem closeRow_below {B : ℚ} (hB : 0 ≤ B) (x : ℕ) (z : Zone) (hx : x < z.dim) (i : ℕ)
    (hi : i < z.dim) (h : BelowZ B z) : BelowZ (2 * B) (closeRow x z i) := by
  intro a ha b hb
  simp only [closeRow]
  have hmono : ∀ c, Below B c → Below (2 * B) c := fun c hc => hc.mono (by linarith)
  split
  · rcases le_total (z.val i b) (z.val x b + z.val i x) with hle | hle
    · rw [min_eq_left hle]; exact hmono _ (h i hi b hb)
    · rw [min_eq_right hle]
      have h1 := h x hx b hb
      have h2 := h i hi x hx
      cases e1 : z.val x b <;> cases e2 : z.val i x <;> rw [e1] at h1 <;> rw [e2] at h2 <;>
        simp [Below] at *
      linarith
  · exact hmono _ (h a ha b hb)

theorem canonize_below {B : ℚ} (hB : 0 ≤ B) (n : ℕ) : ∃ B', 0 ≤ B' ∧ ∀ z : Zone, z.dim = n →
    BelowZ B z → BelowZ B' z.canonize := by
  have h1 : ∀ (l : List ℕ), (∀ i ∈ l, i < n) → ∀ x < n, ∀ B, 0 ≤ B → ∃ B', 0 ≤ B' ∧ ∀ z : Zone,
      z.dim = n → BelowZ B z → BelowZ B' (l.foldl (closeRow x) z) := by
    intro l
    induction l with
    | nil => intro _ x _ B hB; exact ⟨B, hB, fun z _ h => h⟩
    | cons i l ih =>
      intro hl x hx B hB
      obtain ⟨B', h1, h2⟩ := ih (fun j hj => hl j (List.mem_cons_of_mem _ hj)) x hx (2 * B)
        (by linarith)
      refine ⟨B', h1, fun z hz h => h2 _ hz (closeRow_below hB x z (by rw [hz]; exact hx) i
        (by rw [hz]; exact hl i List.mem_cons_self) h)⟩
  have h2 : ∀ (l : List ℕ), (∀ i ∈ l, i < n) → ∀ B, 0 ≤ B → ∃ B', 0 ≤ B' ∧ ∀ z : Zone,
      z.dim = n → BelowZ B z → BelowZ B' (l.foldl close1 z) := by
    intro l
    induction l with
    | nil => intro _ B hB; exact ⟨B, hB, fun z _ h => h⟩
    | cons i l ih =>
      intro hl B hB
      obtain ⟨B1, g1, g2⟩ := h1 (List.range n) (fun j hj => List.mem_range.1 hj) i
        (hl i List.mem_cons_self) B hB
      obtain ⟨B', k1, k2⟩ := ih (fun j hj => hl j (List.mem_cons_of_mem _ hj)) B1 g1
      refine ⟨B', k1, fun z hz h => k2 _ (by rw [close1_dim]; exact hz) ?_⟩
      unfold close1
      rw [hz]
      exact g2 z hz h
  obtain ⟨B', g1, g2⟩ := h2 (List.range n) (fun j hj => List.mem_range.1 hj) B hB
  refine ⟨B', g1, fun z hz h => ?_⟩
  unfold canonize
  rw [hz]
  exact g2 z hz h

theorem BelowZ.fillDiag {B : ℚ} (hB : 0 ≤ B) {z : Zone} (h : BelowZ B z) : BelowZ B z.fillDiag := by
  intro i hi j hj
  simp only [Zone.fillDiag]
  split
  · exact hB
  · exact h i hi j hj

end Zone

namespace Ta2za
open Zone

theorem seqApply_nonneg {n : ℕ} {r : Resets} (hr : ∀ p ∈ r, UpdOK n p)
    (hq : ∀ p ∈ r, ∀ q, p.2 = .const q → 0 ≤ q) {u : Valuation} (hu : ∀ x < n, 0 ≤ u x) :
    ∀ x < n, 0 ≤ seqApply r u x := by
  unfold seqApply
  have h1 : ∀ (r : Resets) (u : Valuation), (∀ p ∈ r, UpdOK n p) → (∀ x < n, 0 ≤ u x) →
      ∀ x < n, 0 ≤ r.foldl renameStep u x := by
    intro r
    induction r with
    | nil => intro u _ h; exact h
    | cons p r ih =>
      intro u hr h
      apply ih _ (fun q hq => hr q (List.mem_cons_of_mem _ hq))
      intro x hx
      have hp := hr p List.mem_cons_self
      obtain ⟨c, u'⟩ := p
      cases u' with
      | clock y =>
        simp only [renameStep]
        by_cases e : x = c
        · subst e; simpa using h y hp.2
        · rw [Function.update_of_ne e]; exact h x hx
      | const q => exact h x hx
  have h2 : ∀ (r : Resets) (u : Valuation), (∀ p ∈ r, ∀ q, p.2 = .const q → 0 ≤ q) →
      (∀ x < n, 0 ≤ u x) → ∀ x < n, 0 ≤ r.foldl constStep u x := by
    intro r
    induction r with
    | nil => intro u _ h; exact h
    | cons p r ih =>
      intro u hr h
      apply ih _ (fun q hq => hr q (List.mem_cons_of_mem _ hq))
      intro x hx
      have hp := hr p List.mem_cons_self
      obtain ⟨c, u'⟩ := p
      cases u' with
      | const q =>
        simp only [constStep]
        by_cases e' : x = c
        · subst e'; simpa using hp q rfl
        · rw [Function.update_of_ne e']; exact h x hx
      | clock y => exact h x hx
  exact h2 r _ hq (h1 r u hr hu)

theorem exists_denominator (l : List ℚ) : ∃ D : ℕ, 0 < D ∧ ∀ q ∈ l, ∃ k : ℤ, q = k / D := by
  induction l with
  | nil => exact ⟨1, by norm_num, by simp⟩
  | cons q l ih =>
    obtain ⟨D, hD, h⟩ := ih
    refine ⟨q.den * D, Nat.mul_pos q.den_pos hD, fun p hp => ?_⟩
    have h1 : (q.den : ℚ) ≠ 0 := by exact_mod_cast q.den_pos.ne'
    have h2 : (D : ℚ) ≠ 0 := by exact_mod_cast hD.ne'
    rcases List.mem_cons.1 hp with rfl | hp
    · refine ⟨p.num * D, ?_⟩
      push_cast
      rw [mul_div_mul_right _ _ h2]
      exact (Rat.num_div_den p).symm
    · obtain ⟨k, hk⟩ := h p hp
      refine ⟨k * q.den, ?_⟩
      rw [hk]
      push_cast
      rw [mul_comm (q.den : ℚ), mul_div_mul_right _ _ h1]

/-- What termination needs to know of the nodes. -/
def PT (A : TA) (D : ℕ) (B : ℚ) (p : ℕ) (z : Zone) : Prop :=
  p ∈ A.states ∧ z.dim = A.clockSize + 1 ∧ (∀ i, i + 1 < z.dim → z.val 0 (i + 1) ≤ 0) ∧
  GridZ D z ∧ BelowZ B z

theorem closed_nonneg {z0 : Zone} (b2 : z0.Closed) (b3 : z0.DiagNN)
    (hpos : ∀ v, z0.Mem v → ∀ x, x + 1 < z0.dim → 0 ≤ v x) :
    ∀ i, i + 1 < z0.dim → z0.val 0 (i + 1) ≤ 0 := by
  intro i hi
  have := bound_le_of_incl ⟨z0.dim, fun a b => if a = 0 ∧ b = i + 1 then 0 else .inf⟩ z0 rfl b2 b3
    (by
      intro v hv a _ b _
      simp only
      split
      · rename_i e
        obtain ⟨rfl, rfl⟩ := e
        have := hpos v hv i hi
        simpa using this
      · trivial) (i := 0) (j := i + 1) (by simp only; omega) (by simpa using hi) (by omega)
  simpa using this

theorem succZone_grid {D : ℕ} (hD : 0 < D) {now : Zone} (h : GridZ D now) {t : Trans}
    (ht : ∀ p ∈ t.resets, ∀ q, p.2 = .const q → Grid D (.fin q true)) {z0 : Zone}
    (hz : succZone now t = some z0) : GridZ D z0 := by
  unfold succZone at hz
  simp only at hz
  split at hz
  · cases hz
  · split at hz
    · cases hz
    · simp only [Option.some.injEq] at hz
      subst hz
      exact (((h.tightenG hD _).canonize.applyResets _ ht).canonize.canonize).fillDiag

theorem threshold_nonneg {A : TA} (hmax : ∀ m ∈ A.maxC, 0 ≤ m) (x : ℕ) : 0 ≤ thresholds A x := by
  unfold thresholds
  rw [List.getD_eq_getElem?_getD]
  cases h : A.maxC[x]? with
  | none => simp
  | some q => simpa using hmax q (List.mem_of_getElem? h)

theorem threshold_le (A : TA) (hmax : ∀ m ∈ A.maxC, 0 ≤ m) (x : ℕ) :
    thresholds A x ≤ (A.maxC.sum : ℤ) := by
  unfold thresholds
  rw [List.getD_eq_getElem?_getD]
  have hs : ∀ l : List ℤ, (∀ m ∈ l, 0 ≤ m) → ∀ m ∈ l, m ≤ l.sum := by
    intro l
    induction l with
    | nil => simp
    | cons a l ih =>
      intro h m hm
      have h0 : 0 ≤ l.sum := List.sum_nonneg fun x hx => h x (List.mem_cons_of_mem _ hx)
      simp only [List.sum_cons]
      rcases List.mem_cons.1 hm with rfl | hm
      · omega
      · have := ih (fun x hx => h x (List.mem_cons_of_mem _ hx)) m hm
        have := h a List.mem_cons_self
        omega
  cases h : A.maxC[x]? with
  | none =>
    simp only [Option.getD_none]
    exact_mod_cast List.sum_nonneg hmax
  | some q =>
    simp only [Option.getD_some]
    exact_mod_cast hs _ hmax q (List.mem_of_getElem? h)

theorem pt_step {A : TA} (hw : A.Closed) (hcl : A.ClocksExist) (hnr : A.NonnegResets)
    (hmax : ∀ m ∈ A.maxC, 0 ≤ m) {D : ℕ} (hD : 0 < D)
    (hDr : ∀ p ∈ A.states, ∀ a, ∀ t ∈ (A.loc p).next a, ∀ r ∈ t.resets, ∀ q, r.2 = .const q →
      Grid D (.fin q true)) (quick : Bool) :
    ∃ B, 0 ≤ B ∧ (∀ p z, PT A D B p z → ∀ a, ∀ t ∈ (A.loc p).next a, ∀ z0,
      succZone z.elapse t = some z0 → PT A D B t.target (newZone A quick z0)) := by
  have hS : (0 : ℚ) ≤ ((A.maxC.sum : ℤ) : ℚ) := by exact_mod_cast List.sum_nonneg hmax
  obtain ⟨B1, g1, g2⟩ := canonize_below hS (A.clockSize + 1)
  refine ⟨max B1 (A.maxC.sum : ℤ), le_max_of_le_left g1, ?_⟩
  intro p z ⟨hp, hdim, hnn, hgrid, hbel⟩ a t ht z0 hz
  have hdim' : z.elapse.dim = A.clockSize + 1 := hdim
  have htok := transOK hcl hp ht
  obtain ⟨b1, b2, b3, b4, b5⟩ := succZone_some (by rw [hdim']; exact htok) hz
  have hnn0 : ∀ i, i + 1 < z0.dim → z0.val 0 (i + 1) ≤ 0 := by
    apply closed_nonneg b2 b3
    intro v hv x hx
    obtain ⟨u, h1, h2, rfl⟩ := (b5 v).1 hv
    refine seqApply_nonneg htok.2 (hnr p hp a t ht) ?_ x (by omega)
    intro y hy
    have := h1 0 (by omega) (y + 1) (by omega)
    have e : z.elapse.val 0 (y + 1) = z.val 0 (y + 1) := by simp [elapse]
    rw [e] at this
    have := this.mono (hnn y (by omega))
    simp at this; linarith
  have hg0 := succZone_grid hD hgrid.elapse (hDr p hp a t ht) hz
  have hgm : ∀ x, Grid D (.fin (-thresholds A x) false) := by
    intro x
    have := Grid.int hD (-(A.maxC.getD x 0)) false
    push_cast at this
    exact this
  have hgE := hg0.extrapolate hgm
  have hbE := extrapolate_below (threshold_le A hmax) (threshold_nonneg hmax) z0 (b4 0) hnn0 hS
  have hEdim : (z0.extrapolate (thresholds A)).dim = A.clockSize + 1 := by
    rw [(extrapolate_weaker _ _).1, b1, hdim']
  refine ⟨hw.2 p hp a t ht, by rw [newZone_dim, b1, hdim'], ?_, ?_, ?_⟩
  · intro i hi
    rw [newZone_dim] at hi
    have hE : (z0.extrapolate (thresholds A)).val 0 (i + 1) ≤ 0 := by
      rcases (extra_extrapolate (thresholds A) z0).lo i with e | ⟨h1, e⟩
      · rw [e]; exact hnn0 i hi
      · rw [e, zero_def, fin_le_fin]
        rcases lt_or_eq_of_le (threshold_nonneg hmax i) with h | h
        · left; linarith
        · right; exact ⟨by rw [← h]; simp, by simp⟩
    unfold newZone
    split
    · simp only [fillDiag]
      rw [if_neg (by omega)]
      exact (canonize_le _ _ _).trans hE
    · simp only [fillDiag]
      rw [if_neg (by omega)]
      exact hE
  · unfold newZone
    split
    · exact hgE.canonize.fillDiag
    · exact hgE.fillDiag
  · have hmono : ∀ {B' : ℚ} {z : Zone}, B' ≤ max B1 ((A.maxC.sum : ℤ) : ℚ) → BelowZ B' z →
        BelowZ (max B1 (A.maxC.sum : ℤ)) z := fun hb h i hi j hj => (h i hi j hj).mono hb
    unfold newZone
    split
    · exact (hmono (le_max_left _ _) (g2 _ hEdim hbE)).fillDiag (le_max_of_le_left g1)
    · exact (hmono (le_max_right _ _) hbE).fillDiag (le_max_of_le_left g1)

/-- Entrywise below, within the dimension. -/
def ZLe (z z' : Zone) : Prop := ∀ i < z'.dim, ∀ j < z'.dim, z.val i j ≤ z'.val i j

/-- Every node is in the map, and no node is included in an earlier one. -/
structure Anti (L : ℕ) (s : State) : Prop where
  complete : ∀ i < s.za.states.length, ∃ e ∈ s.map, e.1.1 = (s.za.loc i).ta ∧
    e.1.2.dim = (s.za.loc i).zone.dim ∧ ZLe (s.za.loc i).zone e.1.2
  anti : ∀ i j, i < j → L ≤ j → j < s.za.states.length → (s.za.loc i).ta = (s.za.loc j).ta →
    ¬ ZLe (s.za.loc j).zone (s.za.loc i).zone

theorem Anti.same {L : ℕ} {s s' : State} (hs : Same s s') (h : Anti L s) : Anti L s' := by
  refine ⟨?_, ?_⟩
  · rw [hs.loc, hs.states, hs.map]; exact h.complete
  · rw [hs.loc, hs.states]; exact h.anti

theorem lookup_le_new {A : TA} (quick : Bool) {z0 : Zone} (b2 : z0.Closed)
    (b4 : ∀ i, z0.val i i = 0) : ZLe (lookupZone A quick z0) (newZone A quick z0) := by
  intro i hi j hj
  rw [newZone_dim] at hi hj
  cases quick with
  | false => exact le_refl _
  | true =>
    simp only [lookupZone, newZone, if_true, fillDiag]
    split
    · rename_i e; subst e; rw [b4]; exact le_refl _
    · rename_i e
      have hd : z0.DiagNN := fun i _ => (b4 i).ge
      have hdim : (z0.extrapolate (thresholds A)).canonize.dim = z0.dim := by
        rw [canonize_dim, (extrapolate_weaker _ _).1]
      exact bound_le_of_incl _ z0 hdim b2 hd
        (fun v hv => (canonize_mem _ _).2 ((extrapolate_weaker _ _).mem hv))
        (by rw [hdim]; exact hi) (by rw [hdim]; exact hj) e

theorem beq_iff (z z' : Zone) : z.beq z' = true ↔
    z.dim = z'.dim ∧ ∀ i < z.dim, ∀ j < z.dim, z.val i j = z'.val i j := by
  simp [Zone.beq]

theorem anti_addSuccessor {A : TA} {P : ℕ → Zone → Prop} (o : HashOrder) (quick : Bool) {L : ℕ}
    {s : State} (hg : Good A P s) (h : Anti L s) {p : ℕ} {a : Action} {t : Trans} {z0 : Zone}
    (hdim : ∀ i < s.za.states.length, (s.za.loc i).zone.dim = z0.dim) (b2 : z0.Closed)
    (b4 : ∀ i, z0.val i i = 0) : Anti L (addSuccessor A o quick p a s t z0) := by
  unfold addSuccessor
  split
  · refine ⟨?_, ?_⟩
    · intro i hi; simp only [addEdge_ta, addEdge_zone]; exact h.complete i hi
    · intro i j hij hL hj
      simp only [addEdge_ta, addEdge_zone]; exact h.anti i j hij hL hj
  · rename_i hnone
    rw [List.find?_eq_none] at hnone
    have hno : ∀ i < s.za.states.length, (s.za.loc i).ta = t.target →
        ¬ ZLe (newZone A quick z0) (s.za.loc i).zone := by
      intro i hi hta hle
      obtain ⟨e, he, e1, e2, e3⟩ := h.complete i hi
      apply hnone e ((o.entries_perm s.map).mem_iff.2 he)
      simp only [Bool.and_eq_true, beq_iff_eq]
      refine ⟨e1.trans hta, (includes_iff _ _).2 fun x hx y hy => ?_⟩
      have hd := hdim i hi
      refine ((lookup_le_new (A := A) quick b2 b4) x (by rw [newZone_dim]; omega) y
        (by rw [newZone_dim]; omega)).trans ((hle x (by omega) y (by omega)).trans (e3 x hx y hy))
    refine ⟨?_, ?_⟩
    · intro i hi
      simp only [addEdge_states, addNode_len] at hi
      simp only [addEdge_ta, addEdge_zone]
      by_cases ei : i = s.za.states.length
      · subst ei
        rw [addNode_loc_new]
        exact ⟨((t.target, newZone A quick z0), s.za.states.length), by simp [mapSet], rfl, rfl,
          fun _ _ _ _ => le_refl _⟩
      · have hi' : i < s.za.states.length := by omega
        rw [addNode_loc_lt _ _ _ _ _ hi']
        obtain ⟨e, he, e1, e2, e3⟩ := h.complete i hi'
        by_cases hk : (e.1.1 == t.target && e.1.2.beq (newZone A quick z0)) = true
        · simp only [Bool.and_eq_true, beq_iff_eq] at hk
          obtain ⟨k1, k2⟩ := hk
          rw [beq_iff] at k2
          refine ⟨((t.target, newZone A quick z0), s.za.states.length), by simp [mapSet], ?_, ?_, ?_⟩
          · simp only; rw [← k1, e1]
          · simp only; rw [← k2.1, e2]
          · intro x hx y hy
            simp only at hx hy ⊢
            rw [← k2.1] at hx hy
            exact (e3 x hx y hy).trans (k2.2 x hx y hy).le
        · refine ⟨e, ?_, e1, e2, e3⟩
          simp only [mapSet, List.mem_append, List.mem_filter]
          left
          exact ⟨he, by rw [Bool.not_eq_true] at hk; simp only [hk, Bool.not_false]⟩
    · intro i j hij hL hj
      simp only [addEdge_states, addNode_len] at hj
      simp only [addEdge_ta, addEdge_zone]
      have hi' : i < s.za.states.length := by omega
      rw [addNode_loc_lt _ _ _ _ _ hi']
      by_cases ej : j = s.za.states.length
      · subst ej
        rw [addNode_loc_new]
        exact fun hta => hno i hi' hta
      · have hj' : j < s.za.states.length := by omega
        rw [addNode_loc_lt _ _ _ _ _ hj']
        exact h.anti i j hij hL hj'

/-- Nodes that are not queued any more. -/
def Popped (c : ℕ) (s : State) : Prop := s.queue.length + c = s.za.states.length

theorem popped_addSuccessor {A : TA} (o : HashOrder) (quick : Bool) {c : ℕ} {s : State}
    (h : Popped c s) (p : ℕ) (a : Action) (t : Trans) (z0 : Zone) :
    Popped c (addSuccessor A o quick p a s t z0) := by
  unfold Popped at h ⊢
  unfold addSuccessor
  split
  · exact h
  · simp; omega

/-- Induction over the transitions handled in one round. -/
theorem expand_gen {A : TA} {P : ℕ → Zone → Prop} (o : HashOrder) (quick : Bool)
    (hP : ∀ p z, P p z → ∀ a, ∀ t ∈ (A.loc p).next a, ∀ z0, succZone z.elapse t = some z0 →
      P t.target (newZone A quick z0)) (I : State → Prop)
    (hI : ∀ s p a t, Good A P s → p < s.za.states.length → t ∈ (A.loc (s.za.loc p).ta).next a →
      I s → I (edgeStep A o quick p (s.za.loc p).zone.elapse a s t))
    {s : State} (h : Good A P s) {p : ℕ} (hp : p < s.za.states.length) (hi : I s) :
    I (expand A o quick s p) ∧ Ext s.za (expand A o quick s p).za := by
  have h1 : ∀ (ts : List Trans) (a : Action) (s : State) (now : Zone), Good A P s →
      p < s.za.states.length → now = (s.za.loc p).zone.elapse →
      (∀ t ∈ ts, t ∈ (A.loc (s.za.loc p).ta).next a) → I s →
      I (ts.foldl (edgeStep A o quick p now a) s) ∧
      Good A P (ts.foldl (edgeStep A o quick p now a) s) ∧
      Ext s.za (ts.foldl (edgeStep A o quick p now a) s).za := by
    intro ts a
    induction ts with
    | nil => intro s now h _ _ _ hi; exact ⟨hi, h, Ext.refl _⟩
    | cons t ts ih =>
      intro s now h hp hnow hts hi
      subst hnow
      obtain ⟨g1, g2, -⟩ := edgeStep_spec o quick hP h hp (hts t List.mem_cons_self)
      have hi' := hI s p a t h hp (hts t List.mem_cons_self) hi
      simp only [List.foldl_cons]
      set s1 := edgeStep A o quick p (s.za.loc p).zone.elapse a s t
      obtain ⟨k1, k2, k3⟩ := ih s1 (s.za.loc p).zone.elapse g1 (hp.trans_le g2.len)
        (by rw [g2.zone p hp])
        (fun u hu => by rw [g2.ta p hp]; exact hts u (List.mem_cons_of_mem _ hu)) hi'
      exact ⟨k1, k2, g2.trans k3⟩
  have h2 : ∀ (as : List Action) (s : State) (now : Zone) (st : TAState), Good A P s →
      p < s.za.states.length → now = (s.za.loc p).zone.elapse → st = A.loc (s.za.loc p).ta → I s →
      I (as.foldl (fun s a => (st.next a).foldl (edgeStep A o quick p now a) s) s) ∧
      Ext s.za (as.foldl (fun s a => (st.next a).foldl (edgeStep A o quick p now a) s) s).za := by
    intro as
    induction as with
    | nil => intro s now st h _ _ _ hi; exact ⟨hi, Ext.refl _⟩
    | cons a as ih =>
      intro s now st h hp hnow hst hi
      obtain ⟨k1, k2, k3⟩ := h1 (st.next a) a s now h hp hnow (fun t ht => by rw [hst] at ht; exact ht) hi
      simp only [List.foldl_cons]
      obtain ⟨l1, l2⟩ := ih _ now st k2 (hp.trans_le k3.len) (by rw [k3.zone p hp]; exact hnow)
        (by rw [k3.ta p hp]; exact hst) k1
      exact ⟨l1, k3.trans l2⟩
  exact h2 _ s _ _ h hp rfl rfl hi

/-- One round of the loop. -/
def step (A : TA) (o : HashOrder) (quick : Bool) (s : State) : State :=
  match s.queue with
  | [] => s
  | p :: queue => expand A o quick { s with queue := queue } p

theorem loop_none {A : TA} {o : HashOrder} {quick : Bool} (fuel : ℕ) (s : State)
    (h : loop A o quick fuel s = none) : ∀ k < fuel, ((step A o quick)^[k] s).done = false ∧
      ((step A o quick)^[k] s).queue ≠ [] := by
  induction fuel generalizing s with
  | zero => intro k hk; exact absurd hk (Nat.not_lt_zero k)
  | succ fuel ih =>
    unfold loop at h
    by_cases hd : s.done = true
    · rw [if_pos hd] at h; cases h
    · rw [if_neg hd] at h
      split at h
      · cases h
      · rename_i p queue hq
        intro k hk
        cases k with
        | zero => exact ⟨by simpa using hd, by simp [hq]⟩
        | succ k =>
          rw [Function.iterate_succ_apply]
          have : step A o quick s = expand A o quick { s with queue := queue } p := by
            unfold step; rw [hq]
          rw [this]
          exact ih _ h k (by omega)

/-- `ta2za` terminates. -/
theorem terminates (A : TA) (hw : A.Closed) (hcl : A.ClocksExist) (hnr : A.NonnegResets)
    (hmax : ∀ m ∈ A.maxC, 0 ≤ m) (o : HashOrder) (quick : Bool) :
    ∃ fuel, (ta2za A o quick fuel).isSome = true := by
  by_contra hcon
  have hnone : ∀ fuel, loop A o quick fuel (start A) = none := by
    intro fuel
    by_contra hne
    apply hcon
    refine ⟨fuel, ?_⟩
    simp only [ta2za, Option.isSome_map]
    exact Option.isSome_iff_ne_none.2 hne
  obtain ⟨D, hD, hden⟩ := exists_denominator
    (A.states.flatMap fun p => allActions.flatMap fun a => ((A.loc p).next a).flatMap fun t =>
      t.resets.filterMap fun r => match r.2 with | .const q => some q | .clock _ => none)
  have hDr : ∀ p ∈ A.states, ∀ a, ∀ t ∈ (A.loc p).next a, ∀ r ∈ t.resets, ∀ q, r.2 = .const q →
      Grid D (.fin q true) := by
    intro p hp a t ht r hr q hq
    refine hden q ?_
    simp only [List.mem_flatMap, List.mem_filterMap]
    exact ⟨p, hp, a, mem_allActions a, t, ht, r, hr, by rw [hq]⟩
  obtain ⟨B, hB, hP⟩ := pt_step hw hcl hnr hmax hD hDr quick
  have h0 : ∀ q ∈ A.init, PT A D B q (Zone.zero (A.clockSize + 1)) := fun q hq =>
    ⟨hw.1 q hq, rfl, fun _ _ => le_refl _, fun _ _ => grid_zero _, fun _ _ _ _ => hB⟩
  obtain ⟨i1, i2, i3⟩ := start_inv A (PT A D B) quick h0
  have hlen : (start A).za.states.length = A.init.length := by
    have h2 : (start A).za.init = (start A).za.states := rfl
    rw [← h2, i1.init, List.length_range]
  let L := A.init.length
  -- the invariant at every round
  have hround : ∀ k, let s := (step A o quick)^[k] (start A)
      Inv A (PT A D B) quick s ∧ Anti L s ∧ Popped k s := by
    intro k
    induction k with
    | zero =>
      refine ⟨i1, ⟨?_, ?_⟩, ?_⟩
      · -- all initial nodes are in the map
        simp only [Function.iterate_zero, id_eq]
        intro i hi
        have hmapc : ∀ (l : List ℕ) (m : List ((ℕ × Zone) × ℕ)) (za : ZA) (z : Zone),
            (∀ q, (q ∈ l ∨ ∃ e ∈ m, e.1.1 = (za.loc q).ta ∧ e.1.2 = z) →
              ∃ e ∈ l.foldl (fun m q => mapSet m ((za.loc q).ta, z) q) m,
                e.1.1 = (za.loc q).ta ∧ e.1.2 = z) ∧ True := by
          intro l
          induction l with
          | nil =>
            intro m za z
            refine ⟨fun q hq => ?_, trivial⟩
            rcases hq with hq | hq
            · simp at hq
            · exact hq
          | cons r l ih =>
            intro m za z
            refine ⟨fun q hq => ?_, trivial⟩
            simp only [List.foldl_cons]
            apply (ih _ za z).1 q
            rcases hq with hq | ⟨e, he, e1, e2⟩
            · rcases List.mem_cons.1 hq with rfl | hq
              · right; exact ⟨(((za.loc q).ta, z), q), by simp [mapSet], rfl, rfl⟩
              · left; exact hq
            · right
              by_cases hk : (e.1.1 == (za.loc r).ta && e.1.2.beq z) = true
              · simp only [Bool.and_eq_true, beq_iff_eq] at hk
                exact ⟨(((za.loc r).ta, z), r), by simp [mapSet], by simp only; rw [← hk.1, e1], rfl⟩
              · refine ⟨e, ?_, e1, e2⟩
                simp only [mapSet, List.mem_append, List.mem_filter]
                left; exact ⟨he, by rw [Bool.not_eq_true] at hk; simp only [hk, Bool.not_false]⟩
        have hst : i ∈ (start A).za.states := by
          rw [i1.states]; exact List.mem_range.2 hi
        obtain ⟨e, he, e1, e2⟩ := (hmapc (start A).za.states [] (start A).za
          (Zone.zero (A.clockSize + 1))).1 i (.inl hst)
        have hz := i1.initZone i (by omega)
        exact ⟨e, he, e1, by rw [e2, hz], by rw [e2, hz]; exact fun _ _ _ _ => le_refl _⟩
      · simp only [Function.iterate_zero, id_eq]
        intro i j _ hL hj
        omega
      · rfl
    | succ k ih =>
      obtain ⟨j1, j2, j3⟩ := ih
      obtain ⟨d1, d2⟩ := loop_none (k + 1) _ (hnone (k + 1)) k (by omega)
      simp only [Function.iterate_succ_apply']
      set s := (step A o quick)^[k] (start A) with hs
      cases hq : s.queue with
      | nil => exact absurd hq d2
      | cons p queue =>
        have hstep : step A o quick s = expand A o quick { s with queue := queue } p := by
          unfold step; rw [hq]
        rw [hstep]
        have hp : p < s.za.states.length := j1.queue p (by simp [hq])
        have hgood : Good A (PT A D B) { s with queue := queue } :=
          ⟨j1.states, j1.init, j1.initLen, j1.initTa, j1.initZone, j1.node, j1.acc, j1.edge,
            j1.fresh, j1.map, fun i hi => j1.queue i (by simp [hq, hi])⟩
        have hgen := (expand_gen o quick hP (fun s => Anti L s ∧ Popped (k + 1) s) (by
          intro s p a t hg hp ht ⟨ha, hpo⟩
          by_cases hd : s.done = true
          · rw [edgeStep_none _ _ _ _ _ _ _ _ (.inl hd)]; exact ⟨ha, hpo⟩
          · rw [Bool.not_eq_true] at hd
            cases hz : succZone (s.za.loc p).zone.elapse t with
            | none => rw [edgeStep_none _ _ _ _ _ _ _ _ (.inr hz)]; exact ⟨ha, hpo⟩
            | some z0 =>
              have hsame := edgeStep_some A o quick p _ a s t z0 hd hz
              obtain ⟨n1, n2, -⟩ := hg.node p hp
              have hdim' : (s.za.loc p).zone.elapse.dim = A.clockSize + 1 := n2
              obtain ⟨b1, b2, -, b4, -⟩ := succZone_some
                (by rw [hdim']; exact transOK hcl n1 ht) hz
              refine ⟨(anti_addSuccessor o quick hg ha (fun i hi => ?_) b2 b4).same hsame, ?_⟩
              · rw [(hg.node i hi).2.1, b1, hdim']
              · have := popped_addSuccessor (A := A) o quick hpo p a t z0
                unfold Popped at this ⊢
                rw [hsame.queue, hsame.states]; exact this) hgood hp
          ⟨⟨j2.complete, j2.anti⟩, by
            unfold Popped at j3 ⊢
            rw [hq] at j3
            simp only [List.length_cons] at j3 ⊢
            omega⟩).1
        exact ⟨expand_inv o quick hP d1 hq j1, hgen⟩
  have hext : ∀ k, Ext ((step A o quick)^[k] (start A)).za ((step A o quick)^[k + 1] (start A)).za := by
    intro k
    obtain ⟨j1, j2, j3⟩ := hround k
    obtain ⟨d1, d2⟩ := loop_none (k + 1) _ (hnone (k + 1)) k (by omega)
    simp only [Function.iterate_succ_apply']
    set s := (step A o quick)^[k] (start A) with hs
    cases hq : s.queue with
    | nil => exact absurd hq d2
    | cons p queue =>
      have hstep : step A o quick s = expand A o quick { s with queue := queue } p := by
        unfold step; rw [hq]
      rw [hstep]
      exact (expand_gen o quick hP (fun _ => True) (fun _ _ _ _ _ _ _ _ => trivial)
        (s := { s with queue := queue })
        ⟨j1.states, j1.init, j1.initLen, j1.initTa, j1.initZone, j1.node, j1.acc, j1.edge,
            j1.fresh, j1.map, fun i hi => j1.queue i (by simp [hq, hi])⟩
        (p := p) (j1.queue p (by simp [hq])) trivial).2
  have hext' : ∀ k l, k ≤ l →
      Ext ((step A o quick)^[k] (start A)).za ((step A o quick)^[l] (start A)).za := by
    intro k l hkl
    induction l, hkl using Nat.le_induction with
    | base => exact Ext.refl _
    | succ l _ ih => exact ih.trans (hext l)
  -- the sequence of all nodes
  let Z : ℕ → ZNode := fun k => ((step A o quick)^[L + k] (start A)).za.loc (L + k)
  have hlt : ∀ k, k < ((step A o quick)^[k] (start A)).za.states.length := by
    intro k
    obtain ⟨-, -, j3⟩ := hround k
    obtain ⟨-, d2⟩ := loop_none (k + 1) _ (hnone (k + 1)) k (by omega)
    unfold Popped at j3
    have : 0 < ((step A o quick)^[k] (start A)).queue.length := List.length_pos_iff.2 d2
    omega
  have hnode : ∀ k, PT A D B (Z k).ta (Z k).zone := fun k => (hround (L + k)).1.node _ (hlt _)
  have hanti : ∀ i j, i < j → (Z i).ta = (Z j).ta → ¬ ZLe (Z j).zone (Z i).zone := by
    intro i j hij
    have hx := hext' (L + i) (L + j) (by omega)
    have h1 := hx.ta _ (hlt (L + i))
    have h2 := hx.zone _ (hlt (L + i))
    have := (hround (L + j)).2.1.anti (L + i) (L + j) (by omega) (by omega) (hlt _)
    rw [h1, h2] at this
    exact this
  -- Dickson's lemma
  let N := A.states.sum
  have hN : ∀ p ∈ A.states, p ≤ N := fun p hp => List.single_le_sum (by simp) p hp
  let n := A.clockSize + 1
  let f : ℕ → (((Fin n × Fin n) ⊕ Bool) → ℕ) := fun k x => match x with
    | .inl (i, j) => Bound.rank D B ((Z k).zone.val i j)
    | .inr true => (Z k).ta
    | .inr false => N - (Z k).ta
  obtain ⟨i, j, hij, hle⟩ := wellQuasiOrdered_le f
  have hta : (Z i).ta = (Z j).ta := by
    have h1 : (Z i).ta ≤ (Z j).ta := hle (.inr true)
    have h2 : N - (Z i).ta ≤ N - (Z j).ta := hle (.inr false)
    have h3 := hN _ (hnode i).1
    have h4 := hN _ (hnode j).1
    omega
  refine hanti i j hij hta ?_
  intro x hx y hy
  obtain ⟨-, d1, -, g1, b1⟩ := hnode i
  obtain ⟨-, d2, -, g2, b2⟩ := hnode j
  rw [d1] at hx hy
  have := hle (.inl (⟨x, hx⟩, ⟨y, hy⟩))
  exact le_of_rank hD (g1 x y) (g2 x y) (b1 x (by rw [d1]; exact hx) y (by rw [d1]; exact hy))
    (b2 x (by rw [d2]; exact hx) y (by rw [d2]; exact hy)) this

end Ta2za
end LearnTA
