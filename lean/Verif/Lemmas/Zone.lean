import Verif.Spec.Zone
import Verif.Lemmas.Constraint
import Mathlib.Tactic.Abel
import Mathlib.Data.Finset.Insert
import Mathlib.Data.Finset.Lattice.Basic
import Mathlib.Data.Finset.Dedup

namespace LearnTA
namespace Bound

theorem sat_add_fin {d q : ℚ} {b : Bound} : Sat d (b + fin q true) ↔ Sat (d - q) b := by
  cases b with
  | inf => simp
  | fin c s => cases s <;> simp <;> constructor <;> intro h <;> linarith

theorem nonneg_of_add_self {b : Bound} (h : 0 ≤ b + b) : 0 ≤ b := by
  cases b with
  | inf => simp
  | fin c s =>
    simp [zero_def] at h ⊢
    rcases h with h | ⟨h, h'⟩
    · left; linarith
    · right; exact ⟨by linarith, h'⟩

theorem sat_self_zero {b : Bound} : Sat 0 b ↔ 0 ≤ b := by rw [sat_iff]; rfl

/-- One-dimensional Helly property for strict and non-strict bounds. -/
theorem exists_value {ι : Type*} (l : List ι) (p : ι → ℚ) (up lo : ι → Bound)
    (h : ∀ i ∈ l, ∀ j ∈ l, Sat (p i - p j) (lo i + up j)) :
    ∃ t, ∀ i ∈ l, Sat (t - p i) (up i) ∧ Sat (p i - t) (lo i) := by
  have hmin : ∀ (f : ι → Bound) (l : List ι), (l.map f).foldr min inf = inf ∨
      ∃ i ∈ l, (l.map f).foldr min inf = f i := by
    intro f l
    induction l with
    | nil => left; rfl
    | cons a l ih =>
      simp only [List.map_cons, List.foldr_cons]
      rcases le_total (f a) ((l.map f).foldr min inf) with hle | hle
      · right; exact ⟨a, by simp, min_eq_left hle⟩
      · rw [min_eq_right hle]
        rcases ih with ih | ⟨i, hi, ih⟩
        · left; exact ih
        · right; exact ⟨i, by simp [hi], ih⟩
  have hle : ∀ (f : ι → Bound) (l : List ι), ∀ i ∈ l, (l.map f).foldr min inf ≤ f i := by
    intro f l
    induction l with
    | nil => simp
    | cons a l ih =>
      intro i hi
      simp only [List.mem_cons] at hi
      simp only [List.map_cons, List.foldr_cons]
      rcases hi with rfl | hi
      · exact min_le_left _ _
      · exact (min_le_right _ _).trans (ih i hi)
  let fu : ι → Bound := fun i => up i + fin (p i) true
  let fl : ι → Bound := fun i => lo i + fin (- p i) true
  have h0 : 0 ≤ (l.map fu).foldr min inf + (l.map fl).foldr min inf := by
    rcases hmin fu l with e | ⟨j, hj, e⟩
    · rw [e]; simp
    · rcases hmin fl l with e' | ⟨i, hi, e'⟩
      · rw [e']; simp
      · rw [e, e']
        have := h i hi j hj
        rw [sat_iff] at this
        have h2 := add_le_add this (le_refl (fin (p j - p i) true))
        have e1 : fin (p i - p j) true + fin (p j - p i) true = (0 : Bound) := by
          simp [zero_def]
        have e2 : lo i + up j + fin (p j - p i) true = fu j + fl i := by
          have : (fin (p j - p i) true : Bound) = fin (p j) true + fin (- p i) true := by
            simp [sub_eq_add_neg]
          rw [this]
          simp only [fu, fl]
          abel
        rw [e1, e2] at h2
        exact h2
  obtain ⟨t, ht1, ht2⟩ := (exists_sat_iff _ _).2 h0
  refine ⟨t, fun i hi => ⟨?_, ?_⟩⟩
  · have := ht1.mono (hle fu l i hi)
    rwa [sat_add_fin] at this
  · have := ht2.mono (hle fl l i hi)
    rw [sat_add_fin] at this
    have e : -t - -p i = p i - t := by ring
    rwa [e] at this

end Bound

open Bound

namespace Zone

/-- Non-negative diagonal. -/
def DiagNN (z : Zone) : Prop := ∀ i < z.dim, 0 ≤ z.val i i

@[simp] theorem closeRow_dim (x : ℕ) (z : Zone) (i : ℕ) : (closeRow x z i).dim = z.dim := rfl

theorem foldl_closeRow_dim (x : ℕ) (z : Zone) (l : List ℕ) :
    (l.foldl (closeRow x) z).dim = z.dim := by
  induction l generalizing z with
  | nil => rfl
  | cons i l ih => simp [ih]

@[simp] theorem close1_dim (z : Zone) (x : ℕ) : (z.close1 x).dim = z.dim :=
  foldl_closeRow_dim x z _

theorem foldl_close1_dim (z : Zone) (l : List ℕ) : (l.foldl close1 z).dim = z.dim := by
  induction l generalizing z with
  | nil => rfl
  | cons i l ih => simp [ih]

@[simp] theorem canonize_dim (z : Zone) : z.canonize.dim = z.dim := foldl_close1_dim z _
@[simp] theorem set_dim (z : Zone) (i j b) : (z.set i j b).dim = z.dim := rfl
@[simp] theorem tighten_dim (z : Zone) (x y c) : (z.tighten x y c).dim = z.dim := by
  simp [tighten]
@[simp] theorem tightenC_dim (z : Zone) (c) : (z.tightenC c).dim = z.dim := by
  unfold tightenC; split <;> simp
@[simp] theorem tightenG_dim (z : Zone) (g) : (z.tightenG g).dim = z.dim := by
  unfold tightenG
  induction g generalizing z with
  | nil => rfl
  | cons c g ih => simp [ih]
@[simp] theorem unconstrain_dim (z : Zone) (x) : (z.unconstrain x).dim = z.dim := rfl
@[simp] theorem reset_dim (z : Zone) (x) : (z.reset x).dim = z.dim := rfl
@[simp] theorem elapse_dim (z : Zone) : (z.elapse).dim = z.dim := rfl
@[simp] theorem reverseElapse_dim (z : Zone) : (z.reverseElapse).dim = z.dim := rfl
@[simp] theorem inter_dim (z z' : Zone) : (z.inter z').dim = z.dim := by simp [inter]

theorem set_val (z : Zone) (i j b i' j') :
    (z.set i j b).val i' j' = if i' = i ∧ j' = j then b else z.val i' j' := rfl

/-! ### Monotonicity: closing only decreases bounds, and keeps the set -/

theorem closeRow_le (x : ℕ) (z : Zone) (i i' j : ℕ) : (closeRow x z i).val i' j ≤ z.val i' j := by
  simp only [closeRow]
  split
  · rename_i h; subst h; exact min_le_left _ _
  · exact le_refl _

theorem foldl_closeRow_le (x : ℕ) (z : Zone) (l : List ℕ) (i j : ℕ) :
    (l.foldl (closeRow x) z).val i j ≤ z.val i j := by
  induction l generalizing z with
  | nil => exact le_refl _
  | cons a l ih => exact (ih _).trans (closeRow_le _ _ _ _ _)

theorem close1_le (z : Zone) (x i j : ℕ) : (z.close1 x).val i j ≤ z.val i j :=
  foldl_closeRow_le x z _ i j

theorem foldl_close1_le (z : Zone) (l : List ℕ) (i j : ℕ) :
    (l.foldl close1 z).val i j ≤ z.val i j := by
  induction l generalizing z with
  | nil => exact le_refl _
  | cons a l ih => exact (ih _).trans (close1_le _ _ _ _)

theorem canonize_le (z : Zone) (i j : ℕ) : z.canonize.val i j ≤ z.val i j :=
  foldl_close1_le z _ i j

theorem closeRow_sat (x : ℕ) (z : Zone) (i : ℕ) (hx : x < z.dim) (hi : i < z.dim) (w : ℕ → ℚ) :
    (closeRow x z i).Sat w ↔ z.Sat w := by
  constructor
  · intro h a ha b hb
    exact (h a ha b hb).mono (closeRow_le x z i a b)
  · intro h a ha b hb
    simp only [closeRow]
    split
    · rename_i e; subst e
      rw [sat_min]
      refine ⟨h a ha b hb, ?_⟩
      have h1 := (h x hx b hb).add (h a ha x hx)
      have e : w x - w b + (w a - w x) = w a - w b := by ring
      rwa [e] at h1
    · exact h a ha b hb

theorem close1_sat (z : Zone) (x : ℕ) (hx : x < z.dim) (w : ℕ → ℚ) :
    (z.close1 x).Sat w ↔ z.Sat w := by
  unfold close1
  have : ∀ (l : List ℕ) (z' : Zone), z'.dim = z.dim → (∀ i ∈ l, i < z.dim) →
      ((l.foldl (closeRow x) z').Sat w ↔ z'.Sat w) := by
    intro l
    induction l with
    | nil => intro z' _ _; rfl
    | cons a l ih =>
      intro z' hd hl
      simp only [List.foldl_cons]
      rw [ih _ (by simpa using hd) (fun i hi => hl i (by simp [hi]))]
      exact closeRow_sat x z' a (hd ▸ hx) (hd ▸ hl a (by simp)) w
  exact this _ z rfl (fun i hi => by simpa using hi)

theorem canonize_sat (z : Zone) (w : ℕ → ℚ) : z.canonize.Sat w ↔ z.Sat w := by
  unfold canonize
  have : ∀ (l : List ℕ) (z' : Zone), z'.dim = z.dim → (∀ i ∈ l, i < z.dim) →
      ((l.foldl close1 z').Sat w ↔ z'.Sat w) := by
    intro l
    induction l with
    | nil => intro z' _ _; rfl
    | cons a l ih =>
      intro z' hd hl
      simp only [List.foldl_cons]
      rw [ih _ (by simpa using hd) (fun i hi => hl i (by simp [hi]))]
      exact close1_sat z' a (hd ▸ hl a (by simp)) w
  exact this _ z rfl (fun i hi => by simpa using hi)

theorem canonize_mem (z : Zone) (v : Valuation) : z.canonize.Mem v ↔ z.Mem v :=
  canonize_sat z v.ext

/-! ### Explicit form of `close1` -/

theorem foldl_closeRow_val (z : Zone) (x : ℕ) (h : 0 ≤ z.val x x) (n : ℕ) (i j : ℕ) :
    ((List.range n).foldl (closeRow x) z).val i j =
      if i < n then min (z.val i j) (z.val i x + z.val x j) else z.val i j := by
  induction n generalizing i j with
  | zero => simp
  | succ n ih =>
    rw [List.range_succ, List.foldl_append, List.foldl_cons, List.foldl_nil]
    set z' := (List.range n).foldl (closeRow x) z with hz'
    have hxrow : ∀ j, z'.val x j = z.val x j := by
      intro j
      rw [ih]
      split
      · apply min_eq_left
        calc z.val x j = 0 + z.val x j := by rw [zero_add]
          _ ≤ z.val x x + z.val x j := add_le_add h (le_refl _)
      · rfl
    simp only [closeRow]
    by_cases hi : i = n
    · subst hi
      have e : ∀ j, z'.val i j = z.val i j := by intro j; rw [ih]; simp
      simp only [if_true, e, hxrow, Nat.lt_succ_self]
      rw [add_comm]
    · rw [if_neg hi, ih]
      have : i < n + 1 ↔ i < n := by omega
      simp only [this]

theorem close1_val (z : Zone) (x : ℕ) (h : 0 ≤ z.val x x) (i j : ℕ) (hi : i < z.dim) :
    (z.close1 x).val i j = min (z.val i j) (z.val i x + z.val x j) := by
  unfold close1
  rw [foldl_closeRow_val z x h, if_pos hi]

/-! ### Floyd–Warshall -/

/-- Closed with respect to the intermediate indices in `S`. -/
def ClosedUpTo (z : Zone) (S : ℕ → Prop) : Prop :=
  ∀ i < z.dim, ∀ j < z.dim, ∀ k < z.dim, S k → z.val i j ≤ z.val i k + z.val k j

theorem close1_closedUpTo (z : Zone) (S : ℕ → Prop) (k : ℕ) (hk : k < z.dim)
    (h : z.ClosedUpTo S) (hd : 0 ≤ z.val k k) :
    (z.close1 k).ClosedUpTo (fun m => S m ∨ m = k) := by
  intro i hi j hj m hm hS
  rw [close1_dim] at hi hj hm
  rw [close1_val z k hd i j hi, close1_val z k hd i m hi, close1_val z k hd m j hm]
  rcases hS with hS | rfl
  · have a1 := h i hi j hj m hm hS
    have a2 := h i hi k hk m hm hS
    have a3 := h k hk j hj m hm hS
    have a4 := h k hk k hk m hm hS
    have a5 : (0 : Bound) ≤ z.val k m + z.val m k := hd.trans a4
    rcases le_total (z.val i m) (z.val i k + z.val k m) with h1 | h1 <;>
    rcases le_total (z.val m j) (z.val m k + z.val k j) with h2 | h2
    · rw [min_eq_left h1, min_eq_left h2]
      exact (min_le_left _ _).trans a1
    · rw [min_eq_left h1, min_eq_right h2]
      refine (min_le_right _ _).trans ?_
      calc z.val i k + z.val k j ≤ (z.val i m + z.val m k) + z.val k j := add_le_add a2 (le_refl _)
        _ = _ := by abel
    · rw [min_eq_right h1, min_eq_left h2]
      refine (min_le_right _ _).trans ?_
      calc z.val i k + z.val k j ≤ z.val i k + (z.val k m + z.val m j) := add_le_add (le_refl _) a3
        _ = _ := by abel
    · rw [min_eq_right h1, min_eq_right h2]
      refine (min_le_right _ _).trans ?_
      calc z.val i k + z.val k j = z.val i k + 0 + z.val k j := by rw [add_zero]
        _ ≤ z.val i k + (z.val k m + z.val m k) + z.val k j :=
          add_le_add (add_le_add (le_refl _) a5) (le_refl _)
        _ = _ := by abel
  · have e1 : min (z.val i m) (z.val i m + z.val m m) = z.val i m := by
      apply min_eq_left
      calc z.val i m = z.val i m + 0 := by rw [add_zero]
        _ ≤ _ := add_le_add (le_refl _) hd
    have e2 : min (z.val m j) (z.val m m + z.val m j) = z.val m j := by
      apply min_eq_left
      calc z.val m j = 0 + z.val m j := by rw [zero_add]
        _ ≤ _ := add_le_add hd (le_refl _)
    rw [e1, e2]
    exact min_le_right _ _

theorem canonize_closed (z : Zone) (h : z.canonize.DiagNN) : z.canonize.Closed := by
  have key : ∀ n ≤ z.dim, (∀ i < z.dim, 0 ≤ ((List.range n).foldl close1 z).val i i) →
      ((List.range n).foldl close1 z).ClosedUpTo (fun m => m < n) := by
    intro n
    induction n with
    | zero => intro _ _ i _ j _ k _ hk; omega
    | succ n ih =>
      intro hn hd
      rw [List.range_succ, List.foldl_append, List.foldl_cons, List.foldl_nil] at hd ⊢
      have hd' : ∀ i < z.dim, 0 ≤ ((List.range n).foldl close1 z).val i i :=
        fun i hi => (hd i hi).trans (close1_le _ _ _ _)
      have h1 := close1_closedUpTo _ (fun m => m < n) n
        (by rw [foldl_close1_dim]; omega) (ih (by omega) hd') (hd' n (by omega))
      intro i hi j hj k hk hkn
      exact h1 i hi j hj k hk (by omega)
  have := key z.dim (le_refl _) (fun i hi => h i (by simpa using hi))
  intro i hi j hj k hk
  exact this i hi j hj k hk (by simpa using hk)

/-! ### Extension of partial valuations -/

/-- The difference bounds hold among the indices of `S`. -/
def SatOn (z : Zone) (S : Finset ℕ) (w : ℕ → ℚ) : Prop :=
  ∀ i ∈ S, ∀ j ∈ S, Bound.Sat (w i - w j) (z.val i j)

theorem extend_one (z : Zone) (hc : z.Closed) (hd : z.DiagNN) (S : Finset ℕ)
    (hS : ∀ i ∈ S, i < z.dim) (w : ℕ → ℚ) (hw : z.SatOn S w) (k : ℕ) (hk : k < z.dim)
    (hkS : k ∉ S) : ∃ t, z.SatOn (insert k S) (Function.update w k t) := by
  obtain ⟨t, ht⟩ := Bound.exists_value S.toList w (fun i => z.val k i) (fun i => z.val i k) (by
    intro i hi j hj
    rw [Finset.mem_toList] at hi hj
    exact (hw i hi j hj).mono (hc i (hS i hi) j (hS j hj) k hk))
  refine ⟨t, ?_⟩
  have hne : ∀ i ∈ S, i ≠ k := fun i hi e => hkS (e ▸ hi)
  intro i hi j hj
  rw [Finset.mem_insert] at hi hj
  rcases hi with rfl | hi <;> rcases hj with rfl | hj
  · simp only [sub_self]; exact sat_self_zero.2 (hd _ hk)
  · simp only [Function.update_self, Function.update_of_ne (hne j hj)]
    exact (ht j (Finset.mem_toList.2 hj)).1
  · simp only [Function.update_self, Function.update_of_ne (hne i hi)]
    exact (ht i (Finset.mem_toList.2 hi)).2
  · simp only [Function.update_of_ne (hne i hi), Function.update_of_ne (hne j hj)]
    exact hw i hi j hj

theorem extend (z : Zone) (hc : z.Closed) (hd : z.DiagNN) (S : Finset ℕ)
    (hS : ∀ i ∈ S, i < z.dim) (w : ℕ → ℚ) (hw : z.SatOn S w) :
    ∃ w', (∀ i ∈ S, w' i = w i) ∧ z.Sat w' := by
  have key : ∀ n ≤ z.dim, ∃ w', (∀ i ∈ S, w' i = w i) ∧ z.SatOn (S ∪ Finset.range n) w' := by
    intro n
    induction n with
    | zero =>
      intro _
      refine ⟨w, fun _ _ => rfl, ?_⟩
      intro i hi j hj
      exact hw i (by simpa using hi) j (by simpa using hj)
    | succ n ih =>
      intro hn
      obtain ⟨w', h1, h2⟩ := ih (by omega)
      by_cases hnS : n ∈ S
      · refine ⟨w', h1, ?_⟩
        intro i hi j hj
        apply h2
        · simp only [Finset.mem_union, Finset.mem_range] at hi ⊢
          rcases hi with hi | hi
          · exact Or.inl hi
          · by_cases e : i = n
            · subst e; exact Or.inl hnS
            · right; omega
        · simp only [Finset.mem_union, Finset.mem_range] at hj ⊢
          rcases hj with hj | hj
          · exact Or.inl hj
          · by_cases e : j = n
            · subst e; exact Or.inl hnS
            · right; omega
      · have hnot : n ∉ S ∪ Finset.range n := by simp [hnS]
        obtain ⟨t, ht⟩ := extend_one z hc hd (S ∪ Finset.range n) (by
          intro i hi
          simp only [Finset.mem_union, Finset.mem_range] at hi
          rcases hi with hi | hi
          · exact hS i hi
          · omega) w' h2 n (by omega) hnot
        refine ⟨Function.update w' n t, ?_, ?_⟩
        · intro i hi
          have : i ≠ n := fun e => hnS (e ▸ hi)
          rw [Function.update_of_ne this]; exact h1 i hi
        · have e : insert n (S ∪ Finset.range n) = S ∪ Finset.range (n + 1) := by
            ext a; simp only [Finset.mem_insert, Finset.mem_union, Finset.mem_range]; constructor
            · rintro (h | h | h)
              · right; omega
              · left; exact h
              · right; omega
            · rintro (h | h)
              · right; left; exact h
              · by_cases e : a = n
                · left; exact e
                · right; right; omega
          rwa [e] at ht
  obtain ⟨w', h1, h2⟩ := key z.dim (le_refl _)
  refine ⟨w', h1, ?_⟩
  intro i hi j hj
  exact h2 i (by simp [hi]) j (by simp [hj])

theorem Sat.shift {z : Zone} {w : ℕ → ℚ} (h : z.Sat w) (q : ℚ) : z.Sat (fun i => w i - q) := by
  intro i hi j hj
  have := h i hi j hj
  have e : w i - q - (w j - q) = w i - w j := by ring
  simpa [e] using this

theorem ext_of {w : ℕ → ℚ} (h0 : w 0 = 0) : Valuation.ext (fun i => w (i + 1)) = w := by
  funext i
  cases i <;> simp [Valuation.ext, h0]

/-- Every solution gives a valuation of the zone. -/
theorem Sat.toMem {z : Zone} {w : ℕ → ℚ} (h : z.Sat w) :
    z.Mem (fun i => w (i + 1) - w 0) := by
  unfold Mem
  have := ext_of (w := fun i => w i - w 0) (by simp)
  rw [this]
  exact h.shift (w 0)

theorem closed_nonempty (z : Zone) (hc : z.Closed) (hd : z.DiagNN) : ∃ v, z.Mem v := by
  obtain ⟨w, _, hw⟩ := extend z hc hd ∅ (by simp) (fun _ => 0) (by intro i hi; simp at hi)
  exact ⟨_, hw.toMem⟩

theorem sat_pair_nonneg {z : Zone} {w : ℕ → ℚ} (h : z.Sat w) {i j : ℕ} (hi : i < z.dim)
    (hj : j < z.dim) : 0 ≤ z.val i j + z.val j i := by
  have := (h i hi j hj).add (h j hj i hi)
  rw [← sat_self_zero]
  have e : w i - w j + (w j - w i) = 0 := by ring
  rwa [e] at this

theorem Mem.diagNN {z : Zone} {v : Valuation} (h : z.Mem v) : z.DiagNN := by
  intro i hi
  exact nonneg_of_add_self (sat_pair_nonneg h hi hi)

theorem isSatisfiableNoCanonize_iff (z : Zone) :
    z.isSatisfiableNoCanonize = true ↔ ∀ i < z.dim, ∀ j < z.dim, 0 ≤ z.val i j + z.val j i := by
  simp [isSatisfiableNoCanonize, zero_def]

theorem isSatisfiableNoCanonize_closed (z : Zone) (hc : z.Closed) :
    z.isSatisfiableNoCanonize = true ↔ ∃ v, z.Mem v := by
  rw [isSatisfiableNoCanonize_iff]
  constructor
  · intro h
    exact closed_nonempty z hc (fun i hi => nonneg_of_add_self (h i hi i hi))
  · rintro ⟨v, hv⟩ i hi j hj
    exact sat_pair_nonneg hv hi hj

theorem isSatisfiable_iff (z : Zone) : z.isSatisfiable = true ↔ ∃ v, z.Mem v := by
  unfold isSatisfiable
  constructor
  · intro h
    rw [isSatisfiableNoCanonize_iff] at h
    have hd : z.canonize.DiagNN := fun i hi => nonneg_of_add_self (h i hi i hi)
    obtain ⟨v, hv⟩ := closed_nonempty _ (canonize_closed z hd) hd
    exact ⟨v, (canonize_mem z v).1 hv⟩
  · rintro ⟨v, hv⟩
    rw [isSatisfiableNoCanonize_iff]
    intro i hi j hj
    exact sat_pair_nonneg ((canonize_mem z v).2 hv) hi hj

theorem canonize_closed_of_mem {z : Zone} {v : Valuation} (h : z.Mem v) : z.canonize.Closed :=
  canonize_closed z ((canonize_mem z v).2 h).diagNN

/-! ### Tightness of closed zones -/

theorem realize (z : Zone) (hc : z.Closed) (hd : z.DiagNN) {i j : ℕ} (hi : i < z.dim)
    (hj : j < z.dim) (hij : i ≠ j) (q : ℚ) (h1 : Bound.Sat q (z.val i j))
    (h2 : Bound.Sat (-q) (z.val j i)) : ∃ v, z.Mem v ∧ v.ext i - v.ext j = q := by
  let w0 : ℕ → ℚ := fun k => if k = i then q else 0
  have hw0 : z.SatOn {i, j} w0 := by
    intro a ha b hb
    simp only [Finset.mem_insert, Finset.mem_singleton] at ha hb
    have hji : j ≠ i := fun e => hij e.symm
    rcases ha with rfl | rfl <;> rcases hb with rfl | rfl
    · simp only [sub_self]; exact sat_self_zero.2 (hd _ hi)
    · simpa [w0, hji] using h1
    · simpa [w0, hij, hji] using h2
    · simp only [sub_self]; exact sat_self_zero.2 (hd _ hj)
  obtain ⟨w, hw, hs⟩ := extend z hc hd {i, j} (by
    intro a ha
    simp only [Finset.mem_insert, Finset.mem_singleton] at ha
    rcases ha with rfl | rfl <;> assumption) w0 hw0
  refine ⟨_, hs.toMem, ?_⟩
  have e := ext_of (w := fun k => w k - w 0) (by simp)
  have e1 : Valuation.ext (fun i => w (i + 1) - w 0) = fun k => w k - w 0 := e
  rw [e1]
  have hji : j ≠ i := fun e => hij e.symm
  simp [hw i (by simp), hw j (by simp), w0, hji]

/-- In a closed non-empty zone every number allowed by an off-diagonal bound lies below a realised
difference. -/
theorem realize_above (z : Zone) (hc : z.Closed) (hd : z.DiagNN) {i j : ℕ} (hi : i < z.dim)
    (hj : j < z.dim) (hij : i ≠ j) (q : ℚ) (h1 : Bound.Sat q (z.val i j)) :
    ∃ v, z.Mem v ∧ q ≤ v.ext i - v.ext j := by
  by_cases h2 : Bound.Sat (-q) (z.val j i)
  · obtain ⟨v, hv, e⟩ := realize z hc hd hi hj hij q h1 h2
    exact ⟨v, hv, e.ge⟩
  · obtain ⟨v, hv⟩ := closed_nonempty z hc hd
    refine ⟨v, hv, ?_⟩
    by_contra hlt
    apply h2
    have := hv j hj i hi
    rw [sat_iff] at this ⊢
    refine le_trans ?_ this
    rw [fin_le_fin]; left; linarith

theorem bound_le_of_incl (z z' : Zone) (hdim : z.dim = z'.dim) (hc : z'.Closed) (hd : z'.DiagNN)
    (h : ∀ v, z'.Mem v → z.Mem v) {i j : ℕ} (hi : i < z.dim) (hj : j < z.dim) (hij : i ≠ j) :
    z'.val i j ≤ z.val i j := by
  apply le_of_sat_imp
  intro q hq
  obtain ⟨v, hv, hle⟩ := realize_above z' hc hd (hdim ▸ hi) (hdim ▸ hj) hij q hq
  have := h v hv i hi j hj
  rw [sat_iff] at this ⊢
  refine le_trans ?_ this
  rw [fin_le_fin]
  rcases lt_or_eq_of_le hle with h | h
  · left; exact h
  · right; exact ⟨h, le_refl _⟩

theorem Mem.of_le {z z' : Zone} (hdim : z.dim = z'.dim)
    (h : ∀ i < z.dim, ∀ j < z.dim, z'.val i j ≤ z.val i j) {v : Valuation} (hv : z'.Mem v) :
    z.Mem v := by
  intro i hi j hj
  exact (hv i (hdim ▸ hi) j (hdim ▸ hj)).mono (h i hi j hj)

/-! ### Tighten -/

theorem set_min_sat (z : Zone) (x y : ℕ) (hx : x < z.dim) (hy : y < z.dim) (c : Bound)
    (w : ℕ → ℚ) : (z.set x y (min (z.val x y) c)).Sat w ↔ z.Sat w ∧ Bound.Sat (w x - w y) c := by
  constructor
  · intro h
    refine ⟨?_, ?_⟩
    · intro i hi j hj
      have := h i hi j hj
      rw [set_val] at this
      split at this
      · rename_i e; obtain ⟨rfl, rfl⟩ := e; exact (sat_min.1 this).1
      · exact this
    · have := h x hx y hy
      rw [set_val, if_pos ⟨rfl, rfl⟩] at this
      exact (sat_min.1 this).2
  · rintro ⟨h1, h2⟩ i hi j hj
    rw [set_val]
    split
    · rename_i e; obtain ⟨rfl, rfl⟩ := e; exact sat_min.2 ⟨h1 i hi j hj, h2⟩
    · exact h1 i hi j hj

theorem tighten_sat (z : Zone) (x y : ℕ) (hx : x < z.dim) (hy : y < z.dim) (c : Bound)
    (w : ℕ → ℚ) : (z.tighten x y c).Sat w ↔ z.Sat w ∧ Bound.Sat (w x - w y) c := by
  unfold tighten
  rw [close1_sat _ _ (by simpa using hy), close1_sat _ _ (by simpa using hx),
    set_min_sat z x y hx hy]

theorem tighten_closed (z : Zone) (hc : z.Closed) (x y : ℕ) (hx : x < z.dim) (hy : y < z.dim)
    (hxy : x ≠ y) (c : Bound) (v : Valuation) (hv : (z.tighten x y c).Mem v) :
    (z.tighten x y c).Closed := by
  set z0 := z.set x y (min (z.val x y) c) with hz0
  have hm0 : z0.Sat v.ext := by
    have := (tighten_sat z x y hx hy c v.ext).1 hv
    exact (set_min_sat z x y hx hy c v.ext).2 this
  have hd0 : z0.DiagNN := Mem.diagNN (v := v) hm0
  have hm1 : (z0.close1 x).Sat v.ext := (close1_sat z0 x hx v.ext).2 hm0
  have hd1 : (z0.close1 x).DiagNN := Mem.diagNN (v := v) hm1
  -- nonneg of the only possibly new two-cycle
  have hdx := hd0 x hx
  have hdy := hd1 y (by rw [close1_dim]; exact hy)
  -- z0 is closed w.r.t. every index except x and y
  have c0 : z0.ClosedUpTo (fun k => k ≠ x ∧ k ≠ y) := by
    intro i hi j hj k hk ⟨hkx, hky⟩
    simp only [hz0, set_val]
    have h1 : ¬ (i = x ∧ k = y) := fun e => hky e.2
    have h2 : ¬ (k = x ∧ j = y) := fun e => hkx e.1
    rw [if_neg h1, if_neg h2]
    split
    · rename_i e; obtain ⟨rfl, rfl⟩ := e
      exact (min_le_left _ _).trans (hc _ hi _ hj k hk)
    · exact hc i hi j hj k hk
  have c1 := close1_closedUpTo z0 _ x hx c0 hdx
  have c2 := close1_closedUpTo _ _ y (by rw [close1_dim]; exact hy) c1 hdy
  have e : (z0.close1 x).close1 y = z.tighten x y c := rfl
  rw [e] at c2
  intro i hi j hj k hk
  refine c2 i hi j hj k hk ?_
  by_cases h1 : k = x
  · left; right; exact h1
  · by_cases h2 : k = y
    · right; exact h2
    · left; left; exact ⟨h1, h2⟩

end Zone
end LearnTA
