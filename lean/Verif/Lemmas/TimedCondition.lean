import Verif.Spec.ElementaryLanguage
import Verif.Lemmas.Zone2
import Verif.Lemmas.Extrapolate

/-!
# Timed conditions: basic lemmas
-/

namespace LearnTA

/-- The values `T_{i,N}` of the variables. -/
def accV (d : List ℚ) : Valuation := fun i => (d.drop i).sum

namespace Zone

/-- Opposite bounds are compatible. -/
def PairNN (z : Zone) : Prop := ∀ i < z.dim, ∀ j < z.dim, 0 ≤ z.val i j + z.val j i

/-- Canonical up to the diagonal. -/
def OffClosed (z : Zone) : Prop :=
  ∀ i < z.dim, ∀ j < z.dim, ∀ k < z.dim, i ≠ j → z.val i j ≤ z.val i k + z.val k j

/-- The same zone with a diagonal of zeros. -/
def norm (z : Zone) : Zone := { z with val := fun i j => if i = j then 0 else z.val i j }

@[simp] theorem norm_dim (z : Zone) : z.norm.dim = z.dim := rfl

theorem norm_val_ne (z : Zone) {i j : ℕ} (h : i ≠ j) : z.norm.val i j = z.val i j := by
  simp [norm, h]

theorem norm_sat (z : Zone) (hd : z.DiagNN) (w : ℕ → ℚ) : z.norm.Sat w ↔ z.Sat w := by
  constructor
  · intro h i hi j hj
    by_cases hij : i = j
    · subst hij; simpa [Bound.sat_self_zero] using hd i hi
    · have := h i hi j hj; rwa [norm_val_ne z hij] at this
  · intro h i hi j hj
    by_cases hij : i = j
    · subst hij; simp [norm]
    · rw [norm_val_ne z hij]; exact h i hi j hj

theorem norm_diagNN (z : Zone) : z.norm.DiagNN := by
  intro i _; simp [norm]

theorem PairNN.diagNN {z : Zone} (h : z.PairNN) : z.DiagNN :=
  fun i hi => Bound.nonneg_of_add_self (h i hi i hi)

theorem norm_closed (z : Zone) (hp : z.PairNN) (h : z.OffClosed) : z.norm.Closed := by
  intro i hi j hj k hk
  by_cases hij : i = j
  · subst hij
    by_cases hik : i = k
    · subst hik; simp [norm]
    · simpa [norm, hik, Ne.symm hik] using hp i hi k hk
  · by_cases hik : i = k
    · subst hik; simp [norm, hij]
    · by_cases hkj : k = j
      · subst hkj; simp [norm, hij]
      · simpa [norm, hij, hik, hkj] using h i hi j hj k hk hij

theorem OffClosed.of_closed {z : Zone} (h : z.Closed) : z.OffClosed :=
  fun i hi j hj k hk _ => h i hi j hj k hk

theorem Mem.pairNN {z : Zone} {v : Valuation} (h : z.Mem v) : z.PairNN :=
  fun _ hi _ hj => sat_pair_nonneg h hi hj

theorem Sat.pairNN {z : Zone} {w : ℕ → ℚ} (h : z.Sat w) : z.PairNN :=
  fun _ hi _ hj => sat_pair_nonneg h hi hj

theorem pairNN_of_closed {z : Zone} (hc : z.Closed) (hd : z.DiagNN) : z.PairNN :=
  fun i hi j hj => (hd i hi).trans (hc i hi i hi j hj)

/-- The least bound implied on a pair of different indices is the entry. -/
theorem bound_le_of_incl' (z z' : Zone) (hdim : z.dim = z'.dim) (hp : z'.PairNN) (hc : z'.OffClosed)
    (hincl : ∀ w, z'.Sat w → z.Sat w) {i j : ℕ} (hi : i < z.dim) (hj : j < z.dim) (hij : i ≠ j) :
    z'.val i j ≤ z.val i j := by
  have h := bound_le_of_incl z z'.norm hdim (norm_closed z' hp hc) (norm_diagNN z')
    (fun v hv => hincl _ ((norm_sat z' hp.diagNN _).1 hv)) hi hj hij
  rwa [norm_val_ne z' hij] at h

end Zone

namespace TimedCondition
open Zone

theorem Canonical.pairNN {c : TimedCondition} (h : c.Canonical) : c.zone.PairNN := h.2.1
theorem Canonical.offClosed {c : TimedCondition} (h : c.Canonical) : c.zone.OffClosed := h.2.2
theorem Canonical.normClosed {c : TimedCondition} (h : c.Canonical) : c.zone.norm.Closed :=
  norm_closed _ h.pairNN h.offClosed
theorem Canonical.diagNN {c : TimedCondition} (h : c.Canonical) : c.zone.DiagNN := h.pairNN.diagNN

theorem Canonical.nonempty {c : TimedCondition} (h : c.Canonical) : ∃ v, c.zone.Mem v := by
  obtain ⟨v, hv⟩ := closed_nonempty _ h.normClosed (norm_diagNN _)
  exact ⟨v, (norm_sat _ h.diagNN _).1 hv⟩

/-- `canonize` of a satisfiable zone is canonical. -/
theorem canonical_canonize {z : Zone} {v : Valuation} (h2 : 2 ≤ z.dim) (h : z.Mem v) :
    Canonical ⟨z.canonize⟩ := by
  have hm : z.canonize.Mem v := (canonize_mem z v).2 h
  exact ⟨by simpa using h2, hm.pairNN, OffClosed.of_closed (canonize_closed_of_mem h)⟩

theorem T_eq (d : List ℚ) {i j : ℕ} (h : i ≤ j) : T d i j = accV d i - accV d (j + 1) := by
  have := List.sum_take_add_sum_drop (d.drop i) (j + 1 - i)
  rw [List.drop_drop] at this
  have e : i + (j + 1 - i) = j + 1 := by omega
  rw [e] at this
  unfold T accV
  linarith

theorem accV_ge (d : List ℚ) {i : ℕ} (h : d.length ≤ i) : accV d i = 0 := by
  simp [accV, List.drop_eq_nil_of_le h]

theorem accV_step (d : List ℚ) {i : ℕ} (h : i < d.length) :
    accV d i = d.getD i 0 + accV d (i + 1) := by
  unfold accV
  rw [List.drop_eq_getElem_cons h, List.sum_cons]
  simp [List.getD, h]

/-- The condition holds for the delays iff the sums `T_{i,N}` are in the zone. -/
theorem holds_iff_mem (c : TimedCondition) (hn : 2 ≤ c.zone.dim) (hd : c.zone.DiagNN) (d : List ℚ) :
    c.Holds d ↔ d.length = c.size ∧ c.zone.Mem (accV d) := by
  unfold Holds
  have hs : c.size + 1 = c.zone.dim := by unfold size; omega
  constructor
  · rintro ⟨hl, h⟩
    refine ⟨hl, ?_⟩
    intro a ha b hb
    rcases Nat.lt_trichotomy a b with hab | hab | hab
    · cases a with
      | zero =>
        obtain ⟨b, rfl⟩ : ∃ b', b = b' + 1 := ⟨b - 1, by omega⟩
        have := (h b (c.size - 1) (by omega) (by omega)).2
        rw [T_eq d (by omega), accV_ge d (i := c.size - 1 + 1) (by omega)] at this
        simpa [lower] using this
      | succ a =>
        obtain ⟨b, rfl⟩ : ∃ b', b = b' + 2 := ⟨b - 2, by omega⟩
        have := (h a b (by omega) (by omega)).1
        rw [T_eq d (by omega)] at this
        have e : b ≠ c.size - 1 := by omega
        simpa [upper, e] using this
    · subst hab; simpa [Bound.sat_self_zero] using hd a ha
    · cases b with
      | zero =>
        obtain ⟨a, rfl⟩ : ∃ b', a = b' + 1 := ⟨a - 1, by omega⟩
        have := (h a (c.size - 1) (by omega) (by omega)).1
        rw [T_eq d (by omega), accV_ge d (i := c.size - 1 + 1) (by omega)] at this
        simpa [upper] using this
      | succ b =>
        obtain ⟨a, rfl⟩ : ∃ b', a = b' + 2 := ⟨a - 2, by omega⟩
        have := (h b a (by omega) (by omega)).2
        rw [T_eq d (by omega)] at this
        have e : a ≠ c.size - 1 := by omega
        simpa [lower, e] using this
  · rintro ⟨hl, h⟩
    refine ⟨hl, fun i j hij hj => ?_⟩
    rw [T_eq d hij]
    by_cases e : j = c.size - 1
    · have e2 : j + 1 = c.size := by omega
      rw [accV_ge d (i := j + 1) (by omega)]
      have h1 := h (i + 1) (by omega) 0 (by omega)
      have h2 := h 0 (by omega) (i + 1) (by omega)
      simp only [ext_succ, ext_zero] at h1 h2
      simp only [upper, lower, e, if_true]
      exact ⟨h1, by simpa using h2⟩
    · have h1 := h (i + 1) (by omega) (j + 2) (by omega)
      have h2 := h (j + 2) (by omega) (i + 1) (by omega)
      simp only [ext_succ] at h1 h2
      simp only [upper, lower, e, if_false]
      exact ⟨h1, by rw [neg_sub]; exact h2⟩

/-- Only the values at the indices of the zone matter. -/
theorem _root_.LearnTA.Zone.Sat.congr {z : Zone} {w w' : ℕ → ℚ} (h : z.Sat w)
    (he : ∀ i < z.dim, w i = w' i) : z.Sat w' := by
  intro i hi j hj; rw [← he i hi, ← he j hj]; exact h i hi j hj

/-- The delays with given sums `T_{i,N}`. -/
def delays (v : Valuation) (n : ℕ) : List ℚ :=
  (List.range n).map fun i => if i + 1 < n then v i - v (i + 1) else v i

@[simp] theorem delays_length (v : Valuation) (n : ℕ) : (delays v n).length = n := by simp [delays]

theorem accV_delays (v : Valuation) (n : ℕ) {i : ℕ} (h : i < n) : accV (delays v n) i = v i := by
  obtain ⟨k, hk⟩ : ∃ k, i + k + 1 = n := ⟨n - i - 1, by omega⟩
  induction k generalizing i with
  | zero =>
    rw [accV_step _ (by simp; omega), accV_ge _ (by simp; omega)]
    simp [delays, List.getD, h, show ¬ (i + 1 < n) by omega]
  | succ k ih =>
    rw [accV_step _ (by simp; omega), ih (by omega) (by omega)]
    simp [delays, List.getD, h, show (i + 1 < n) by omega]

/-- A nonempty zone has delays satisfying the condition. -/
theorem mem_delays {c : TimedCondition} {v : Valuation} (h : c.zone.Mem v) :
    c.zone.Mem (accV (delays v c.size)) := by
  refine h.congr fun i hi => ?_
  cases i with
  | zero => rfl
  | succ i => simp only [ext_succ]; rw [accV_delays]; unfold size; omega

/-! ### Restrictions -/

@[simp] theorem restrictLower_dim (c : TimedCondition) (i j b f) :
    (c.restrictLower i j b f).zone.dim = c.zone.dim := by
  unfold restrictLower; split <;> simp
@[simp] theorem restrictUpper_dim (c : TimedCondition) (i j b f) :
    (c.restrictUpper i j b f).zone.dim = c.zone.dim := by
  unfold restrictUpper; split <;> simp
@[simp] theorem restrictLower_size (c : TimedCondition) (i j b f) :
    (c.restrictLower i j b f).size = c.size := by simp [size]
@[simp] theorem restrictUpper_size (c : TimedCondition) (i j b f) :
    (c.restrictUpper i j b f).size = c.size := by simp [size]

/-- The internal index of the end of `τ_j`. -/
def eidx (c : TimedCondition) (j : ℕ) : ℕ := if j = c.size - 1 then 0 else j + 2

theorem lower_eq (c : TimedCondition) (i j) : c.lower i j = c.zone.val (c.eidx j) (i + 1) := by
  unfold lower eidx; split <;> rfl
theorem upper_eq (c : TimedCondition) (i j) : c.upper i j = c.zone.val (i + 1) (c.eidx j) := by
  unfold upper eidx; split <;> rfl
theorem restrictLower_eq (c : TimedCondition) (i j b f) : c.restrictLower i j b f =
    ⟨(c.zone.set (c.eidx j) (i + 1)
      (if f then b else min b (c.zone.val (c.eidx j) (i + 1)))).canonize⟩ := by
  unfold restrictLower eidx; split <;> rfl
theorem restrictUpper_eq (c : TimedCondition) (i j b f) : c.restrictUpper i j b f =
    ⟨(c.zone.set (i + 1) (c.eidx j)
      (if f then b else min b (c.zone.val (i + 1) (c.eidx j)))).canonize⟩ := by
  unfold restrictUpper eidx; split <;> rfl

theorem eidx_lt {c : TimedCondition} {j : ℕ} (hj : j < c.size) : c.eidx j < c.zone.dim := by
  unfold eidx size at *; split <;> omega

theorem eidx_ne {c : TimedCondition} {i j : ℕ} (hij : i ≤ j) : c.eidx j ≠ i + 1 := by
  unfold eidx; split <;> omega

theorem ext_eidx {c : TimedCondition} {d : List ℚ} (hl : d.length = c.size) {j : ℕ} (hj : j < c.size) :
    (accV d).ext (c.eidx j) = accV d (j + 1) := by
  unfold eidx; split
  · rw [accV_ge d (i := j + 1) (by omega)]; rfl
  · rfl

theorem restrictUpper_sat (c : TimedCondition) {i j : ℕ} (hij : i ≤ j) (hj : j < c.size) (b : Bound)
    (w : ℕ → ℚ) : (c.restrictUpper i j b false).zone.Sat w ↔
      c.zone.Sat w ∧ Bound.Sat (w (i + 1) - w (c.eidx j)) b := by
  rw [restrictUpper_eq]
  simp only [Bool.false_eq_true, if_false]
  rw [canonize_sat, min_comm, set_min_sat _ _ _ (by unfold size at hj; omega) (eidx_lt hj)]

theorem restrictLower_sat (c : TimedCondition) {i j : ℕ} (hij : i ≤ j) (hj : j < c.size) (b : Bound)
    (w : ℕ → ℚ) : (c.restrictLower i j b false).zone.Sat w ↔
      c.zone.Sat w ∧ Bound.Sat (w (c.eidx j) - w (i + 1)) b := by
  rw [restrictLower_eq]
  simp only [Bool.false_eq_true, if_false]
  rw [canonize_sat, min_comm, set_min_sat _ _ _ (eidx_lt hj) (by unfold size at hj; omega)]

@[simp] theorem restrictLower_eidx (c : TimedCondition) (i j b f k) :
    (c.restrictLower i j b f).eidx k = c.eidx k := by simp [eidx]
@[simp] theorem restrictUpper_eidx (c : TimedCondition) (i j b f k) :
    (c.restrictUpper i j b f).eidx k = c.eidx k := by simp [eidx]

end TimedCondition
end LearnTA
