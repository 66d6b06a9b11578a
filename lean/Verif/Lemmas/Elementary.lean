import Verif.Lemmas.TimedCondition
import Verif.Lemmas.TimedWord

/-!
# Elementary languages: membership, sampling, hull, concatenation
-/

namespace LearnTA
open Zone
namespace TimedCondition

/-! ### `contains` -/

/-- One iteration of the loop of `contains`. -/
def pin (d : List ℚ) (c : TimedCondition) (i : ℕ) : TimedCondition :=
  (c.restrictUpper i i (.fin (d.getD i 0) true) false).restrictLower i i
      (.fin (-d.getD i 0) true) false

@[simp] theorem pin_size (d c i) : (pin d c i).size = c.size := by simp [pin]
@[simp] theorem pin_dim (d c i) : (pin d c i).zone.dim = c.zone.dim := by simp [pin]
@[simp] theorem pin_eidx (d c i k) : (pin d c i).eidx k = c.eidx k := by simp [pin]

theorem pin_sat (d : List ℚ) (c : TimedCondition) {i : ℕ} (hi : i < c.size) (w : ℕ → ℚ) :
    (pin d c i).zone.Sat w ↔ c.zone.Sat w ∧ w (i + 1) - w (c.eidx i) = d.getD i 0 := by
  unfold pin
  rw [restrictLower_sat _ (le_refl i) (by simpa using hi), restrictUpper_sat _ (le_refl i) hi]
  simp only [restrictUpper_eidx, Bound.sat_true]
  constructor
  · rintro ⟨⟨h1, h2⟩, h3⟩; exact ⟨h1, by linarith⟩
  · rintro ⟨h1, h2⟩; exact ⟨⟨h1, by linarith⟩, by linarith⟩

theorem foldl_pin (d : List ℚ) (l : List ℕ) (c : TimedCondition) (hl : ∀ i ∈ l, i < c.size)
    (w : ℕ → ℚ) : (l.foldl (pin d) c).zone.Sat w ↔
      c.zone.Sat w ∧ ∀ i ∈ l, w (i + 1) - w (c.eidx i) = d.getD i 0 := by
  induction l generalizing c with
  | nil => simp
  | cons a l ih =>
    rw [List.foldl_cons, ih _ (by intro i hi; simpa using hl i (by simp [hi])),
      pin_sat d c (hl a (by simp))]
    simp [and_assoc]

@[simp] theorem foldl_pin_dim (d : List ℚ) (l : List ℕ) (c : TimedCondition) :
    (l.foldl (pin d) c).zone.dim = c.zone.dim := by
  induction l generalizing c with
  | nil => rfl
  | cons a l ih => rw [List.foldl_cons, ih]; simp

theorem pinned_value (d : List ℚ) (c : TimedCondition) (hl : d.length = c.size) (w : ℕ → ℚ) (h0 : w 0 = 0)
    (h : ∀ i < c.size, w (i + 1) - w (c.eidx i) = d.getD i 0) {i : ℕ} (hi : i < c.size) :
    w (i + 1) = accV d i := by
  obtain ⟨k, hk⟩ : ∃ k, i + k + 1 = c.size := ⟨c.size - i - 1, by omega⟩
  induction k generalizing i with
  | zero =>
    have := h i hi
    rw [accV_step d (by omega), accV_ge d (i := i + 1) (by omega)]
    unfold eidx at this
    rw [if_pos (by omega), h0] at this
    linarith
  | succ k ih =>
    have := h i hi
    rw [accV_step d (by omega), ← ih (by omega) (by omega), ← this]
    unfold eidx
    rw [if_neg (by omega)]; ring

theorem pinned_satisfiable (d : List ℚ) (c : TimedCondition) (hl : d.length = c.size) :
    ((List.range c.size).foldl (pin d) c).isSatisfiable = true ↔ c.zone.Mem (accV d) := by
  unfold isSatisfiable
  rw [isSatisfiable_iff]
  constructor
  · rintro ⟨v, hv⟩
    obtain ⟨h1, h2⟩ := (foldl_pin d _ c (by simp) _).1 hv
    refine Zone.Sat.congr h1 fun i hi => ?_
    cases i with
    | zero => rfl
    | succ i =>
      exact pinned_value d c hl v.ext rfl (fun i hi => h2 i (by simpa using hi))
        (by unfold size; omega)
  · intro h
    refine ⟨accV d, (foldl_pin d _ c (by simp) _).2 ⟨h, fun i hi => ?_⟩⟩
    have hi : i < c.size := by simpa using hi
    rw [ext_eidx hl hi, ext_succ, accV_step d (by omega)]; ring

end TimedCondition

namespace ElementaryLanguage
open TimedCondition

theorem contains_iff (e : ElementaryLanguage) (hn : 2 ≤ e.cond.zone.dim) (hd : e.cond.zone.DiagNN) (w : TimedWord)
    (hw : w.WF) (he : e.WF) : e.contains w = true ↔ e.Mem w := by
  unfold contains Mem
  by_cases h : w.word = e.word
  · simp only [h, ne_eq, not_true, if_false, true_and]
    have hl : w.durations.length = e.cond.size := by
      rw [TimedWord.WF, h] at hw; rw [WF] at he; omega
    rw [holds_iff_mem _ hn hd]
    rw [show (fun c i => (c.restrictUpper i i (.fin (w.durations.getD i 0) true) false).restrictLower i i
      (.fin (-w.durations.getD i 0) true) false) = pin w.durations from rfl]
    rw [pinned_satisfiable _ _ hl]
    simp [hl]
  · simp [h]

end ElementaryLanguage

namespace TimedCondition

/-! ### Convex hull -/

@[simp] theorem convexHull_dim (a b : TimedCondition) : (a.convexHull b).zone.dim = a.zone.dim := rfl
@[simp] theorem convexHull_size (a b : TimedCondition) : (a.convexHull b).size = a.size := rfl

theorem convexHull_val (a b : TimedCondition) (i j : ℕ) :
    (a.convexHull b).zone.val i j = max (a.zone.val i j) (b.zone.val i j) := rfl

theorem convexHull_left {a b : TimedCondition} {w : ℕ → ℚ} (h : a.zone.Sat w) :
    (a.convexHull b).zone.Sat w :=
  fun i hi j hj => (h i hi j hj).mono (le_max_left _ _)

theorem convexHull_right {a b : TimedCondition} (hd : a.zone.dim = b.zone.dim) {w : ℕ → ℚ}
    (h : b.zone.Sat w) : (a.convexHull b).zone.Sat w :=
  fun i hi j hj => (h i (hd ▸ hi) j (hd ▸ hj)).mono (le_max_right _ _)

theorem convexHull_canonical {a b : TimedCondition} (hd : a.zone.dim = b.zone.dim) (ha : a.Canonical)
    (hb : b.Canonical) : (a.convexHull b).Canonical := by
  refine ⟨ha.1, fun i hi j hj => (ha.2.1 i hi j hj).trans
    (add_le_add (le_max_left _ _) (le_max_left _ _)), fun i hi j hj k hk hij => ?_⟩
  simp only [convexHull_val]
  refine max_le ?_ ?_
  · exact (ha.2.2 i hi j hj k hk hij).trans (add_le_add (le_max_left _ _) (le_max_left _ _))
  · exact (hb.2.2 i (hd ▸ hi) j (hd ▸ hj) k (hd ▸ hk) hij).trans
      (add_le_add (le_max_right _ _) (le_max_right _ _))

theorem convexHull_least {a b c : TimedCondition} (hd : a.zone.dim = b.zone.dim)
    (hc : a.zone.dim = c.zone.dim) (hcd : c.zone.DiagNN) (ha : a.Canonical) (hb : b.Canonical)
    (h1 : ∀ w, a.zone.Sat w → c.zone.Sat w) (h2 : ∀ w, b.zone.Sat w → c.zone.Sat w)
    {w : ℕ → ℚ} (h : (a.convexHull b).zone.Sat w) : c.zone.Sat w := by
  intro i hi j hj
  by_cases hij : i = j
  · subst hij; simpa [Bound.sat_self_zero] using hcd i hi
  · refine (h i (hc ▸ hi) j (hc ▸ hj)).mono (max_le ?_ ?_)
    · exact bound_le_of_incl' _ _ hc.symm ha.pairNN ha.offClosed h1 hi hj hij
    · exact bound_le_of_incl' _ _ (hc.symm.trans hd) hb.pairNN hb.offClosed h2 hi hj hij

end TimedCondition
end LearnTA
