import Mathlib.Data.Rat.Defs
import Mathlib.Algebra.Order.Ring.Rat
import Mathlib.Data.Prod.Lex
import Mathlib.Order.WithBot
import Mathlib.Order.Lattice
import Mathlib.Algebra.Order.Monoid.Defs
import Mathlib.Tactic.Linarith
import Mathlib.Tactic.Ring

/-!
# Bounds of difference constraints

Model of `/repo/include/bounds.hh`.
-/

namespace LearnTA

/-- Model of `Bounds = std::pair<double, bool>` (`/repo/include/bounds.hh:12`).
`fin c s` is the pair `(c, s)`: `s = true` stands for `≤ c`, `s = false` for `< c`.
Simplification: the pair `(std::numeric_limits<double>::max(), false)`, which the code uses as
"no bound" (e.g. `/repo/include/zone.hh:89`), and IEEE infinities that arise by adding two of
them, are the single absorbing element `inf`; other doubles are exact rationals. -/
inductive Bound where
  | fin (c : ℚ) (s : Bool)
  | inf
  deriving DecidableEq, Repr

namespace Bound

/-- Encoding into a linear order: pairs compare lexicographically with `false < true`, as
`std::pair<double,bool>::operator<`, and `inf` is above everything. -/
def toLex : Bound → WithTop (ℚ ×ₗ Bool)
  | fin c s => ((_root_.toLex (c, s) : ℚ ×ₗ Bool) : WithTop (ℚ ×ₗ Bool))
  | inf => ⊤

theorem toLex_injective : Function.Injective toLex := by
  intro a b h
  cases a <;> cases b <;> simp [toLex] at h ⊢
  exact h

/-- Lexicographic comparison of `std::pair<double,bool>` (used by `std::min`, `<=`, ... on
`Bounds` throughout `/repo/include/zone.hh`). -/
instance : LinearOrder Bound := LinearOrder.lift' toLex toLex_injective

@[simp] theorem fin_le_fin {c d : ℚ} {s t : Bool} :
    fin c s ≤ fin d t ↔ c < d ∨ (c = d ∧ s ≤ t) := by
  change toLex _ ≤ toLex _ ↔ _
  simp [toLex, Prod.Lex.le_iff]

@[simp] theorem fin_lt_fin {c d : ℚ} {s t : Bool} :
    fin c s < fin d t ↔ c < d ∨ (c = d ∧ s < t) := by
  change toLex _ < toLex _ ↔ _
  simp [toLex, Prod.Lex.lt_iff]

@[simp] theorem le_inf (b : Bound) : b ≤ inf := by
  change toLex _ ≤ toLex _
  simp [toLex]

@[simp] theorem not_inf_le_fin {c : ℚ} {s : Bool} : ¬ inf ≤ fin c s := by
  change ¬ toLex _ ≤ toLex _
  simp [toLex]

@[simp] theorem fin_lt_inf {c : ℚ} {s : Bool} : fin c s < inf := by
  change toLex _ < toLex _
  simp [toLex]

@[simp] theorem not_inf_lt (b : Bound) : ¬ inf < b := not_lt.2 (le_inf b)

/-- `operator+` on `Bounds` (`/repo/include/bounds.hh:36-38`). -/
protected def add : Bound → Bound → Bound
  | fin c s, fin d t => fin (c + d) (s && t)
  | _, _ => inf

instance : Add Bound := ⟨Bound.add⟩

/-- The bound `(0, true)` ("≤ 0"), the unit of `+`. -/
instance : Zero Bound := ⟨fin 0 true⟩

theorem zero_def : (0 : Bound) = fin 0 true := rfl

@[simp] theorem fin_add_fin (c d : ℚ) (s t : Bool) :
    fin c s + fin d t = fin (c + d) (s && t) := rfl
@[simp] theorem inf_add (b : Bound) : inf + b = inf := by cases b <;> rfl
@[simp] theorem add_inf (b : Bound) : b + inf = inf := by cases b <;> rfl

instance : AddCommMonoid Bound where
  add_assoc a b c := by cases a <;> cases b <;> cases c <;> simp [add_assoc, Bool.and_assoc]
  zero_add a := by cases a <;> simp [zero_def]
  add_zero a := by cases a <;> simp [zero_def]
  add_comm a b := by cases a <;> cases b <;> simp [add_comm, Bool.and_comm]
  nsmul := nsmulRec

theorem add_le_add_left' (a b : Bound) (h : a ≤ b) (c : Bound) : c + a ≤ c + b := by
  cases a <;> cases b <;> cases c <;> simp_all
  rcases h with h | ⟨h, h'⟩
  · exact Or.inl h
  · right
    refine ⟨h, ?_⟩
    rename_i s _ t _ r
    revert h'; cases s <;> cases t <;> cases r <;> simp

instance : IsOrderedAddMonoid Bound where
  add_le_add_left a b h c := by
    rw [add_comm a, add_comm b]; exact add_le_add_left' a b h c

/-- `isPoint(upperBound, lowerBound)` (`/repo/include/bounds.hh:17-22`).  With `inf` as a bound the
C++ comparison `-lower == upper` of `DBL_MAX`es is false or the flag is false. -/
def isPoint : Bound → Bound → Bool
  | fin u us, fin l ls => decide (-l = u) && us && ls
  | _, _ => false

/-- `isUnitOpen(upperBound, lowerBound)` (`/repo/include/bounds.hh:24-29`). -/
def isUnitOpen : Bound → Bound → Bool
  | fin u us, fin l ls => decide (-l + 1 = u) && !us && !ls
  | _, _ => false

/-- `isSimple(upperBound, lowerBound)` (`/repo/include/bounds.hh:31-33`). -/
def isSimple (u l : Bound) : Bool := isPoint u l || isUnitOpen u l

/-- Specification: the real number `d` respects the bound `b`: `d ≤ c`, `d < c`, or no bound. -/
def Sat (d : ℚ) : Bound → Prop
  | fin c true => d ≤ c
  | fin c false => d < c
  | inf => True

instance (d : ℚ) (b : Bound) : Decidable (Sat d b) := by
  cases b with
  | fin c s => cases s <;> simp only [Sat] <;> infer_instance
  | inf => simp only [Sat]; infer_instance

@[simp] theorem sat_true (d c : ℚ) : Sat d (fin c true) ↔ d ≤ c := Iff.rfl
@[simp] theorem sat_false (d c : ℚ) : Sat d (fin c false) ↔ d < c := Iff.rfl
@[simp] theorem sat_inf (d : ℚ) : Sat d inf ↔ True := Iff.rfl
@[simp] theorem sat_zero (d : ℚ) : Sat d 0 ↔ d ≤ 0 := Iff.rfl

/-- `Sat d b` says that the closed bound `(d, true)` is below `b`. -/
theorem sat_iff (d : ℚ) (b : Bound) : Sat d b ↔ fin d true ≤ b := by
  cases b with
  | fin c s =>
    cases s <;> simp [le_iff_lt_or_eq]
  | inf => simp

theorem Sat.mono {d : ℚ} {b b' : Bound} (h : Sat d b) (hb : b ≤ b') : Sat d b' := by
  rw [sat_iff] at *; exact h.trans hb

theorem Sat.add {d e : ℚ} {b c : Bound} (h : Sat d b) (h' : Sat e c) : Sat (d + e) (b + c) := by
  rw [sat_iff] at *
  have := add_le_add h h'
  simpa using this

theorem sat_min {d : ℚ} {b c : Bound} : Sat d (min b c) ↔ Sat d b ∧ Sat d c := by
  simp [sat_iff]

theorem sat_max {d : ℚ} {b c : Bound} : Sat d (max b c) ↔ Sat d b ∨ Sat d c := by
  simp [sat_iff]

/-- A bound is determined by the numbers respecting it (order is inclusion). -/
theorem le_of_sat_imp {b c : Bound} (h : ∀ d, Sat d b → Sat d c) : b ≤ c := by
  cases b with
  | inf =>
    cases c with
    | inf => simp
    | fin c s =>
      have := h (c + 1) trivial
      cases s <;> simp at this <;> linarith
  | fin b s =>
    cases s with
    | true => have := h b (by simp); rwa [sat_iff] at this
    | false =>
      cases c with
      | inf => simp
      | fin c s =>
        by_contra hlt
        have hcb : c < b := by
          rcases lt_trichotomy c b with h1 | h1 | h1
          · exact h1
          · subst h1; exact absurd (by simp : fin c false ≤ fin c s) hlt
          · exact absurd (by simp [h1] : fin b false ≤ fin c s) hlt
        have := h ((b + c) / 2) (by simp; linarith)
        cases s <;> simp at this <;> linarith

theorem le_iff_sat {b c : Bound} : b ≤ c ↔ ∀ d, Sat d b → Sat d c :=
  ⟨fun h _ hd => hd.mono h, le_of_sat_imp⟩

/-- Two opposite bounds are compatible iff their sum is non-negative. -/
theorem exists_sat_iff (b c : Bound) : (∃ d, Sat d b ∧ Sat (-d) c) ↔ 0 ≤ b + c := by
  constructor
  · rintro ⟨d, h1, h2⟩
    have := h1.add h2
    rw [sat_iff] at this
    simpa [zero_def] using this
  · intro h
    cases b with
    | inf =>
      cases c with
      | inf => exact ⟨0, trivial, trivial⟩
      | fin c s => exact ⟨-c + 1, trivial, by cases s <;> simp⟩
    | fin b s =>
      cases c with
      | inf => exact ⟨b - 1, by cases s <;> simp, trivial⟩
      | fin c t =>
        refine ⟨(b - c) / 2, ?_⟩
        simp [zero_def] at h
        cases s <;> cases t <;> simp at h ⊢ <;> constructor <;> rcases h with h | h <;>
          first
          | linarith
          | exact absurd h.2 (by decide)

end Bound
end LearnTA
