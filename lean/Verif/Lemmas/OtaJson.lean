import Verif.Spec.OtaJson
import Verif.Spec.ZA
import Verif.Spec.Reconstruct
import Verif.Lemmas.TA

/-!
# Lemmas about the parser of one-clock automata
-/

namespace LearnTA
namespace OtaJson

/-! ### Numbers -/

theorem digit_val {n : ℕ} (h : n < 10) : (digit n).val = 48 + n := by
  unfold digit
  simp only [Fin.ofNat]
  omega

/-- The digit `c`. -/
def IsDigit (c : Action) : Prop := 48 ≤ c.val ∧ c.val ≤ 57

theorem digit_isDigit {n : ℕ} (h : n < 10) : IsDigit (digit n) := by
  unfold IsDigit; rw [digit_val h]; omega

theorem decimal_digits (n : ℕ) : ∀ c ∈ decimal n, IsDigit c := by
  induction n using Nat.strongRecOn with
  | _ n ih =>
    intro c hc
    rw [decimal] at hc
    split at hc
    · rename_i h
      rw [List.mem_singleton] at hc
      subst hc
      exact digit_isDigit h
    · rcases List.mem_append.1 hc with hc | hc
      · exact ih _ (by omega) c hc
      · rw [List.mem_singleton] at hc
        subst hc
        exact digit_isDigit (Nat.mod_lt _ (by omega))

theorem decimal_ne_nil (n : ℕ) : decimal n ≠ [] := by
  rw [decimal]; split <;> simp

theorem digits_append (s t : Str) (hs : ∀ c ∈ s, IsDigit c) (m : ℕ) : digits (s ++ t) m = digits t (digits s m) := by
  induction s generalizing m with
  | nil => rfl
  | cons c s ih =>
    have hc := hs c (by simp)
    rw [List.cons_append, digits, digits, if_pos (show _ ∧ _ from hc), if_pos (show _ ∧ _ from hc)]
    exact ih (fun d hd => hs d (by simp [hd])) _

theorem digits_decimal (n : ℕ) : digits (decimal n) 0 = n := by
  induction n using Nat.strongRecOn with
  | _ n ih =>
    rw [decimal]
    split
    · rename_i h
      rw [digits, if_pos (show _ ∧ _ from digit_isDigit h), digits, digit_val h]; omega
    · rw [digits_append _ _ (decimal_digits _), ih _ (by omega), digits, if_pos (show _ ∧ _ from digit_isDigit (Nat.mod_lt _ (by omega))), digits,
        digit_val (Nat.mod_lt _ (by omega))]
      omega

theorem isDigit_not_space {c : Action} (h : IsDigit c) : isSpace c = false := by
  unfold IsDigit at h
  unfold isSpace
  rw [Bool.or_eq_false_iff, Bool.and_eq_false_iff]
  refine ⟨?_, .inr ?_⟩
  · rw [beq_eq_false_iff_ne]; omega
  · rw [decide_eq_false_iff_not]; omega

theorem isDigit_ne {c d : Action} (h : IsDigit c) (hd : d.val < 48 ∨ 57 < d.val) : c ≠ d := by
  rintro rfl
  unfold IsDigit at h
  omega

theorem atoi_digits (s t : Str) (hs : ∀ c ∈ s, IsDigit c) (hne : s ≠ []) (ht : digits t (digits s 0) = digits s 0)
    (hb : (digits s 0 : ℤ) ≤ intMax) : atoi (s ++ t) = .ok (digits s 0 : ℤ) := by
  cases s with
  | nil => exact absurd rfl hne
  | cons c s =>
    have hc := hs c (by simp)
    have h1 : (c :: s ++ t).dropWhile isSpace = c :: (s ++ t) := by
      rw [List.cons_append, List.dropWhile_cons_of_neg (by rw [isDigit_not_space hc]; decide)]
    unfold atoi
    rw [h1]
    simp only
    rw [if_neg (isDigit_ne hc (by decide)), if_neg (isDigit_ne hc (by decide)), ← List.cons_append, digits_append _ _ hs, ht]
    refine if_pos ⟨?_, hb⟩
    have : (0 : ℤ) ≤ intMax := by decide
    omega

theorem atoi_decimal (n : ℕ) (h : (n : ℤ) ≤ intMax) : atoi (decimal n) = .ok (n : ℤ) := by
  have := atoi_digits (decimal n) [] (decimal_digits n) (decimal_ne_nil n) rfl (by rw [digits_decimal]; exact h)
  rwa [List.append_nil, digits_decimal] at this

theorem atoi_decimal_paren (n : ℕ) (h : (n : ℤ) ≤ intMax) : atoi (decimal n ++ [cParen]) = .ok (n : ℤ) := by
  have := atoi_digits (decimal n) [cParen] (decimal_digits n) (decimal_ne_nil n) (by
    rw [digits, if_neg (by decide)]) (by rw [digits_decimal]; exact h)
  rwa [digits_decimal] at this

/-! ### Intervals -/

/-- The guard of the upper bound. -/
def upperGuard : Option (ℕ × Bool) → Guard
  | none => []
  | some (u, b) => [⟨0, if b then .le else .lt, u⟩]

/-- The largest constant of the upper bound and `m`. -/
def upperMax : Option (ℕ × Bool) → ℤ → ℤ
  | none, m => m
  | some (u, _), m => max m u

/-- The guard of the interval. -/
def Interval.guard (I : Interval) : Guard :=
  (if I.lower = 0 ∧ I.lowerClosed = true then [] else [⟨0, if I.lowerClosed then .ge else .gt, I.lower⟩]) ++
    upperGuard I.upper

/-- The largest constant of the interval and `m`. -/
def Interval.maxC (I : Interval) (m : ℤ) : ℤ :=
  upperMax I.upper (if I.lower = 0 ∧ I.lowerClosed = true then m else max m I.lower)

theorem parseLower_text (k : ℕ) (b : Bool) (m : ℤ) (h : (k : ℤ) ≤ intMax) :
    parseLower ((if b then 91 else 40) :: decimal k) m = .ok (if k = 0 ∧ b = true then ([], m) else
      ([⟨0, if b then .ge else .gt, k⟩], max m k)) := by
  have hz : decimal 0 = [cZero] := by rw [decimal, dif_pos (by omega)]; decide
  unfold parseLower
  by_cases hk : k = 0 ∧ b = true
  · obtain ⟨rfl, rfl⟩ := hk
    rw [hz, if_pos (by decide), if_pos ⟨rfl, rfl⟩]
  · rw [if_neg, if_neg hk]
    · simp only [atoi_decimal k h]
      cases b <;> rfl
    · intro e
      obtain ⟨e1, e2⟩ := List.cons.inj e
      refine hk ⟨?_, ?_⟩
      · rw [← digits_decimal k, e2]; decide
      · cases b
        · revert e1; decide
        · rfl

theorem parseUpper_text (u : Option (ℕ × Bool)) (m : ℤ) (h : ∀ k b, u = some (k, b) → (k : ℤ) ≤ intMax) :
    parseUpper (upperText u) m = .ok (upperGuard u, upperMax u m) := by
  cases u with
  | none => rfl
  | some p =>
    obtain ⟨k, b⟩ := p
    have hk := h k b rfl
    unfold upperText upperGuard upperMax parseUpper
    simp only
    rw [if_neg]
    · rw [List.getLast?_append]
      simp only [List.getLast?_singleton, Option.some_or]
      cases b with
      | true =>
        simp only [↓reduceIte]
        rw [if_pos (by decide), List.dropLast_concat, atoi_decimal k hk, if_pos (by decide)]
      | false =>
        simp only [Bool.false_eq_true, ↓reduceIte]
        rw [if_neg (by decide), if_neg (by decide)]
        have := atoi_decimal_paren k hk
        unfold cParen at this
        rw [this]
    · intro e
      have h1 := decimal_ne_nil k
      have h2 := decimal_digits k
      cases hd : decimal k with
      | nil => exact h1 hd
      | cons c s =>
        rw [hd] at e h2
        rw [List.cons_append] at e
        have := (List.cons.inj e).1
        exact isDigit_ne (h2 c (by simp)) (by decide) this

theorem parseRange_text (I : Interval) (hI : I.Below intMax) (m : ℤ) :
    parseRange I.text m = .ok (I.guard, I.maxC m) := by
  have hne : ∀ c ∈ ((if I.lowerClosed then 91 else 40) :: decimal I.lower : Str), (c != cComma) = true := by
    intro c hc
    rw [bne_iff_ne]
    rcases List.mem_cons.1 hc with rfl | hc
    · cases I.lowerClosed <;> decide
    · exact isDigit_ne (decimal_digits _ c hc) (by decide)
  have e : ∀ t : Str, ((if I.lowerClosed then 91 else 40) :: decimal I.lower ++ 44 :: t).takeWhile (· != cComma) =
        (if I.lowerClosed then 91 else 40) :: decimal I.lower ∧
      ((if I.lowerClosed then 91 else 40) :: decimal I.lower ++ 44 :: t).dropWhile (· != cComma) = 44 :: t := by
    intro t
    refine ⟨?_, ?_⟩
    · rw [List.takeWhile_append_of_pos hne, List.takeWhile_cons_of_neg (by decide), List.append_nil]
    · rw [List.dropWhile_append_of_pos hne, List.dropWhile_cons_of_neg (by decide)]
  unfold parseRange Interval.text
  rw [(e _).1, (e _).2, parseLower_text _ _ _ hI.1.le]
  have hmem : ∀ t : Str, cComma ∈ ((if I.lowerClosed then 91 else 40) :: decimal I.lower ++ 44 :: t) := by
    intro t
    exact List.mem_append_right _ List.mem_cons_self
  have hu := fun m => parseUpper_text I.upper m (fun k b h => (hI.2 k b h).le)
  unfold Interval.guard Interval.maxC
  by_cases hk : I.lower = 0 ∧ I.lowerClosed = true
  · simp only [if_pos hk, hmem, ↓reduceIte, List.drop_succ_cons, List.drop_zero, hu]
  · simp only [if_neg hk, hmem, ↓reduceIte, List.drop_succ_cons, List.drop_zero, hu]

theorem guard_holds (I : Interval) (v : Valuation) (hv : 0 ≤ v 0) : I.guard.Holds v ↔ I.Contains (v 0) := by
  unfold Interval.guard Interval.Contains Guard.Holds
  simp only [List.mem_append, or_imp, forall_and]
  refine and_congr ?_ ?_
  · by_cases hk : I.lower = 0 ∧ I.lowerClosed = true
    · rw [if_pos hk, if_pos hk.2, hk.1]
      simpa using hv
    · rw [if_neg hk]
      cases h : I.lowerClosed <;> simp [Constraint.Holds]
  · cases h : I.upper with
    | none => simp [upperGuard]
    | some p =>
      obtain ⟨u, b⟩ := p
      cases b <;> simp [upperGuard, Constraint.Holds]

end OtaJson
end LearnTA
