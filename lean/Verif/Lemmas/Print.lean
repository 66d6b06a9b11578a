import Verif.Spec.Print
import Mathlib.Tactic.Linarith
import Mathlib.Tactic.NormNum
import Mathlib.Tactic.Positivity
import Mathlib.Tactic.FieldSimp
import Mathlib.Tactic.Ring

/-!
# Lemmas: printed numbers can be read
-/

namespace LearnTA
namespace Print

/-- The value of a digit. -/
def valDigit (b : Fin 256) : ℕ := b.val - 48

/-- The value of a list of digits. -/
def val (t : Text) : ℕ := t.foldl (fun n b => 10 * n + valDigit b) 0

/-- The value of a list of decimals. -/
def fracVal : Text → ℚ
  | [] => 0
  | b :: t => (valDigit b + fracVal t) / 10

/-- A decimal digit. -/
def IsDigit (b : Fin 256) : Prop := 48 ≤ b.val ∧ b.val < 58

instance (b : Fin 256) : Decidable (IsDigit b) := by unfold IsDigit; infer_instance

theorem digit_val {d : ℕ} (h : d < 10) : (digit d).val = 48 + d := by
  simp only [digit, Fin.ofNat]
  omega

theorem valDigit_digit {d : ℕ} (h : d < 10) : valDigit (digit d) = d := by
  unfold valDigit
  rw [digit_val h]
  omega

theorem isDigit_digit {d : ℕ} (h : d < 10) : IsDigit (digit d) := by
  unfold IsDigit
  rw [digit_val h]
  omega

theorem val_snoc (t : Text) (b : Fin 256) : val (t ++ [b]) = 10 * val t + valDigit b := by
  simp [val, List.foldl_append]

theorem val_nat (n : ℕ) : val (nat n) = n := by
  induction n using Nat.strong_induction_on with
  | _ n ih =>
    rw [nat]
    split
    · rename_i h
      simp [val, valDigit_digit h]
    · rename_i h
      rw [val_snoc, ih _ (by omega), valDigit_digit (Nat.mod_lt _ (by norm_num))]
      omega

theorem val_zero_cons (n : ℕ) : val (digit 0 :: nat n) = n := by
  have : ∀ t : Text, val (digit 0 :: t) = val t := by
    intro t
    simp [val, valDigit_digit]
  rw [this, val_nat]

theorem nat_injective {m n : ℕ} (h : nat m = nat n) : m = n := by
  rw [← val_nat m, h, val_nat]

theorem nat_digits (n : ℕ) : ∀ b ∈ nat n, IsDigit b := by
  induction n using Nat.strong_induction_on with
  | _ n ih =>
    rw [nat]
    split
    · rename_i h
      simpa using isDigit_digit h
    · rename_i h
      intro b hb
      rcases List.mem_append.1 hb with hb | hb
      · exact ih _ (by omega) b hb
      · rw [List.mem_singleton.1 hb]
        exact isDigit_digit (Nat.mod_lt _ (by norm_num))

theorem nat_ne_nil (n : ℕ) : nat n ≠ [] := by
  rw [nat]
  split <;> simp

theorem int_injective {m n : ℤ} (h : int m = int n) : m = n := by
  have hd : ¬ IsDigit (byte '-') := by decide
  unfold int at h
  split at h <;> split at h
  · have := nat_injective (List.cons.inj h).2
    omega
  · exact absurd (nat_digits _ _ (h ▸ List.mem_cons_self)) hd
  · exact absurd (nat_digits _ _ (h ▸ List.mem_cons_self)) hd
  · have := nat_injective h
    omega

/-! ### Floating-point numbers -/

theorem decimals_digits (p : ℕ) : ∀ r, r < 10 ^ p → ∀ b ∈ decimals p r, IsDigit b := by
  induction p with
  | zero => intro r _ b hb; cases hb
  | succ p ih =>
    intro r hr b hb
    rw [decimals] at hb
    split at hb
    · cases hb
    · rcases List.mem_cons.1 hb with rfl | hb
      · exact isDigit_digit (Nat.div_lt_of_lt_mul (by rw [← Nat.pow_succ]; exact hr))
      · exact ih _ (Nat.mod_lt _ (by positivity)) b hb

theorem fracVal_decimals (p : ℕ) : ∀ r, r < 10 ^ p → fracVal (decimals p r) = r / 10 ^ p := by
  induction p with
  | zero =>
    intro r hr
    have : r = 0 := by simpa using hr
    subst this
    simp [decimals, fracVal]
  | succ p ih =>
    intro r hr
    rw [decimals]
    split
    · rename_i h
      simp [h, fracVal]
    · rw [fracVal, ih _ (Nat.mod_lt _ (by positivity)), valDigit_digit (Nat.div_lt_of_lt_mul (by rw [← Nat.pow_succ]; exact hr))]
      have h1 : (r : ℚ) = 10 ^ p * ((r / 10 ^ p : ℕ) : ℚ) + ((r % 10 ^ p : ℕ) : ℚ) := by
        exact_mod_cast (Nat.div_add_mod r (10 ^ p)).symm
      have h2 : (10 : ℚ) ^ p ≠ 0 := by positivity
      generalize (r / 10 ^ p : ℕ) = x at *
      generalize (r % 10 ^ p : ℕ) = y at *
      rw [h1, pow_succ]
      field_simp

/-- The value of digits with decimals. -/
def readFixed (t : Text) : ℚ :=
  val (t.takeWhile (· ≠ byte '.')) + fracVal (t.dropWhile (· ≠ byte '.')).tail

theorem takeWhile_stop {α : Type} (p : α → Bool) (l : List α) (d : α) (r : List α) (h : ∀ b ∈ l, p b = true) (hd : p d = false) :
    (l ++ d :: r).takeWhile p = l ∧ (l ++ d :: r).dropWhile p = d :: r := by
  induction l with
  | nil => simp [hd]
  | cons a l ih =>
    have h1 := h a List.mem_cons_self
    obtain ⟨i1, i2⟩ := ih fun b hb => h b (List.mem_cons_of_mem _ hb)
    simp [h1, i1, i2]

theorem takeWhile_all {α : Type} (p : α → Bool) (l : List α) (h : ∀ b ∈ l, p b = true) :
    l.takeWhile p = l ∧ l.dropWhile p = [] := by
  induction l with
  | nil => simp
  | cons a l ih =>
    have h1 := h a List.mem_cons_self
    obtain ⟨i1, i2⟩ := ih fun b hb => h b (List.mem_cons_of_mem _ hb)
    simp [h1, i1, i2]

theorem readFixed_fixed (m p : ℕ) : readFixed (fixed m p) = m / 10 ^ p := by
  have hdot : ¬ IsDigit (byte '.') := by decide
  have hall : ∀ b ∈ nat (m / 10 ^ p), decide (b ≠ byte '.') = true := by
    intro b hb
    rw [decide_eq_true_iff]
    rintro rfl
    exact hdot (nat_digits _ _ hb)
  have hlt : m % 10 ^ p < 10 ^ p := Nat.mod_lt _ (by positivity)
  have h1 : (m : ℚ) = 10 ^ p * ((m / 10 ^ p : ℕ) : ℚ) + ((m % 10 ^ p : ℕ) : ℚ) := by
    exact_mod_cast (Nat.div_add_mod m (10 ^ p)).symm
  have h2 : (10 : ℚ) ^ p ≠ 0 := by positivity
  unfold readFixed fixed
  split
  · rename_i h
    rw [List.append_nil, (takeWhile_all _ _ hall).1, (takeWhile_all _ _ hall).2, val_nat]
    rw [h1, h]
    simp only [List.tail_nil, fracVal, Nat.cast_zero, add_zero]
    field_simp
  · rw [(takeWhile_stop _ _ _ _ hall (by simp)).1, (takeWhile_stop _ _ _ _ hall (by simp)).2, val_nat, List.tail_cons,
      fracVal_decimals _ _ hlt]
    generalize (m / 10 ^ p : ℕ) = x at *
    generalize (m % 10 ^ p : ℕ) = y at *
    rw [h1]
    field_simp

theorem fixed_chars (m p : ℕ) : ∀ b ∈ fixed m p, IsDigit b ∨ b = byte '.' := by
  intro b hb
  rcases List.mem_append.1 hb with hb | hb
  · exact .inl (nat_digits _ _ hb)
  · split at hb
    · cases hb
    · rcases List.mem_cons.1 hb with rfl | hb
      · exact .inr rfl
      · exact .inl (decimals_digits _ _ (Nat.mod_lt _ (by positivity)) b hb)

/-- The value of the exponent. -/
def readExpo : Text → ℤ
  | [] => 0
  | b :: t => if b = byte '-' then -(val t : ℤ) else val t

/-- The value of a number without sign. -/
def readPositive (t : Text) : ℚ :=
  readFixed (t.takeWhile (· ≠ byte 'e')) * (10 : ℚ) ^ readExpo (t.dropWhile (· ≠ byte 'e')).tail

/-- The value of a number. -/
def readDouble : Text → ℚ
  | [] => 0
  | b :: t => if b = byte '-' then -readPositive t else readPositive (b :: t)

theorem readExpo_expo (e : ℤ) : readExpo (expo e).tail = e := by
  unfold expo readExpo
  simp only [List.tail_cons]
  have h : val (if e.natAbs < 10 then digit 0 :: nat e.natAbs else nat e.natAbs) = e.natAbs := by
    split
    · exact val_zero_cons _
    · exact val_nat _
  have hpm : byte '+' ≠ byte '-' := by decide
  rw [h]
  by_cases he : e < 0
  · rw [if_pos he, if_pos rfl]
    omega
  · rw [if_neg he, if_neg hpm]
    omega

/-- The value of the printed digits. -/
def rounded (x : ℚ) : ℚ := (significant x).1 * (10 : ℚ) ^ ((significant x).2 - 5)

theorem readPositive_positive (x : ℚ) : readPositive (positive x) = rounded x := by
  have he : ¬ (IsDigit (byte 'e') ∨ byte 'e' = byte '.') := by decide
  have hall : ∀ m p, ∀ b ∈ fixed m p, decide (b ≠ byte 'e') = true := by
    intro m p b hb
    rw [decide_eq_true_iff]
    rintro rfl
    exact he (fixed_chars _ _ _ hb)
  unfold readPositive positive rounded
  generalize significant x = s
  obtain ⟨m, e⟩ := s
  dsimp only
  split
  · rename_i h
    rw [(takeWhile_all _ _ (hall _ _)).1, (takeWhile_all _ _ (hall _ _)).2, readFixed_fixed]
    have : e - 5 = -((5 - e).toNat : ℤ) := by omega
    rw [this, zpow_neg, zpow_natCast]
    simp [readExpo, div_eq_mul_inv]
  · have h1 : expo e = byte 'e' :: (expo e).tail := rfl
    rw [h1, (takeWhile_stop _ _ _ _ (hall _ _) (by simp)).1, (takeWhile_stop _ _ _ _ (hall _ _) (by simp)).2, readFixed_fixed,
      List.tail_cons, readExpo_expo, zpow_sub₀ (by norm_num)]
    rw [div_mul_eq_mul_div, mul_div_assoc]
    norm_num

theorem positive_chars (x : ℚ) : ∀ b ∈ positive x, IsDigit b ∨ b = byte '.' ∨ b = byte 'e' ∨ b = byte '-' ∨ b = byte '+' := by
  intro b hb
  unfold positive at hb
  dsimp only at hb
  split at hb
  · exact (fixed_chars _ _ _ hb).imp id .inl
  · rcases List.mem_append.1 hb with hb | hb
    · exact (fixed_chars _ _ _ hb).imp id .inl
    · unfold expo at hb
      rcases List.mem_cons.1 hb with rfl | hb
      · exact .inr (.inr (.inl rfl))
      rcases List.mem_cons.1 hb with rfl | hb
      · split
        · exact .inr (.inr (.inr (.inl rfl)))
        · exact .inr (.inr (.inr (.inr rfl)))
      · split at hb
        · rcases List.mem_cons.1 hb with rfl | hb
          · exact .inl (isDigit_digit (by norm_num))
          · exact .inl (nat_digits _ _ hb)
        · exact .inl (nat_digits _ _ hb)

theorem double_chars (q : ℚ) : ∀ b ∈ double q, IsDigit b ∨ b = byte '.' ∨ b = byte 'e' ∨ b = byte '-' ∨ b = byte '+' := by
  intro b hb
  unfold double at hb
  split at hb
  · exact .inl (nat_digits _ _ hb)
  · split at hb
    · rcases List.mem_cons.1 hb with rfl | hb
      · exact .inr (.inr (.inr (.inl rfl)))
      · exact positive_chars _ b hb
    · exact positive_chars _ b hb

theorem fixed_cons (m p : ℕ) : ∃ b t, fixed m p = b :: t ∧ IsDigit b := by
  unfold fixed
  rcases h : nat (m / 10 ^ p) with _ | ⟨b, t⟩
  · exact absurd h (nat_ne_nil _)
  · exact ⟨b, _, rfl, nat_digits _ b (by rw [h]; exact List.mem_cons_self)⟩

theorem positive_cons (x : ℚ) : ∃ b t, positive x = b :: t ∧ IsDigit b := by
  unfold positive
  dsimp only
  split
  · exact fixed_cons _ _
  · obtain ⟨b, t, h1, h2⟩ := fixed_cons (significant x).1 5
    exact ⟨b, t ++ expo _, by rw [h1]; rfl, h2⟩

theorem double_cons (q : ℚ) : ∃ b t, double q = b :: t ∧ (IsDigit b ∨ b = byte '-') := by
  unfold double
  split
  · rcases h : nat 0 with _ | ⟨b, t⟩
    · exact absurd h (nat_ne_nil _)
    · exact ⟨b, _, rfl, .inl (nat_digits _ b (by rw [h]; exact List.mem_cons_self))⟩
  · split
    · exact ⟨_, _, rfl, .inr rfl⟩
    · obtain ⟨b, t, h1, h2⟩ := positive_cons q
      exact ⟨b, t, h1, .inl h2⟩

theorem roundEven_int (n : ℤ) : roundEven n = n := by
  simp [roundEven]

theorem significant_exact {x : ℚ} (hx : 0 < x) {m e : ℤ} (hm : |m| < 10 ^ 6) (h : x = m * (10 : ℚ) ^ e) : rounded x = x := by
  unfold rounded significant
  set E := Int.log 10 x with hE
  have h1 : (10 : ℚ) ^ E ≤ x := by
    have := Int.zpow_log_le_self (b := 10) (by norm_num) hx
    exact_mod_cast this
  have h2 : x < (10 : ℚ) ^ (E + 1) := by
    have := Int.lt_zpow_succ_log_self (b := 10) (by norm_num) x
    exact_mod_cast this
  have hmpos : 0 < m := by
    by_contra hneg
    have hp : (0 : ℚ) < 10 ^ e := zpow_pos (by norm_num) _
    have : (m : ℚ) ≤ 0 := by exact_mod_cast not_lt.1 hneg
    have := mul_nonpos_of_nonpos_of_nonneg this hp.le
    linarith
  have hm' : m < 10 ^ 6 := lt_of_le_of_lt (le_abs_self m) hm
  -- the exponent of the digits is not too small
  have hk : E ≤ e + 5 := by
    by_contra hc
    have hc : e + 6 ≤ E := by omega
    have h3 : (10 : ℚ) ^ (e + 6) ≤ m * (10 : ℚ) ^ e := by
      rw [← h]
      exact le_trans (zpow_le_zpow_right₀ (by norm_num) hc) h1
    rw [zpow_add₀ (by norm_num), mul_comm] at h3
    have hp : (0 : ℚ) < 10 ^ e := zpow_pos (by norm_num) _
    have h4 := le_of_mul_le_mul_right h3 hp
    have : (10 ^ 6 : ℤ) ≤ m := by exact_mod_cast h4
    omega
  obtain ⟨k, hk⟩ : ∃ k : ℕ, e + 5 - E = k := ⟨(e + 5 - E).toNat, by omega⟩
  have hscaled : x * (10 : ℚ) ^ (5 - E) = ((m * 10 ^ k : ℤ) : ℚ) := by
    rw [h, mul_assoc, ← zpow_add₀ (by norm_num), show e + (5 - E) = (k : ℤ) by omega]
    push_cast
    rw [zpow_natCast]
  have hlt : m * 10 ^ k < 10 ^ 6 := by
    have h3 : x * (10 : ℚ) ^ (5 - E) < (10 : ℚ) ^ (E + 1) * (10 : ℚ) ^ (5 - E) :=
      mul_lt_mul_of_pos_right h2 (zpow_pos (by norm_num) _)
    rw [hscaled, ← zpow_add₀ (by norm_num), show E + 1 + (5 - E) = ((6 : ℕ) : ℤ) by push_cast; ring, zpow_natCast] at h3
    exact_mod_cast h3
  have hpos : 0 ≤ m * 10 ^ k := by positivity
  have hto : (((m * 10 ^ k).toNat : ℕ) : ℤ) = m * 10 ^ k := Int.toNat_of_nonneg hpos
  dsimp only
  rw [hscaled, roundEven_int, if_neg (by intro hc; rw [hc] at hto; push_cast at hto; omega)]
  dsimp only
  have hq : (((m * 10 ^ k).toNat : ℕ) : ℚ) = ((m * 10 ^ k : ℤ) : ℚ) := by exact_mod_cast hto
  rw [hq, ← hscaled, mul_assoc, ← zpow_add₀ (by norm_num), show 5 - E + (E - 5) = 0 by ring, zpow_zero, mul_one]

theorem readDouble_double {q : ℚ} (hq : SixDigits q) : readDouble (double q) = q := by
  have hmin : ¬ IsDigit (byte '-') := by decide
  have read : ∀ x : ℚ, readDouble (positive x) = rounded x := by
    intro x
    obtain ⟨b, t, h1, h2⟩ := positive_cons x
    rw [h1, readDouble, if_neg (by rintro rfl; exact hmin h2), ← h1, readPositive_positive]
  obtain ⟨m, e, hm, h⟩ := hq
  unfold double
  split
  · rename_i h0
    rw [h0]
    have : nat 0 = [digit 0] := by rw [nat]; simp
    rw [this]
    decide +kernel
  · split
    · rename_i h0
      rw [readDouble, if_pos rfl, readPositive_positive,
        significant_exact (x := -q) (m := -m) (e := e) (by linarith) (by rwa [abs_neg]) (by rw [h]; push_cast; ring), neg_neg]
    · rename_i h0 h1
      rw [read]
      exact significant_exact (lt_of_le_of_ne (not_lt.1 h1) (Ne.symm h0)) hm h

theorem double_injective {q q' : ℚ} (hq : SixDigits q) (hq' : SixDigits q') (h : double q = double q') : q = q' := by
  rw [← readDouble_double hq, h, readDouble_double hq']

theorem roundEven_near (x : ℚ) : |x - roundEven x| ≤ 1 / 2 := by
  have h1 := Int.floor_le x
  have h2 := Int.lt_floor_add_one x
  unfold roundEven
  rw [abs_le]
  split
  · constructor <;> linarith
  · split
    · push_cast; constructor <;> linarith
    · have : x - ⌊x⌋ = 1 / 2 := by apply le_antisymm <;> linarith
      split
      · constructor <;> linarith
      · push_cast; constructor <;> linarith

theorem roundEven_mono_le {x : ℚ} {n : ℤ} (h : (n : ℚ) ≤ x) : n ≤ roundEven x := by
  have h1 : n ≤ ⌊x⌋ := Int.le_floor.2 h
  unfold roundEven
  split
  · exact h1
  · split
    · omega
    · split <;> omega

theorem roundEven_le {x : ℚ} {n : ℤ} (h : x < n) : roundEven x ≤ n := by
  have h1 : ⌊x⌋ < n := Int.floor_lt.2 h
  unfold roundEven
  split
  · omega
  · split
    · omega
    · split <;> omega

/-- The digits of a number with six digits. -/
theorem significant_int {m : ℕ} {e : ℤ} (h1 : 10 ^ 5 ≤ m) (h2 : m < 10 ^ 6) : significant ((m : ℚ) * (10 : ℚ) ^ (e - 5)) = (m, e) := by
  have hlog : Int.log 10 ((m : ℚ) * (10 : ℚ) ^ (e - 5)) = e := by
    have hp : (0 : ℚ) < 10 ^ (e - 5) := zpow_pos (by norm_num) _
    have g1 : ((10 ^ 5 : ℕ) : ℚ) ≤ m := by exact_mod_cast h1
    have g2 : (m : ℚ) < ((10 ^ 6 : ℕ) : ℚ) := by exact_mod_cast h2
    have a1 : (10 : ℚ) ^ e = (10 : ℚ) ^ 5 * (10 : ℚ) ^ (e - 5) := by
      rw [show (10 : ℚ) ^ 5 = (10 : ℚ) ^ (5 : ℤ) by norm_cast, ← zpow_add₀ (by norm_num)]; congr 1; ring
    have a2 : (10 : ℚ) ^ (e + 1) = (10 : ℚ) ^ 6 * (10 : ℚ) ^ (e - 5) := by
      rw [show (10 : ℚ) ^ 6 = (10 : ℚ) ^ (6 : ℤ) by norm_cast, ← zpow_add₀ (by norm_num)]; congr 1; ring
    have hpos : (0 : ℚ) < (m : ℚ) * (10 : ℚ) ^ (e - 5) := by
      refine mul_pos ?_ hp
      have : (0 : ℚ) < ((10 ^ 5 : ℕ) : ℚ) := by norm_num
      linarith
    push_cast at g1 g2
    apply le_antisymm
    · have : (m : ℚ) * (10 : ℚ) ^ (e - 5) < (10 : ℚ) ^ (e + 1) := by rw [a2]; exact mul_lt_mul_of_pos_right g2 hp
      have := (Int.lt_zpow_iff_log_lt (b := 10) (by norm_num) hpos (x := e + 1)).1 (by exact_mod_cast this)
      omega
    · have : (10 : ℚ) ^ e ≤ (m : ℚ) * (10 : ℚ) ^ (e - 5) := by rw [a1]; exact mul_le_mul_of_nonneg_right g1 hp.le
      exact (Int.zpow_le_iff_le_log (b := 10) (by norm_num) hpos (x := e)).1 (by exact_mod_cast this)
  unfold significant
  rw [hlog]
  have : (m : ℚ) * (10 : ℚ) ^ (e - 5) * (10 : ℚ) ^ (5 - e) = ((m : ℤ) : ℚ) := by
    rw [mul_assoc, ← zpow_add₀ (by norm_num), show e - 5 + (5 - e) = 0 by ring, zpow_zero, mul_one]
    norm_cast
  dsimp only
  rw [this, roundEven_int, Int.toNat_natCast, if_neg (by omega)]

/-- The printed digits are those of a number with six digits that is next to `x`. -/
theorem significant_near {x : ℚ} (hx : 0 < x) : 10 ^ 5 ≤ (significant x).1 ∧ (significant x).1 < 10 ^ 6 ∧
    |x - rounded x| * (2 * 10 ^ 5) ≤ x := by
  have h1 : (10 : ℚ) ^ (Int.log 10 x) ≤ x := by
    have := Int.zpow_log_le_self (b := 10) (by norm_num) hx
    exact_mod_cast this
  have h2 : x < (10 : ℚ) ^ (Int.log 10 x + 1) := by
    have := Int.lt_zpow_succ_log_self (b := 10) (by norm_num) x
    exact_mod_cast this
  set E := Int.log 10 x with hE
  set y := x * (10 : ℚ) ^ (5 - E) with hy
  have hp : (0 : ℚ) < 10 ^ (5 - E) := zpow_pos (by norm_num) _
  have hp' : (0 : ℚ) < 10 ^ (E - 5) := zpow_pos (by norm_num) _
  have hinv : (10 : ℚ) ^ (5 - E) * (10 : ℚ) ^ (E - 5) = 1 := by
    rw [← zpow_add₀ (by norm_num), show 5 - E + (E - 5) = 0 by ring, zpow_zero]
  have a1 : (10 : ℚ) ^ E * (10 : ℚ) ^ (5 - E) = 10 ^ 5 := by
    rw [← zpow_add₀ (by norm_num), show E + (5 - E) = ((5 : ℕ) : ℤ) by push_cast; ring, zpow_natCast]
  have a2 : (10 : ℚ) ^ (E + 1) * (10 : ℚ) ^ (5 - E) = 10 ^ 6 := by
    rw [← zpow_add₀ (by norm_num), show E + 1 + (5 - E) = ((6 : ℕ) : ℤ) by push_cast; ring, zpow_natCast]
  have y1 : ((10 ^ 5 : ℤ) : ℚ) ≤ y := by
    have := mul_le_mul_of_nonneg_right h1 hp.le
    rw [a1] at this; push_cast; linarith
  have y2 : y < ((10 ^ 6 : ℤ) : ℚ) := by
    have := mul_lt_mul_of_pos_right h2 hp
    rw [a2] at this; push_cast; linarith
  have r1 := roundEven_mono_le y1
  have r2 := roundEven_le y2
  have hto : (((roundEven y).toNat : ℕ) : ℤ) = roundEven y := Int.toNat_of_nonneg (by omega)
  have hxy : x = y * (10 : ℚ) ^ (E - 5) := by rw [hy, mul_assoc, hinv, mul_one]
  -- the value
  have hval : rounded x = (roundEven y : ℚ) * (10 : ℚ) ^ (E - 5) := by
    unfold rounded significant
    rw [← hE]
    dsimp only
    rw [← hy]
    split
    · rename_i hc
      rw [← hto, hc]
      dsimp only
      rw [show E + 1 - 5 = (E - 5) + 1 by ring, zpow_add₀ (by norm_num)]
      push_cast
      ring
    · dsimp only
      rw [← hto]; norm_cast
  refine ⟨?_, ?_, ?_⟩
  · unfold significant
    rw [← hE]; dsimp only; rw [← hy]
    split
    · norm_num
    · dsimp only; omega
  · unfold significant
    rw [← hE]; dsimp only; rw [← hy]
    split
    · norm_num
    · dsimp only; omega
  · have hn := roundEven_near y
    rw [hval]
    have : x - (roundEven y : ℚ) * (10 : ℚ) ^ (E - 5) = (y - roundEven y) * (10 : ℚ) ^ (E - 5) := by
      rw [sub_mul, ← hxy]
    rw [this, abs_mul, abs_of_pos hp']
    have b1 : |y - roundEven y| * (10 : ℚ) ^ (E - 5) * (2 * 10 ^ 5) ≤ 1 / 2 * (10 : ℚ) ^ (E - 5) * (2 * 10 ^ 5) := by
      have := mul_le_mul_of_nonneg_right hn hp'.le
      have := mul_le_mul_of_nonneg_right this (show (0 : ℚ) ≤ 2 * 10 ^ 5 by norm_num)
      exact this
    have b2 : 1 / 2 * (10 : ℚ) ^ (E - 5) * (2 * 10 ^ 5) = (10 : ℚ) ^ (E - 5) * 10 ^ 5 := by ring
    have b3 : (10 : ℚ) ^ (E - 5) * 10 ^ 5 = (10 : ℚ) ^ E := by
      rw [show (10 : ℚ) ^ 5 = (10 : ℚ) ^ (5 : ℤ) by norm_cast, ← zpow_add₀ (by norm_num)]; congr 1; ring
    linarith

theorem positive_rounded {x : ℚ} (hx : 0 < x) : positive x = positive (rounded x) := by
  obtain ⟨h1, h2, _⟩ := significant_near hx
  unfold positive
  rw [show significant (rounded x) = significant x from significant_int h1 h2]

theorem rounded_sixDigits {x : ℚ} (hx : 0 < x) : SixDigits (rounded x) ∧ 0 < rounded x := by
  obtain ⟨h1, h2, _⟩ := significant_near hx
  refine ⟨⟨(significant x).1, (significant x).2 - 5, ?_, ?_⟩, ?_⟩
  · rw [abs_of_nonneg (by positivity)]; exact_mod_cast h2
  · unfold rounded; norm_cast
  · unfold rounded
    refine mul_pos ?_ (zpow_pos (by norm_num) _)
    have : 0 < (significant x).1 := lt_of_lt_of_le (by norm_num) h1
    exact_mod_cast this

end Print
end LearnTA
