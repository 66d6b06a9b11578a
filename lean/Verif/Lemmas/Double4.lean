import Verif.Lemmas.Double3
import Verif.Lemmas.Print

/-!
# Double precision: IEEE 754 rounding
-/

namespace LearnTA
namespace Double

theorem max_lt_top : dblMax < 2 ^ 1024 := by
  have e : (2 : ℚ) ^ 1024 = 2 ^ 53 * 2 ^ 971 := by rw [← pow_add]
  have h : (0 : ℚ) < 2 ^ 971 := by positivity
  unfold dblMax
  rw [e]
  exact mul_lt_mul_of_pos_right (by norm_num) h

theorem log_lt {q : ℚ} (hq : 0 < q) {x : ℤ} (h : q < (2 : ℚ) ^ x) : Int.log 2 q < x :=
  (Int.lt_zpow_iff_log_lt (b := 2) (by norm_num) hq).1 (by exact_mod_cast h)

theorem le_log {q : ℚ} (hq : 0 < q) {x : ℤ} (h : (2 : ℚ) ^ x ≤ q) : x ≤ Int.log 2 q :=
  (Int.zpow_le_iff_le_log (b := 2) (by norm_num) hq).1 (by exact_mod_cast h)

theorem zpow_log_le {q : ℚ} (hq : 0 < q) : (2 : ℚ) ^ Int.log 2 q ≤ q := by
  have := Int.zpow_log_le_self (b := 2) (by norm_num) hq
  exact_mod_cast this

theorem ieeePos_exact {q : ℚ} (hq : 0 < q) (h : IsDouble q) : ieeePos q = q := by
  obtain ⟨m, e, hm, he, he', rfl⟩ := h
  have h2 : (0 : ℚ) < (2 : ℚ) ^ e := zpow_pos (by norm_num) e
  have hm0 : (m : ℚ) ≤ 2 ^ 53 - 1 := by
    have h1 : m ≤ 2 ^ 53 - 1 := by have := le_abs_self m; omega
    exact_mod_cast h1
  have hlog : Int.log 2 ((m : ℚ) * (2 : ℚ) ^ e) < e + 53 := by
    refine log_lt hq ?_
    rw [zpow_add₀ (by norm_num), mul_comm]
    refine mul_lt_mul_of_pos_left ?_ h2
    refine lt_of_le_of_lt hm0 ?_
    norm_num
  unfold ieeePos
  dsimp only
  set e' := max (-1074) (Int.log 2 ((m : ℚ) * (2 : ℚ) ^ e) - 52) with hE
  have hle : e' ≤ e := by rw [hE]; exact max_le he (by omega)
  have hpos : (0 : ℚ) < (2 : ℚ) ^ e' := zpow_pos (by norm_num) e'
  obtain ⟨n, hn⟩ : ∃ n : ℕ, e = e' + n := ⟨(e - e').toNat, by omega⟩
  have hint : (m : ℚ) * (2 : ℚ) ^ e / (2 : ℚ) ^ e' = ((m * 2 ^ n : ℤ) : ℚ) := by
    rw [hn, zpow_add₀ (by norm_num), zpow_natCast]
    push_cast
    field_simp
  rw [hint, Print.roundEven_int, ← hint, div_mul_cancel₀ _ hpos.ne']
  refine min_eq_right (le_trans ?_ max_lt_top.le)
  unfold dblMax
  have h3 : (2 : ℚ) ^ e ≤ 2 ^ 971 := by
    have : (2 : ℚ) ^ e ≤ (2 : ℚ) ^ (971 : ℤ) := zpow_le_zpow_right₀ (by norm_num) he'
    exact_mod_cast this
  exact mul_le_mul hm0 h3 h2.le (by norm_num)

theorem IsDouble.neg {q : ℚ} (h : IsDouble q) : IsDouble (-q) := by
  obtain ⟨m, e, hm, he, he', rfl⟩ := h
  exact ⟨-m, e, by rwa [abs_neg], he, he', by push_cast; ring⟩

theorem ieee_exact {q : ℚ} (h : IsDouble q) : ieee q = q := by
  unfold ieee
  split
  · rename_i h0; exact ieeePos_exact h0 h
  · split
    · rename_i h0; rw [ieeePos_exact (by linarith) h.neg]; ring
    · linarith

theorem lin_absorb {P c : ℚ} (hP : 0 < P) (c1 : -P < c) (c2 : c < P) : 0 < (2 ^ 54 - 2) * P + c ∧ 2 ^ 53 * P ≤ (2 ^ 54 - 2) * P + c ∧
    (2 ^ 54 - 2) * P + c < 2 ^ 54 * P := by
  refine ⟨?_, ?_, ?_⟩ <;> linarith

theorem ieeePos_absorb {c : ℚ} (hc : |c| < 2 ^ 970) : 0 < dblMax + c ∧ ieeePos (dblMax + c) = dblMax := by
  have hP : (0 : ℚ) < 2 ^ 970 := by positivity
  have e971 : (2 : ℚ) ^ 971 = 2 * 2 ^ 970 := by rw [pow_succ]; ring
  have e1023 : (2 : ℚ) ^ (1023 : ℤ) = 2 ^ 53 * 2 ^ 970 := by
    have : (2 : ℚ) ^ (1023 : ℤ) = 2 ^ 1023 := by exact_mod_cast rfl
    rw [this, ← pow_add]
  have e1024 : (2 : ℚ) ^ (1024 : ℤ) = 2 ^ 54 * 2 ^ 970 := by
    have : (2 : ℚ) ^ (1024 : ℤ) = 2 ^ 1024 := by exact_mod_cast rfl
    rw [this, ← pow_add]
  have hmax : dblMax = (2 ^ 54 - 2) * 2 ^ 970 := by unfold dblMax; rw [e971]; ring
  have ht := max_lt_top
  obtain ⟨c1, c2⟩ := abs_lt.1 hc
  have z971 : (2 : ℚ) ^ (971 : ℤ) = 2 * 2 ^ 970 := by rw [← e971]; exact_mod_cast rfl
  have hpos : 0 < dblMax + c := by
    rw [hmax]; exact (lin_absorb hP c1 c2).1
  have l1 : (1023 : ℤ) ≤ Int.log 2 (dblMax + c) := by
    refine le_log hpos ?_
    rw [e1023, hmax]; exact (lin_absorb hP c1 c2).2.1
  have l2 : Int.log 2 (dblMax + c) < 1024 := by
    refine log_lt hpos ?_
    rw [e1024, hmax]; exact (lin_absorb hP c1 c2).2.2
  refine ⟨hpos, ?_⟩
  unfold ieeePos
  dsimp only
  have he : max (-1074) (Int.log 2 (dblMax + c) - 52) = 971 := by
    have : Int.log 2 (dblMax + c) = 1023 := by omega
    rw [this]; norm_num
  rw [he]
  have hr : Print.roundEven ((dblMax + c) / (2 : ℚ) ^ (971 : ℤ)) = 2 ^ 53 - 1 := by
    have hq : (dblMax + c) / (2 : ℚ) ^ (971 : ℤ) = ((2 ^ 53 - 1 : ℤ) : ℚ) + c / (2 * 2 ^ 970) := by
      rw [z971, hmax]
      push_cast
      generalize (2 : ℚ) ^ 970 = P at *
      field_simp
      ring
    have n1 := Print.roundEven_near ((dblMax + c) / (2 : ℚ) ^ (971 : ℤ))
    have hs : |c / (2 * 2 ^ 970)| < 1 / 2 := by
      rw [abs_div, abs_of_pos (by positivity : (0 : ℚ) < 2 * 2 ^ 970), div_lt_iff₀ (by positivity)]
      generalize (2 : ℚ) ^ 970 = P at *
      linarith
    rw [hq] at n1 ⊢
    generalize Print.roundEven (((2 ^ 53 - 1 : ℤ) : ℚ) + c / (2 * 2 ^ 970)) = r at *
    generalize c / (2 * 2 ^ 970) = s at *
    generalize (2 ^ 53 - 1 : ℤ) = N at *
    have h1 := abs_le.1 n1
    have h2 := abs_lt.1 hs
    have h3 : (r : ℚ) < N + 1 := by linarith [h1.1, h1.2, h2.1, h2.2]
    have h4 : (N : ℚ) < r + 1 := by linarith [h1.1, h1.2, h2.1, h2.2]
    have h5 : r < N + 1 := by exact_mod_cast h3
    have h6 : N < r + 1 := by exact_mod_cast h4
    omega
  rw [hr]
  have : (((2 ^ 53 - 1 : ℤ) : ℚ)) * (2 : ℚ) ^ (971 : ℤ) = dblMax := by
    rw [z971, hmax]; push_cast; ring
  rw [this]
  exact min_eq_right ht.le

theorem ieee_overflow {q : ℚ} (h : dblMax ≤ q) : dblMax ≤ ieee q := by
  have hq : 0 < q := lt_of_lt_of_le (lt_trans one_pos one_lt_max) h
  have e971 : (2 : ℚ) ^ (971 : ℤ) = 2 ^ 971 := by exact_mod_cast rfl
  have e1024 : (2 : ℚ) ^ (1024 : ℤ) = 2 ^ 1024 := by exact_mod_cast rfl
  have hp : (0 : ℚ) < 2 ^ 971 := by positivity
  unfold ieee
  rw [if_pos hq]
  unfold ieeePos
  dsimp only
  refine le_min max_lt_top.le ?_
  have l1 : (1023 : ℤ) ≤ Int.log 2 q := by
    refine le_log hq (le_trans ?_ h)
    have : (2 : ℚ) ^ (1023 : ℤ) = 2 ^ 52 * 2 ^ 971 := by
      have : (2 : ℚ) ^ (1023 : ℤ) = 2 ^ 1023 := by exact_mod_cast rfl
      rw [this, ← pow_add]
    rw [this]
    unfold dblMax
    exact mul_le_mul_of_nonneg_right (by norm_num) hp.le
  have he : max (-1074) (Int.log 2 q - 52) = Int.log 2 q - 52 := max_eq_right (by omega)
  rw [he]
  rcases lt_or_ge (Int.log 2 q) 1024 with hl | hl
  · have : Int.log 2 q - 52 = 971 := by omega
    rw [this, e971]
    have hr : (2 ^ 53 - 1 : ℤ) ≤ Print.roundEven (q / 2 ^ 971) := by
      refine Print.roundEven_mono_le ?_
      rw [le_div_iff₀ hp]
      refine le_trans (le_of_eq ?_) h
      have h53 : ((2 ^ 53 - 1 : ℤ) : ℚ) = 2 ^ 53 - 1 := by norm_num
      rw [h53]; rfl
    unfold dblMax
    refine mul_le_mul_of_nonneg_right ?_ hp.le
    exact_mod_cast hr
  · set L := Int.log 2 q with hL
    have hpL : (0 : ℚ) < (2 : ℚ) ^ (L - 52) := zpow_pos (by norm_num) _
    have hr : (2 ^ 52 : ℤ) ≤ Print.roundEven (q / (2 : ℚ) ^ (L - 52)) := by
      refine Print.roundEven_mono_le ?_
      rw [le_div_iff₀ hpL]
      refine le_trans (le_of_eq ?_) (zpow_log_le hq)
      have h52 : ((2 ^ 52 : ℤ) : ℚ) = (2 : ℚ) ^ (52 : ℤ) := by norm_num
      have hex : (52 : ℤ) + (L - 52) = L := by ring
      rw [← hL, h52, ← zpow_add₀ (by norm_num), hex]
    have hr' : (2 ^ 52 : ℚ) ≤ (Print.roundEven (q / (2 : ℚ) ^ (L - 52)) : ℚ) := by exact_mod_cast hr
    refine le_trans max_lt_top.le (le_trans ?_ (mul_le_mul_of_nonneg_right hr' hpL.le))
    rw [← e1024, ← zpow_natCast, ← zpow_add₀ (by norm_num)]
    exact zpow_le_zpow_right₀ (by norm_num) (by push_cast; omega)

theorem ieee_rounding : Rounding ieee := by
  refine ⟨fun q => ieee_exact, fun c hc => ?_, fun q => ieee_overflow⟩
  obtain ⟨h1, h2⟩ := ieeePos_absorb hc
  obtain ⟨h3, h4⟩ := ieeePos_absorb (c := -c) (by rwa [abs_neg])
  constructor
  · unfold ieee; rw [if_pos h1, h2]
  · have e : -(-dblMax + c) = dblMax + -c := by ring
    unfold ieee
    rw [if_neg (by intro h; linarith), if_pos (by linarith), e, h4]

end Double
end LearnTA
