import Verif.Lemmas.Fixtures
import Mathlib.Tactic.Ring

/-!
# Lemmas: the target "Unbalanced loop"
-/

namespace LearnTA
namespace Fixture

theorem loopLengthFrom_spec (clock : ℕ) : ∀ fuel L, 1 ≤ L → clock < L + fuel → (L - 1) * L / 2 ≤ clock →
    1 ≤ loopLengthFrom clock fuel L ∧ (loopLengthFrom clock fuel L - 1) * loopLengthFrom clock fuel L / 2 ≤ clock ∧
      clock < (loopLengthFrom clock fuel L + 1) * loopLengthFrom clock fuel L / 2 := by
  intro fuel
  induction fuel with
  | zero =>
    intro L h1 h2 h3
    refine ⟨h1, h3, ?_⟩
    show clock < (L + 1) * L / 2
    have : L ≤ (L + 1) * L / 2 := by
      rw [Nat.le_div_iff_mul_le (by norm_num)]
      nlinarith
    omega
  | succ fuel ih =>
    intro L h1 h2 h3
    unfold loopLengthFrom
    split
    · rename_i h
      refine ih (L + 1) (by omega) (by omega) ?_
      rw [Nat.add_sub_cancel, mul_comm]
      exact h
    · rename_i h
      exact ⟨h1, h3, by omega⟩

theorem loopLength_spec (clock : ℕ) :
    1 ≤ loopLength clock ∧ (loopLength clock - 1) * loopLength clock / 2 ≤ clock ∧
      clock < (loopLength clock + 1) * loopLength clock / 2 :=
  loopLengthFrom_spec clock (clock + 1) 1 le_rfl (by omega) (by simp)

theorem loopStates_lt {states clock s : ℕ} (h : s ∈ loopStates states clock) : s + loopLength clock ≤ states := by
  unfold loopStates at h
  split at h
  · rename_i h0
    obtain ⟨i, hi, rfl⟩ := List.mem_range'.1 h
    have h2 : i ≤ (states - loopLength clock - loopInit clock) / loopLength clock := by omega
    have h3 : loopLength clock * i ≤ states - loopLength clock - loopInit clock := by
      calc loopLength clock * i ≤ loopLength clock * ((states - loopLength clock - loopInit clock) / loopLength clock) :=
            Nat.mul_le_mul_left _ h2
        _ ≤ _ := Nat.mul_div_le _ _
    omega
  · cases h

/-- The sources of the transitions that check the clock. -/
def Checks (states clock i : ℕ) : Prop :=
  i < states ∧ loopInit clock + loopLength clock ≤ i + 1 ∧ loopLength clock ∣ i + 1 - loopInit clock

instance (states clock i : ℕ) : Decidable (Checks states clock i) := by unfold Checks; infer_instance

theorem mem_sources {states clock i : ℕ} :
    i ∈ (loopStates states clock).map (fun s => s + loopLength clock - 1) ↔ Checks states clock i := by
  have hL := (loopLength_spec clock).1
  constructor
  · intro h
    obtain ⟨s, hs, rfl⟩ := List.mem_map.1 h
    have h1 := loopStates_lt hs
    unfold loopStates at hs
    split at hs
    · obtain ⟨k, hk, rfl⟩ := List.mem_range'.1 hs
      refine ⟨by omega, by omega, ⟨k + 1, ?_⟩⟩
      rw [mul_add, mul_one]
      omega
    · cases hs
  · rintro ⟨h1, h2, k, hk⟩
    have hk0 : 1 ≤ k := by
      rcases Nat.eq_zero_or_pos k with rfl | h
      · rw [mul_zero] at hk; omega
      · exact h
    obtain ⟨k, rfl⟩ := Nat.exists_eq_add_of_le' hk0
    rw [mul_add, mul_one] at hk
    refine List.mem_map.2 ⟨loopInit clock + loopLength clock * k, ?_, by omega⟩
    unfold loopStates
    rw [if_pos (by omega)]
    refine List.mem_range'.2 ⟨k, ?_, rfl⟩
    refine Nat.lt_succ_of_le ?_
    rw [Nat.le_div_iff_mul_le (by omega), mul_comm]
    omega

/-- The effect of the body on one edge. -/
def Edge.check (scale : ℤ) (clock : ℕ) (e : Edge) : Edge :=
  { e with
    resets := e.resets ++ [clock]
    guard := e.guard ++ [⟨clock, .gt, loopLength clock * scale⟩, ⟨clock, .lt, 2 * loopLength clock * scale⟩] }

theorem loop_inner (states : ℕ) (scale : ℤ) (clock : ℕ) (es : ℕ → Edge) (i : ℕ) :
    (loopStates states clock).foldl (loopBody states scale clock) es i =
      if Checks states clock i then (es i).check scale clock else es i := by
  have hL := (loopLength_spec clock).1
  have gen : ∀ (l : List ℕ) (es : ℕ → Edge), (∀ s ∈ l, s + loopLength clock ≤ states) → l.Nodup →
      l.foldl (loopBody states scale clock) es i =
        if i ∈ l.map (fun s => s + loopLength clock - 1) then (es i).check scale clock else es i := by
    intro l
    induction l with
    | nil => intro es _ _; simp
    | cons s l ih =>
      intro es h1 h2
      rw [List.foldl_cons, ih _ (fun t ht => h1 t (List.mem_cons_of_mem _ ht)) (List.nodup_cons.1 h2).2]
      have hs := h1 s List.mem_cons_self
      have hmod : (s + loopLength clock - 1) % states = s + loopLength clock - 1 := Nat.mod_eq_of_lt (by omega)
      by_cases hi : i = s + loopLength clock - 1
      · have hni : i ∉ l.map (fun s => s + loopLength clock - 1) := by
          rw [List.mem_map]
          rintro ⟨t, ht, h3⟩
          have : t = s := by omega
          exact (List.nodup_cons.1 h2).1 (this ▸ ht)
        rw [if_neg hni, if_pos (by rw [List.map_cons, hi]; exact List.mem_cons_self)]
        unfold loopBody
        simp only [hmod]
        rw [hi, Function.update_self]
        rfl
      · have : loopBody states scale clock es s i = es i := by
          unfold loopBody
          simp only [hmod]
          rw [Function.update_of_ne hi]
        rw [this, List.map_cons]
        have : i ∈ (s + loopLength clock - 1) :: l.map (fun s => s + loopLength clock - 1) ↔
            i ∈ l.map (fun s => s + loopLength clock - 1) := by
          rw [List.mem_cons]; exact or_iff_right hi
        simp only [this]
  rw [gen _ _ (fun s hs => loopStates_lt hs)]
  · simp only [mem_sources]
  · unfold loopStates
    split
    · exact List.nodup_range' (step := loopLength clock) (h := by omega)
    · exact List.nodup_nil

/-- The guard of a clock. -/
def loopGuard (scale : ℤ) (clock : ℕ) : Guard :=
  [⟨clock, .gt, loopLength clock * scale⟩, ⟨clock, .lt, 2 * loopLength clock * scale⟩]

theorem loopEdges_eq (states clocks : ℕ) (scale : ℤ) (i : ℕ) :
    loopEdges states clocks scale i = ⟨i, act 'a', (i + 1) % states,
      (List.range clocks).filter fun c => decide (Checks states c i),
      ((List.range clocks).filter fun c => decide (Checks states c i)).flatMap (loopGuard scale)⟩ := by
  induction clocks with
  | zero => rfl
  | succ n ih =>
    have : loopEdges states (n + 1) scale =
        (loopStates states n).foldl (loopBody states scale n) (loopEdges states n scale) := by
      unfold loopEdges
      rw [List.range_succ, List.foldl_append]
      rfl
    rw [this, loop_inner, ih, List.range_succ, List.filter_append]
    split
    · rename_i h
      rw [List.filter_cons_of_pos (by simpa using h)]
      simp [Edge.check, loopGuard]
    · rename_i h
      rw [List.filter_cons_of_neg (by simpa using h)]
      simp

theorem loop_ok (states clocks : ℕ) (scale : ℤ) (hs : 0 < states)
    (hc : ∀ c < clocks, 2 * loopLength c * scale < intMax ∧ 0 ≤ loopLength c * scale) :
    EdgesOk states onlyA ((List.range states).map (loopEdges states clocks scale)) := by
  refine ⟨?_, ?_, ?_, ?_, ?_⟩
  · intro e he
    obtain ⟨i, hi, rfl⟩ := List.mem_map.1 he
    rw [loopEdges_eq]
    exact Nat.mod_lt _ hs
  · intro e he
    obtain ⟨i, hi, rfl⟩ := List.mem_map.1 he
    rw [loopEdges_eq]
    exact List.mem_singleton.2 rfl
  · intro e he c hcg
    obtain ⟨i, hi, rfl⟩ := List.mem_map.1 he
    rw [loopEdges_eq] at hcg
    simp only [List.mem_flatMap, List.mem_filter, List.mem_range, loopGuard, List.mem_cons, List.not_mem_nil, or_false] at hcg
    obtain ⟨x, ⟨hx, -⟩, rfl | rfl⟩ := hcg
    · have := hc x hx
      show (loopLength x : ℤ) * scale < intMax
      nlinarith [this.1, this.2]
    · exact (hc x hx).1
  · intro e he
    obtain ⟨i, hi, rfl⟩ := List.mem_map.1 he
    rw [loopEdges_eq]
    exact List.nodup_range.filter _
  · rw [List.pairwise_map]
    refine List.Pairwise.imp_of_mem (fun {i j} _ _ hij h => ?_) (List.nodup_range (n := states))
    rw [loopEdges_eq, loopEdges_eq] at h
    exact absurd h hij

theorem loop_clocks (states clocks : ℕ) (scale : ℤ) : (unbalancedLoop states clocks scale).ClocksExist := by
  refine build_clocks (k := clocks) (by simp) ?_
  intro e he
  obtain ⟨i, hi, rfl⟩ := List.mem_map.1 he
  rw [loopEdges_eq]
  refine ⟨fun c hcg => ?_, fun x hx => ?_⟩
  · simp only [List.mem_flatMap, List.mem_filter, List.mem_range, loopGuard, List.mem_cons, List.not_mem_nil, or_false] at hcg
    obtain ⟨x, ⟨hx, -⟩, rfl | rfl⟩ := hcg <;> exact hx
  · exact List.mem_range.1 (List.mem_filter.1 hx).1

end Fixture
end LearnTA
