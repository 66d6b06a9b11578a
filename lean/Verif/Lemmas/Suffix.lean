import Verif.Model.Suffix
import Verif.Spec.Symbolic
import Verif.Lemmas.RegionTA

/-!
# Lemmas about inserting a cut into the words of a region
-/

namespace LearnTA
namespace Suffix
open Bound RegionTA TimedCondition

theorem pts_zero (d : List ℚ) : pts d 0 = 0 := by simp [pts]

theorem pts_succ (d : List ℚ) (i : ℕ) : pts d (i + 1) = pts d i + d.getD i 0 := by
  unfold pts
  by_cases h : i < d.length
  · rw [List.sum_take_succ _ _ h, List.getD_eq_getElem?_getD, List.getElem?_eq_getElem h]; rfl
  · rw [List.take_of_length_le (by omega), List.take_of_length_le (by omega), List.getD_eq_getElem?_getD,
      List.getElem?_eq_none (by omega)]
    simp

theorem pts_congr {d d' : List ℚ} : ∀ {i : ℕ}, (∀ j < i, d.getD j 0 = d'.getD j 0) → pts d i = pts d' i := by
  intro i
  induction i with
  | zero => intro _; simp [pts_zero]
  | succ i ih =>
    intro h
    rw [pts_succ, pts_succ, ih fun j hj => h j (by omega), h i (by omega)]

/-- Points in the same position, up to shifts. -/
theorem same_of_points {w w' : TimedWord} {P P' : ℕ → ℚ} {a a' : ℚ} {n : ℕ} (hw : w.word = w'.word)
    (hn : w.durations.length = n) (hn' : w'.durations.length = n) (hP : ∀ i ≤ n, pts w.durations i = P i - a)
    (hP' : ∀ i ≤ n, pts w'.durations i = P' i - a') (h : Equiv (n + 1) P P') : w.SameRegion w' := by
  refine ⟨hw, by omega, fun i j hij hj => ?_⟩
  rw [← pts_sub _ hij, ← pts_sub _ hij, hP _ (by omega), hP _ (by omega), hP' _ (by omega), hP' _ (by omega)]
  have := h (j + 1) (by omega) i (by omega)
  rw [reg_eq_iff] at this
  simpa using this

theorem insert_points {N : ℕ} {p p' : ℕ → ℚ} (h : Equiv N p p') (M : ℕ) (hM : N ≤ M) :
    ∃ q', (∀ i < N, q' i = p' i) ∧ Equiv M p q' := by
  induction M, hM using Nat.le_induction with
  | base => exact ⟨p', fun _ _ => rfl, h⟩
  | succ M hM ih =>
    obtain ⟨q, h1, h2⟩ := ih
    obtain ⟨s, hs⟩ := insert_point h2 (p M)
    rw [Function.update_eq_self] at hs
    refine ⟨Function.update q M s, fun i hi => ?_, hs⟩
    rw [Function.update_of_ne (by omega), h1 i hi]

/-- The delays between points. -/
def dur (P : ℕ → ℚ) (n : ℕ) : List ℚ := (List.range n).map fun i => P (i + 1) - P i

@[simp] theorem dur_length (P : ℕ → ℚ) (n : ℕ) : (dur P n).length = n := by simp [dur]

theorem dur_getD (P : ℕ → ℚ) {n i : ℕ} (hi : i < n) : (dur P n).getD i 0 = P (i + 1) - P i := by
  simp [dur, List.getD_eq_getElem?_getD, List.getElem?_range hi]

theorem pts_dur (P : ℕ → ℚ) (n : ℕ) : ∀ {i : ℕ}, i ≤ n → pts (dur P n) i = P i - P 0 := by
  intro i
  induction i with
  | zero => intro _; simp [pts_zero]
  | succ i ih =>
    intro h
    rw [pts_succ, ih (by omega), dur_getD P (by omega)]; ring

/-- Another beginning in the same region can be continued. -/
theorem extend_begin {u v y : TimedWord} (hu : u.WF) (hv : v.WF) (h : u.SameRegion y) :
    ∃ g : TimedWord, (u.append v).SameRegion g ∧ g.WF ∧ (∀ i < u.word.length, g.durations.getD i 0 = y.durations.getD i 0) ∧
      (0 ≤ v.durations.headD 0 → y.durations.getD u.word.length 0 ≤ g.durations.getD u.word.length 0) ∧
      (v.durations.headD 0 = 0 → g.durations.getD u.word.length 0 = y.durations.getD u.word.length 0) := by
  obtain ⟨uw, ud⟩ := u
  obtain ⟨vw, vd⟩ := v
  have h1 : ud.length = uw.length + 1 := hu
  have h2 : vd.length = vw.length + 1 := hv
  have hE := pts_equiv h
  simp only at hE
  set x := (TimedWord.mk uw ud).append ⟨vw, vd⟩ with hx
  set k := uw.length with hk
  have hxl : x.durations.length = k + vw.length + 1 := by
    simp [hx, TimedWord.append, TimedWord.addBack, h1, h2]; omega
  have hxw : x.word.length = k + vw.length := by simp [hx, TimedWord.append, hk]
  have hxd : ∀ i < k, x.durations.getD i 0 = ud.getD i 0 := by
    intro i hi
    simp only [hx, TimedWord.append, TimedWord.addBack, List.getD_eq_getElem?_getD]
    rw [List.append_assoc, List.getElem?_append_left (by simp; omega), List.getElem?_dropLast]
    rw [if_pos (by omega)]
  set q : ℕ → ℚ := fun i => if i ≤ k + 1 then pts ud i else pts x.durations (i - 1) with hq
  have hq0 : Equiv (ud.length + 1) q (pts y.durations) := by
    intro i hi j hj
    rw [← hE i hi j hj]
    simp only [hq]
    rw [if_pos (by omega), if_pos (by omega)]
  obtain ⟨q', e1, e2⟩ := insert_points hq0 (k + vw.length + 3) (by omega)
  let P' : ℕ → ℚ := fun i => if i ≤ k then q' i else q' (i + 1)
  let P : ℕ → ℚ := fun i => if i ≤ k then q i else q (i + 1)
  have hP : ∀ i, P i = pts x.durations i := by
    intro i
    simp only [P, hq]
    by_cases hi : i ≤ k
    · rw [if_pos hi, if_pos (by omega)]
      exact pts_congr fun j hj => (hxd j (by omega)).symm
    · rw [if_neg hi, if_neg (by omega)]; rfl
  have hPE : Equiv (k + vw.length + 1 + 1) P P' := by
    intro i hi j hj
    simp only [P, P']
    split <;> split <;> exact e2 _ (by omega) _ (by omega)
  have hmid : x.durations.getD k 0 = ud.getD k 0 + vd.headD 0 := by
    obtain ⟨l, t, rfl⟩ : ∃ l t, ud = l ++ [t] :=
      ⟨ud.dropLast, ud.getLast (by intro h; simp [h] at h1), (List.dropLast_append_getLast _).symm⟩
    have hl : l.length = k := by simpa using h1
    simp only [hx, TimedWord.append, TimedWord.addBack, List.getD_eq_getElem?_getD, List.dropLast_concat,
      List.getLastD_eq_getLast?, List.getLast?_concat, Option.getD_some, List.append_assoc, List.singleton_append]
    rw [List.getElem?_append_right (by omega), List.getElem?_append_right (by omega), hl]
    simp
  have hfront : q (k + 2) - q (k + 1) = vd.headD 0 := by
    simp only [hq]
    rw [if_neg (by omega), if_pos (le_refl _)]
    have : k + 2 - 1 = k + 1 := rfl
    rw [this, pts_succ, pts_succ, hmid, pts_congr fun j hj => hxd j hj]; ring
  have hgk : (dur P' (k + vw.length + 1)).getD k 0 = (q' (k + 2) - q' (k + 1)) + y.durations.getD k 0 := by
    rw [dur_getD P' (by omega)]
    simp only [P']
    rw [if_neg (by omega), if_pos (le_refl _), e1 (k + 1) (by omega), e1 k (by omega), pts_succ y.durations k]; ring
  have hreg := e2 (k + 2) (by omega) (k + 1) (by omega)
  rw [hfront, reg_eq_iff] at hreg
  refine ⟨⟨x.word, dur P' (k + vw.length + 1)⟩, ?_, ?_, ?_, ?_, ?_⟩
  · exact same_of_points (P := P) (P' := P') (a := 0) (a' := P' 0) rfl hxl (by simp) (fun i _ => by rw [hP]; ring)
      (fun i hi => pts_dur P' _ hi) hPE
  · show (dur P' (k + vw.length + 1)).length = x.word.length + 1
    rw [dur_length, hxw]
  · intro i hi
    have hi : i < k := hi
    show (dur P' (k + vw.length + 1)).getD i 0 = _
    rw [dur_getD P' (by omega)]
    simp only [P']
    rw [if_pos (by omega), if_pos (by omega), e1 _ (by omega), e1 _ (by omega), pts_succ]; ring
  · intro h0
    show _ ≤ (dur P' (k + vw.length + 1)).getD k 0
    have h0 : 0 ≤ vd.headD 0 := h0
    rw [hgk]
    have h3 : (0 : ℤ) ≤ ⌊q' (k + 2) - q' (k + 1)⌋ := by rw [← hreg.1]; exact Int.floor_nonneg.2 h0
    have h4 := Int.floor_nonneg.1 h3
    show y.durations.getD k 0 ≤ _
    linarith
  · intro h0
    show (dur P' (k + vw.length + 1)).getD k 0 = y.durations.getD k 0
    have h0 : vd.headD 0 = 0 := h0
    rw [hgk]
    rw [h0] at hreg
    have a1 : (0 : ℤ) ≤ ⌊q' (k + 2) - q' (k + 1)⌋ := by rw [← hreg.1]; simp
    have a2 : ⌈q' (k + 2) - q' (k + 1)⌉ ≤ 0 := by rw [← hreg.2]; simp
    have h4 := Int.floor_nonneg.1 a1
    have h5 := Int.ceil_le.1 a2
    push_cast at h5
    linarith

theorem pts_append_le (l m : List ℚ) {i : ℕ} (hi : i ≤ l.length) : pts (l ++ m) i = pts l i :=
  pts_congr fun j hj => by simp [List.getD_eq_getElem?_getD, List.getElem?_append_left (show j < l.length by omega)]

theorem pts_cons (a : ℚ) (l : List ℚ) (i : ℕ) : pts (a :: l) (i + 1) = a + pts l i := by simp [pts]

theorem pts_drop (d : List ℚ) (k i : ℕ) : pts (d.drop k) i = pts d (k + i) - pts d k := by
  induction i with
  | zero => simp [pts_zero]
  | succ i ih =>
    rw [← Nat.add_assoc, pts_succ, pts_succ, ih]
    simp only [List.getD_eq_getElem?_getD, List.getElem?_drop]; ring

/-- The points of the rest of a word after a cut. -/
theorem pts_rest (d : List ℚ) (k : ℕ) (t : ℚ) (hk : k < d.length) (i : ℕ) :
    pts (TimedWord.subFront (d.drop k) t) (i + 1) = pts d (k + (i + 1)) - (pts d k + t) := by
  have h := pts_drop d k (i + 1)
  rw [List.drop_eq_getElem_cons hk] at h ⊢
  simp only [TimedWord.subFront]
  rw [pts_cons] at h ⊢
  linarith

/-- Every word of a region can be cut in the same position as another one. -/
theorem cut_same {f x : TimedWord} (hf : f.WF) (hx : f.SameRegion x) (k : ℕ) (hk : k ≤ f.word.length) (t : ℚ) :
    ∃ y z : TimedWord, x = y.append z ∧
      TimedWord.SameRegion ⟨f.word.take k, f.durations.take k ++ [t]⟩ y ∧
      TimedWord.SameRegion ⟨f.word.drop k, TimedWord.subFront (f.durations.drop k) t⟩ z := by
  have hE := pts_equiv hx
  obtain ⟨hw, hl, _⟩ := hx
  have hfl : f.durations.length = f.word.length + 1 := hf
  set N := f.durations.length + 1 with hN
  set c := pts f.durations k + t with hc
  obtain ⟨s, hs⟩ := insert_point hE c
  set r := s - pts x.durations k with hr
  have hkx : k < x.durations.length := by omega
  have old : ∀ (q : ℕ → ℚ) (a : ℚ) {i : ℕ}, i < N → Function.update q N a i = q i := fun q a i hi =>
    Function.update_of_ne (by omega) _ _
  refine ⟨⟨x.word.take k, x.durations.take k ++ [r]⟩, ⟨x.word.drop k, TimedWord.subFront (x.durations.drop k) r⟩, ?_, ?_, ?_⟩
  · rcases x with ⟨xw, xd⟩
    simp only at hkx
    simp only [TimedWord.append, TimedWord.addBack, List.take_append_drop, TimedWord.mk.injEq, true_and]
    rw [List.drop_eq_getElem_cons hkx]
    simp only [TimedWord.subFront, List.dropLast_concat, List.headD_cons, List.tail_cons,
      List.getLastD_eq_getLast?, List.getLast?_concat, Option.getD_some, List.append_assoc, List.singleton_append]
    rw [add_sub_cancel, ← List.drop_eq_getElem_cons hkx, List.take_append_drop]
  · refine same_of_points (n := k + 1) (P := fun i => if i ≤ k then Function.update (pts f.durations) N c i else
        Function.update (pts f.durations) N c N) (P' := fun i => if i ≤ k then Function.update (pts x.durations) N s i else
        Function.update (pts x.durations) N s N) (a := 0) (a' := 0) (by simp [hw]) (by simp; omega) (by simp; omega) ?_ ?_ ?_
    · intro i hi
      have hlen : (f.durations.take k).length = k := by simp; omega
      by_cases h : i ≤ k
      · simp only [if_pos h]
        rw [old _ _ (by omega), pts_append_le _ _ (by omega), sub_zero]
        simp [pts, List.take_take, h]
      · obtain rfl : i = k + 1 := by omega
        simp only [if_neg h, Function.update_self]
        rw [pts_succ, pts_append_le _ _ (by omega), hc]
        have : (f.durations.take k ++ [t]).getD k 0 = t := by
          rw [List.getD_eq_getElem?_getD, List.getElem?_append_right (by omega), hlen]; simp
        rw [this]
        simp [pts, List.take_take]
    · intro i hi
      have hlen : (x.durations.take k).length = k := by simp; omega
      by_cases h : i ≤ k
      · simp only [if_pos h]
        rw [old _ _ (by omega), pts_append_le _ _ (by omega), sub_zero]
        simp [pts, List.take_take, h]
      · obtain rfl : i = k + 1 := by omega
        simp only [if_neg h, Function.update_self]
        rw [pts_succ, pts_append_le _ _ (by omega)]
        have : (x.durations.take k ++ [r]).getD k 0 = r := by
          rw [List.getD_eq_getElem?_getD, List.getElem?_append_right (by omega), hlen]; simp
        rw [this, hr]
        simp [pts, List.take_take]
    · intro i hi j hj
      dsimp only
      split <;> split <;> exact hs _ (by omega) _ (by omega)
  · refine same_of_points (n := f.durations.length - k) (P := fun i => if i = 0 then Function.update (pts f.durations) N c N else
        Function.update (pts f.durations) N c (k + i)) (P' := fun i => if i = 0 then Function.update (pts x.durations) N s N else
        Function.update (pts x.durations) N s (k + i)) (a := c) (a' := s) (by simp [hw]) ?_ ?_ ?_ ?_ ?_
    · show (TimedWord.subFront (f.durations.drop k) t).length = _
      rw [List.drop_eq_getElem_cons (by omega)]; simp [TimedWord.subFront]; omega
    · show (TimedWord.subFront (x.durations.drop k) r).length = _
      rw [List.drop_eq_getElem_cons hkx]; simp [TimedWord.subFront]; omega
    · intro i hi
      cases i with
      | zero => simp [pts_zero]
      | succ i =>
        simp only [Nat.succ_ne_zero, if_false]
        rw [old _ _ (by omega), pts_rest _ _ _ (by omega)]
    · intro i hi
      cases i with
      | zero => simp [pts_zero]
      | succ i =>
        simp only [Nat.succ_ne_zero, if_false]
        rw [old _ _ (by omega), pts_rest _ _ _ hkx, hr]; ring
    · intro i hi j hj
      dsimp only
      split <;> split <;> exact hs _ (by omega) _ (by omega)

end Suffix
end LearnTA
