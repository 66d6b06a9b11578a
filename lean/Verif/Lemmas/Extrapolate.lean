import Verif.Lemmas.Zone2
import Verif.Spec.ZA

/-! Extrapolation keeps every zone within the equivalence "equal, or both above the threshold". -/

namespace LearnTA
namespace Zone
open Bound

/-- The relation between a zone and its extrapolation that is needed for soundness. -/
structure Extra (m : ℕ → ℚ) (Z E : Zone) : Prop where
  dim : E.dim = Z.dim
  zz : E.val 0 0 = Z.val 0 0
  up : ∀ i, E.val (i + 1) 0 = Z.val (i + 1) 0 ∨ firstGt (Z.val (i + 1) 0) (m i) = true
  lo : ∀ i, E.val 0 (i + 1) = Z.val 0 (i + 1) ∨
    (negFirstGt (Z.val 0 (i + 1)) (m i) = true ∧ E.val 0 (i + 1) = .fin (-m i) false)
  dd : ∀ i j, E.val (i + 1) (j + 1) = Z.val (i + 1) (j + 1) ∨
    firstGt (Z.val (i + 1) (j + 1)) (m i) = true ∨ negFirstGt (Z.val 0 (i + 1)) (m i) = true ∨
    negFirstGt (Z.val 0 (j + 1)) (m j) = true

theorem Extra.refl (m : ℕ → ℚ) (Z : Zone) : Extra m Z Z :=
  ⟨rfl, rfl, fun _ => .inl rfl, fun _ => .inl rfl, fun _ _ => .inl rfl⟩

theorem Extra.neg {m : ℕ → ℚ} {Z E : Zone} (h : Extra m Z E) {i : ℕ}
    (hn : negFirstGt (E.val 0 (i + 1)) (m i) = true) : negFirstGt (Z.val 0 (i + 1)) (m i) = true := by
  rcases h.lo i with e | ⟨h1, _⟩
  · rwa [e] at hn
  · exact h1

theorem Extra.inner {m : ℕ → ℚ} {Z E : Zone} (h : Extra m Z E) (i j : ℕ) :
    Extra m Z (extrapolateInner m i E j) := by
  have key : (firstGt (E.val (i + 1) (j + 1)) (m i) = true ∨
      negFirstGt (E.val 0 (i + 1)) (m i) = true ∨ negFirstGt (E.val 0 (j + 1)) (m j) = true) →
      Extra m Z (E.set (i + 1) (j + 1) .inf) := by
    intro hc
    refine ⟨h.dim, by simp [set_val, h.zz], fun a => by simpa [set_val] using h.up a,
      fun a => by simpa [set_val] using h.lo a, fun a b => ?_⟩
    simp only [set_val, Nat.add_right_cancel_iff]
    by_cases e : a = i ∧ b = j
    · obtain ⟨rfl, rfl⟩ := e
      right
      rcases hc with hc | hc | hc
      · rcases h.dd a b with e | e
        · left; rwa [e] at hc
        · exact e
      · exact .inr (.inl (h.neg hc))
      · exact .inr (.inr (h.neg hc))
    · rw [if_neg e]; exact h.dd a b
  unfold extrapolateInner
  split
  · exact key (.inl ‹_›)
  · split
    · exact key (.inr (.inl ‹_›))
    · split
      · exact key (.inr (.inr ‹_›))
      · exact h

theorem Extra.fold {α : Type*} {m : ℕ → ℚ} {Z : Zone} (f : Zone → α → Zone)
    (hf : ∀ E a, Extra m Z E → Extra m Z (f E a)) (l : List α) (E : Zone) (h : Extra m Z E) :
    Extra m Z (l.foldl f E) := by
  induction l generalizing E with
  | nil => exact h
  | cons a l ih => exact ih _ (hf E a h)

theorem Extra.outer {m : ℕ → ℚ} {Z E : Zone} (h : Extra m Z E) (n i : ℕ) :
    Extra m Z (extrapolateOuter m n E i) := by
  unfold extrapolateOuter
  apply Extra.fold _ (fun E a hE => hE.inner i a)
  have h1 : Extra m Z (if firstGt (E.val (i + 1) 0) (m i) then E.set (i + 1) 0 .inf else E) := by
    split
    · rename_i hc
      refine ⟨h.dim, by simp [set_val, h.zz], fun a => ?_, fun a => by simpa [set_val] using h.lo a,
        fun a b => by simpa [set_val] using h.dd a b⟩
      simp only [set_val, Nat.add_right_cancel_iff, and_true]
      by_cases e : a = i
      · subst e
        right
        rcases h.up a with e | e
        · rwa [e] at hc
        · exact e
      · rw [if_neg e]; exact h.up a
    · exact h
  set E1 := (if firstGt (E.val (i + 1) 0) (m i) then E.set (i + 1) 0 .inf else E)
  split
  · rename_i hc
    refine ⟨h1.dim, by simp [set_val, h1.zz], fun a => by simpa [set_val] using h1.up a, fun a => ?_,
      fun a b => by simpa [set_val] using h1.dd a b⟩
    simp only [set_val, Nat.add_right_cancel_iff, true_and]
    by_cases e : a = i
    · subst e
      right
      exact ⟨h1.neg hc, by simp⟩
    · rw [if_neg e]; exact h1.lo a
  · exact h1

theorem extra_extrapolate (m : ℕ → ℚ) (Z : Zone) : Extra m Z (Z.extrapolate m) :=
  Extra.fold _ (fun _ a hE => hE.outer _ a) _ _ (Extra.refl m Z)

theorem Sat.sup {z : Zone} {w w' : ℕ → ℚ} (h : z.Sat w) (h' : z.Sat w') :
    z.Sat (fun i => max (w i) (w' i)) := by
  intro i hi j hj
  simp only
  have key : ∀ {u u' : ℕ → ℚ}, z.Sat u → Bound.Sat (u i - max (u j) (u' j)) (z.val i j) := by
    intro u u' hu
    have := hu i hi j hj
    rw [sat_iff] at this ⊢
    refine le_trans ?_ this
    rw [fin_le_fin]
    have := le_max_left (u j) (u' j)
    rcases lt_or_eq_of_le this with hl | hl
    · left; linarith
    · right; exact ⟨by rw [← hl], le_refl _⟩
  rcases le_total (w i) (w' i) with hle | hle
  · rw [max_eq_right hle, max_comm]; exact key h'
  · rw [max_eq_left hle]; exact key h

/-- The heart of the soundness of extrapolation. -/
theorem Extra.equiv {m : ℕ → ℚ} {Z E : Zone} (h : Extra m Z E) (hm : ∀ x, 0 ≤ m x) (hc : Z.Closed)
    (hd : Z.DiagNN) (h0 : 0 < Z.dim) (hnn : ∀ i, i + 1 < Z.dim → Z.val 0 (i + 1) ≤ 0)
    (v : Valuation) (hv : E.Mem v) : ∃ v', Z.Mem v' ∧ Valuation.Near m (Z.dim - 1) v v' := by
  classical
  have hvnn : ∀ i, i + 1 < Z.dim → 0 ≤ v i := by
    intro i hi
    have := hv 0 (by rw [h.dim]; exact h0) (i + 1) (by rw [h.dim]; exact hi)
    rcases h.lo i with e | ⟨_, e⟩
    · rw [e] at this
      have := this.mono (hnn i hi)
      simp at this; linarith
    · rw [e] at this; simp at this; have := hm i; linarith
  have hbig : ∀ i, i + 1 < Z.dim → negFirstGt (Z.val 0 (i + 1)) (m i) = true → m i < v i := by
    intro i hi hn
    have := hv 0 (by rw [h.dim]; exact h0) (i + 1) (by rw [h.dim]; exact hi)
    rcases h.lo i with e | ⟨_, e⟩
    · rw [e] at this
      cases hb : Z.val 0 (i + 1) with
      | inf => rw [hb] at hn; simp [negFirstGt] at hn
      | fin c s =>
        rw [hb] at hn this
        simp [negFirstGt] at hn
        cases s <;> simp at this <;> linarith
    · rw [e] at this; simp at this; exact this
  -- the clocks that must keep their value
  let S : Finset ℕ := (Finset.range Z.dim).filter fun k => k = 0 ∨ v.ext k ≤ m (k - 1)
  have hS : ∀ k ∈ S, k < Z.dim := fun k hk => by simp [S] at hk; exact hk.1
  have hS0 : 0 ∈ S := by simp [S, h0]
  have hSs : ∀ i, i + 1 ∈ S → v i ≤ m i := by
    intro i hi
    simp only [S, Finset.mem_filter] at hi
    rcases hi.2 with h | h
    · omega
    · simpa using h
  have hgt : ∀ (b : Bound) (q r : ℚ), firstGt b q = true → r ≤ q → Bound.Sat r b := by
    intro b q r hb hr
    cases b with
    | inf => trivial
    | fin c s => simp [firstGt] at hb; cases s <;> simp <;> linarith
  have hon : Z.SatOn S v.ext := by
    intro i hi j hj
    have hi' := hS i hi
    have hj' := hS j hj
    have hE := hv i (by rw [h.dim]; exact hi') j (by rw [h.dim]; exact hj')
    cases i with
    | zero =>
      cases j with
      | zero => rwa [h.zz] at hE
      | succ j =>
        rcases h.lo j with e | ⟨hn, _⟩
        · rwa [e] at hE
        · have := hbig j hj' hn; have := hSs j hj; linarith
    | succ i =>
      cases j with
      | zero =>
        rcases h.up i with e | hn
        · rwa [e] at hE
        · exact hgt _ _ _ hn (by simpa using hSs i hi)
      | succ j =>
        rcases h.dd i j with e | hn | hn | hn
        · rwa [e] at hE
        · refine hgt _ _ _ hn ?_
          have := hSs i hi; have := hvnn j hj'
          simp; linarith
        · have := hbig i hi' hn; have := hSs i hi; linarith
        · have := hbig j hj' hn; have := hSs j hj; linarith
  -- one clock above its threshold
  have one : ∀ x, x + 1 < Z.dim → x + 1 ∉ S → ∃ w, (∀ i ∈ S, w i = v.ext i) ∧ Z.Sat w ∧
      m x < w (x + 1) := by
    intro x hx hxS
    have hvx : m x < v x := by
      by_contra hle
      exact hxS (by simp [S, hx]; linarith)
    obtain ⟨t, ht⟩ := Bound.exists_value (none :: S.toList.map some)
      (fun o => o.elim 0 v.ext) (fun o => o.elim .inf fun i => Z.val (x + 1) i)
      (fun o => o.elim (.fin (-m x) false) fun i => Z.val i (x + 1)) (by
      intro i hi j hj
      cases j with
      | none => simp
      | some j =>
        have hjS : j ∈ S := by simpa using hj
        have hj' := hS j hjS
        cases i with
        | some i =>
          have hiS : i ∈ S := by simpa using hi
          exact (hon i hiS j hjS).mono (hc i (hS i hiS) j hj' (x + 1) hx)
        | none =>
          simp only [Option.elim_none, Option.elim_some, zero_sub]
          have hE := hv (x + 1) (by rw [h.dim]; exact hx) j (by rw [h.dim]; exact hj')
          have good : Bound.Sat (v x - v.ext j) (Z.val (x + 1) j) →
              Bound.Sat (-v.ext j) (.fin (-m x) false + Z.val (x + 1) j) := by
            intro hs
            have : Bound.Sat (-v x) (.fin (-m x) false) := by simpa using hvx
            have := this.add hs
            have e : -v x + (v x - v.ext j) = -v.ext j := by ring
            rwa [e] at this
          have far : firstGt (Z.val (x + 1) j) (m x) = true → 0 ≤ v.ext j →
              Bound.Sat (-v.ext j) (.fin (-m x) false + Z.val (x + 1) j) := by
            intro hn hnn
            cases hb : Z.val (x + 1) j with
            | inf => simp
            | fin c s =>
              rw [hb] at hn; simp [firstGt] at hn
              simp; linarith
          cases j with
          | zero =>
            rcases h.up x with e | hn
            · rw [e] at hE; exact good hE
            · exact far hn (by simp)
          | succ j =>
            rcases h.dd x j with e | hn | hn | hn
            · rw [e] at hE; exact good hE
            · exact far hn (by simpa using hvnn j hj')
            · have h1 := hon 0 hS0 (j + 1) hjS
              have h2 := h1.mono (hc 0 h0 (j + 1) hj' (x + 1) hx)
              have e : v.ext 0 - v.ext (j + 1) = -v.ext (j + 1) := by simp
              rw [e] at h2
              refine h2.mono (add_le_add_left ?_ _)
              cases hb : Z.val 0 (x + 1) with
              | inf => rw [hb] at hn; simp [negFirstGt] at hn
              | fin c s =>
                rw [hb] at hn; simp [negFirstGt] at hn
                rw [fin_le_fin]; left; linarith
            · have := hbig j hj' hn; have := hSs j hjS; linarith)
    have hne : ∀ i ∈ S, i ≠ x + 1 := fun i hi e => hxS (e ▸ hi)
    obtain ⟨w, hw1, hw2⟩ := extend Z hc hd (insert (x + 1) S) (by
      intro i hi
      rcases Finset.mem_insert.1 hi with rfl | hi
      · exact hx
      · exact hS i hi) (Function.update v.ext (x + 1) t) (by
      intro i hi j hj
      rw [Finset.mem_insert] at hi hj
      rcases hi with rfl | hi <;> rcases hj with rfl | hj
      · simp only [sub_self]; exact sat_self_zero.2 (hd _ hx)
      · simp only [Function.update_self, Function.update_of_ne (hne j hj)]
        exact (ht (some j) (by simp [hj])).1
      · simp only [Function.update_self, Function.update_of_ne (hne i hi)]
        exact (ht (some i) (by simp [hi])).2
      · simp only [Function.update_of_ne (hne i hi), Function.update_of_ne (hne j hj)]
        exact hon i hi j hj)
    refine ⟨w, fun i hi => ?_, hw2, ?_⟩
    · rw [hw1 i (Finset.mem_insert_of_mem hi), Function.update_of_ne (hne i hi)]
    · rw [hw1 _ (Finset.mem_insert_self _ _), Function.update_self]
      have := (ht none (by simp)).2
      simp at this; linarith
  -- all clocks together
  have all : ∀ n, ∃ w, (∀ i ∈ S, w i = v.ext i) ∧ Z.Sat w ∧
      ∀ x < n, x + 1 < Z.dim → x + 1 ∉ S → m x < w (x + 1) := by
    intro n
    induction n with
    | zero =>
      obtain ⟨w, h1, h2⟩ := extend Z hc hd S hS v.ext hon
      exact ⟨w, h1, h2, fun x hx => absurd hx (Nat.not_lt_zero x)⟩
    | succ n ih =>
      obtain ⟨w, h1, h2, h3⟩ := ih
      by_cases hn : n + 1 < Z.dim ∧ n + 1 ∉ S
      · obtain ⟨w', g1, g2, g3⟩ := one n hn.1 hn.2
        refine ⟨fun i => max (w i) (w' i), fun i hi => by simp [h1 i hi, g1 i hi], h2.sup g2,
          fun x hx hx1 hx2 => ?_⟩
        by_cases e : x = n
        · subst e; exact lt_max_of_lt_right g3
        · exact lt_max_of_lt_left (h3 x (by omega) hx1 hx2)
      · refine ⟨w, h1, h2, fun x hx hx1 hx2 => ?_⟩
        by_cases e : x = n
        · subst e; exact absurd ⟨hx1, hx2⟩ hn
        · exact h3 x (by omega) hx1 hx2
  obtain ⟨w, h1, h2, h3⟩ := all (Z.dim - 1)
  have hw0 : w 0 = 0 := by rw [h1 0 hS0]; rfl
  refine ⟨fun i => w (i + 1), ?_, ?_⟩
  · unfold Mem; rw [ext_of hw0]; exact h2
  · intro x hx
    by_cases hxS : x + 1 ∈ S
    · left; simp [h1 _ hxS]
    · right
      refine ⟨?_, h3 x hx (by omega) hxS⟩
      by_contra hle
      exact hxS (by simp [S]; exact ⟨by omega, by linarith⟩)

end Zone
end LearnTA
