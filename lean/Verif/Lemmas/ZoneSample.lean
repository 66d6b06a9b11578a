import Verif.Lemmas.Zone2
import Mathlib.Tactic.NormNum

namespace LearnTA
open Bound
namespace Zone

/-! ### Updates: sequential versus simultaneous -/

theorem apply_lookup (r : Resets) (hn : (r.map Prod.fst).Nodup) (v : Valuation) (x : ℕ) :
    r.apply v x = match r.lookup x with | some u => u.eval v | none => v x := by
  unfold Resets.apply
  have : ∀ (r : Resets) (w : Valuation), (r.map Prod.fst).Nodup →
      r.foldl (fun w p => Function.update w p.1 (p.2.eval v)) w x =
        match r.lookup x with | some u => u.eval v | none => w x := by
    intro r
    induction r with
    | nil => intro w _; rfl
    | cons p r ih =>
      intro w hn
      rcases p with ⟨a, u⟩
      simp only [List.map_cons, List.nodup_cons] at hn
      simp only [List.foldl_cons]
      rw [ih _ hn.2, List.lookup_cons]
      by_cases hx : x = a
      · subst hx
        have hl : r.lookup x = none := by
          rw [List.lookup_eq_none_iff]
          intro p hp
          simp only [bne_iff_ne, ne_eq]
          rintro rfl
          exact hn.1 (List.mem_map.2 ⟨p, hp, rfl⟩)
        simp [hl]
      · have : (x == a) = false := by simpa using hx
        simp [this, Function.update_of_ne hx]
  exact this r v hn

theorem rename_lookup (r : Resets) (hn : (r.map Prod.fst).Nodup) (hr : NoReadAfterWrite r)
    (v : Valuation) (x : ℕ) :
    r.foldl renameStep v x = match r.lookup x with | some (.clock y) => v y | _ => v x := by
  induction r generalizing v with
  | nil => rfl
  | cons p r ih =>
    rcases p with ⟨a, u⟩
    simp only [List.map_cons, List.nodup_cons] at hn
    simp only [List.foldl_cons]
    rw [ih hn.2 hr.2, List.lookup_cons]
    have hlk : ∀ y, r.lookup x = some (.clock y) → ∃ p' ∈ r, p'.2 = .clock y := by
      intro y hy
      obtain ⟨l1, l2, e, _⟩ := List.lookup_eq_some_iff.1 hy
      exact ⟨(x, .clock y), by rw [e]; simp, rfl⟩
    cases u with
    | const q =>
      simp only [renameStep]
      by_cases hx : x = a
      · subst hx
        have hl : r.lookup x = none := by
          rw [List.lookup_eq_none_iff]
          intro p hp
          simp only [bne_iff_ne, ne_eq]
          rintro rfl
          exact hn.1 (List.mem_map.2 ⟨p, hp, rfl⟩)
        simp [hl]
      · have : (x == a) = false := by simpa using hx
        simp [this]
    | clock b =>
      simp only [renameStep]
      by_cases hx : x = a
      · subst hx
        have hl : r.lookup x = none := by
          rw [List.lookup_eq_none_iff]
          intro p hp
          simp only [bne_iff_ne, ne_eq]
          rintro rfl
          exact hn.1 (List.mem_map.2 ⟨p, hp, rfl⟩)
        simp [hl]
      · have h1 : (x == a) = false := by simpa using hx
        simp only [h1, Function.update_of_ne hx]
        cases hl : r.lookup x with
        | none => rfl
        | some u =>
          cases u with
          | const q => rfl
          | clock y =>
            simp only
            by_cases hab : a = b
            · subst hab; simp
            · have : y ≠ a := by
                rintro rfl
                obtain ⟨p', hp', e⟩ := hlk y hl
                exact hr.1 b rfl hab p' hp' e
              rw [Function.update_of_ne this]

theorem const_lookup (r : Resets) (hn : (r.map Prod.fst).Nodup) (v : Valuation) (x : ℕ) :
    r.foldl constStep v x = match r.lookup x with | some (.const q) => q | _ => v x := by
  induction r generalizing v with
  | nil => rfl
  | cons p r ih =>
    rcases p with ⟨a, u⟩
    simp only [List.map_cons, List.nodup_cons] at hn
    simp only [List.foldl_cons]
    rw [ih hn.2, List.lookup_cons]
    by_cases hx : x = a
    · subst hx
      have hl : r.lookup x = none := by
        rw [List.lookup_eq_none_iff]
        intro p hp
        simp only [bne_iff_ne, ne_eq]
        rintro rfl
        exact hn.1 (List.mem_map.2 ⟨p, hp, rfl⟩)
      cases u <;> simp [hl, constStep]
    · have h1 : (x == a) = false := by simpa using hx
      simp only [h1]
      have : constStep v (a, u) x = v x := by
        cases u <;> simp [constStep, Function.update_of_ne hx]
      cases hl : r.lookup x with
      | none => simp [this]
      | some u' => cases u' <;> simp [this]

theorem seqApply_eq_apply (r : Resets) (hn : (r.map Prod.fst).Nodup) (hr : NoReadAfterWrite r)
    (v : Valuation) : seqApply r v = r.apply v := by
  funext x
  unfold seqApply
  rw [const_lookup r hn, apply_lookup r hn]
  cases hl : r.lookup x with
  | none => simp [rename_lookup r hn hr, hl]
  | some u =>
    cases u with
    | const q => rfl
    | clock y => simp [rename_lookup r hn hr, hl, Upd.eval]

/-! ### Sampling -/

theorem sampleLower_fold (f : ℕ → Bound) (vs : List (ℚ × ℕ)) (l0 : ℚ) :
    l0 ≤ vs.foldl (fun l p => sampleLower l (f p.2) p.1) l0 ∧
    (∀ p ∈ vs, ∀ c s, f p.2 = .fin c s → -c + p.1 ≤ vs.foldl (fun l p => sampleLower l (f p.2) p.1) l0) ∧
    (∀ t, l0 ≤ t → (∀ p ∈ vs, ∀ c s, f p.2 = .fin c s → -c + p.1 ≤ t) →
      vs.foldl (fun l p => sampleLower l (f p.2) p.1) l0 ≤ t) := by
  induction vs generalizing l0 with
  | nil => exact ⟨le_refl _, by simp, fun t h _ => h⟩
  | cons a vs ih =>
    simp only [List.foldl_cons]
    obtain ⟨i1, i2, i3⟩ := ih (sampleLower l0 (f a.2) a.1)
    have hle : l0 ≤ sampleLower l0 (f a.2) a.1 := by
      unfold sampleLower; split <;> simp
    refine ⟨hle.trans i1, ?_, ?_⟩
    · intro p hp c s hc
      simp only [List.mem_cons] at hp
      rcases hp with rfl | hp
      · refine le_trans ?_ i1
        unfold sampleLower; rw [hc]; exact le_max_right _ _
      · exact i2 p hp c s hc
    · intro t h0 h
      apply i3
      · unfold sampleLower
        split
        · rename_i c s hc
          exact max_le h0 (h a (by simp) c s hc)
        · exact h0
      · intro p hp; exact h p (by simp [hp])

/-- `none` is `DBL_MAX`. -/
def leTop (t : ℚ) : Option ℚ → Prop
  | none => True
  | some u => t ≤ u

theorem sampleUpper_fold (f : ℕ → Bound) (vs : List (ℚ × ℕ)) (u0 : Option ℚ) :
    (∀ u, vs.foldl (fun l p => sampleUpper l (f p.2) p.1) u0 = some u →
      (∀ a, u0 = some a → u ≤ a) ∧ (∀ p ∈ vs, ∀ c s, f p.2 = .fin c s → u ≤ c + p.1)) ∧
    (vs.foldl (fun l p => sampleUpper l (f p.2) p.1) u0 = none →
      u0 = none ∧ ∀ p ∈ vs, f p.2 = .inf) ∧
    (∀ t, leTop t u0 → (∀ p ∈ vs, ∀ c s, f p.2 = .fin c s → t ≤ c + p.1) →
      leTop t (vs.foldl (fun l p => sampleUpper l (f p.2) p.1) u0)) := by
  induction vs generalizing u0 with
  | nil => exact ⟨fun u h => ⟨fun a ha => by simp at h; rw [h] at ha; simp at ha; exact ha.le,
      by simp⟩, fun h => ⟨h, by simp⟩, fun t h _ => h⟩
  | cons a vs ih =>
    simp only [List.foldl_cons]
    obtain ⟨i1, i2, i3⟩ := ih (sampleUpper u0 (f a.2) a.1)
    refine ⟨?_, ?_, ?_⟩
    · intro u hu
      obtain ⟨j1, j2⟩ := i1 u hu
      constructor
      · intro b hb
        subst hb
        cases hf : f a.2 with
        | inf => exact j1 b (by rw [hf]; rfl)
        | fin c s => exact (j1 (min b (c + a.1)) (by rw [hf]; rfl)).trans (min_le_left _ _)
      · intro p hp c s hc
        simp only [List.mem_cons] at hp
        rcases hp with rfl | hp
        · cases u0 with
          | none => exact j1 (c + p.1) (by rw [hc]; rfl)
          | some b => exact (j1 (min b (c + p.1)) (by rw [hc]; rfl)).trans (min_le_right _ _)
        · exact j2 p hp c s hc
    · intro h
      obtain ⟨j1, j2⟩ := i2 h
      have : u0 = none ∧ f a.2 = .inf := by
        cases u0 <;> cases hf : f a.2 <;> rw [hf] at j1 <;> simp [sampleUpper] at j1 ⊢
      refine ⟨this.1, ?_⟩
      intro p hp
      simp only [List.mem_cons] at hp
      rcases hp with rfl | hp
      · exact this.2
      · exact j2 p hp
    · intro t h0 h
      apply i3
      · cases u0 with
        | none =>
          cases hf : f a.2 with
          | inf => simp [sampleUpper, leTop]
          | fin c s => simpa [sampleUpper, leTop] using h a (by simp) c s hf
        | some b =>
          cases hf : f a.2 with
          | inf => simpa [sampleUpper, leTop] using h0
          | fin c s =>
            simp only [sampleUpper, leTop]
            exact le_min h0 (h a (by simp) c s hf)
      · intro p hp; exact h p (by simp [hp])

/-- The extended list: index 0 is the constant. -/
def lext (vs : List ℚ) : ℕ → ℚ := Valuation.ext (fun i => vs.getD i 0)

theorem sat_of_le {t c p : ℚ} {s : Bool} (h : -c + p ≤ t) (hs : s = true ∨ -c + p < t) :
    Bound.Sat (p - t) (.fin c s) := by
  cases s with
  | true => simp; linarith
  | false =>
    rcases hs with hs | hs
    · simp at hs
    · simp; linarith

/-- What `sampleClock` needs if the own lower bound is not strict: a strict lower bound relative to
an earlier clock is smaller. -/
def ClockOk (z : Zone) (vs : List ℚ) : Prop :=
  isPoint (z.val (vs.length + 1) 0) (z.val 0 (vs.length + 1)) = false →
    ∀ c0, z.val 0 (vs.length + 1) = .fin c0 true → ∀ j < vs.length, ∀ c,
      z.val (j + 1) (vs.length + 1) = .fin c false → -c + vs.getD j 0 < -c0

/-- The same for the value that is chosen. -/
def ClockFits (z : Zone) (vs : List ℚ) : Prop :=
  isPoint (z.val (vs.length + 1) 0) (z.val 0 (vs.length + 1)) = false →
    ∀ c0, z.val 0 (vs.length + 1) = .fin c0 true → -c0 ≤ z.sampleClock vs → ∀ j < vs.length, ∀ c,
      z.val (j + 1) (vs.length + 1) = .fin c false → -c + vs.getD j 0 < z.sampleClock vs

theorem sampleClock_fits (z : Zone) (hc : z.Closed) (hd : z.DiagNN) (vs : List ℚ)
    (hk : vs.length + 1 < z.dim)
    (hnn : ∀ i, i + 1 < z.dim → z.val 0 (i + 1) ≤ 0)
    (hH : ClockFits z vs)
    (hs : z.SatOn (Finset.range (vs.length + 1)) (lext vs)) :
    z.SatOn (Finset.range (vs.length + 2)) (lext (vs ++ [z.sampleClock vs])) := by
  set k := vs.length with hkdef
  obtain ⟨t0, ht0⟩ := Bound.exists_value (List.range (k + 1)) (lext vs)
    (fun i => z.val (k + 1) i) (fun i => z.val i (k + 1)) (by
      intro i hi j hj
      rw [List.mem_range] at hi hj
      exact (hs i (by simpa using hi) j (by simpa using hj)).mono
        (hc i (by omega) j (by omega) (k + 1) hk))
  -- it suffices that the sampled value satisfies the constraints with earlier indices
  suffices h : ∀ i < k + 1, Bound.Sat (z.sampleClock vs - lext vs i) (z.val (k + 1) i) ∧
      Bound.Sat (lext vs i - z.sampleClock vs) (z.val i (k + 1)) by
    have e1 : ∀ i < k + 1, lext (vs ++ [z.sampleClock vs]) i = lext vs i := by
      intro i hi
      cases i with
      | zero => rfl
      | succ i =>
        simp only [lext, ext_succ]
        rw [List.getD_eq_getElem?_getD, List.getD_eq_getElem?_getD, List.getElem?_append_left (by omega)]
    have e2 : lext (vs ++ [z.sampleClock vs]) (k + 1) = z.sampleClock vs := by
      simp only [lext, ext_succ]
      rw [List.getD_eq_getElem?_getD, List.getElem?_append_right (by omega)]
      simp [hkdef]
    intro i hi j hj
    simp only [Finset.mem_range] at hi hj
    rcases Nat.lt_or_ge i (k + 1) with hi' | hi' <;> rcases Nat.lt_or_ge j (k + 1) with hj' | hj'
    · rw [e1 i hi', e1 j hj']
      exact hs i (by simpa using hi') j (by simpa using hj')
    · have : j = k + 1 := by omega
      subst this
      rw [e1 i hi', e2]; exact (h i hi').2
    · have : i = k + 1 := by omega
      subst this
      rw [e1 j hj', e2]; exact (h j hj').1
    · have h1 : i = k + 1 := by omega
      have h2 : j = k + 1 := by omega
      subst h1; subst h2
      rw [sub_self]; exact sat_self_zero.2 (hd _ (by omega))
  have ht0' : ∀ i < k + 1, Bound.Sat (t0 - lext vs i) (z.val (k + 1) i) ∧
      Bound.Sat (lext vs i - t0) (z.val i (k + 1)) := fun i hi => ht0 i (by simpa using hi)
  -- the own lower bound is finite
  obtain ⟨c0, s0, hl0⟩ : ∃ c s, z.val 0 (k + 1) = .fin c s := by
    have := hnn k hk
    cases hb : z.val 0 (k + 1) with
    | inf => rw [hb] at this; simp [zero_def] at this
    | fin c s => exact ⟨c, s, rfl⟩
  have hc0 : c0 ≤ 0 := by
    have := hnn k hk
    rw [hl0, zero_def, fin_le_fin] at this
    rcases this with h | h
    · exact h.le
    · exact h.1.le
  have hfit := hH
  unfold ClockFits at hfit
  rw [← hkdef] at hfit
  unfold sampleClock
  dsimp only
  rw [← hkdef]
  by_cases hp : isPoint (z.val (k + 1) 0) (z.val 0 (k + 1)) = true
  · -- the own bounds determine the value
    rw [if_pos hp]
    cases hb : z.val (k + 1) 0 with
    | inf => rw [hb, hl0] at hp; simp [isPoint] at hp
    | fin u us =>
      rw [hb, hl0] at hp
      simp only [isPoint, Bool.and_eq_true, decide_eq_true_eq] at hp
      have h0 := ht0' 0 (by omega)
      rw [hb, hl0] at h0
      have hus : us = true := hp.1.2
      have hss : s0 = true := hp.2
      have e := hp.1.1
      subst hus; subst hss
      simp [lext] at h0
      have : t0 = u := by linarith [h0.1, h0.2]
      simp only [firstOf, Option.getD_some]
      rw [← this]; exact ht0'
  · rw [if_neg hp]
    simp only [hl0]
    have hm0 : max 0 (-c0) = -c0 := max_eq_right (by linarith)
    rw [hm0]
    have hzip : ∀ p ∈ vs.zipIdx, p.2 < k ∧ p.1 = vs.getD p.2 0 := by
      intro p hp
      rcases p with ⟨a, i⟩
      rw [List.mem_zipIdx_iff_getElem?] at hp
      have hi : i < vs.length := by
        by_contra hcon
        rw [List.getElem?_eq_none (by omega)] at hp
        simp at hp
      refine ⟨hi, ?_⟩
      rw [List.getD_eq_getElem?_getD, hp]; rfl
    have hzip' : ∀ i < k, (vs.getD i 0, i) ∈ vs.zipIdx := by
      intro i hi
      rw [List.mem_zipIdx_iff_getElem?, List.getD_eq_getElem?_getD]
      rw [List.getElem?_eq_getElem hi]; rfl
    obtain ⟨L1, L2, L3⟩ := sampleLower_fold (fun j => z.val (j + 1) (k + 1)) vs.zipIdx (-c0)
    obtain ⟨U1, U2, U3⟩ := sampleUpper_fold (fun j => z.val (k + 1) (j + 1)) vs.zipIdx
      (firstOf (z.val (k + 1) 0))
    set lower := vs.zipIdx.foldl (fun l p => sampleLower l (z.val (p.2 + 1) (k + 1)) p.1) (-c0)
    set upper := vs.zipIdx.foldl (fun u p => sampleUpper u (z.val (k + 1) (p.2 + 1)) p.1)
      (firstOf (z.val (k + 1) 0))
    -- the witness is between
    have hlt0 : lower ≤ t0 := by
      apply L3
      · have := (ht0' 0 (by omega)).2
        rw [hl0] at this
        cases s0 <;> simp [lext] at this <;> linarith
      · intro p hp c s hcs
        obtain ⟨hp1, hp2⟩ := hzip p hp
        have := (ht0' (p.2 + 1) (by omega)).2
        rw [hcs] at this
        simp only [lext, ext_succ, ← hp2] at this
        cases s <;> simp at this <;> linarith
    have hut0 : leTop t0 upper := by
      apply U3
      · have := (ht0' 0 (by omega)).1
        cases hb : z.val (k + 1) 0 with
        | inf => simp [firstOf, leTop]
        | fin c s =>
          rw [hb] at this
          simp only [firstOf, leTop]
          cases s <;> simp [lext] at this <;> linarith
      · intro p hp c s hcs
        obtain ⟨hp1, hp2⟩ := hzip p hp
        have := (ht0' (p.2 + 1) (by omega)).1
        rw [hcs] at this
        simp only [lext, ext_succ, ← hp2] at this
        cases s <;> simp at this <;> linarith
    -- all lower bounds are at most `lower`
    have hlow : ∀ i < k + 1, ∀ c s, z.val i (k + 1) = .fin c s → -c + lext vs i ≤ lower := by
      intro i hi c s hcs
      cases i with
      | zero =>
        rw [hl0] at hcs
        simp only [fin.injEq] at hcs
        rw [← hcs.1]; simpa [lext] using L1
      | succ i =>
        have := L2 _ (hzip' i (by omega)) c s hcs
        simpa [lext] using this
    have hupp : ∀ u, upper = some u → ∀ i < k + 1, ∀ c s, z.val (k + 1) i = .fin c s →
        u ≤ c + lext vs i := by
      intro u hu i hi c s hcs
      obtain ⟨j1, j2⟩ := U1 u hu
      cases i with
      | zero =>
        have := j1 c (by rw [hcs]; rfl)
        simpa [lext] using this
      | succ i =>
        have := j2 _ (hzip' i (by omega)) c s hcs
        simpa [lext] using this
    -- a value strictly inside is fine
    have inside : ∀ t, lower < t → (∀ u, upper = some u → t < u) →
        ∀ i < k + 1, Bound.Sat (t - lext vs i) (z.val (k + 1) i) ∧
          Bound.Sat (lext vs i - t) (z.val i (k + 1)) := by
      intro t h1 h2 i hi
      constructor
      · cases hb : z.val (k + 1) i with
        | inf => trivial
        | fin c s =>
          cases hu : upper with
          | none =>
            exfalso
            obtain ⟨j1, j2⟩ := U2 hu
            cases i with
            | zero => rw [hb] at j1; simp [firstOf] at j1
            | succ i =>
              have := j2 _ (hzip' i (by omega))
              simp only [hb] at this
              simp at this
          | some u =>
            have := hupp u hu i hi c s hb
            have := h2 u hu
            cases s <;> simp <;> linarith
      · cases hb : z.val i (k + 1) with
        | inf => trivial
        | fin c s =>
          have := hlow i hi c s hb
          exact sat_of_le (by linarith) (Or.inr (by linarith))
    by_cases hs0 : s0 = true
    · -- closed own lower bound: take `lower`
      have e : secondOf (.fin c0 s0) = true := by simp [secondOf, hs0]
      rw [if_pos e]
      intro i hi
      constructor
      · have := (ht0' i hi).1
        rw [sat_iff] at this ⊢
        refine le_trans ?_ this
        rw [fin_le_fin]
        rcases lt_or_eq_of_le hlt0 with h | h
        · left; linarith
        · right; exact ⟨by rw [h], le_refl _⟩
      · cases hb : z.val i (k + 1) with
        | inf => trivial
        | fin c s =>
          refine sat_of_le (hlow i hi c s hb) ?_
          cases i with
          | zero => left; rw [hl0] at hb; simp only [fin.injEq] at hb; rw [← hb.2]; exact hs0
          | succ i =>
            cases s with
            | true => exact .inl rfl
            | false =>
              right
              have hval : z.sampleClock vs = lower := by
                unfold sampleClock
                dsimp only
                rw [← hkdef, if_neg hp]
                simp only [hl0]
                rw [hm0, if_pos e]
              have := hfit (by simpa using hp) c0 (by rw [← hs0]; exact hl0) (by rw [hval]; exact L1) i (by omega) c hb
              have h2 : lext vs (i + 1) = vs.getD i 0 := rfl
              rw [h2]
              rwa [hval] at this
    · have hs0' : s0 = false := by simpa using hs0
      have e : ¬ secondOf (.fin c0 s0) = true := by simp [secondOf, hs0']
      rw [if_neg e]
      cases hu : upper with
      | none =>
        dsimp only
        exact inside _ (by linarith) (by intro u h; rw [hu] at h; simp at h)
      | some u =>
        rw [hu] at hut0
        simp only [leTop] at hut0
        dsimp only
        split
        · rename_i hgt
          exact inside _ (by linarith) (by intro u' h; rw [hu] at h; simp at h; subst h; linarith)
        · rcases lt_or_eq_of_le (hlt0.trans hut0) with h | h
          · exact inside _ (by linarith)
              (by intro u' h'; rw [hu] at h'; simp at h'; subst h'; linarith)
          · have e1 : t0 = lower := le_antisymm (by rw [h]; exact hut0) hlt0
            have e2 : (lower + u) * (1 / 2) = t0 := by rw [e1, ← h]; ring
            rw [e2]; exact ht0'

/-- The values of the first clocks of a sample. -/
def samplePrefix (z : Zone) (n : ℕ) : List ℚ :=
  (List.range n).foldl (fun vs _ => vs ++ [sampleClock z.canonize vs]) []

theorem sample_mem_fits (z : Zone) (hne : ∃ v, z.Mem v)
    (hnn : ∀ v, z.Mem v → ∀ i, i + 1 < z.dim → 0 ≤ v i)
    (hH : ∀ n, n + 1 < z.dim → z.canonize.SatOn (Finset.range (n + 1)) (lext (z.samplePrefix n)) →
      ClockFits z.canonize (z.samplePrefix n)) :
    z.Mem (fun i => z.sample.getD i 0) ∧ z.sample.length = z.dim - 1 := by
  obtain ⟨v, hv⟩ := hne
  have hc := canonize_closed_of_mem hv
  have hd : z.canonize.DiagNN := ((canonize_mem z v).2 hv).diagNN
  by_cases hdim : z.dim = 0
  · refine ⟨fun i hi => by omega, ?_⟩
    simp [sample, hdim]
  have h0 : 0 < z.dim := Nat.pos_of_ne_zero hdim
  have hnn' : ∀ i, i + 1 < z.canonize.dim → z.canonize.val 0 (i + 1) ≤ 0 := by
    intro i hi
    rw [canonize_dim] at hi
    apply le_of_sat_imp
    intro q hq
    obtain ⟨u, hu, hle⟩ := realize_above _ hc hd (by simpa using h0) (by simpa using hi) (by omega) q hq
    have := hnn u ((canonize_mem z u).1 hu) i hi
    simp at hle ⊢
    linarith
  have key : ∀ n, n ≤ z.dim - 1 →
      ((List.range n).foldl (fun vs _ => vs ++ [sampleClock z.canonize vs]) []).length = n ∧
      z.canonize.SatOn (Finset.range (n + 1))
        (lext ((List.range n).foldl (fun vs _ => vs ++ [sampleClock z.canonize vs]) [])) := by
    intro n
    induction n with
    | zero =>
      intro _
      refine ⟨rfl, ?_⟩
      intro i hi j hj
      simp at hi hj
      subst hi; subst hj
      rw [sub_self]; exact sat_self_zero.2 (hd 0 (by simpa using h0))
    | succ n ih =>
      intro hn
      obtain ⟨i1, i2⟩ := ih (by omega)
      rw [List.range_succ, List.foldl_append, List.foldl_cons, List.foldl_nil]
      set vs := (List.range n).foldl (fun vs _ => vs ++ [sampleClock z.canonize vs]) []
      refine ⟨by simp [i1], ?_⟩
      have := sampleClock_fits z.canonize hc hd vs (by rw [i1]; simp; omega) hnn'
        (hH n (by omega) i2) (by rw [i1]; exact i2)
      rw [i1] at this
      exact this
  obtain ⟨k1, k2⟩ := key (z.dim - 1) (le_refl _)
  refine ⟨?_, k1⟩
  rw [← canonize_mem]
  intro i hi j hj
  rw [canonize_dim] at hi hj
  exact k2 i (by simp; omega) j (by simp; omega)

theorem ClockOk.fits {z : Zone} {vs : List ℚ} (h : ClockOk z vs) : ClockFits z vs :=
  fun h1 c0 h2 h3 j hj c h4 => (h h1 c0 h2 j hj c h4).trans_le h3

theorem sample_mem_of (z : Zone) (hne : ∃ v, z.Mem v)
    (hnn : ∀ v, z.Mem v → ∀ i, i + 1 < z.dim → 0 ≤ v i)
    (hH : ∀ n, n + 1 < z.dim → ClockOk z.canonize
      ((List.range n).foldl (fun vs _ => vs ++ [sampleClock z.canonize vs]) [])) :
    z.Mem (fun i => z.sample.getD i 0) ∧ z.sample.length = z.dim - 1 :=
  sample_mem_fits z hne hnn fun n hn _ => (hH n hn).fits

theorem sample_mem (z : Zone) (hne : ∃ v, z.Mem v)
    (hnn : ∀ v, z.Mem v → ∀ i, i + 1 < z.dim → 0 ≤ v i)
    (hH : ∀ i j, j < i → i + 1 < z.dim → isPoint (z.canonize.val (i + 1) 0) (z.canonize.val 0 (i + 1)) = false →
      secondOf (z.canonize.val 0 (i + 1)) = true →
      ∀ c s, z.canonize.val (j + 1) (i + 1) = .fin c s → s = true) :
    z.Mem (fun i => z.sample.getD i 0) ∧ z.sample.length = z.dim - 1 := by
  refine sample_mem_of z hne hnn fun n hn => ?_
  have hl : ((List.range n).foldl (fun vs _ => vs ++ [sampleClock z.canonize vs]) []).length = n := by
    clear hn
    induction n with
    | zero => rfl
    | succ n ih =>
      rw [List.range_succ, List.foldl_append, List.foldl_cons, List.foldl_nil, List.length_append, ih]
      rfl
  intro h1 c0 h2 j hj c h3
  rw [hl] at h1 h2 hj h3
  have := hH n j hj hn h1 (by rw [h2]; rfl) c false h3
  cases this

end Zone
end LearnTA
