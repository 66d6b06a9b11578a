import Verif.Lemmas.ZoneSample

/-!
# Zones with their strict bounds made non-strict
-/

namespace LearnTA
open Bound

/-- The bound without its strictness. -/
def Bound.relax : Bound → Bound
  | .fin c _ => .fin c true
  | .inf => .inf

namespace Bound

@[simp] theorem relax_fin (c : ℚ) (s : Bool) : relax (.fin c s) = .fin c true := rfl
@[simp] theorem relax_inf : relax .inf = .inf := rfl

theorem le_relax (b : Bound) : b ≤ relax b := by
  cases b with
  | inf => exact le_refl _
  | fin c s => cases s <;> simp

theorem relax_mono {a b : Bound} (h : a ≤ b) : relax a ≤ relax b := by
  cases a <;> cases b <;> simp_all
  rcases h with h | h
  · exact .inl h
  · exact .inr h.1

theorem relax_add (a b : Bound) : relax (a + b) = relax a + relax b := by
  cases a <;> cases b <;> simp

theorem relax_min (a b : Bound) : relax (min a b) = min (relax a) (relax b) := by
  rcases le_total a b with h | h
  · rw [min_eq_left h, min_eq_left (relax_mono h)]
  · rw [min_eq_right h, min_eq_right (relax_mono h)]

theorem sat_relax_iff {d c : ℚ} {s : Bool} : Sat d (relax (.fin c s)) ↔ d ≤ c := by simp

theorem sat_mid {a b : ℚ} {x : Bound} (h1 : Sat a (relax x)) (h2 : Sat b x) :
    Sat ((a + b) / 2) x := by
  cases x with
  | inf => trivial
  | fin c s => cases s <;> simp at h1 h2 ⊢ <;> linarith

end Bound

namespace Zone

/-- The zone with all its bounds non-strict. -/
def relax (z : Zone) : Zone := ⟨z.dim, fun i j => (z.val i j).relax⟩

@[simp] theorem relax_dim (z : Zone) : z.relax.dim = z.dim := rfl
@[simp] theorem relax_val (z : Zone) (i j : ℕ) : z.relax.val i j = (z.val i j).relax := rfl

theorem closeRow_relax (x : ℕ) (z : Zone) (i : ℕ) : closeRow x z.relax i = (closeRow x z i).relax := by
  unfold closeRow relax
  congr 1
  funext i' j
  dsimp only
  split
  · rw [relax_min, relax_add]
  · rfl

theorem close1_relax (z : Zone) (x : ℕ) : z.relax.close1 x = (z.close1 x).relax := by
  unfold close1
  have : ∀ (l : List ℕ) (z : Zone), l.foldl (closeRow x) z.relax = (l.foldl (closeRow x) z).relax := by
    intro l
    induction l with
    | nil => intro z; rfl
    | cons a l ih => intro z; rw [List.foldl_cons, List.foldl_cons, closeRow_relax, ih]
  exact this _ z

theorem canonize_relax (z : Zone) : z.relax.canonize = z.canonize.relax := by
  unfold canonize
  have : ∀ (l : List ℕ) (z : Zone), l.foldl close1 z.relax = (l.foldl close1 z).relax := by
    intro l
    induction l with
    | nil => intro z; rfl
    | cons a l ih => intro z; rw [List.foldl_cons, List.foldl_cons, close1_relax, ih]
  exact this _ z

theorem inter_relax (z z' : Zone) : z.relax.inter z'.relax = (z.inter z').relax := by
  unfold inter
  rw [← canonize_relax]
  congr 1
  unfold relax
  dsimp only
  congr 1
  funext i j
  rw [relax_min]

theorem elapse_relax (z : Zone) : z.relax.elapse = z.elapse.relax := by
  unfold elapse relax
  congr 1
  funext i j
  dsimp only
  split <;> rfl

theorem reverseElapse_relax (z : Zone) : z.relax.reverseElapse = z.reverseElapse.relax := by
  unfold reverseElapse relax
  congr 1
  funext i j
  dsimp only
  split <;> rfl

theorem Mem.relax {z : Zone} {v : Valuation} (h : z.Mem v) : z.relax.Mem v := by
  intro i hi j hj
  exact (h i hi j hj).mono (le_relax _)

theorem Closed.relax {z : Zone} (h : z.Closed) : z.relax.Closed := by
  intro i hi j hj k hk
  have := relax_mono (h i hi j hj k hk)
  rwa [relax_add] at this

/-- Half way between a point of the relaxed zone and a point of the zone is in the zone. -/
theorem relax_mid {z : Zone} {v u : Valuation} (hv : z.relax.Mem v) (hu : z.Mem u) :
    z.Mem (fun i => (v i + u i) / 2) := by
  intro i hi j hj
  have h := sat_mid (hv i hi j hj) (hu i hi j hj)
  have e : ∀ k, Valuation.ext (fun i => (v i + u i) / 2) k = (v.ext k + u.ext k) / 2 := by
    intro k
    cases k with
    | zero => simp
    | succ k => rfl
  rw [e, e]
  have : (v.ext i + u.ext i) / 2 - (v.ext j + u.ext j) / 2 = (v.ext i - v.ext j + (u.ext i - u.ext j)) / 2 := by
    ring
  rw [this]; exact h

/-- A lower bound on the members holds for the relaxed zone. -/
theorem relax_nonneg {z : Zone} (hc : z.Closed) (hne : ∃ v, z.Mem v)
    (hnn : ∀ v, z.Mem v → ∀ i, i + 1 < z.dim → 0 ≤ v i) :
    ∀ v, z.relax.Mem v → ∀ i, i + 1 < z.dim → 0 ≤ v i := by
  obtain ⟨u, hu⟩ := hne
  intro v hv i hi
  have hb : z.val 0 (i + 1) ≤ 0 := by
    apply le_of_sat_imp
    intro q hq
    obtain ⟨u, hu, hle⟩ := realize_above _ hc hu.diagNN (by omega) hi (by omega) q hq
    have := hnn u hu i hi
    simp at hle ⊢
    linarith
  have := (hv 0 (by simp; omega) (i + 1) hi).mono (relax_mono hb)
  simpa [zero_def] using this

/-! ### The sample is in the relaxed zone -/

theorem sampleClock_relax (z : Zone) (hc : z.relax.Closed) (hd : z.relax.DiagNN) (vs : List ℚ)
    (hk : vs.length + 1 < z.dim)
    (hnn : ∀ i, i + 1 < z.dim → z.relax.val 0 (i + 1) ≤ 0)
    (hs : z.relax.SatOn (Finset.range (vs.length + 1)) (lext vs)) :
    z.relax.SatOn (Finset.range (vs.length + 2)) (lext (vs ++ [z.sampleClock vs])) := by
  set k := vs.length with hkdef
  obtain ⟨t0, ht0⟩ := Bound.exists_value (List.range (k + 1)) (lext vs)
    (fun i => z.relax.val (k + 1) i) (fun i => z.relax.val i (k + 1)) (by
      intro i hi j hj
      rw [List.mem_range] at hi hj
      exact (hs i (by simpa using hi) j (by simpa using hj)).mono
        (hc i (by simp; omega) j (by simp; omega) (k + 1) hk))
  suffices h : ∀ i < k + 1, Bound.Sat (z.sampleClock vs - lext vs i) (z.relax.val (k + 1) i) ∧
      Bound.Sat (lext vs i - z.sampleClock vs) (z.relax.val i (k + 1)) by
    have e1 : ∀ i < k + 1, lext (vs ++ [z.sampleClock vs]) i = lext vs i := by
      intro i hi
      cases i with
      | zero => rfl
      | succ i =>
        simp only [lext, ext_succ]
        rw [List.getD_eq_getElem?_getD, List.getD_eq_getElem?_getD, List.getElem?_append_left (by omega)]
    have e2 : lext (vs ++ [z.sampleClock vs]) (k + 1) = z.sampleClock vs := by
      simp only [lext, ext_succ]
      rw [List.getD_eq_getElem?_getD, List.getElem?_append_right (by omega)]
      simp [hkdef]
    intro i hi j hj
    simp only [Finset.mem_range] at hi hj
    rcases Nat.lt_or_ge i (k + 1) with hi' | hi' <;> rcases Nat.lt_or_ge j (k + 1) with hj' | hj'
    · rw [e1 i hi', e1 j hj']
      exact hs i (by simpa using hi') j (by simpa using hj')
    · have : j = k + 1 := by omega
      subst this
      rw [e1 i hi', e2]; exact (h i hi').2
    · have : i = k + 1 := by omega
      subst this
      rw [e1 j hj', e2]; exact (h j hj').1
    · have h1 : i = k + 1 := by omega
      have h2 : j = k + 1 := by omega
      subst h1; subst h2
      rw [sub_self]; exact sat_self_zero.2 (hd _ (by simp; omega))
  have ht0' : ∀ i < k + 1, Bound.Sat (t0 - lext vs i) (z.relax.val (k + 1) i) ∧
      Bound.Sat (lext vs i - t0) (z.relax.val i (k + 1)) := fun i hi => ht0 i (by simpa using hi)
  obtain ⟨c0, s0, hl0⟩ : ∃ c s, z.val 0 (k + 1) = .fin c s := by
    have := hnn k hk
    cases hb : z.val 0 (k + 1) with
    | inf => rw [relax_val, hb] at this; simp [zero_def] at this
    | fin c s => exact ⟨c, s, rfl⟩
  have hc0 : c0 ≤ 0 := by
    have := hnn k hk
    rw [relax_val, hl0, relax_fin, zero_def, fin_le_fin] at this
    rcases this with h | h
    · exact h.le
    · exact h.1.le
  unfold sampleClock
  dsimp only
  rw [← hkdef]
  by_cases hp : isPoint (z.val (k + 1) 0) (z.val 0 (k + 1)) = true
  · rw [if_pos hp]
    cases hb : z.val (k + 1) 0 with
    | inf => rw [hb, hl0] at hp; simp [isPoint] at hp
    | fin u us =>
      rw [hb, hl0] at hp
      simp only [isPoint, Bool.and_eq_true, decide_eq_true_eq] at hp
      have h0 := ht0' 0 (by omega)
      rw [relax_val, relax_val, hb, hl0] at h0
      have e := hp.1.1
      simp [lext] at h0
      have : t0 = u := by linarith [h0.1, h0.2]
      simp only [firstOf, Option.getD_some]
      rw [← this]; exact ht0'
  · rw [if_neg hp]
    simp only [hl0]
    have hm0 : max 0 (-c0) = -c0 := max_eq_right (by linarith)
    rw [hm0]
    have hzip : ∀ p ∈ vs.zipIdx, p.2 < k ∧ p.1 = vs.getD p.2 0 := by
      intro p hp
      rcases p with ⟨a, i⟩
      rw [List.mem_zipIdx_iff_getElem?] at hp
      have hi : i < vs.length := by
        by_contra hcon
        rw [List.getElem?_eq_none (by omega)] at hp
        simp at hp
      refine ⟨hi, ?_⟩
      rw [List.getD_eq_getElem?_getD, hp]; rfl
    have hzip' : ∀ i < k, (vs.getD i 0, i) ∈ vs.zipIdx := by
      intro i hi
      rw [List.mem_zipIdx_iff_getElem?, List.getD_eq_getElem?_getD]
      rw [List.getElem?_eq_getElem hi]; rfl
    obtain ⟨L1, L2, L3⟩ := sampleLower_fold (fun j => z.val (j + 1) (k + 1)) vs.zipIdx (-c0)
    obtain ⟨U1, U2, U3⟩ := sampleUpper_fold (fun j => z.val (k + 1) (j + 1)) vs.zipIdx
      (firstOf (z.val (k + 1) 0))
    set lower := vs.zipIdx.foldl (fun l p => sampleLower l (z.val (p.2 + 1) (k + 1)) p.1) (-c0)
    set upper := vs.zipIdx.foldl (fun u p => sampleUpper u (z.val (k + 1) (p.2 + 1)) p.1)
      (firstOf (z.val (k + 1) 0))
    have hlt0 : lower ≤ t0 := by
      apply L3
      · have := (ht0' 0 (by omega)).2
        rw [relax_val, hl0] at this
        simp [lext] at this; linarith
      · intro p hp c s hcs
        obtain ⟨hp1, hp2⟩ := hzip p hp
        have := (ht0' (p.2 + 1) (by omega)).2
        rw [relax_val, hcs] at this
        simp only [lext, ext_succ, ← hp2] at this
        simp at this; linarith
    have hut0 : leTop t0 upper := by
      apply U3
      · have := (ht0' 0 (by omega)).1
        cases hb : z.val (k + 1) 0 with
        | inf => simp [firstOf, leTop]
        | fin c s =>
          rw [relax_val, hb] at this
          simp only [firstOf, leTop]
          simp [lext] at this; linarith
      · intro p hp c s hcs
        obtain ⟨hp1, hp2⟩ := hzip p hp
        have := (ht0' (p.2 + 1) (by omega)).1
        rw [relax_val, hcs] at this
        simp only [lext, ext_succ, ← hp2] at this
        simp at this; linarith
    -- a value between is fine
    have inside : ∀ t, lower ≤ t → (∀ u, upper = some u → t ≤ u) →
        ∀ i < k + 1, Bound.Sat (t - lext vs i) (z.relax.val (k + 1) i) ∧
          Bound.Sat (lext vs i - t) (z.relax.val i (k + 1)) := by
      intro t h1 h2 i hi
      constructor
      · rw [relax_val]
        cases hb : z.val (k + 1) i with
        | inf => trivial
        | fin c s =>
          cases hu : upper with
          | none =>
            exfalso
            obtain ⟨j1, j2⟩ := U2 hu
            cases i with
            | zero => rw [hb] at j1; simp [firstOf] at j1
            | succ i =>
              have := j2 _ (hzip' i (by omega))
              simp only [hb] at this
              simp at this
          | some u =>
            have h3 := h2 u hu
            obtain ⟨j1, j2⟩ := U1 u hu
            have : u ≤ c + lext vs i := by
              cases i with
              | zero =>
                have := j1 c (by rw [hb]; rfl)
                simpa [lext] using this
              | succ i =>
                have := j2 _ (hzip' i (by omega)) c s hb
                simpa [lext] using this
            simp only [relax_fin, sat_true]; linarith
      · rw [relax_val]
        cases hb : z.val i (k + 1) with
        | inf => trivial
        | fin c s =>
          have : -c + lext vs i ≤ lower := by
            cases i with
            | zero =>
              rw [hl0] at hb
              simp only [fin.injEq] at hb
              rw [← hb.1]; simpa [lext] using L1
            | succ i =>
              have := L2 _ (hzip' i (by omega)) c s hb
              simpa [lext] using this
          simp only [relax_fin, sat_true]; linarith
    have hlu : ∀ u, upper = some u → lower ≤ u := by
      intro u hu
      rw [hu] at hut0
      exact hlt0.trans hut0
    split
    · exact inside _ (le_refl _) hlu
    · cases hu : upper with
      | none =>
        dsimp only
        exact inside _ (by linarith) (by intro u h; rw [hu] at h; simp at h)
      | some u =>
        have := hlu u hu
        dsimp only
        split
        · exact inside _ (by linarith) (by intro u' h; rw [hu] at h; simp at h; subst h; linarith)
        · exact inside _ (by linarith) (by intro u' h; rw [hu] at h; simp at h; subst h; linarith)

theorem samplePrefix_length (z : Zone) (n : ℕ) : (z.samplePrefix n).length = n := by
  unfold samplePrefix
  induction n with
  | zero => rfl
  | succ n ih =>
    rw [List.range_succ, List.foldl_append, List.foldl_cons, List.foldl_nil, List.length_append, ih]
    rfl

theorem samplePrefix_succ (z : Zone) (n : ℕ) :
    z.samplePrefix (n + 1) = z.samplePrefix n ++ [z.canonize.sampleClock (z.samplePrefix n)] := by
  unfold samplePrefix
  rw [List.range_succ, List.foldl_append, List.foldl_cons, List.foldl_nil]

theorem sample_eq_prefix (z : Zone) : z.sample = z.samplePrefix (z.dim - 1) := rfl

theorem samplePrefix_getD (z : Zone) (n m : ℕ) (h : n ≤ m) (i : ℕ) (hi : i < n) :
    (z.samplePrefix m).getD i 0 = (z.samplePrefix n).getD i 0 := by
  induction m, h using Nat.le_induction with
  | base => rfl
  | succ m hm ih =>
    rw [← ih, samplePrefix_succ, List.getD_eq_getElem?_getD, List.getD_eq_getElem?_getD,
      List.getElem?_append_left (by rw [samplePrefix_length]; omega)]

theorem samplePrefix_last (z : Zone) (n m : ℕ) (h : n < m) :
    (z.samplePrefix m).getD n 0 = z.canonize.sampleClock (z.samplePrefix n) := by
  rw [samplePrefix_getD z (n + 1) m h n (by omega), samplePrefix_succ, List.getD_eq_getElem?_getD,
    List.getElem?_append_right (by rw [samplePrefix_length])]
  simp [samplePrefix_length]

/-- Even if the zone is empty: the sample is in the relaxed zone if that is not empty. -/
theorem sample_mem_relax (z : Zone) (hne : ∃ v, z.relax.Mem v)
    (hnn : ∀ v, z.relax.Mem v → ∀ i, i + 1 < z.dim → 0 ≤ v i) :
    z.relax.Mem (fun i => z.sample.getD i 0) := by
  obtain ⟨v, hv⟩ := hne
  have hc := canonize_closed_of_mem hv
  have hd : z.relax.canonize.DiagNN := ((canonize_mem z.relax v).2 hv).diagNN
  by_cases hdim : z.dim = 0
  · exact fun i hi => by simp [hdim] at hi
  have h0 : 0 < z.dim := Nat.pos_of_ne_zero hdim
  have hnn' : ∀ i, i + 1 < z.canonize.dim → z.canonize.relax.val 0 (i + 1) ≤ 0 := by
    intro i hi
    rw [canonize_dim] at hi
    rw [← canonize_relax]
    apply le_of_sat_imp
    intro q hq
    obtain ⟨u, hu, hle⟩ := realize_above _ hc hd (by simpa using h0) (by simpa using hi) (by omega) q hq
    have := hnn u ((canonize_mem z.relax u).1 hu) i hi
    simp at hle ⊢
    linarith
  rw [canonize_relax] at hc hd
  have key : ∀ n, n ≤ z.dim - 1 →
      z.canonize.relax.SatOn (Finset.range (n + 1)) (lext (z.samplePrefix n)) := by
    intro n
    induction n with
    | zero =>
      intro _ i hi j hj
      simp at hi hj
      subst hi; subst hj
      rw [sub_self]; exact sat_self_zero.2 (hd 0 (by simpa using h0))
    | succ n ih =>
      intro hn
      have i2 := ih (by omega)
      rw [samplePrefix_succ]
      have := sampleClock_relax z.canonize hc hd (z.samplePrefix n)
        (by rw [samplePrefix_length]; simp; omega) hnn'
        (by rw [samplePrefix_length]; exact i2)
      rw [samplePrefix_length] at this
      exact this
  have k2 := key (z.dim - 1) (le_refl _)
  rw [← canonize_mem, canonize_relax]
  intro i hi j hj
  simp at hi hj
  exact k2 i (by simp; omega) j (by simp; omega)

/-! ### A zone cut by a guard: the sample is right if it is right before the cut -/

/-- The bounds of a zone that is cut out of `Q` by conditions on single clocks. -/
theorem axes_bound {Q Z : Zone} (hdim : Z.dim = Q.dim) (hQ : Q.Closed) (hZ : Z.Closed)
    (hne : ∃ v, Z.Mem v) (hsub : ∀ v, Z.Mem v → Q.Mem v)
    (hax : ∀ v, Q.Mem v → (∀ i, i + 1 < Z.dim → Bound.Sat (v i) (Z.val (i + 1) 0) ∧
      Bound.Sat (-v i) (Z.val 0 (i + 1))) → Z.Mem v)
    {j k : ℕ} (hj : j + 1 < Z.dim) (hk : k + 1 < Z.dim) (hjk : j ≠ k) :
    min (Q.val (j + 1) (k + 1)) (Z.val (j + 1) 0 + Z.val 0 (k + 1)) ≤ Z.val (j + 1) (k + 1) := by
  obtain ⟨u, hu⟩ := hne
  have hdZ := hu.diagNN
  have hle : ∀ i < Z.dim, ∀ j < Z.dim, i ≠ j → Z.val i j ≤ Q.val i j := fun i hi j hj hij =>
    bound_le_of_incl Q Z hdim.symm hZ hdZ hsub (hdim ▸ hi) (hdim ▸ hj) hij
  set W : Zone := ⟨Z.dim, fun i j => if i = j then 0 else if i = 0 ∨ j = 0 then Z.val i j else
    min (Q.val i j) (Z.val i 0 + Z.val 0 j)⟩ with hW
  have hWd : W.dim = Z.dim := rfl
  have wd : ∀ i, W.val i i = 0 := fun i => by simp [hW]
  have w0 : ∀ i j, i ≠ j → i = 0 ∨ j = 0 → W.val i j = Z.val i j := fun i j h1 h2 => by
    simp only [hW, if_neg h1, if_pos h2]
  have w1 : ∀ i j, i ≠ j → i ≠ 0 → j ≠ 0 → W.val i j = min (Q.val i j) (Z.val i 0 + Z.val 0 j) :=
    fun i j h1 h2 h3 => by
      simp only [hW, if_neg h1, if_neg (not_or.2 ⟨h2, h3⟩)]
  have hge : ∀ i < Z.dim, ∀ j < Z.dim, i ≠ j → Z.val i j ≤ W.val i j := by
    intro i hi j hj hij
    by_cases h0 : i = 0 ∨ j = 0
    · rw [w0 i j hij h0]
    · rw [not_or] at h0
      rw [w1 i j hij h0.1 h0.2]
      exact le_min (hle i hi j hj hij) (hZ i hi j hj 0 (by omega))
  have hWu : W.Mem u := by
    intro i hi j hj
    rw [hWd] at hi hj
    by_cases hij : i = j
    · subst hij
      rw [wd, sub_self]; exact sat_self_zero.2 (le_refl _)
    · exact (hu i hi j hj).mono (hge i hi j hj hij)
  have hWc : W.Closed := by
    intro i hi j hj k hk
    rw [hWd] at hi hj hk
    by_cases hik : i = k
    · subst hik; rw [wd, zero_add]
    by_cases hkj : k = j
    · subst hkj; rw [wd, add_zero]
    by_cases hij : i = j
    · subst hij
      rw [wd]
      exact sat_pair_nonneg (z := W) hWu hi hk
    by_cases h0 : i = 0 ∨ j = 0
    · rw [w0 i j hij h0]
      exact (hZ i hi j hj k hk).trans (add_le_add (hge i hi k hk hik) (hge k hk j hj hkj))
    · rw [not_or] at h0
      rw [w1 i j hij h0.1 h0.2]
      by_cases hk0 : k = 0
      · subst hk0
        rw [w0 i 0 hik (.inr rfl), w0 0 j hkj (.inl rfl)]
        exact min_le_right _ _
      · rw [w1 i k hik h0.1 hk0, w1 k j hkj hk0 h0.2]
        have a1 : Z.val i 0 ≤ Q.val i k + Z.val k 0 :=
          (hZ i hi 0 (by omega) k hk).trans (add_le_add (hle i hi k hk hik) (le_refl _))
        have a2 : Z.val 0 j ≤ Z.val 0 k + Q.val k j :=
          (hZ 0 (by omega) j hj k hk).trans (add_le_add (le_refl _) (hle k hk j hj hkj))
        have a3 : (0 : Bound) ≤ Z.val 0 k + Z.val k 0 := sat_pair_nonneg (z := Z) hu (by omega) hk
        rcases le_total (Q.val i k) (Z.val i 0 + Z.val 0 k) with e1 | e1 <;>
          rcases le_total (Q.val k j) (Z.val k 0 + Z.val 0 j) with e2 | e2
        · rw [min_eq_left e1, min_eq_left e2]
          exact (min_le_left _ _).trans (hQ i (hdim ▸ hi) j (hdim ▸ hj) k (hdim ▸ hk))
        · rw [min_eq_left e1, min_eq_right e2]
          refine (min_le_right _ _).trans ?_
          rw [← add_assoc]
          exact add_le_add a1 (le_refl _)
        · rw [min_eq_right e1, min_eq_left e2]
          refine (min_le_right _ _).trans ?_
          rw [add_assoc]
          exact add_le_add (le_refl _) a2
        · rw [min_eq_right e1, min_eq_right e2]
          refine (min_le_right _ _).trans ?_
          have : Z.val i 0 + Z.val 0 k + (Z.val k 0 + Z.val 0 j) =
              Z.val i 0 + (Z.val 0 k + Z.val k 0) + Z.val 0 j := by
            simp only [add_assoc]
          rw [this]
          exact add_le_add (le_add_of_nonneg_right a3) (le_refl _)
  have hWZ : ∀ v, W.Mem v → Z.Mem v := by
    intro v hv
    have hwax : ∀ i, i + 1 < Z.dim → Bound.Sat (v i) (Z.val (i + 1) 0) ∧
        Bound.Sat (-v i) (Z.val 0 (i + 1)) := by
      intro i hi
      have h1 := hv (i + 1) hi 0 (by rw [hWd]; omega)
      have h2 := hv 0 (by rw [hWd]; omega) (i + 1) hi
      rw [w0 _ _ (by omega) (.inr rfl)] at h1
      rw [w0 _ _ (by omega) (.inl rfl)] at h2
      simp only [ext_succ, ext_zero, sub_zero, zero_sub] at h1 h2
      exact ⟨h1, h2⟩
    refine hax v ?_ hwax
    intro i hi j hj
    rw [← hdim] at hi hj
    by_cases hij : i = j
    · subst hij
      rw [sub_self]
      exact sat_self_zero.2 ((hsub u hu).diagNN i (hdim ▸ hi))
    · refine (hv i hi j hj).mono ?_
      by_cases h0 : i = 0 ∨ j = 0
      · rw [w0 i j hij h0]; exact hle i hi j hj hij
      · rw [not_or] at h0
        rw [w1 i j hij h0.1 h0.2]
        exact min_le_left _ _
  have := bound_le_of_incl Z W hWd.symm hWc hWu.diagNN hWZ hj hk (by omega)
  rwa [w1 _ _ (by omega) (by omega) (by omega)] at this

/-- The bounds on single clocks of a zone imply each constraint that its members satisfy. -/
theorem holds_of_axes {Z : Zone} (hZ : Z.Closed) (hne : ∃ v, Z.Mem v) (c : Constraint)
    (hc : c.x + 1 < Z.dim) (hall : ∀ v, Z.Mem v → c.Holds v) (v : Valuation)
    (hv : Bound.Sat (v c.x) (Z.val (c.x + 1) 0) ∧ Bound.Sat (-v c.x) (Z.val 0 (c.x + 1))) :
    c.Holds v := by
  obtain ⟨u, hu⟩ := hne
  obtain ⟨x, o, k⟩ := c
  simp only at hc hv
  obtain ⟨u1, m1, l1⟩ := realize_above Z hZ hu.diagNN (i := x + 1) (j := 0) hc (by omega) (by omega)
    (v x) hv.1
  obtain ⟨u2, m2, l2⟩ := realize_above Z hZ hu.diagNN (i := 0) (j := x + 1) (by omega) hc (by omega)
    (-v x) hv.2
  have h1 := hall u1 m1
  have h2 := hall u2 m2
  simp only [ext_succ, ext_zero] at l1 l2
  cases o <;> simp only [Constraint.Holds] at h1 h2 ⊢ <;> linarith

theorem sample_mem_cut {Q S : Zone} {g : Guard} (hdim : S.dim = Q.dim) (hQ : Q.Closed)
    (hne : ∃ v, S.Mem v) (hg : ∀ c ∈ g, c.x + 1 < S.dim)
    (hS : ∀ v, S.Mem v ↔ Q.Mem v ∧ g.Holds v)
    (hnn : ∀ v, S.Mem v → ∀ i, i + 1 < S.dim → 0 ≤ v i)
    (hv : Q.Mem (fun i => S.sample.getD i 0)) : S.Mem (fun i => S.sample.getD i 0) := by
  obtain ⟨u, hu⟩ := hne
  have hcl := canonize_closed_of_mem hu
  have hcu : S.canonize.Mem u := (canonize_mem _ _).2 hu
  refine (sample_mem_fits S ⟨u, hu⟩ hnn fun n hn hs => ?_).1
  intro _ c0 h0 hge j hj c hjc
  rw [samplePrefix_length] at h0 hj hjc
  have hb := axes_bound (Q := Q) (Z := S.canonize) (by simpa using hdim) hQ hcl ⟨u, hcu⟩
    (fun v h => ((hS v).1 ((canonize_mem _ _).1 h)).1)
    (fun v h hax => (canonize_mem _ _).2 ((hS v).2 ⟨h, fun c hc =>
      holds_of_axes hcl ⟨u, hcu⟩ c (by simpa using hg c hc)
        (fun w hw => ((hS w).1 ((canonize_mem _ _).1 hw)).2 c hc) v
        (hax c.x (by simpa using hg c hc))⟩))
    (j := j) (k := n) (by simp; omega) (by simpa using hn) (by omega)
  rw [hjc, h0] at hb
  have ej : (fun i => S.sample.getD i 0) j = (S.samplePrefix n).getD j 0 := by
    rw [sample_eq_prefix]
    exact samplePrefix_getD S n _ (by omega) j hj
  have en : (fun i => S.sample.getD i 0) n = S.canonize.sampleClock (S.samplePrefix n) := by
    rw [sample_eq_prefix]
    exact samplePrefix_last S n _ (by omega)
  rcases min_le_iff.1 hb with h | h
  · have := (hv (j + 1) (by omega) (n + 1) (by omega)).mono h
    simp only [ext_succ, sat_false] at this
    simp only at ej en
    rw [ej, en] at this
    linarith
  · have h1 := hs (j + 1) (by simp; omega) 0 (by simp)
    cases hz : S.canonize.val (j + 1) 0 with
    | inf => rw [hz] at h; simp at h
    | fin cj sj =>
      rw [hz] at h h1
      have e : lext (S.samplePrefix n) (j + 1) - lext (S.samplePrefix n) 0 =
        (S.samplePrefix n).getD j 0 := by simp [lext]
      rw [e] at h1
      generalize (S.samplePrefix n).getD j 0 = a at h1 ⊢
      simp only [fin_add_fin, fin_le_fin] at h
      cases sj <;> simp at h h1
      · rcases h with h | h <;> linarith
      · rcases h with h | h
        · linarith
        · exact absurd h.2 (by decide)

end Zone
end LearnTA
