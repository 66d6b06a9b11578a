import Verif.Lemmas.Double

/-!
# Double precision: the other operations of zones
-/

namespace LearnTA
namespace Double

variable {rnd : ℚ → ℚ} {k : ℕ} {B : ℚ} {d d' : DZone} {z z' : Zone}

theorem one_lt_max : (1 : ℚ) < dblMax := by
  have h : (1 : ℚ) ≤ 2 ^ 970 := one_le_pow₀ (by norm_num)
  exact lt_of_le_of_lt h small_lt_max

theorem half_lt_max : (1 : ℚ) / 2 < dblMax := lt_trans (by norm_num) one_lt_max

theorem neg_max_le_zero : -dblMax ≤ 0 := neg_nonpos.2 (le_trans (by norm_num) one_lt_max.le)

theorem stores_ofZone (z : Zone) : Stores (ofZone z) z := ⟨rfl, fun _ _ _ _ => rfl⟩

theorem room_mono {C : ℚ} (h : B ≤ C) (hC : C * 2 ^ k < 2 ^ 53) : B * 2 ^ k < 2 ^ 53 :=
  lt_of_le_of_lt (mul_le_mul_of_nonneg_right h (by positivity)) hC

theorem unconstrain (hs : Stores d z) (hf : FineZone k B z) (x : ℕ) :
    Stores (d.unconstrain x) (z.unconstrain x) ∧ FineZone k B (z.unconstrain x) ∧ (z.unconstrain x).dim = z.dim := by
  refine ⟨⟨hs.dim, fun i hi j hj => ?_⟩, fun i hi j hj c s e => ?_, rfl⟩
  · simp only [DZone.unconstrain, Zone.unconstrain]
    split
    · rfl
    · exact hs.val i hi j hj
  · simp only [Zone.unconstrain] at e
    split at e
    · cases e
    · exact hf i hi j hj c s e

theorem elapse (hs : Stores d z) (hf : FineZone k B z) :
    Stores d.elapse z.elapse ∧ FineZone k B z.elapse ∧ z.elapse.dim = z.dim := by
  refine ⟨⟨hs.dim, fun i hi j hj => ?_⟩, fun i hi j hj c s e => ?_, rfl⟩
  · simp only [DZone.elapse, Zone.elapse]
    split
    · rfl
    · exact hs.val i hi j hj
  · simp only [Zone.elapse] at e
    split at e
    · cases e
    · exact hf i hi j hj c s e

theorem tighten (hr : Rounding rnd) (hk : k ≤ 1074) (hB0 : 0 ≤ B) (hs : Stores d z) (hf : FineZone k B z) {x y : ℕ} (hx : x < z.dim)
    (hy : y < z.dim) {b : Bound} (hb : FineB k B b) (hB : 9 * B * 2 ^ k < 2 ^ 53) :
    Stores (d.tighten rnd x y (ofBound b)) (z.tighten x y b) ∧ FineZone k (9 * B) (z.tighten x y b) ∧ (z.tighten x y b).dim = z.dim := by
  have h1 : B * 2 ^ k < 2 ^ 53 := room_mono (by linarith) hB
  have hfx : FineB k B (z.val x y) := fun c s e => hf x hx y hy c s e
  unfold DZone.tighten Zone.tighten
  rw [hs.val x hx y hy, ← ofBound_min (hfx.below h1) (hb.below h1)]
  obtain ⟨a1, a2, a3⟩ := close1 (x := x) hr hk hB0 (room_mono (by linarith) hB) (hs.set x y (min (z.val x y) b)) hx
    (hf.set x y (hfx.min hb))
  have hd : (z.set x y (min (z.val x y) b)).dim = z.dim := rfl
  rw [hd] at a3
  obtain ⟨b1, b2, b3⟩ := close1 (x := y) hr hk (by linarith : (0 : ℚ) ≤ 3 * B) (room_mono (by linarith) hB) a1 (by rw [a3]; exact hy) a2
  exact ⟨b1, fun i hi j hj c s e => (b2 i hi j hj c s e).mono (by linarith), by rw [b3, a3]⟩

theorem tightenC (hr : Rounding rnd) (hk : k ≤ 1074) (hB0 : 0 ≤ B) (hs : Stores d z) (hf : FineZone k B z) {g : Constraint}
    (hx : g.x + 1 < z.dim) (hb : Fine k B g.c) (hB : 9 * B * 2 ^ k < 2 ^ 53) :
    Stores (d.tightenC rnd g) (z.tightenC g) ∧ FineZone k (9 * B) (z.tightenC g) ∧ (z.tightenC g).dim = z.dim := by
  obtain ⟨x, o, c⟩ := g
  have h0 : 0 < z.dim := by omega
  cases o with
  | ge => exact tighten hr hk hB0 hs hf h0 hx (b := .fin (-(c : ℚ)) true) (fineB_fin hb.neg) hB
  | gt => exact tighten hr hk hB0 hs hf h0 hx (b := .fin (-(c : ℚ)) false) (fineB_fin hb.neg) hB
  | le => exact tighten hr hk hB0 hs hf hx h0 (b := .fin c true) (fineB_fin hb) hB
  | lt => exact tighten hr hk hB0 hs hf hx h0 (b := .fin c false) (fineB_fin hb) hB

theorem tightenG (hr : Rounding rnd) (hk : k ≤ 1074) (g : Guard) : ∀ (B : ℚ) (d : DZone) (z : Zone), 0 ≤ B → Stores d z → FineZone k B z →
    (∀ c ∈ g, c.x + 1 < z.dim ∧ Fine k B c.c) → 9 ^ g.length * B * 2 ^ k < 2 ^ 53 →
    Stores (d.tightenG rnd g) (z.tightenG g) ∧ FineZone k (9 ^ g.length * B) (z.tightenG g) ∧ (z.tightenG g).dim = z.dim := by
  unfold DZone.tightenG Zone.tightenG
  induction g with
  | nil => intro B d z _ hs hf _ _; exact ⟨hs, by simpa using hf, rfl⟩
  | cons c g ih =>
    intro B d z hB0 hs hf hg hB
    have e : (9 : ℚ) ^ (c :: g).length * B = 9 ^ g.length * (9 * B) := by rw [List.length_cons, pow_succ]; ring
    rw [e] at hB ⊢
    have h1 : (1 : ℚ) ≤ 9 ^ g.length := one_le_pow₀ (by norm_num)
    obtain ⟨hx, hc⟩ := hg c (by simp)
    obtain ⟨a1, a2, a3⟩ := tightenC hr hk hB0 hs hf hx hc (room_mono (by nlinarith) hB)
    obtain ⟨b1, b2, b3⟩ := ih (9 * B) _ _ (by linarith) a1 a2
      (fun q hq => ⟨by rw [a3]; exact (hg q (by simp [hq])).1, (hg q (by simp [hq])).2.mono (by linarith)⟩) hB
    exact ⟨b1, b2, b3.trans a3⟩

theorem inter (hr : Rounding rnd) (hk : k ≤ 1074) (hB0 : 0 ≤ B) (hs : Stores d z) (hf : FineZone k B z) (hs' : Stores d' z')
    (hf' : FineZone k B z') (hd : z'.dim = z.dim) (hB : 3 ^ z.dim * B * 2 ^ k < 2 ^ 53) :
    Stores (DZone.inter rnd d d') (z.inter z') ∧ FineZone k (3 ^ z.dim * B) (z.inter z') ∧ (z.inter z').dim = z.dim := by
  have h3 : (1 : ℚ) ≤ 3 ^ z.dim := one_le_pow₀ (by norm_num)
  have h1 : B * 2 ^ k < 2 ^ 53 := room_mono (by nlinarith) hB
  unfold DZone.inter Zone.inter
  refine canonize (z := { z with val := fun i j => min (z.val i j) (z'.val i j) }) hr hk hB0 hB ⟨hs.dim, fun i hi j hj => ?_⟩
    fun i hi j hj => ?_
  · have a : FineB k B (z.val i j) := fun c s e => hf i hi j hj c s e
    have b : FineB k B (z'.val i j) := fun c s e => hf' i (by rw [hd]; exact hi) j (by rw [hd]; exact hj) c s e
    dsimp only
    rw [ofBound_min (a.below h1) (b.below h1), hs.val i hi j hj, hs'.val i (by rw [hd]; exact hi) j (by rw [hd]; exact hj)]
  · have a : FineB k B (z.val i j) := fun c s e => hf i hi j hj c s e
    have b : FineB k B (z'.val i j) := fun c s e => hf' i (by rw [hd]; exact hi) j (by rw [hd]; exact hj) c s e
    exact a.min b

theorem applyRenaming (hr : Rounding rnd) (hk : k ≤ 1074) (hB0 : 0 ≤ B) (hs : Stores d z) (hf : FineZone k B z) (p : ℕ × Upd)
    (hB : 3 ^ z.dim * B * 2 ^ k < 2 ^ 53) :
    Stores (d.applyRenaming rnd p) (z.applyRenaming p) ∧ FineZone k (3 ^ z.dim * B) (z.applyRenaming p) ∧
      (z.applyRenaming p).dim = z.dim := by
  have h3 : (1 : ℚ) ≤ 3 ^ z.dim := one_le_pow₀ (by norm_num)
  obtain ⟨x, u⟩ := p
  unfold DZone.applyRenaming Zone.applyRenaming
  have f0 : FineB k B (.fin 0 true) := fineB_fin ⟨⟨0, by simp⟩, by simpa using hB0⟩
  have id : Stores d z ∧ FineZone k (3 ^ z.dim * B) z ∧ z.dim = z.dim := ⟨hs, hf.mono (by nlinarith), rfl⟩
  cases u with
  | const q => exact id
  | clock y =>
    dsimp only
    split
    · obtain ⟨a1, a2, a3⟩ := unconstrain hs hf x
      exact canonize hr hk hB0 hB ((a1.set (x + 1) (y + 1) (.fin 0 true)).set (y + 1) (x + 1) (.fin 0 true)) ((a2.set _ _ f0).set _ _ f0)
    · exact id

theorem applyConst (hr : Rounding rnd) (hk : k ≤ 1074) (hB0 : 0 ≤ B) (hs : Stores d z) (hf : FineZone k B z) (p : ℕ × Upd)
    (hp : ∀ q, p.2 = .const q → Fine k B q) (hB : 3 ^ z.dim * B * 2 ^ k < 2 ^ 53) :
    Stores (d.applyConst rnd p) (z.applyConst p) ∧ FineZone k (3 ^ z.dim * B) (z.applyConst p) ∧ (z.applyConst p).dim = z.dim := by
  have h3 : (1 : ℚ) ≤ 3 ^ z.dim := one_le_pow₀ (by norm_num)
  obtain ⟨x, u⟩ := p
  unfold DZone.applyConst Zone.applyConst
  cases u with
  | const q =>
    dsimp only
    have h := hp q rfl
    obtain ⟨a1, a2, a3⟩ := unconstrain hs hf x
    exact canonize hr hk hB0 hB ((a1.set 0 (x + 1) (.fin (-q) true)).set (x + 1) 0 (.fin q true))
      ((a2.set _ _ (fineB_fin h.neg)).set _ _ (fineB_fin h))
  | clock y => exact ⟨hs, hf.mono (by nlinarith), rfl⟩

theorem applyFold (D : DZone → ℕ × Upd → DZone) (Z : Zone → ℕ × Upd → Zone) (n : ℕ) (P : ℚ → ℕ × Upd → Prop)
    (hm : ∀ B C p, B ≤ C → P B p → P C p)
    (step : ∀ (B : ℚ) (d : DZone) (z : Zone) (p : ℕ × Upd), 0 ≤ B → z.dim = n → Stores d z → FineZone k B z → P B p →
      3 ^ n * B * 2 ^ k < 2 ^ 53 → Stores (D d p) (Z z p) ∧ FineZone k (3 ^ n * B) (Z z p) ∧ (Z z p).dim = n) (r : Resets) :
    ∀ (B : ℚ) (d : DZone) (z : Zone), 0 ≤ B → z.dim = n → Stores d z → FineZone k B z → (∀ p ∈ r, P B p) →
      (3 ^ n) ^ r.length * B * 2 ^ k < 2 ^ 53 →
      Stores (r.foldl D d) (r.foldl Z z) ∧ FineZone k ((3 ^ n) ^ r.length * B) (r.foldl Z z) ∧ (r.foldl Z z).dim = n := by
  have h1 : (1 : ℚ) ≤ 3 ^ n := one_le_pow₀ (by norm_num)
  induction r with
  | nil => intro B d z _ hd hs hf _ _; exact ⟨hs, by simpa using hf, hd⟩
  | cons p r ih =>
    intro B d z hB0 hd hs hf hp hB
    have e : ((3 : ℚ) ^ n) ^ (p :: r).length * B = (3 ^ n) ^ r.length * (3 ^ n * B) := by rw [List.length_cons, pow_succ]; ring
    rw [e] at hB ⊢
    have h2 : (1 : ℚ) ≤ (3 ^ n) ^ r.length := one_le_pow₀ h1
    have h0 : 0 ≤ 3 ^ n * B := mul_nonneg (by positivity) hB0
    obtain ⟨a1, a2, a3⟩ := step B d z p hB0 hd hs hf (hp p (by simp)) (room_mono (by nlinarith) hB)
    exact ih _ _ _ h0 a3 a1 a2 (fun q hq => hm _ _ _ (by nlinarith) (hp q (by simp [hq]))) hB

theorem applyResets (hr : Rounding rnd) (hk : k ≤ 1074) (hB0 : 0 ≤ B) (hs : Stores d z) (hf : FineZone k B z) (r : Resets)
    (hc : ∀ p ∈ r, ∀ q, p.2 = .const q → Fine k B q) (hB : (3 ^ z.dim) ^ (2 * r.length) * B * 2 ^ k < 2 ^ 53) :
    Stores (d.applyResets rnd r) (z.applyResets r) ∧ FineZone k ((3 ^ z.dim) ^ (2 * r.length) * B) (z.applyResets r) ∧
      (z.applyResets r).dim = z.dim := by
  have h1 : (1 : ℚ) ≤ 3 ^ z.dim := one_le_pow₀ (by norm_num)
  have h2 : (1 : ℚ) ≤ (3 ^ z.dim) ^ r.length := one_le_pow₀ h1
  have e : ((3 : ℚ) ^ z.dim) ^ (2 * r.length) * B = (3 ^ z.dim) ^ r.length * ((3 ^ z.dim) ^ r.length * B) := by
    rw [two_mul, pow_add]; ring
  rw [e] at hB ⊢
  have h0 : 0 ≤ (3 ^ z.dim) ^ r.length * B := mul_nonneg (by positivity) hB0
  unfold DZone.applyResets Zone.applyResets
  obtain ⟨a1, a2, a3⟩ := applyFold (DZone.applyRenaming rnd) Zone.applyRenaming z.dim (fun _ _ => True) (fun _ _ _ _ _ => trivial)
    (fun B d z' p hB0 hd hs hf _ hB => by
      rw [← hd] at hB ⊢; exact applyRenaming hr hk hB0 hs hf p hB) r B d z hB0 rfl hs hf (fun _ _ => trivial)
    (room_mono (by nlinarith) hB)
  exact applyFold (DZone.applyConst rnd) Zone.applyConst z.dim (fun B p => ∀ q, p.2 = .const q → Fine k B q)
    (fun B C p hBC h q hq => (h q hq).mono hBC)
    (fun B d z' p hB0 hd hs hf hp hB => by
      rw [← hd] at hB ⊢; exact applyConst hr hk hB0 hs hf p hp hB) r _ _ _ h0 a3 a1 a2
    (fun p hp q hq => (hc p hp q hq).mono (by nlinarith)) hB

theorem firstGt {b : Bound} {m : ℚ} (hm : m < dblMax) : decide ((ofLex (ofBound b)).1 > m) = Zone.firstGt b m := by
  cases b with
  | fin c s => rfl
  | inf => simpa [ofBound, pair, Zone.firstGt] using hm

theorem negFirstGt {b : Bound} {m : ℚ} (hm : -dblMax ≤ m) : decide (-(ofLex (ofBound b)).1 > m) = Zone.negFirstGt b m := by
  cases b with
  | fin c s => rfl
  | inf => simpa [ofBound, pair, Zone.negFirstGt] using hm

section Extrapolate

variable {maxC : ℕ → ℚ}

theorem small_thresholds (hB : B * 2 ^ k < 2 ^ 53) {q : ℚ} (h : Fine k B q) : q < dblMax ∧ -dblMax ≤ q := by
  have h1 := small_of_room hB
  have h2 := small_lt_max
  have h3 := abs_le.1 h.2
  constructor <;> linarith

theorem extrapolateInner (hB : B * 2 ^ k < 2 ^ 53) (hs : Stores d z) (hf : FineZone k B z) {i j : ℕ} (hi : i + 1 < z.dim)
    (hj : j + 1 < z.dim) (hm : ∀ i, i + 1 < z.dim → Fine k B (maxC i)) :
    Stores (d.extrapolateInner maxC i j) (z.extrapolateInner maxC i j) ∧ FineZone k B (z.extrapolateInner maxC i j) ∧
      (z.extrapolateInner maxC i j).dim = z.dim := by
  obtain ⟨m1, m2⟩ := small_thresholds hB (hm i hi)
  obtain ⟨n1, n2⟩ := small_thresholds hB (hm j hj)
  have g1 := firstGt (b := z.val (i + 1) (j + 1)) m1
  have g2 := negFirstGt (b := z.val 0 (i + 1)) m2
  have g3 := negFirstGt (b := z.val 0 (j + 1)) n2
  have key : Stores (d.set (i + 1) (j + 1) DZone.infinity) (z.set (i + 1) (j + 1) .inf) ∧ FineZone k B (z.set (i + 1) (j + 1) .inf) ∧
      (z.set (i + 1) (j + 1) .inf).dim = z.dim := ⟨hs.set _ _ .inf, hf.set _ _ fineB_inf, rfl⟩
  unfold DZone.extrapolateInner Zone.extrapolateInner
  rw [hs.val _ hi _ hj, hs.val 0 (by omega) _ hi, hs.val 0 (by omega) _ hj, ← g1, ← g2, ← g3]
  simp only [decide_eq_true_eq]
  split
  · exact key
  · split
    · exact key
    · split
      · exact key
      · exact ⟨hs, hf, rfl⟩

theorem extrapolateOuter (hB : B * 2 ^ k < 2 ^ 53) (hs : Stores d z) (hf : FineZone k B z) {i : ℕ} (hi : i + 1 < z.dim)
    (hm : ∀ i, i + 1 < z.dim → Fine k B (maxC i)) (n : ℕ) (hn : n + 1 ≤ z.dim) :
    Stores (d.extrapolateOuter maxC n i) (z.extrapolateOuter maxC n i) ∧ FineZone k B (z.extrapolateOuter maxC n i) ∧
      (z.extrapolateOuter maxC n i).dim = z.dim := by
  obtain ⟨m1, m2⟩ := small_thresholds hB (hm i hi)
  have fold : ∀ (l : List ℕ) (d : DZone) (z : Zone), Stores d z → FineZone k B z → i + 1 < z.dim → (∀ j ∈ l, j + 1 < z.dim) →
      (∀ i, i + 1 < z.dim → Fine k B (maxC i)) →
      Stores (l.foldl (DZone.extrapolateInner maxC i) d) (l.foldl (Zone.extrapolateInner maxC i) z) ∧
        FineZone k B (l.foldl (Zone.extrapolateInner maxC i) z) ∧ (l.foldl (Zone.extrapolateInner maxC i) z).dim = z.dim := by
    intro l
    induction l with
    | nil => intro d z hs hf _ _ _; exact ⟨hs, hf, rfl⟩
    | cons j l ih =>
      intro d z hs hf hi hl hm
      obtain ⟨a1, a2, a3⟩ := extrapolateInner hB hs hf hi (hl j (by simp)) hm
      obtain ⟨b1, b2, b3⟩ := ih _ _ a1 a2 (by rw [a3]; exact hi) (fun q hq => by rw [a3]; exact hl q (by simp [hq]))
        (by rw [a3]; exact hm)
      exact ⟨b1, b2, b3.trans a3⟩
  have s1 : Stores (if (ofLex (d.val (i + 1) 0)).1 > maxC i then d.set (i + 1) 0 DZone.infinity else d)
      (if Zone.firstGt (z.val (i + 1) 0) (maxC i) then z.set (i + 1) 0 .inf else z) ∧
      FineZone k B (if Zone.firstGt (z.val (i + 1) 0) (maxC i) then z.set (i + 1) 0 .inf else z) ∧
      (if Zone.firstGt (z.val (i + 1) 0) (maxC i) then z.set (i + 1) 0 .inf else z).dim = z.dim := by
    rw [hs.val _ hi 0 (by omega), ← firstGt (b := z.val (i + 1) 0) m1]
    simp only [decide_eq_true_eq]
    split
    · exact ⟨hs.set _ _ .inf, hf.set _ _ fineB_inf, rfl⟩
    · exact ⟨hs, hf, rfl⟩
  unfold DZone.extrapolateOuter Zone.extrapolateOuter
  dsimp only
  generalize (if (ofLex (d.val (i + 1) 0)).1 > maxC i then d.set (i + 1) 0 DZone.infinity else d) = d1 at *
  generalize (if Zone.firstGt (z.val (i + 1) 0) (maxC i) then z.set (i + 1) 0 .inf else z) = z1 at *
  obtain ⟨a1, a2, a3⟩ := s1
  have s2 : Stores (if -(ofLex (d1.val 0 (i + 1))).1 > maxC i then d1.set 0 (i + 1) (pair (-maxC i) false) else d1)
      (if Zone.negFirstGt (z1.val 0 (i + 1)) (maxC i) then z1.set 0 (i + 1) (.fin (-maxC i) false) else z1) ∧
      FineZone k B (if Zone.negFirstGt (z1.val 0 (i + 1)) (maxC i) then z1.set 0 (i + 1) (.fin (-maxC i) false) else z1) ∧
      (if Zone.negFirstGt (z1.val 0 (i + 1)) (maxC i) then z1.set 0 (i + 1) (.fin (-maxC i) false) else z1).dim = z.dim := by
    rw [a1.val 0 (by omega) _ (by omega), ← negFirstGt (b := z1.val 0 (i + 1)) m2]
    simp only [decide_eq_true_eq]
    split
    · exact ⟨a1.set _ _ (.fin (-maxC i) false), a2.set _ _ (fineB_fin (hm i hi).neg), a3⟩
    · exact ⟨a1, a2, a3⟩
  generalize (if -(ofLex (d1.val 0 (i + 1))).1 > maxC i then d1.set 0 (i + 1) (pair (-maxC i) false) else d1) = d2 at *
  generalize (if Zone.negFirstGt (z1.val 0 (i + 1)) (maxC i) then z1.set 0 (i + 1) (.fin (-maxC i) false) else z1) = z2 at *
  obtain ⟨b1, b2, b3⟩ := s2
  have := fold (List.range n) d2 z2 b1 b2 (by omega) (fun j hj => by rw [List.mem_range] at hj; omega) (by rw [b3]; exact hm)
  rw [b3] at this
  exact this

theorem extrapolate (hB : B * 2 ^ k < 2 ^ 53) (hs : Stores d z) (hf : FineZone k B z)
    (hm : ∀ i, i + 1 < z.dim → Fine k B (maxC i)) :
    Stores (d.extrapolate maxC) (z.extrapolate maxC) ∧ FineZone k B (z.extrapolate maxC) ∧ (z.extrapolate maxC).dim = z.dim := by
  have fold : ∀ (n : ℕ) (l : List ℕ) (d : DZone) (z : Zone), Stores d z → FineZone k B z → (l = [] ∨ n + 1 ≤ z.dim) →
      (∀ j ∈ l, j + 1 < z.dim) → (∀ i, i + 1 < z.dim → Fine k B (maxC i)) →
      Stores (l.foldl (DZone.extrapolateOuter maxC n) d) (l.foldl (Zone.extrapolateOuter maxC n) z) ∧
        FineZone k B (l.foldl (Zone.extrapolateOuter maxC n) z) ∧ (l.foldl (Zone.extrapolateOuter maxC n) z).dim = z.dim := by
    intro n l
    induction l with
    | nil => intro d z hs hf _ _ _; exact ⟨hs, hf, rfl⟩
    | cons j l ih =>
      intro d z hs hf hn hl hm
      have hn' : n + 1 ≤ z.dim := by simpa using hn
      obtain ⟨a1, a2, a3⟩ := extrapolateOuter hB hs hf (hl j (by simp)) hm n hn'
      obtain ⟨b1, b2, b3⟩ := ih _ _ a1 a2 (Or.inr (by rw [a3]; exact hn')) (fun q hq => by rw [a3]; exact hl q (by simp [hq]))
        (by rw [a3]; exact hm)
      exact ⟨b1, b2, b3.trans a3⟩
  unfold DZone.extrapolate Zone.extrapolate
  rw [hs.dim]
  refine fold _ _ d z hs hf ?_ (fun j hj => by rw [List.mem_range] at hj; omega) hm
  by_cases h : z.dim = 0
  · left; simp [h]
  · right; omega

end Extrapolate

section Compare

theorem includes (hB : B * 2 ^ k < 2 ^ 53) (hs : Stores d z) (hf : FineZone k B z) (hs' : Stores d' z') (hf' : FineZone k B z')
    (hd : z'.dim = z.dim) : d.includes d' = z.includes z' := by
  unfold DZone.includes Zone.includes
  rw [hs.dim, Bool.eq_iff_iff, List.all_eq_true, List.all_eq_true]
  refine forall₂_congr fun i hi => ?_
  rw [List.all_eq_true, List.all_eq_true]
  refine forall₂_congr fun j hj => ?_
  rw [List.mem_range] at hi hj
  have a : Below (z.val i j) := FineB.below (fun c s e => hf i hi j hj c s e) hB
  have b : Below (z'.val i j) := FineB.below (fun c s e => hf' i (by omega) j (by omega) c s e) hB
  rw [decide_eq_true_iff, decide_eq_true_iff, hs.val i hi j hj, hs'.val i (by omega) j (by omega), max_eq_left_iff, max_eq_left_iff,
    ofBound_le b a]

theorem beq (hB : B * 2 ^ k < 2 ^ 53) (hs : Stores d z) (hf : FineZone k B z) (hs' : Stores d' z') (hf' : FineZone k B z') :
    d.beq d' = z.beq z' := by
  unfold DZone.beq Zone.beq
  rw [hs.dim, hs'.dim]
  by_cases hd : z'.dim = z.dim
  · congr 1
    rw [Bool.eq_iff_iff, List.all_eq_true, List.all_eq_true]
    refine forall₂_congr fun i hi => ?_
    rw [List.all_eq_true, List.all_eq_true]
    refine forall₂_congr fun j hj => ?_
    rw [List.mem_range] at hi hj
    have a : Below (z.val i j) := FineB.below (fun c s e => hf i hi j hj c s e) hB
    have b : Below (z'.val i j) := FineB.below (fun c s e => hf' i (by omega) j (by omega) c s e) hB
    rw [decide_eq_true_iff, decide_eq_true_iff, hs.val i hi j hj, hs'.val i (by omega) j (by omega), ofBound_injective a b]
  · have : (z.dim == z'.dim) = false := by simpa using fun h => hd h.symm
    rw [this]; rfl

theorem strictEqual (hB : B * 2 ^ k < 2 ^ 53) (hs : Stores d z) (hf : FineZone k B z) (hs' : Stores d' z') (hf' : FineZone k B z')
    (hd : z'.dim = z.dim) : d.strictEqual d' = z.strictEqual z' := by
  unfold DZone.strictEqual Zone.strictEqual
  rw [hs.dim, Bool.eq_iff_iff, List.all_eq_true, List.all_eq_true]
  refine forall₂_congr fun i hi => ?_
  rw [List.all_eq_true, List.all_eq_true]
  refine forall₂_congr fun j hj => ?_
  rw [List.mem_range] at hi hj
  have a : Below (z.val i j) := FineB.below (fun c s e => hf i hi j hj c s e) hB
  have b : Below (z'.val i j) := FineB.below (fun c s e => hf' i (by omega) j (by omega) c s e) hB
  rw [decide_eq_true_iff, decide_eq_true_iff, hs.val i hi j hj, hs'.val i (by omega) j (by omega), ofBound_injective a b]

end Compare

section ZoneSample

theorem fine_zero (hB0 : 0 ≤ B) : Fine k B 0 := ⟨⟨0, by simp⟩, by simpa using hB0⟩

theorem fineMax {k : ℕ} {C p q : ℚ} (hp : Fine k C p) (hq : Fine k C q) : Fine k C (max p q) := by
  rcases le_total p q with h | h
  · rwa [max_eq_right h]
  · rwa [max_eq_left h]

theorem fineMin {k : ℕ} {C p q : ℚ} (hp : Fine k C p) (hq : Fine k C q) : Fine k C (min p q) := by
  rcases le_total p q with h | h
  · rwa [min_eq_left h]
  · rwa [min_eq_right h]

/-- How the code stores an upper bound that may be absent. -/
def ofUpper : Option ℚ → ℚ
  | some u => u
  | none => dblMax

theorem sampleClock (hr : Rounding rnd) (hB0 : 0 ≤ B) (hs : Stores d z) (hf : FineZone k B z) {vs : List ℚ} {V : ℚ} (hV0 : 0 ≤ V)
    (hi : vs.length + 1 < z.dim) (hv : ∀ v ∈ vs, Fine (k + vs.length) V v) (hk : k + vs.length + 1 ≤ 1074)
    (hroom : 4 * (B + V + 1) * 2 ^ (k + vs.length + 1) < 2 ^ 53) :
    d.sampleClock rnd vs = z.sampleClock vs ∧ Fine (k + vs.length + 1) (B + V + 1) (z.sampleClock vs) := by
  set K := k + vs.length with hK
  have hroomK : 4 * (B + V + 1) * 2 ^ K < 2 ^ 53 := by
    refine lt_of_le_of_lt (mul_le_mul_of_nonneg_left (pow_le_pow_right₀ (by norm_num) (Nat.le_succ K)) (by linarith)) hroom
  have rm : ∀ C : ℚ, C ≤ 4 * (B + V + 1) → C * 2 ^ K < 2 ^ 53 := fun C h => room_mono h hroomK
  have hf' : ∀ i < z.dim, ∀ j < z.dim, ∀ c s, z.val i j = .fin c s → Fine K B c := fun i hi j hj c s e =>
    (hf i hi j hj c s e).finer (by omega)
  have small := small_lt_max
  have lo : ∀ (l : List (ℚ × ℕ)) (a : ℚ), (∀ p ∈ l, Fine K V p.1 ∧ p.2 + 1 < z.dim) → 0 ≤ a → Fine K (B + V) a →
      l.foldl (fun l p => max l (rnd (-(ofLex (d.val (p.2 + 1) (vs.length + 1))).1 + p.1))) a =
        l.foldl (fun l p => Zone.sampleLower l (z.val (p.2 + 1) (vs.length + 1)) p.1) a ∧
      0 ≤ l.foldl (fun l p => Zone.sampleLower l (z.val (p.2 + 1) (vs.length + 1)) p.1) a ∧
      Fine K (B + V) (l.foldl (fun l p => Zone.sampleLower l (z.val (p.2 + 1) (vs.length + 1)) p.1) a) := by
    intro l
    induction l with
    | nil => intro a _ h0 h; exact ⟨rfl, h0, h⟩
    | cons p l ih =>
      intro a hl h0 ha
      obtain ⟨p1, p2⟩ := hl p (by simp)
      rw [List.foldl_cons, List.foldl_cons, hs.val _ p2 _ hi]
      cases e : z.val (p.2 + 1) (vs.length + 1) with
      | fin c s =>
        have h1 := ((hf' _ p2 _ hi c s e).neg).add p1
        simp only [ofBound, pair, ofLex_toLex, Zone.sampleLower]
        rw [hr.exact _ (h1.isDouble (by omega) (rm _ (by linarith)))]
        exact ih _ (fun q hq => hl q (by simp [hq])) (le_trans h0 (le_max_left _ _)) (fineMax ha h1)
      | inf =>
        simp only [ofBound, pair, ofLex_toLex, Zone.sampleLower]
        have hsm : V < 2 ^ 970 := small_of_room (rm V (by linarith))
        rw [(hr.absorb p.1 (lt_of_le_of_lt p1.2 hsm)).2, max_eq_left (le_trans neg_max_le_zero h0)]
        exact ih _ (fun q hq => hl q (by simp [hq])) h0 ha
  have up : ∀ (l : List (ℚ × ℕ)) (a : Option ℚ), (∀ p ∈ l, Fine K V p.1 ∧ p.2 + 1 < z.dim) → (∀ q, a = some q → Fine K (B + V) q) →
      l.foldl (fun u p => min u (rnd ((ofLex (d.val (vs.length + 1) (p.2 + 1))).1 + p.1))) (ofUpper a) =
        ofUpper (l.foldl (fun u p => Zone.sampleUpper u (z.val (vs.length + 1) (p.2 + 1)) p.1) a) ∧
      (∀ q, l.foldl (fun u p => Zone.sampleUpper u (z.val (vs.length + 1) (p.2 + 1)) p.1) a = some q → Fine K (B + V) q) := by
    intro l
    induction l with
    | nil => intro a _ h; exact ⟨rfl, h⟩
    | cons p l ih =>
      intro a hl ha
      obtain ⟨p1, p2⟩ := hl p (by simp)
      rw [List.foldl_cons, List.foldl_cons, hs.val _ hi _ p2]
      have hsm : V < 2 ^ 970 := small_of_room (rm V (by linarith))
      have hsm2 : B + V < 2 ^ 970 := small_of_room (rm (B + V) (by linarith))
      cases e : z.val (vs.length + 1) (p.2 + 1) with
      | fin c s =>
        have h1 := (hf' _ hi _ p2 c s e).add p1
        simp only [ofBound, pair, ofLex_toLex]
        rw [hr.exact _ (h1.isDouble (by omega) (rm _ (by linarith)))]
        cases a with
        | none =>
          simp only [ofUpper, Zone.sampleUpper]
          rw [min_eq_right (by have := abs_le.1 h1.2; linarith)]
          exact ih (some (c + p.1)) (fun q hq => hl q (by simp [hq])) fun q hq => by
            simp only [Option.some.injEq] at hq; rw [← hq]; exact h1
        | some u =>
          simp only [ofUpper, Zone.sampleUpper]
          exact ih (some (min u (c + p.1))) (fun q hq => hl q (by simp [hq])) fun q hq => by
            simp only [Option.some.injEq] at hq; rw [← hq]; exact fineMin (ha u rfl) h1
      | inf =>
        simp only [ofBound, pair, ofLex_toLex]
        rw [(hr.absorb p.1 (lt_of_le_of_lt p1.2 hsm)).1]
        have e1 : min (ofUpper a) dblMax = ofUpper a := by
          cases a with
          | none => exact min_self _
          | some u => exact min_eq_left (by have := abs_le.1 (ha u rfl).2; simp only [ofUpper]; linarith)
        have e2 : Zone.sampleUpper a .inf p.1 = a := by cases a <;> rfl
        rw [e1, e2]
        exact ih a (fun q hq => hl q (by simp [hq])) ha
  have hz : ∀ p ∈ vs.zipIdx, Fine K V p.1 ∧ p.2 + 1 < z.dim := by
    intro p hp
    have h1 := List.mem_zipIdx' hp
    exact ⟨hv p.1 (by rw [h1.2]; exact List.getElem_mem _), by omega⟩
  unfold DZone.sampleClock Zone.sampleClock
  dsimp only
  rw [hs.val 0 (by omega) _ hi, hs.val _ hi 0 (by omega)]
  have hpt : isPoint (ofBound (z.val (vs.length + 1) 0)) (ofBound (z.val 0 (vs.length + 1))) =
      Bound.isPoint (z.val (vs.length + 1) 0) (z.val 0 (vs.length + 1)) := by
    cases z.val (vs.length + 1) 0 <;> cases z.val 0 (vs.length + 1) <;>
      first | rfl | simp [isPoint, Bound.isPoint, ofBound, pair]
  rw [hpt]
  by_cases hp : Bound.isPoint (z.val (vs.length + 1) 0) (z.val 0 (vs.length + 1)) = true
  · simp only [if_pos hp]
    cases e : z.val (vs.length + 1) 0 with
    | fin c s =>
      exact ⟨rfl, ((hf' _ hi 0 (by omega) c s e).finer (Nat.le_succ _)).mono (by linarith)⟩
    | inf => rw [e] at hp; cases z.val 0 (vs.length + 1) <;> simp [Bound.isPoint] at hp
  · simp only [if_neg hp]
    have l0 : max 0 (-(ofLex (ofBound (z.val 0 (vs.length + 1)))).1) =
        (match z.val 0 (vs.length + 1) with | .fin c _ => max 0 (-c) | .inf => 0) := by
      cases z.val 0 (vs.length + 1) with
      | fin c s => rfl
      | inf =>
        exact max_eq_left neg_max_le_zero
    have l1 : 0 ≤ (match z.val 0 (vs.length + 1) with | .fin c _ => max 0 (-c) | .inf => 0) := by
      cases z.val 0 (vs.length + 1) <;> simp
    have l2 : Fine K (B + V) (match z.val 0 (vs.length + 1) with | .fin c _ => max 0 (-c) | .inf => 0) := by
      cases e : z.val 0 (vs.length + 1) with
      | fin c s => exact fineMax (fine_zero (by linarith)) ((hf' 0 (by omega) _ hi c s e).neg.mono (by linarith))
      | inf => exact fine_zero (by linarith)
    have u0 : (ofLex (ofBound (z.val (vs.length + 1) 0))).1 = ofUpper (Zone.firstOf (z.val (vs.length + 1) 0)) := by
      cases z.val (vs.length + 1) 0 <;> rfl
    have u1 : ∀ q, Zone.firstOf (z.val (vs.length + 1) 0) = some q → Fine K (B + V) q := by
      intro q hq
      cases e : z.val (vs.length + 1) 0 with
      | fin c s =>
        rw [e] at hq
        simp only [Zone.firstOf, Option.some.injEq] at hq
        rw [← hq]; exact (hf' _ hi 0 (by omega) c s e).mono (by linarith)
      | inf => rw [e] at hq; cases hq
    have s0 : (ofLex (ofBound (z.val 0 (vs.length + 1)))).2 = Zone.secondOf (z.val 0 (vs.length + 1)) := by
      cases z.val 0 (vs.length + 1) <;> rfl
    rw [l0, u0, s0]
    obtain ⟨e1, e2, e3⟩ := lo vs.zipIdx _ hz l1 l2
    obtain ⟨f1, f2⟩ := up vs.zipIdx _ hz u1
    rw [e1, f1]
    generalize vs.zipIdx.foldl (fun l p => Zone.sampleLower l (z.val (p.2 + 1) (vs.length + 1)) p.1)
      (match z.val 0 (vs.length + 1) with | .fin c _ => max 0 (-c) | .inf => 0) = lower at *
    generalize vs.zipIdx.foldl (fun u p => Zone.sampleUpper u (z.val (vs.length + 1) (p.2 + 1)) p.1)
      (Zone.firstOf (z.val (vs.length + 1) 0)) = upper at *
    have half : Fine (K + 1) 1 (1 / 2) := ⟨⟨2 ^ K, by push_cast; rw [pow_succ]; ring⟩, by norm_num [abs_le]⟩
    have hplus : Fine (K + 1) (B + V + 1) (lower + 1 / 2) := (e3.finer (Nat.le_succ _)).add half
    have hplus' : rnd (lower + 1 / 2) = lower + 1 / 2 := hr.exact _ (hplus.isDouble hk (room_mono (by linarith) hroom))
    by_cases hsec : Zone.secondOf (z.val 0 (vs.length + 1)) = true
    · rw [if_pos hsec, if_pos hsec]
      exact ⟨rfl, (e3.finer (Nat.le_succ _)).mono (by linarith)⟩
    · rw [if_neg hsec, if_neg hsec]
      cases upper with
      | none =>
        simp only [ofUpper]
        have hsm2 : B + V < 2 ^ 970 := small_of_room (rm (B + V) (by linarith))
        have e4 : rnd (dblMax - lower) = dblMax := by
          rw [sub_eq_add_neg]; exact (hr.absorb (-lower) (by rw [abs_neg]; exact lt_of_le_of_lt e3.2 hsm2)).1
        have e5 : rnd (dblMax - lower) > 1 / 2 := by rw [e4]; exact half_lt_max
        exact ⟨(if_pos e5).trans hplus', hplus⟩
      | some u =>
        simp only [ofUpper]
        have hu := f2 u rfl
        have e4 : rnd (u - lower) = u - lower := hr.exact _ ((hu.sub e3).isDouble (by omega) (rm _ (by linarith)))
        by_cases hg : u - lower > 1 / 2
        · have hg' : rnd (u - lower) > 1 / 2 := by rw [e4]; exact hg
          rw [if_pos hg]; exact ⟨(if_pos hg').trans hplus', hplus⟩
        · have hg' : ¬ rnd (u - lower) > 1 / 2 := by rw [e4]; exact hg
          rw [if_neg hg]
          have g := (e3.add hu)
          have g' : Fine (K + 1) (B + V) ((lower + u) * (1 / 2)) := by
            have := g.half
            exact this.mono (by linarith)
          refine ⟨(if_neg hg').trans ?_, g'.mono (by linarith)⟩
          rw [hr.exact _ (g.isDouble (by omega) (rm _ (by linarith))), hr.exact _ (g'.isDouble hk (room_mono (by linarith) hroom))]

/-- Sampling the stored matrix. -/
theorem zoneSample (hr : Rounding rnd) (hB0 : 0 ≤ B) (hs : Stores d z) (hf : FineZone k B z)
    (hk : k + z.dim ≤ 1074) (hroom : 4 * z.dim * (3 ^ z.dim * B + 1) * 2 ^ (k + z.dim) < 2 ^ 53) : d.sample rnd = z.sample := by
  by_cases hd0 : z.dim = 0
  · unfold DZone.sample Zone.sample
    rw [hs.dim, hd0]; rfl
  have hd1 : (1 : ℚ) ≤ z.dim := by exact_mod_cast Nat.one_le_iff_ne_zero.2 hd0
  have h3 : (0 : ℚ) ≤ 3 ^ z.dim * B := mul_nonneg (by positivity) hB0
  set D := 3 ^ z.dim * B with hD
  have p2 : (2 : ℚ) ^ k ≤ 2 ^ (k + z.dim) := pow_le_pow_right₀ (by norm_num) (by omega)
  have hroom0 : D * 2 ^ k < 2 ^ 53 := by
    refine lt_of_le_of_lt ?_ hroom
    refine mul_le_mul ?_ p2 (by positivity) (by positivity)
    nlinarith
  obtain ⟨a1, a2, a3⟩ := canonize hr (by omega) hB0 hroom0 hs hf
  rw [← hD] at a2
  have key : ∀ n, n ≤ z.dim - 1 → (List.range n).foldl (fun vs _ => vs ++ [DZone.sampleClock rnd (d.canonize rnd) vs]) [] =
      (List.range n).foldl (fun vs _ => vs ++ [Zone.sampleClock z.canonize vs]) [] ∧
      ((List.range n).foldl (fun vs _ => vs ++ [Zone.sampleClock z.canonize vs]) []).length = n ∧
      ∀ v ∈ (List.range n).foldl (fun vs _ => vs ++ [Zone.sampleClock z.canonize vs]) [], Fine (k + n) (n * (D + 1)) v := by
    intro n
    induction n with
    | zero => intro _; exact ⟨rfl, rfl, by simp⟩
    | succ n ih =>
      intro hn
      obtain ⟨e, len, h⟩ := ih (by omega)
      rw [List.range_succ, List.foldl_append, List.foldl_append, e]
      simp only [List.foldl_cons, List.foldl_nil]
      generalize (List.range n).foldl (fun vs _ => vs ++ [Zone.sampleClock z.canonize vs]) [] = vs at *
      subst len
      have hn' : ((vs.length : ℚ) + 1) ≤ z.dim := by exact_mod_cast (by omega : vs.length + 1 ≤ z.dim)
      obtain ⟨c1, c2⟩ := sampleClock hr h3 a1 a2 (vs := vs) (V := vs.length * (D + 1)) (by positivity) (by rw [a3]; omega) h (by omega) (by
        refine lt_of_le_of_lt ?_ hroom
        refine mul_le_mul ?_ (pow_le_pow_right₀ (by norm_num) (by omega)) (by positivity) (by positivity)
        nlinarith)
      rw [c1]
      refine ⟨rfl, by simp, fun v hv => ?_⟩
      rw [List.mem_append, List.mem_singleton] at hv
      rcases hv with hv | hv
      · refine ((h v hv).finer (by omega)).mono ?_
        push_cast; nlinarith
      · rw [hv]
        refine c2.mono ?_
        push_cast; linarith
  unfold DZone.sample Zone.sample
  rw [hs.dim]
  exact (key _ (le_refl _)).1

end ZoneSample

end Double
end LearnTA
