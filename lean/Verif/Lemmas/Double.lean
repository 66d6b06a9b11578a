import Verif.Spec.Double
import Mathlib.Tactic.Positivity
import Mathlib.Tactic.NormNum
import Mathlib.Tactic.FieldSimp

/-!
# Double precision: numbers, bounds and zones
-/

namespace LearnTA
namespace Double

theorem small_lt_max : (2 : ℚ) ^ 970 < dblMax := by
  unfold dblMax
  have h0 : (0 : ℚ) < 2 ^ 970 := by positivity
  rw [pow_succ (2 : ℚ) 970]
  generalize (2 : ℚ) ^ 970 = P at *
  linarith

theorem Fine.isDouble {k : ℕ} {B q : ℚ} (h : Fine k B q) (hk : k ≤ 1074) (hB : B * 2 ^ k < 2 ^ 53) : IsDouble q := by
  obtain ⟨⟨m, hm⟩, hq⟩ := h
  have hp : (0 : ℚ) < 2 ^ k := by positivity
  refine ⟨m, -(k : ℤ), ?_, by omega, by omega, ?_⟩
  · have h1 : |(m : ℚ)| < 2 ^ 53 := by
      rw [← hm, abs_mul, abs_of_pos hp]
      exact lt_of_le_of_lt (mul_le_mul_of_nonneg_right hq hp.le) hB
    exact_mod_cast h1
  · rw [← hm, zpow_neg, zpow_natCast]; field_simp

theorem Fine.mono {k : ℕ} {B C q : ℚ} (h : Fine k B q) (hC : B ≤ C) : Fine k C q := ⟨h.1, le_trans h.2 hC⟩

theorem Fine.finer {k l : ℕ} {B q : ℚ} (h : Fine k B q) (hl : k ≤ l) : Fine l B q := by
  obtain ⟨⟨m, hm⟩, hq⟩ := h
  refine ⟨⟨m * 2 ^ (l - k), ?_⟩, hq⟩
  have : (2 : ℚ) ^ l = 2 ^ k * 2 ^ (l - k) := by rw [← pow_add]; congr 1; omega
  push_cast
  rw [this, ← mul_assoc, hm]

theorem Fine.add {k : ℕ} {B C p q : ℚ} (hp : Fine k B p) (hq : Fine k C q) : Fine k (B + C) (p + q) := by
  obtain ⟨⟨m, hm⟩, h1⟩ := hp
  obtain ⟨⟨n, hn⟩, h2⟩ := hq
  refine ⟨⟨m + n, ?_⟩, le_trans (abs_add_le _ _) (add_le_add h1 h2)⟩
  push_cast; rw [add_mul, hm, hn]

theorem Fine.neg {k : ℕ} {B p : ℚ} (hp : Fine k B p) : Fine k B (-p) := by
  obtain ⟨⟨m, hm⟩, h1⟩ := hp
  refine ⟨⟨-m, ?_⟩, by rwa [abs_neg]⟩
  push_cast; rw [neg_mul, hm]

theorem Fine.sub {k : ℕ} {B C p q : ℚ} (hp : Fine k B p) (hq : Fine k C q) : Fine k (B + C) (p - q) := by
  rw [sub_eq_add_neg]; exact hp.add hq.neg

theorem Fine.half {k : ℕ} {B p : ℚ} (hp : Fine k B p) : Fine (k + 1) (B / 2) (p * (1 / 2)) := by
  obtain ⟨⟨m, hm⟩, h1⟩ := hp
  refine ⟨⟨m, ?_⟩, ?_⟩
  · rw [← hm, pow_succ]; ring
  · rw [abs_mul, abs_of_pos (by norm_num : (0 : ℚ) < 1 / 2)]; linarith

theorem fine_int {B : ℚ} {k : ℕ} (n : ℤ) (h : |(n : ℚ)| ≤ B) : Fine k B n :=
  ⟨⟨n * 2 ^ k, by push_cast; ring⟩, h⟩

theorem fine_nonneg {k : ℕ} {B q : ℚ} (h : Fine k B q) : 0 ≤ B := le_trans (abs_nonneg _) h.2

theorem small_of_room {k : ℕ} {B : ℚ} (hB : B * 2 ^ k < 2 ^ 53) : B < 2 ^ 970 := by
  by_contra hc
  push Not at hc
  have h1 : (1 : ℚ) ≤ 2 ^ k := one_le_pow₀ (by norm_num)
  have h0 : (0 : ℚ) ≤ 2 ^ 970 := by positivity
  have : (2 : ℚ) ^ 970 * 1 ≤ B * 2 ^ k := mul_le_mul hc h1 (by norm_num) (le_trans h0 hc)
  have h2 : (2 : ℚ) ^ 53 ≤ 2 ^ 970 := pow_le_pow_right₀ (by norm_num) (by norm_num)
  rw [mul_one] at this
  exact absurd hB (not_lt.2 (le_trans h2 this))

/-- A bound that is a stored number below the greatest one, or none. -/
def Below (b : Bound) : Prop := ∀ c s, b = .fin c s → c < dblMax

theorem ofBound_le {a b : Bound} (ha : Below a) (hb : Below b) : ofBound a ≤ ofBound b ↔ a ≤ b := by
  cases a with
  | fin c s =>
    cases b with
    | fin d t => simp [ofBound, pair, Prod.Lex.le_iff]
    | inf =>
      have := ha c s rfl
      simp [ofBound, pair, Prod.Lex.le_iff, this]
  | inf =>
    cases b with
    | fin d t =>
      have := hb d t rfl
      simp only [ofBound, pair, Prod.Lex.le_iff, ofLex_toLex, Bound.not_inf_le_fin, iff_false]
      rintro (h | ⟨h, -⟩)
      · exact absurd h (not_lt.2 this.le)
      · exact absurd this (by rw [h]; exact lt_irrefl _)
    | inf => simp [ofBound]

theorem ofBound_injective {a b : Bound} (ha : Below a) (hb : Below b) : ofBound a = ofBound b ↔ a = b := by
  rw [le_antisymm_iff, le_antisymm_iff, ofBound_le ha hb, ofBound_le hb ha]

theorem ofBound_min {a b : Bound} (ha : Below a) (hb : Below b) : ofBound (min a b) = min (ofBound a) (ofBound b) := by
  rcases le_total a b with h | h
  · rw [min_eq_left h, min_eq_left ((ofBound_le ha hb).2 h)]
  · rw [min_eq_right h, min_eq_right ((ofBound_le hb ha).2 h)]

theorem ofBound_max {a b : Bound} (ha : Below a) (hb : Below b) : ofBound (max a b) = max (ofBound a) (ofBound b) := by
  rcases le_total a b with h | h
  · rw [max_eq_right h, max_eq_right ((ofBound_le ha hb).2 h)]
  · rw [max_eq_left h, max_eq_left ((ofBound_le hb ha).2 h)]

/-- The number of a bound is fine. -/
def FineB (k : ℕ) (B : ℚ) (b : Bound) : Prop := ∀ c s, b = .fin c s → Fine k B c

theorem FineB.below {k : ℕ} {B : ℚ} {b : Bound} (h : FineB k B b) (hB : B * 2 ^ k < 2 ^ 53) : Below b := by
  intro c s e
  have h1 := (h c s e).2
  have h2 := small_of_room hB
  have h3 := le_abs_self c
  have h4 := small_lt_max
  linarith

theorem FineB.mono {k : ℕ} {B C : ℚ} {b : Bound} (h : FineB k B b) (hC : B ≤ C) : FineB k C b :=
  fun c s e => (h c s e).mono hC

theorem FineB.add {k : ℕ} {B C : ℚ} {a b : Bound} (ha : FineB k B a) (hb : FineB k C b) : FineB k (B + C) (a + b) := by
  intro c s e
  cases a with
  | fin p u =>
    cases b with
    | fin q v =>
      simp only [Bound.fin_add_fin, Bound.fin.injEq] at e
      rw [← e.1]
      exact (ha p u rfl).add (hb q v rfl)
    | inf => simp at e
  | inf => simp at e

theorem FineB.min {k : ℕ} {B : ℚ} {a b : Bound} (ha : FineB k B a) (hb : FineB k B b) : FineB k B (min a b) := by
  rcases le_total a b with h | h
  · rw [min_eq_left h]; exact ha
  · rw [min_eq_right h]; exact hb

theorem fineB_inf {k : ℕ} {B : ℚ} : FineB k B .inf := fun _ _ e => by simp at e

theorem fineB_fin {k : ℕ} {B c : ℚ} {s : Bool} (h : Fine k B c) : FineB k B (.fin c s) := by
  intro c' s' e
  simp only [Bound.fin.injEq] at e
  rw [← e.1]; exact h

/-- Adding stored bounds: exact if there are two numbers, otherwise at least the greatest number, strict. -/
theorem plus_fin {rnd : ℚ → ℚ} (hr : Rounding rnd) {k : ℕ} {B C : ℚ} {a b : Bound} (hk : k ≤ 1074) (hB : (B + C) * 2 ^ k < 2 ^ 53)
    (ha : FineB k B a) (hb : FineB k C b) (hB0 : 0 ≤ B) (hC0 : 0 ≤ C) :
    (a + b ≠ .inf → plus rnd (ofBound a) (ofBound b) = ofBound (a + b)) ∧
    (a + b = .inf → ofBound .inf ≤ plus rnd (ofBound a) (ofBound b)) := by
  have hp : (0 : ℚ) < 2 ^ k := by positivity
  have hsB : B < 2 ^ 970 := small_of_room (k := k) (lt_of_le_of_lt (mul_le_mul_of_nonneg_right (by linarith) hp.le) hB)
  have hsC : C < 2 ^ 970 := small_of_room (k := k) (lt_of_le_of_lt (mul_le_mul_of_nonneg_right (by linarith) hp.le) hB)
  cases a with
  | fin c s =>
    cases b with
    | fin d t =>
      refine ⟨fun _ => ?_, fun h => by simp at h⟩
      simp only [plus, ofBound, pair, ofLex_toLex, Bound.fin_add_fin]
      rw [hr.exact _ (((ha c s rfl).add (hb d t rfl)).isDouble hk hB)]
    | inf =>
      refine ⟨fun h => by simp at h, fun _ => ?_⟩
      simp only [plus, ofBound, pair, ofLex_toLex, Bool.and_false]
      rw [add_comm c, (hr.absorb c (lt_of_le_of_lt (ha c s rfl).2 hsB)).1]
  | inf =>
    cases b with
    | fin d t =>
      refine ⟨fun h => by simp at h, fun _ => ?_⟩
      simp only [plus, ofBound, pair, ofLex_toLex, Bool.false_and]
      rw [(hr.absorb d (lt_of_le_of_lt (hb d t rfl).2 hsC)).1]
    | inf =>
      refine ⟨fun h => by simp at h, fun _ => ?_⟩
      simp only [plus, ofBound, pair, ofLex_toLex, Bool.false_and, Prod.Lex.le_iff]
      have h0 : (0 : ℚ) ≤ dblMax := le_trans (by positivity) small_lt_max.le
      have := hr.overflow (dblMax + dblMax) (by linarith)
      rcases lt_or_eq_of_le this with h | h
      · exact Or.inl h
      · exact Or.inr ⟨h, le_refl _⟩

theorem min_plus {rnd : ℚ → ℚ} (hr : Rounding rnd) {k : ℕ} {B C D : ℚ} {a b c : Bound} (hk : k ≤ 1074)
    (hB : (B + C) * 2 ^ k < 2 ^ 53) (hD : D * 2 ^ k < 2 ^ 53) (ha : FineB k B a) (hb : FineB k C b) (hc : FineB k D c)
    (hB0 : 0 ≤ B) (hC0 : 0 ≤ C) :
    min (ofBound c) (plus rnd (ofBound a) (ofBound b)) = ofBound (min c (a + b)) := by
  obtain ⟨h1, h2⟩ := plus_fin hr hk hB ha hb hB0 hC0
  by_cases he : a + b = .inf
  · rw [he, min_eq_left (Bound.le_inf _)]
    refine min_eq_left (le_trans ((ofBound_le (hc.below hD) ?_).2 (Bound.le_inf c)) (h2 he))
    intro _ _ e; simp at e
  · rw [h1 he, ofBound_min (hc.below hD) ((ha.add hb).below hB)]

/-! ### Zones -/

theorem Stores.set {d : DZone} {z : Zone} (h : Stores d z) (i j : ℕ) (b : Bound) : Stores (d.set i j (ofBound b)) (z.set i j b) := by
  refine ⟨h.dim, fun p hp q hq => ?_⟩
  simp only [DZone.set, Zone.set]
  split
  · rfl
  · exact h.val p hp q hq

theorem FineZone.set {k : ℕ} {B : ℚ} {z : Zone} (h : FineZone k B z) (i j : ℕ) {b : Bound} (hb : FineB k B b) :
    FineZone k B (z.set i j b) := by
  intro p hp q hq c s e
  simp only [Zone.set] at e
  split at e
  · exact hb c s e
  · exact h p hp q hq c s e

theorem FineZone.mono {k : ℕ} {B C : ℚ} {z : Zone} (h : FineZone k B z) (hC : B ≤ C) : FineZone k C z :=
  fun i hi j hj c s e => (h i hi j hj c s e).mono hC

theorem closeRows {rnd : ℚ → ℚ} (hr : Rounding rnd) {k : ℕ} {B : ℚ} {x : ℕ} (hk : k ≤ 1074) (hB0 : 0 ≤ B)
    (hB : 3 * B * 2 ^ k < 2 ^ 53) (l : List ℕ) : ∀ (d : DZone) (z : Zone), Stores d z → x < z.dim → l.Nodup → (∀ i ∈ l, i < z.dim) →
      (∀ i < z.dim, ∀ j < z.dim, FineB k (if i ∈ l then B else if i = x then 2 * B else 3 * B) (z.val i j)) →
      Stores (l.foldl (DZone.closeRow rnd x) d) (l.foldl (Zone.closeRow x) z) ∧
      FineZone k (3 * B) (l.foldl (Zone.closeRow x) z) ∧ (l.foldl (Zone.closeRow x) z).dim = z.dim := by
  have hp : (0 : ℚ) < 2 ^ k := by positivity
  induction l with
  | nil =>
    intro d z hs hx _ _ hf
    refine ⟨hs, fun i hi j hj c s e => ?_, rfl⟩
    have := hf i hi j hj c s e
    simp only [List.not_mem_nil, if_false] at this
    split at this
    · exact this.mono (by linarith)
    · exact this
  | cons i l ih =>
    intro d z hs hx hn hl hf
    rw [List.foldl_cons, List.foldl_cons]
    have hi : i < z.dim := hl i (by simp)
    have hil : i ∉ l := (List.nodup_cons.1 hn).1
    have h3 : FineB k B (z.val i x) := by simpa using hf i hi x hx
    have h4 : ∀ j < z.dim, FineB k B (z.val i j) := fun j hj => by simpa using hf i hi j hj
    have hxr : ∀ j < z.dim, FineB k (if i = x then B else 2 * B) (z.val x j) := by
      intro j hj
      have := hf x hx j hj
      by_cases hix : i = x
      · subst hix; simpa using this
      · simp only [if_neg hix]
        split at this
        · exact this.mono (by linarith)
        · simpa using this
    have hb2 : (0 : ℚ) ≤ if i = x then B else 2 * B := by split <;> linarith
    have hb3 : ((if i = x then B else 2 * B) + B) * 2 ^ k < 2 ^ 53 := by
      refine lt_of_le_of_lt (mul_le_mul_of_nonneg_right ?_ hp.le) hB
      split <;> linarith
    have hb1 : B * 2 ^ k < 2 ^ 53 := lt_of_le_of_lt (mul_le_mul_of_nonneg_right (by linarith) hp.le) hB
    refine ih (DZone.closeRow rnd x d i) (Zone.closeRow x z i) ⟨hs.dim, fun p hp' q hq => ?_⟩ hx (List.nodup_cons.1 hn).2
      (fun j hj => hl j (by simp [hj])) (fun p hp' q hq => ?_)
    · simp only [DZone.closeRow, Zone.closeRow] at hp' hq ⊢
      by_cases hpi : p = i
      · simp only [if_pos hpi]
        rw [hs.val i hi q hq, hs.val x hx q hq, hs.val i hi x hx]
        exact min_plus hr hk hb3 hb1 (hxr q hq) h3 (h4 q hq) hb2 hB0
      · simp only [if_neg hpi]
        exact hs.val p hp' q hq
    · simp only [Zone.closeRow] at hp' hq ⊢
      by_cases hpi : p = i
      · simp only [if_pos hpi]
        rw [if_neg (by rw [hpi]; exact hil)]
        by_cases hpx : p = x
        · rw [if_pos hpx]
          have hix : i = x := by rw [← hpi, hpx]
          have := (hxr q hq).add h3
          rw [if_pos hix] at this
          exact ((h4 q hq).mono (by linarith)).min (this.mono (by linarith))
        · rw [if_neg hpx]
          have hix : i ≠ x := by rw [← hpi]; exact hpx
          have := (hxr q hq).add h3
          rw [if_neg hix] at this
          exact ((h4 q hq).mono (by linarith)).min (this.mono (by linarith))
      · simp only [if_neg hpi]
        have := hf p hp' q hq
        simpa [hpi] using this

theorem close1 {rnd : ℚ → ℚ} (hr : Rounding rnd) {k : ℕ} {B : ℚ} {x : ℕ} (hk : k ≤ 1074) (hB0 : 0 ≤ B)
    (hB : 3 * B * 2 ^ k < 2 ^ 53) {d : DZone} {z : Zone} (hs : Stores d z) (hx : x < z.dim) (hf : FineZone k B z) :
    Stores (d.close1 rnd x) (z.close1 x) ∧ FineZone k (3 * B) (z.close1 x) ∧ (z.close1 x).dim = z.dim := by
  unfold DZone.close1 Zone.close1
  rw [hs.dim]
  refine closeRows hr hk hB0 hB _ d z hs hx List.nodup_range (fun i hi => by simpa using hi) (fun i hi j hj => ?_)
  rw [if_pos (by simpa using hi)]
  exact hf i hi j hj

theorem closeAll {rnd : ℚ → ℚ} (hr : Rounding rnd) {k : ℕ} (hk : k ≤ 1074) (l : List ℕ) : ∀ (B : ℚ) (d : DZone) (z : Zone), 0 ≤ B →
      Stores d z → FineZone k B z → (∀ i ∈ l, i < z.dim) → 3 ^ l.length * B * 2 ^ k < 2 ^ 53 →
      Stores (l.foldl (DZone.close1 rnd) d) (l.foldl Zone.close1 z) ∧ FineZone k (3 ^ l.length * B) (l.foldl Zone.close1 z) ∧
      (l.foldl Zone.close1 z).dim = z.dim := by
  have hp : (0 : ℚ) < 2 ^ k := by positivity
  induction l with
  | nil => intro B d z _ hs hf _ _; exact ⟨hs, by simpa using hf, rfl⟩
  | cons i l ih =>
    intro B d z hB0 hs hf hl hB
    have e : (3 : ℚ) ^ (i :: l).length * B = 3 ^ l.length * (3 * B) := by rw [List.length_cons, pow_succ]; ring
    rw [e] at hB ⊢
    have h1 : (1 : ℚ) ≤ 3 ^ l.length := one_le_pow₀ (by norm_num)
    have h3 : 3 * B * 2 ^ k < 2 ^ 53 := by
      refine lt_of_le_of_lt (mul_le_mul_of_nonneg_right ?_ hp.le) hB
      nlinarith
    obtain ⟨a1, a2, a3⟩ := close1 hr hk hB0 h3 hs (hl i (by simp)) hf
    obtain ⟨b1, b2, b3⟩ := ih (3 * B) _ _ (by linarith) a1 a2 (fun j hj => by rw [a3]; exact hl j (by simp [hj])) hB
    exact ⟨b1, b2, b3.trans a3⟩

/-- Canonising the stored matrix. -/
theorem canonize {rnd : ℚ → ℚ} (hr : Rounding rnd) {k : ℕ} {B : ℚ} (hk : k ≤ 1074) (hB0 : 0 ≤ B) {d : DZone} {z : Zone}
    (hB : 3 ^ z.dim * B * 2 ^ k < 2 ^ 53) (hs : Stores d z) (hf : FineZone k B z) :
    Stores (d.canonize rnd) z.canonize ∧ FineZone k (3 ^ z.dim * B) z.canonize ∧ z.canonize.dim = z.dim := by
  unfold DZone.canonize Zone.canonize
  rw [hs.dim]
  have := closeAll hr hk (List.range z.dim) B d z hB0 hs hf (fun i hi => by simpa using hi) (by simpa using hB)
  simpa using this

theorem satNoCanonize {rnd : ℚ → ℚ} (hr : Rounding rnd) {k : ℕ} {B : ℚ} (hk : k ≤ 1074) (hB0 : 0 ≤ B) {d : DZone} {z : Zone}
    (hB : 2 * B * 2 ^ k < 2 ^ 53) (hs : Stores d z) (hf : FineZone k B z) :
    d.isSatisfiableNoCanonize rnd = z.isSatisfiableNoCanonize := by
  unfold DZone.isSatisfiableNoCanonize Zone.isSatisfiableNoCanonize
  rw [hs.dim, Bool.eq_iff_iff, List.all_eq_true, List.all_eq_true]
  refine forall₂_congr fun i hi => ?_
  rw [List.all_eq_true, List.all_eq_true]
  refine forall₂_congr fun j hj => ?_
  rw [List.mem_range] at hi hj
  rw [decide_eq_true_iff, decide_eq_true_iff, hs.val i hi j hj, hs.val j hj i hi]
  have hBB : (B + B) * 2 ^ k < 2 ^ 53 := by rw [← two_mul]; exact hB
  obtain ⟨h1, h2⟩ := plus_fin hr hk hBB (hf i hi j hj) (hf j hj i hi) hB0 hB0
  have hz : pair 0 true = ofBound (.fin 0 true) := rfl
  have hz0 : Below (.fin 0 true) := by
    intro c s e
    simp only [Bound.fin.injEq] at e
    rw [← e.1]; exact lt_trans (by positivity) small_lt_max
  have hadd : FineB k (B + B) (z.val i j + z.val j i) :=
    FineB.add (fun c s e => hf i hi j hj c s e) (fun c s e => hf j hj i hi c s e)
  by_cases he : z.val i j + z.val j i = .inf
  · rw [he]
    refine iff_of_true ?_ (Bound.le_inf _)
    rw [hz]
    exact le_trans ((ofBound_le hz0 (fineB_inf.below hBB)).2 (Bound.le_inf _)) (h2 he)
  · rw [h1 he, hz, ofBound_le hz0 (hadd.below hBB)]

theorem isSatisfiable {rnd : ℚ → ℚ} (hr : Rounding rnd) {k : ℕ} {B : ℚ} (hk : k ≤ 1074) (hB0 : 0 ≤ B) {d : DZone} {z : Zone}
    (hB : 2 * 3 ^ z.dim * B * 2 ^ k < 2 ^ 53) (hs : Stores d z) (hf : FineZone k B z) :
    d.isSatisfiable rnd = z.isSatisfiable := by
  have hp : (0 : ℚ) < 2 ^ k := by positivity
  have h3 : (0 : ℚ) < 3 ^ z.dim := by positivity
  have hle : 3 ^ z.dim * B ≤ 2 * 3 ^ z.dim * B := by nlinarith [mul_nonneg h3.le hB0]
  obtain ⟨a1, a2, a3⟩ := canonize hr hk hB0 (lt_of_le_of_lt (mul_le_mul_of_nonneg_right hle hp.le) hB) hs hf
  unfold DZone.isSatisfiable Zone.isSatisfiable
  exact satNoCanonize hr hk (mul_nonneg h3.le hB0) (by rw [← mul_assoc]; exact hB) a1 a2

end Double
end LearnTA
