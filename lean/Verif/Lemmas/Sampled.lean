import Verif.Lemmas.Reconstruct2

/-!
# Classes of zones that are sampled correctly
-/

namespace LearnTA

/-- A class of bounds that is kept by the operations on zones. -/
structure Bound.Cls (P : Bound → Prop) : Prop where
  inf : P .inf
  zero : P (.fin 0 true)
  add : ∀ a b, P a → P b → P (a + b)

namespace Zone

open Bound

/-- All entries are in the class. -/
def All (P : Bound → Prop) (z : Zone) : Prop := ∀ i j, P (z.val i j)

section
variable {P : Bound → Prop} (hP : Cls P)
include hP

theorem All.min {a b : Bound} (ha : P a) (hb : P b) : P (min a b) := by
  rcases min_choice a b with h | h <;> rw [h] <;> assumption

theorem All.set {z : Zone} (h : z.All P) (i j : ℕ) {b : Bound} (hb : P b) : (z.set i j b).All P := by
  intro i' j'
  simp only [Zone.set]
  split
  · exact hb
  · exact h i' j'

theorem All.closeRow {z : Zone} (h : z.All P) (x i : ℕ) : (Zone.closeRow x z i).All P := by
  intro i' j
  simp only [Zone.closeRow]
  split
  · exact All.min hP (h i j) (hP.add _ _ (h x j) (h i x))
  · exact h i' j

theorem All.foldl {α : Type*} (f : Zone → α → Zone) (l : List α)
    (hf : ∀ z, ∀ a ∈ l, z.All P → (f z a).All P) {z : Zone} (h : z.All P) : (l.foldl f z).All P := by
  induction l generalizing z with
  | nil => exact h
  | cons a l ih =>
    exact ih (fun z b hb hz => hf z b (by simp [hb]) hz) (hf z a (by simp) h)

theorem All.close1 {z : Zone} (h : z.All P) (x : ℕ) : (z.close1 x).All P :=
  All.foldl hP _ _ (fun _ i _ hz => All.closeRow hP hz x i) h

theorem All.canonize {z : Zone} (h : z.All P) : z.canonize.All P :=
  All.foldl hP _ _ (fun _ i _ hz => All.close1 hP hz i) h

theorem All.tighten {z : Zone} (h : z.All P) (x y : ℕ) {c : Bound} (hc : P c) :
    (z.tighten x y c).All P :=
  All.close1 hP (All.close1 hP (All.set hP h x y (All.min hP (h x y) hc)) x) y

theorem All.elapse {z : Zone} (h : z.All P) : z.elapse.All P := by
  intro i j
  simp only [Zone.elapse]
  split
  · exact hP.inf
  · exact h i j

theorem All.reverseElapse {z : Zone} (h : z.All P) : z.reverseElapse.All P := by
  intro i j
  simp only [Zone.reverseElapse]
  split
  · exact hP.zero
  · exact h i j

theorem All.unconstrain {z : Zone} (h : z.All P) (x : ℕ) : (z.unconstrain x).All P := by
  intro i j
  simp only [Zone.unconstrain]
  split
  · exact hP.inf
  · exact h i j

theorem All.inter {z z' : Zone} (h : z.All P) (h' : z'.All P) : (z.inter z').All P :=
  All.canonize hP fun i j => All.min hP (h i j) (h' i j)

/-- The bounds a constraint adds are in the class. -/
def CstrIn (P : Bound → Prop) (c : Constraint) : Prop :=
  match c.odr with
  | .ge => P (.fin (-c.c) true)
  | .gt => P (.fin (-c.c) false)
  | .le => P (.fin c.c true)
  | .lt => P (.fin c.c false)

theorem All.tightenG {z : Zone} (h : z.All P) (g : Guard) (hg : ∀ c ∈ g, CstrIn P c) :
    (z.tightenG g).All P := by
  refine All.foldl hP _ _ (fun z c hc hz => ?_) h
  have := hg c hc
  obtain ⟨x, o, k⟩ := c
  cases o <;> exact All.tighten hP hz _ _ this

/-- The constants clocks are set to are in the class. -/
def UpdIn (P : Bound → Prop) (p : ℕ × Upd) : Prop :=
  ∀ q, p.2 = .const q → P (.fin q true) ∧ P (.fin (-q) true)

theorem All.applyResets {z : Zone} (h : z.All P) (r : Resets) (hr : ∀ p ∈ r, UpdIn P p) :
    (z.applyResets r).All P := by
  refine All.foldl hP _ _ (fun z p hp hz => ?_) (All.foldl hP _ _ (fun z p _ hz => ?_) h)
  · unfold applyConst
    split
    · rename_i q hq
      obtain ⟨h1, h2⟩ := hr p hp q hq
      exact All.canonize hP (All.set hP (All.set hP (All.unconstrain hP hz _) _ _ h2) _ _ h1)
    · exact hz
  · unfold applyRenaming
    split
    · split
      · exact All.canonize hP
          (All.set hP (All.set hP (All.unconstrain hP hz _) _ _ hP.zero) _ _ hP.zero)
      · exact hz
    · exact hz

theorem All.revertResets {z : Zone} (h : z.All P) (r : Resets) : (z.revertResets r).All P := by
  refine All.foldl hP _ _ (fun z p hp hz => ?_) h
  unfold revertOne
  split
  · exact All.canonize hP
      (All.set hP (All.set hP (All.unconstrain hP hz _) _ _ hP.zero) _ _ hP.zero)
  · exact All.canonize hP (All.unconstrain hP hz _)

theorem All.point (hc : ∀ q, P (.fin q true)) (vs : List ℚ) : (Zone.point vs).All P := by
  refine All.foldl hP _ _ (fun z p hp hz => ?_) (fun i j => hP.inf)
  exact All.tighten hP (All.tighten hP hz _ _ (hc _)) _ _ (hc _)

end

/-- Zones with the same valuations have the same canonical bounds. -/
theorem canonize_val_eq {z z' : Zone} (hd : z.dim = z'.dim) (hne : ∃ v, z.Mem v)
    (h : ∀ v, z.Mem v ↔ z'.Mem v) {i j : ℕ} (hi : i < z.dim) (hj : j < z.dim) (hij : i ≠ j) :
    z.canonize.val i j = z'.canonize.val i j := by
  obtain ⟨v, hv⟩ := hne
  have hv' := (h v).1 hv
  refine le_antisymm ?_ ?_
  · exact bound_le_of_incl z'.canonize z.canonize (by simp [hd]) (canonize_closed_of_mem hv)
      ((canonize_mem _ _).2 hv).diagNN (fun u hu => by rw [canonize_mem] at hu ⊢; exact (h u).1 hu)
      (by simpa [← hd] using hi) (by simpa [← hd] using hj) hij
  · exact bound_le_of_incl z.canonize z'.canonize (by simp [hd]) (canonize_closed_of_mem hv')
      ((canonize_mem _ _).2 hv').diagNN (fun u hu => by rw [canonize_mem] at hu ⊢; exact (h u).2 hu)
      (by simpa using hi) (by simpa using hj) hij

/-! ### Non-strict bounds -/

/-- The bound is not strict. -/
def NS (b : Bound) : Prop := ∀ c s, b = .fin c s → s = true

theorem ns_cls : Cls NS where
  inf := by intro c s h; cases h
  zero := by intro c s h; cases h; rfl
  add := by
    rintro (⟨a, s⟩ | _) (⟨b, t⟩ | _) ha hb c u h
    · rw [fin_add_fin] at h
      cases h
      rw [ha _ _ rfl, hb _ _ rfl]; rfl
    · rw [add_inf] at h; cases h
    · rw [inf_add] at h; cases h
    · rw [inf_add] at h; cases h

theorem ns_true (q : ℚ) : NS (.fin q true) := by intro c s h; cases h; rfl

/-- Sampling from a zone with the same valuations as one without strict bounds. -/
theorem sample_ns {z z' : Zone} (hd : z.dim = z'.dim) (hne : ∃ v, z.Mem v)
    (hnn : ∀ v, z.Mem v → ∀ i, i + 1 < z.dim → 0 ≤ v i)
    (h : ∀ v, z.Mem v ↔ z'.Mem v) (hz : z'.All NS) : z.Mem (listVal z.sample) := by
  refine (sample_mem z hne hnn fun i j hji hi _ _ c s hb => ?_).1
  rw [canonize_val_eq hd hne h (by omega) (by omega) (by omega)] at hb
  exact All.canonize ns_cls hz _ _ _ _ hb

/-! ### Integer bounds -/

/-- The bound is an integer. -/
def IntB (b : Bound) : Prop := ∀ c s, b = .fin c s → ∃ k : ℤ, c = k

theorem int_cls : Cls IntB where
  inf := by intro c s h; cases h
  zero := by intro c s h; cases h; exact ⟨0, by simp⟩
  add := by
    rintro (⟨a, s⟩ | _) (⟨b, t⟩ | _) ha hb c u h
    · rw [fin_add_fin] at h
      cases h
      obtain ⟨k, rfl⟩ := ha _ _ rfl
      obtain ⟨l, rfl⟩ := hb _ _ rfl
      exact ⟨k + l, by push_cast; rfl⟩
    · rw [add_inf] at h; cases h
    · rw [inf_add] at h; cases h
    · rw [inf_add] at h; cases h

/-- With at most two clocks sampling is right if a clock is fixed or the bounds are integers. -/
theorem sample_two {z : Zone} (hd : z.dim ≤ 3) (hne : ∃ v, z.Mem v)
    (hnn : ∀ v, z.Mem v → ∀ i, i + 1 < z.dim → 0 ≤ v i)
    (h : (∃ i k, i + 1 < z.dim ∧ ∀ v, z.Mem v → v i = k) ∨
      ∃ z' : Zone, z.dim = z'.dim ∧ (∀ v, z.Mem v ↔ z'.Mem v) ∧ z'.All IntB) :
    z.Mem (listVal z.sample) := by
  refine (sample_mem_of z hne hnn fun n hn => ?_).1
  obtain ⟨v, hv⟩ := hne
  have hc := canonize_closed_of_mem hv
  have hdn : z.canonize.DiagNN := ((canonize_mem z v).2 hv).diagNN
  have hn2 : n < 2 := by omega
  obtain rfl | rfl : n = 0 ∨ n = 1 := by omega
  · intro _ _ _ j hj; simp at hj
  intro hp c0 h0 j hj c hjc
  have e1 : (List.range 1).foldl (fun vs _ => vs ++ [sampleClock z.canonize vs]) [] =
      [sampleClock z.canonize []] := rfl
  rw [e1] at hp h0 hj hjc ⊢
  simp only [List.length_singleton, Nat.lt_one_iff] at hp h0 hj hjc
  subst hj
  simp only [List.getD_cons_zero, Nat.zero_add] at hjc ⊢
  have hdim : z.dim = 3 := by omega
  -- the lower bound of the first clock
  have hl : ∃ c1 s1, z.canonize.val 0 1 = .fin c1 s1 ∧ c1 ≤ 0 := by
    have : z.canonize.val 0 1 ≤ 0 := by
      apply le_of_sat_imp
      intro q hq
      obtain ⟨u, hu, hle⟩ := realize_above _ hc hdn (by simp [hdim]) (by simp [hdim]) (by omega) q hq
      have := hnn u ((canonize_mem z u).1 hu) 0 (by omega)
      simp at hle ⊢
      linarith
    cases hb : z.canonize.val 0 1 with
    | inf => rw [hb] at this; simp [zero_def] at this
    | fin c1 s1 =>
      rw [hb, zero_def, fin_le_fin] at this
      refine ⟨c1, s1, rfl, ?_⟩
      rcases this with h | h
      · exact h.le
      · exact h.1.le
  obtain ⟨c1, s1, hl1, hc1⟩ := hl
  have htri := hc 0 (by simp [hdim]) 2 (by simp [hdim]) 1 (by simp [hdim])
  rw [h0, hl1, hjc] at htri
  simp only [fin_add_fin, Bool.and_false, fin_le_fin] at htri
  have hlt : c0 < c1 + c := by
    rcases htri with h | h
    · exact h
    · exact absurd h.2 (by decide)
  -- the value of the first clock
  have hv0 : (s1 = true → sampleClock z.canonize [] = -c1) ∧
      sampleClock z.canonize [] ≤ -c1 + 1 / 2 := by
    unfold sampleClock
    simp only [List.length_nil, Nat.zero_add, List.zipIdx_nil, List.foldl_nil, hl1]
    have hm : max 0 (-c1) = -c1 := max_eq_right (by linarith)
    rw [hm]
    cases hu : z.canonize.val 1 0 with
    | inf =>
      cases s1 <;> simp [isPoint, secondOf, firstOf]
    | fin u us =>
      by_cases hpt : isPoint (fin u us) (fin c1 s1) = true
      · rw [if_pos hpt]
        simp only [isPoint, Bool.and_eq_true, decide_eq_true_eq] at hpt
        simp only [firstOf, Option.getD_some, hpt.1.1.symm]
        exact ⟨fun _ => by trivial, by linarith⟩
      · rw [if_neg hpt]
        cases s1
        · refine ⟨fun h => by simp at h, ?_⟩
          simp only [secondOf, firstOf, Bool.false_eq_true, if_false]
          split <;> linarith
        · simp only [secondOf, if_true]
          exact ⟨fun _ => by trivial, by linarith⟩
  cases s1 with
  | true => rw [hv0.1 rfl]; linarith
  | false =>
    rcases h with ⟨i, k, hi, hk⟩ | ⟨z', hd', hzz', hz'⟩
    · exfalso
      have hk' : ∀ u, z.canonize.Mem u → u i = k := fun u hu => hk u ((canonize_mem z u).1 hu)
      obtain rfl | rfl : i = 0 ∨ i = 1 := by omega
      · have := fixed_diff hc hdn (i := 0) (j := 1) (by simp [hdim]) (by simp [hdim]) (by omega) (-k)
          (fun u hu => by
            have := hk' u hu
            have e : u.ext 1 = u 0 := rfl
            rw [e, this]; simp)
        rw [hl1] at this
        cases this
      · have a1 := fixed_diff hc hdn (i := 0) (j := 2) (by simp [hdim]) (by simp [hdim]) (by omega) (-k)
          (fun u hu => by
            have := hk' u hu
            have e : u.ext 2 = u 1 := rfl
            rw [e, this]; simp)
        have a2 := fixed_diff hc hdn (i := 2) (j := 0) (by simp [hdim]) (by simp [hdim]) (by omega) k
          (fun u hu => by
            have := hk' u hu
            have e : u.ext 2 = u 1 := rfl
            rw [e, this]; simp)
        rw [a1, a2] at hp
        simp [isPoint] at hp
    · have hI := All.canonize int_cls hz'
      rw [canonize_val_eq hd' ⟨v, hv⟩ hzz' (by omega) (by omega) (by omega)] at h0 hl1 hjc
      obtain ⟨k0, rfl⟩ := hI _ _ _ _ h0
      obtain ⟨k1, rfl⟩ := hI _ _ _ _ hl1
      obtain ⟨k2, rfl⟩ := hI _ _ _ _ hjc
      have hlt' : k0 + 1 ≤ k1 + k2 := by
        have : k0 < k1 + k2 := by exact_mod_cast hlt
        omega
      have : (k0 : ℚ) + 1 ≤ k1 + k2 := by exact_mod_cast hlt'
      linarith [hv0.2]

end Zone

namespace SymRun

open Zone Ta2za

theorem all_zero {P : Bound → Prop} (hP : Bound.Cls P) (n : ℕ) : (Zone.zero n).All P :=
  fun _ _ => hP.zero

theorem all_post {P : Bound → Prop} (hP : Bound.Cls P) {z : Zone} {t : Trans} (h : z.All P)
    (hg : ∀ c ∈ t.guard, CstrIn P c) (hr : ∀ p ∈ t.resets, UpdIn P p) : (postZone z t).All P :=
  All.canonize hP (All.applyResets hP (All.tightenG hP (All.elapse hP h) _ hg) _ hr)

/-- Without strict guards all samples are right, whatever the number of clocks. -/
theorem sampled_ns (n : ℕ) : Sampled n (fun z => z.All NS)
    (fun t => ∀ c ∈ t.guard, c.odr = .ge ∨ c.odr = .le) := by
  have hg : ∀ t : Trans, (∀ c ∈ t.guard, c.odr = .ge ∨ c.odr = .le) → ∀ c ∈ t.guard, CstrIn NS c := by
    intro t ht c hc
    have := ht c hc
    unfold CstrIn
    cases ho : c.odr <;> rw [ho] at this <;> simp only
    · simp at this
    · exact ns_true _
    · exact ns_true _
    · simp at this
  refine ⟨all_zero ns_cls _, fun z t hz ht _ _ _ => all_post ns_cls hz (hg t ht)
    (fun p _ q _ => ⟨ns_true _, ns_true _⟩), fun z hz hgood => ?_, fun z t hz ht hfit hgood hf => ?_⟩
  · have := sample_ns (z := z.canonize) (z' := z) (by simp) (by
      obtain ⟨v, hv⟩ := hgood.ne
      exact ⟨v, (canonize_mem _ _).2 hv⟩) (fun v hv i hi => hgood.nonneg v ((canonize_mem _ _).1 hv) i
        (by rw [canonize_dim, hgood.dim] at hi; omega)) (fun v => canonize_mem _ _) hz
    exact (canonize_mem _ _).1 this
  · intro post hp hpost zb tmp b1 b2 b3 b4 b5 b6
    obtain ⟨r1, r2, r3⟩ := revert_spec post t.resets (by rw [hp]; exact hfit.ok.2) hfit.order
    set zr := ((point post).revertResets t.resets).tightenG t.guard with hzr
    have hgx : ∀ c ∈ t.guard, c.x + 1 < ((point post).revertResets t.resets).dim := fun c h => by
      have := hfit.ok.1 c h
      rw [r1, hp]; omega
    have m1 : ∀ v, zb.Mem v ↔ zr.Mem v := fun v => by
      rw [b4, hzr, tightenG_mem _ _ hgx]
    have d1 : zr.dim = n + 1 := by rw [hzr, tightenG_dim, r1, hp]
    obtain ⟨u, hu⟩ := b3
    have c1 : zr.Closed := tightenG_closed _ r2 _ hgx u ((m1 u).1 hu)
    have a1 : zr.All NS := All.tightenG ns_cls
      (All.revertResets ns_cls (All.point ns_cls ns_true _) _) _ (hg t ht)
    have m2 : ∀ v, zb.reverseElapse.Mem v ↔ zr.reverseElapse.Mem v := fun v => by
      rw [reverseElapse_mem zb b2 ⟨u, hu⟩, reverseElapse_mem zr c1 ⟨u, (m1 u).1 hu⟩, b1, d1]
      constructor
      · rintro ⟨h1, d, hd, h2⟩; exact ⟨h1, d, hd, (m1 _).1 h2⟩
      · rintro ⟨h1, d, hd, h2⟩; exact ⟨h1, d, hd, (m1 _).2 h2⟩
    set tr := zr.reverseElapse.inter z.canonize with htr
    have dz : z.canonize.dim = n + 1 := by rw [canonize_dim, hgood.dim]
    have m3 : ∀ v, tmp.Mem v ↔ tr.Mem v := fun v => by
      rw [b5, htr, inter_mem _ _ (by rw [dz]; exact b1), inter_mem _ _ (by rw [dz]; exact d1), m2]
    obtain ⟨w, hw⟩ := b6
    have dt : tmp.dim = n + 1 := by rw [b5]; simp [inter, b1]
    have dtr : tr.dim = n + 1 := by rw [htr]; simp [inter, d1]
    have m4 : ∀ v, tmp.canonize.elapse.Mem v ↔ tr.canonize.elapse.Mem v := fun v => by
      have hw' := (m3 w).1 hw
      rw [elapse_mem _ (canonize_closed_of_mem hw) ⟨w, (canonize_mem _ _).2 hw⟩,
        elapse_mem _ (canonize_closed_of_mem hw') ⟨w, (canonize_mem _ _).2 hw'⟩]
      simp only [canonize_mem, m3]
    have e1 : tmp.canonize.elapse.dim = n + 1 := by simp [dt]
    have e2 : tr.canonize.elapse.dim = n + 1 := by simp [dtr]
    have m5 : ∀ v, (zb.inter tmp.canonize.elapse).Mem v ↔ zb.Mem v ∧ tmp.canonize.elapse.Mem v :=
      fun v => inter_mem _ _ (by rw [e1]; exact b1) v
    have m6 : ∀ v, (zr.inter tr.canonize.elapse).Mem v ↔ zr.Mem v ∧ tr.canonize.elapse.Mem v :=
      fun v => inter_mem _ _ (by rw [e2]; exact d1) v
    -- a valuation of the zone sampled, and their signs
    have hel : ∀ v, tmp.canonize.elapse.Mem v ↔ ∃ d, 0 ≤ d ∧ tmp.Mem (v.shift (-d)) := fun v => by
      rw [elapse_mem _ (canonize_closed_of_mem hw) ⟨w, (canonize_mem _ _).2 hw⟩]
      simp only [canonize_mem]
    have htm : ∀ v, tmp.Mem v ↔ zb.reverseElapse.Mem v ∧ z.Mem v := fun v => by
      rw [b5, inter_mem _ _ (by rw [dz]; exact b1), canonize_mem]
    refine sample_ns (z' := zr.inter tr.canonize.elapse) (by simp [inter, b1, d1]) ?_ ?_
      (fun v => by rw [m5, m6, m1, m4]) (All.inter ns_cls a1 (All.elapse ns_cls (All.canonize ns_cls
        (All.inter ns_cls (All.reverseElapse ns_cls a1) (All.canonize ns_cls hz)))))
    · obtain ⟨-, d, hd, h2⟩ := (reverseElapse_mem zb b2 ⟨u, hu⟩ w).1 ((htm w).1 hw).1
      refine ⟨_, (m5 _).2 ⟨h2, (hel _).2 ⟨d, hd, ?_⟩⟩⟩
      have : (w.shift d).shift (-d) = w := by funext x; simp [Valuation.shift]
      rw [this]; exact hw
    · intro v hv i hi
      obtain ⟨d, hd, h2⟩ := (hel v).1 ((m5 v).1 hv).2
      have := hgood.nonneg _ ((htm _).1 h2).2 i (by simp [inter, b1] at hi; omega)
      simp only [Valuation.shift] at this
      linarith

/-- With at most two clocks and integer constants all samples are right. -/
theorem sampled_int (n : ℕ) (hn : n ≤ 2) : Sampled n (fun z => z.All IntB)
    (fun t => ∀ r ∈ t.resets, ∀ q, r.2 = .const q → ∃ k : ℤ, q = k) := by
  have hI : ∀ (q : ℚ) (s : Bool), (∃ k : ℤ, q = k) → IntB (.fin q s) := by
    intro q s h c s' e; cases e; exact h
  have hg : ∀ t : Trans, ∀ c ∈ t.guard, CstrIn IntB c := by
    intro t c _
    unfold CstrIn
    cases c.odr <;> simp only
    · exact hI _ _ ⟨_, rfl⟩
    · exact hI _ _ ⟨_, rfl⟩
    · exact hI _ _ ⟨-c.c, by simp⟩
    · exact hI _ _ ⟨-c.c, by simp⟩
  have hr : ∀ t : Trans, (∀ r ∈ t.resets, ∀ q, r.2 = .const q → ∃ k : ℤ, q = k) →
      ∀ p ∈ t.resets, UpdIn IntB p := by
    intro t ht p hp q hq
    obtain ⟨k, rfl⟩ := ht p hp q hq
    exact ⟨hI _ _ ⟨k, rfl⟩, hI _ _ ⟨-k, by simp⟩⟩
  refine ⟨all_zero int_cls _, fun z t hz ht _ _ _ => all_post int_cls hz (hg t) (hr t ht),
    fun z hz hgood => ?_, fun z t hz ht hfit hgood hf => ?_⟩
  · have := sample_two (z := z.canonize) (by simp [hgood.dim]; omega) (by
      obtain ⟨v, hv⟩ := hgood.ne
      exact ⟨v, (canonize_mem _ _).2 hv⟩) (fun v hv i hi => hgood.nonneg v ((canonize_mem _ _).1 hv) i
        (by rw [canonize_dim, hgood.dim] at hi; omega))
        (.inr ⟨z, by simp, fun v => canonize_mem _ _, hz⟩)
    exact (canonize_mem _ _).1 this
  · intro post hp hpost zb tmp b1 b2 b3 b4 b5 b6
    obtain ⟨r1, r2, r3⟩ := revert_spec post t.resets (by rw [hp]; exact hfit.ok.2) hfit.order
    obtain ⟨u, hu⟩ := b3
    obtain ⟨w, hw⟩ := b6
    have dz : z.canonize.dim = n + 1 := by rw [canonize_dim, hgood.dim]
    have dt : tmp.dim = n + 1 := by rw [b5]; simp [inter, b1]
    have e1 : tmp.canonize.elapse.dim = n + 1 := by simp [dt]
    have m5 : ∀ v, (zb.inter tmp.canonize.elapse).Mem v ↔ zb.Mem v ∧ tmp.canonize.elapse.Mem v :=
      fun v => inter_mem _ _ (by rw [e1]; exact b1) v
    have hel : ∀ v, tmp.canonize.elapse.Mem v ↔ ∃ d, 0 ≤ d ∧ tmp.Mem (v.shift (-d)) := fun v => by
      rw [elapse_mem _ (canonize_closed_of_mem hw) ⟨w, (canonize_mem _ _).2 hw⟩]
      simp only [canonize_mem]
    have htm : ∀ v, tmp.Mem v ↔ zb.reverseElapse.Mem v ∧ z.Mem v := fun v => by
      rw [b5, inter_mem _ _ (by rw [dz]; exact b1), canonize_mem]
    have d5 : (zb.inter tmp.canonize.elapse).dim = n + 1 := by simp [inter, b1]
    refine sample_two (by rw [d5]; omega) ?_ ?_ ?_
    · obtain ⟨-, d, hd, h2⟩ := (reverseElapse_mem zb b2 ⟨u, hu⟩ w).1 ((htm w).1 hw).1
      refine ⟨_, (m5 _).2 ⟨h2, (hel _).2 ⟨d, hd, ?_⟩⟩⟩
      have : (w.shift d).shift (-d) = w := by funext x; simp [Valuation.shift]
      rw [this]; exact hw
    · intro v hv i hi
      obtain ⟨d, hd, h2⟩ := (hel v).1 ((m5 v).1 hv).2
      have := hgood.nonneg _ ((htm _).1 h2).2 i (by rw [d5] at hi; omega)
      simp only [Valuation.shift] at this
      linarith
    · by_cases hfix : ∃ i < n, i ∉ t.resets.map Prod.fst ∨
        (i ∈ t.resets.map Prod.fst ∧ ∃ y, reverseAssignment t.resets i = some y)
      · left
        obtain ⟨i, hi, h | ⟨h, y, hy⟩⟩ := hfix
        · refine ⟨i, listVal post i, by rw [d5]; omega, fun v hv => ?_⟩
          exact ((r3 v).1 ((b4 v).1 ((m5 v).1 hv).1).1 i (by omega)).1 h
        · refine ⟨i, listVal post y, by rw [d5]; omega, fun v hv => ?_⟩
          exact ((r3 v).1 ((b4 v).1 ((m5 v).1 hv).1).1 i (by omega)).2 h y hy
      · right
        push Not at hfix
        have hgx : ∀ c ∈ t.guard, c.x + 1 < z.elapse.dim := fun c h => by
          have := hfit.ok.1 c h
          have : z.elapse.dim = n + 1 := hgood.dim
          omega
        have hall : ∀ v, zb.Mem v ↔ t.guard.Holds v := fun v => by
          rw [b4, r3]
          refine and_iff_right fun i hi => ?_
          have := hfix i (by omega)
          exact ⟨fun h => absurd this.1 h, fun h y hy => absurd hy (this.2 h y)⟩
        refine ⟨z.elapse.tightenG t.guard, by rw [d5, tightenG_dim]; exact hgood.dim.symm, fun v => ?_,
          All.tightenG int_cls (All.elapse int_cls hz) _ (hg t)⟩
        rw [m5, hall, tightenG_mem _ _ hgx, elapse_mem z hgood.closed hgood.ne, hel]
        constructor
        · rintro ⟨h1, d, hd, h2⟩
          exact ⟨⟨d, hd, ((htm _).1 h2).2⟩, h1⟩
        · rintro ⟨⟨d, hd, h2⟩, h1⟩
          refine ⟨h1, d, hd, (htm _).2 ⟨(reverseElapse_mem zb b2 ⟨u, hu⟩ _).2 ⟨fun i hi =>
            hgood.nonneg _ h2 i (by rw [b1] at hi; omega), d, hd, (hall _).2 ?_⟩, h2⟩⟩
          have : (v.shift (-d)).shift d = v := by funext x; simp [Valuation.shift]
          rw [this]; exact h1

/-- With at most one clock all samples are right. -/
theorem sampled_one (n : ℕ) (hn : n ≤ 1) : Sampled n (fun _ => True) (fun _ => True) := by
  have key : ∀ z : Zone, z.dim = n + 1 → (∃ v, z.Mem v) → (∀ v, z.Mem v → ∀ i < n, 0 ≤ v i) →
      z.Mem (listVal z.sample) := by
    intro z hd hne hnn
    refine (sample_mem_of z hne (fun v hv i hi => hnn v hv i (by omega)) fun k hk => ?_).1
    obtain rfl : k = 0 := by omega
    intro _ _ _ j hj
    simp at hj
  refine ⟨trivial, fun _ _ _ _ _ _ _ => trivial, fun z _ hgood => ?_, fun z t _ _ hfit hgood hf => ?_⟩
  · have := key z.canonize (by simp [hgood.dim]) (by
      obtain ⟨v, hv⟩ := hgood.ne
      exact ⟨v, (canonize_mem _ _).2 hv⟩) (fun v hv i hi => hgood.nonneg v ((canonize_mem _ _).1 hv) i hi)
    exact (canonize_mem _ _).1 this
  · intro post hp hpost zb tmp b1 b2 b3 b4 b5 b6
    obtain ⟨u, hu⟩ := b3
    obtain ⟨w, hw⟩ := b6
    have dz : z.canonize.dim = n + 1 := by rw [canonize_dim, hgood.dim]
    have dt : tmp.dim = n + 1 := by rw [b5]; simp [inter, b1]
    have e1 : tmp.canonize.elapse.dim = n + 1 := by simp [dt]
    have m5 : ∀ v, (zb.inter tmp.canonize.elapse).Mem v ↔ zb.Mem v ∧ tmp.canonize.elapse.Mem v :=
      fun v => inter_mem _ _ (by rw [e1]; exact b1) v
    have hel : ∀ v, tmp.canonize.elapse.Mem v ↔ ∃ d, 0 ≤ d ∧ tmp.Mem (v.shift (-d)) := fun v => by
      rw [elapse_mem _ (canonize_closed_of_mem hw) ⟨w, (canonize_mem _ _).2 hw⟩]
      simp only [canonize_mem]
    have htm : ∀ v, tmp.Mem v ↔ zb.reverseElapse.Mem v ∧ z.Mem v := fun v => by
      rw [b5, inter_mem _ _ (by rw [dz]; exact b1), canonize_mem]
    refine key _ (by simp [inter, b1]) ?_ ?_
    · obtain ⟨-, d, hd, h2⟩ := (reverseElapse_mem zb b2 ⟨u, hu⟩ w).1 ((htm w).1 hw).1
      refine ⟨_, (m5 _).2 ⟨h2, (hel _).2 ⟨d, hd, ?_⟩⟩⟩
      have : (w.shift d).shift (-d) = w := by funext x; simp [Valuation.shift]
      rw [this]; exact hw
    · intro v hv i hi
      obtain ⟨d, hd, h2⟩ := (hel v).1 ((m5 v).1 hv).2
      have := hgood.nonneg _ ((htm _).1 h2).2 i hi
      simp only [Valuation.shift] at this
      linarith

end SymRun
end LearnTA
