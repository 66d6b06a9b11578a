import Verif.Lemmas.ObservationTable7
import Verif.Lemmas.ZoneSample
import Verif.Props.Juxtaposed
import Verif.Props.TimedWord

/-!
# Lemmas about morphisms and the analysis of counterexamples
-/

namespace LearnTA
open TimedCondition

namespace TimedCondition
open Zone

/-! ### The condition of one word -/

theorem point_le {d : ℚ} {b : Bound} (h : Bound.Sat d b) : Bound.fin d true ≤ b := by
  cases b with
  | inf => exact Bound.le_inf _
  | fin c s =>
    rw [Bound.fin_le_fin]
    cases s with
    | true =>
      rcases lt_or_eq_of_le (by simpa using h : d ≤ c) with h | h
      · exact Or.inl h
      · exact Or.inr ⟨h, by simp⟩
    | false => exact Or.inl (by simpa using h)

theorem exactStep_spec (acc : List ℚ) {c : TimedCondition} (hdim : c.zone.dim = acc.length + 1)
    (hsat : c.zone.Sat (accExt acc)) {i j : ℕ} (hij : i ≤ j) (hj : j < acc.length) :
    ((exactStep acc i c j).zone.dim = acc.length + 1 ∧ (exactStep acc i c j).zone.Sat (accExt acc)) ∧
    (∀ p q, (exactStep acc i c j).zone.val p q ≤ c.zone.val p q) ∧
    (exactStep acc i c j).zone.val (i + 1) (c.eidx j) ≤ .fin (accExt acc (i + 1) - accExt acc (c.eidx j)) true ∧
    (exactStep acc i c j).zone.val (c.eidx j) (i + 1) ≤ .fin (accExt acc (c.eidx j) - accExt acc (i + 1)) true := by
  have hsz : c.size = acc.length := by unfold size; omega
  have hjs : j < c.size := by omega
  have he := eidx_lt hjs
  have hi : i + 1 < c.zone.dim := by omega
  set d := accExt acc (i + 1) - accExt acc (c.eidx j) with hd
  have hneg : accExt acc (c.eidx j) - accExt acc (i + 1) = -d := by rw [hd]; ring
  have hUs : (c.restrictUpper i j (.fin d true) false).zone.Sat (accExt acc) := by
    rw [restrictUpper_sat c hij hjs]; exact ⟨hsat, by simp [hd]⟩
  have key : exactStep acc i c j =
      (c.restrictUpper i j (.fin d true) false).restrictLower i j (.fin (-d) true) false := by
    have e1 : Bound.fin d true ≤ c.zone.val (i + 1) (c.eidx j) := point_le (hsat _ hi _ he)
    have e2 : Bound.fin (-d) true ≤ (c.restrictUpper i j (.fin d true) false).zone.val
        ((c.restrictUpper i j (.fin d true) false).eidx j) (i + 1) := by
      simp only [restrictUpper_eidx]
      refine point_le ?_
      rw [← hneg]; exact hUs _ (by simpa using he) _ (by simpa using hi)
    rw [← restrictUpper_force e1] at e2 ⊢
    rw [← restrictLower_force e2]
    unfold exactStep
    simp only
    rw [concreteDifference_eq acc hsz i hj, ← hd]
  rw [key]
  refine ⟨⟨by simpa using hdim, ?_⟩, ?_, ?_, ?_⟩
  · rw [restrictLower_sat _ hij (by simpa using hjs)]
    refine ⟨hUs, ?_⟩
    simp only [restrictUpper_eidx, hneg]; simp
  · intro p q; exact (restrictLower_le _ _ _ _ _ _).trans (restrictUpper_le _ _ _ _ _ _)
  · exact (restrictLower_le _ _ _ _ _ _).trans (restrictUpper_le_bound _ _ _ _)
  · have := restrictLower_le_bound (c.restrictUpper i j (.fin d true) false) i j (.fin (-d) true)
    rw [restrictUpper_eidx] at this
    rw [hneg]; exact this

theorem foldl_exactStep (acc : List ℚ) (l : List (ℕ × ℕ)) (hl : ∀ p ∈ l, p.1 ≤ p.2 ∧ p.2 < acc.length)
    {c : TimedCondition} (hdim : c.zone.dim = acc.length + 1) (hsat : c.zone.Sat (accExt acc)) :
    let c' := l.foldl (fun c p => exactStep acc p.1 c p.2) c
    (c'.zone.dim = acc.length + 1 ∧ c'.zone.Sat (accExt acc)) ∧ (∀ p q, c'.zone.val p q ≤ c.zone.val p q) ∧
    ∀ p ∈ l, c'.zone.val (p.1 + 1) (c.eidx p.2) ≤ .fin (accExt acc (p.1 + 1) - accExt acc (c.eidx p.2)) true ∧
      c'.zone.val (c.eidx p.2) (p.1 + 1) ≤ .fin (accExt acc (c.eidx p.2) - accExt acc (p.1 + 1)) true := by
  induction l generalizing c with
  | nil => exact ⟨⟨hdim, hsat⟩, fun _ _ => le_refl _, by simp⟩
  | cons a l ih =>
    obtain ⟨h1, h2, h3, h4⟩ := exactStep_spec acc hdim hsat (hl a (by simp)).1 (hl a (by simp)).2
    obtain ⟨g1, g2, g3⟩ := ih (fun p hp => hl p (by simp [hp])) h1.1 h1.2
    refine ⟨g1, fun p q => (g2 p q).trans (h2 p q), ?_⟩
    have ee : ∀ k, (exactStep acc a.1 c a.2).eidx k = c.eidx k := by
      intro k; unfold eidx size; rw [h1.1, hdim]
    intro p hp
    rcases List.mem_cons.1 hp with rfl | hp
    · exact ⟨(g2 _ _).trans h3, (g2 _ _).trans h4⟩
    · have := g3 p hp
      rwa [ee] at this

/-- `makeExact` admits exactly the given sums. -/
theorem makeExact_mem (acc : List ℚ) : (makeExact acc).zone.dim = acc.length + 1 ∧
    ∀ v : Valuation, (makeExact acc).zone.Mem v ↔ ∀ i < acc.length, v i = acc.getD i 0 := by
  have e : makeExact acc = (pairs acc.length).foldl (fun c p => exactStep acc p.1 c p.2)
      ⟨Zone.top (acc.length + 1)⟩ := foldl_pairs (fun c i j => exactStep acc i c j) _ _
  obtain ⟨⟨h1, h2⟩, _, h5⟩ := foldl_exactStep acc (pairs acc.length) (fun p hp => mem_pairs.1 hp)
    (c := ⟨Zone.top (acc.length + 1)⟩) rfl (by intro i _ j _; simp [Zone.top])
  rw [← e] at h1 h2 h5
  refine ⟨h1, fun v => ⟨fun h i hi => ?_, fun h => ?_⟩⟩
  · have := h5 (i, acc.length - 1) (mem_pairs.2 ⟨by simp; omega, by simp; omega⟩)
    have hsz : (TimedCondition.mk (Zone.top (acc.length + 1))).size = acc.length := rfl
    simp only [eidx, hsz, if_true] at this
    have a1 := (h (i + 1) (by omega) 0 (by omega)).mono this.1
    have a2 := (h 0 (by omega) (i + 1) (by omega)).mono this.2
    simp [accExt, ext_succ, ext_zero] at a1 a2
    simp only [List.getD_eq_getElem?_getD]
    linarith
  · intro i hi j hj
    have key : ∀ k < (makeExact acc).zone.dim, v.ext k = accExt acc k := by
      intro k hk
      cases k with
      | zero => rfl
      | succ k => exact h k (by omega)
    rw [key i hi, key j hj]
    exact h2 i hi j hj

end TimedCondition

/-! ### Sampling from zones that are open in their affine hull -/

namespace Zone

/-- Segments between two points can be prolonged. -/
def RelOpen (z : Zone) : Prop :=
  ∀ u u' : Valuation, z.Mem u → z.Mem u' → ∃ e : ℚ, 0 < e ∧ z.Mem fun i => u i + e * (u i - u' i)

theorem RelOpen.point {z : Zone} (h : z.RelOpen) (hne : ∃ v, z.Mem v) {i : ℕ} (hi : i + 1 < z.dim)
    (hs : secondOf (z.canonize.val 0 (i + 1)) = true) :
    Bound.isPoint (z.canonize.val (i + 1) 0) (z.canonize.val 0 (i + 1)) = true := by
  obtain ⟨v, hv⟩ := hne
  have hc := canonize_closed_of_mem hv
  have hd : z.canonize.DiagNN := ((canonize_mem z v).2 hv).diagNN
  cases hl : z.canonize.val 0 (i + 1) with
  | inf => rw [hl] at hs; simp [secondOf] at hs
  | fin c s =>
    rw [hl] at hs
    simp only [secondOf] at hs
    subst hs
    have low : ∀ u : Valuation, z.Mem u → -c ≤ u i := by
      intro u hu
      have := (canonize_mem z u).2 hu 0 (by simp; omega) (i + 1) (by simpa using hi)
      rw [hl] at this
      simp [ext_zero, ext_succ] at this
      linarith
    obtain ⟨u, hu, hle⟩ := realize_above _ hc hd (i := 0) (j := i + 1) (by simp; omega) (by simpa using hi) (by omega) c
      (by rw [hl]; simp)
    have hu := (canonize_mem z u).1 hu
    simp only [ext_zero, ext_succ] at hle
    have hui : u i = -c := by have := low u hu; linarith
    have const : ∀ u', z.Mem u' → u' i = -c := by
      intro u' hu'
      obtain ⟨e, he, hm⟩ := h u u' hu hu'
      have h1 := low _ hm
      have h2 := low _ hu'
      simp only [hui] at h1
      have : 0 ≤ e * (-c - u' i) := by linarith
      have := nonneg_of_mul_nonneg_right this he
      linarith
    have hup := (canonize_mem z u).2 hu (i + 1) (by simpa using hi) 0 (by simp; omega)
    simp only [ext_succ, ext_zero, sub_zero, hui] at hup
    have top : ∀ q, Bound.Sat q (z.canonize.val (i + 1) 0) → q ≤ -c := by
      intro q hq
      obtain ⟨u', hu', hle⟩ := realize_above _ hc hd (i := i + 1) (j := 0) (by simpa using hi) (by simp; omega)
        (by omega) q hq
      have := const u' ((canonize_mem z u').1 hu')
      simp only [ext_succ, ext_zero, sub_zero] at hle
      linarith
    cases hb : z.canonize.val (i + 1) 0 with
    | inf =>
      rw [hb] at top
      have := top (-c + 1) (by simp)
      linarith
    | fin a s =>
      rw [hb] at top hup
      cases s with
      | true =>
        have h1 := top a (by simp)
        simp at hup
        have : -c = a := le_antisymm hup h1
        simp [Bound.isPoint, this]
      | false =>
        simp at hup
        have := top ((-c + a) / 2) (by simp; linarith)
        linarith

theorem RelOpen.sample_mem {z : Zone} (h : z.RelOpen) (hne : ∃ v, z.Mem v)
    (hnn : ∀ v, z.Mem v → ∀ i, i + 1 < z.dim → 0 ≤ v i) :
    z.Mem (fun i => z.sample.getD i 0) ∧ z.sample.length = z.dim - 1 := by
  refine Zone.sample_mem z hne hnn fun i j _ hi hp hs => ?_
  rw [h.point hne hi hs] at hp
  exact absurd hp (by simp)

theorem exists_small {ι : Type} (l : List ι) (P : ι → ℚ → Prop)
    (h : ∀ a ∈ l, ∃ e : ℚ, 0 < e ∧ ∀ x, 0 < x → x ≤ e → P a x) : ∃ e : ℚ, 0 < e ∧ ∀ x, 0 < x → x ≤ e → ∀ a ∈ l, P a x := by
  induction l with
  | nil => exact ⟨1, by norm_num, by simp⟩
  | cons a l ih =>
    obtain ⟨e, he, h1⟩ := h a (by simp)
    obtain ⟨e', he', h2⟩ := ih fun b hb => h b (by simp [hb])
    refine ⟨min e e', lt_min he he', fun x hx hle b hb => ?_⟩
    rcases List.mem_cons.1 hb with rfl | hb
    · exact h1 x hx (hle.trans (min_le_left _ _))
    · exact h2 x hx (hle.trans (min_le_right _ _)) b hb

/-- In a region, all small prolongations stay inside. -/
theorem region_prolong {z : Zone} (hd : z.DiagNN) {u u' : Valuation} (hu : z.Mem u) (hu' : z.Mem u')
    (hr : ∀ v : Valuation, z.Mem v → z.IsRegion v.ext) :
    ∃ e : ℚ, 0 < e ∧ ∀ x, 0 < x → x ≤ e → z.Mem fun i => u i + x * (u i - u' i) := by
  have key : ∀ x (k : ℕ), (Valuation.ext fun i => u i + x * (u i - u' i)) k = u.ext k + x * (u.ext k - u'.ext k) := by
    intro x k
    cases k with
    | zero => simp [Valuation.ext]
    | succ k => rfl
  obtain ⟨e, he, h⟩ := exists_small (((List.range z.dim).flatMap fun i => (List.range z.dim).map fun j => (i, j)))
    (fun p x => Bound.Sat ((Valuation.ext fun i => u i + x * (u i - u' i)) p.1 -
      (Valuation.ext fun i => u i + x * (u i - u' i)) p.2) (z.val p.1 p.2)) (by
      rintro ⟨i, j⟩ hp
      simp only [List.mem_flatMap, List.mem_map, List.mem_range, Prod.mk.injEq, exists_eq_right_right] at hp
      obtain ⟨hi, hj⟩ := hp
      simp only [key]
      by_cases hij : i = j
      · subst hij
        exact ⟨1, by norm_num, fun x _ _ => by rw [sub_self]; exact Bound.sat_self_zero.2 (hd i hi)⟩
      have e1 := hr u hu i hi j hj hij
      have e2 := hr u' hu' i hi j hj hij
      have s1 := hu i hi j hj
      have s2 := hu' i hi j hj
      rcases Bound.cases_int (u.ext i - u.ext j) with ⟨n, hn⟩ | ⟨n, g1, g2⟩
      · refine ⟨1, by norm_num, fun x _ _ => ?_⟩
        have : u'.ext i - u'.ext j = n := by
          rw [e1, Bound.reg_of_int hn] at e2
          rcases Bound.cases_int (u'.ext i - u'.ext j) with ⟨m, hm⟩ | ⟨m, k1, k2⟩
          · rw [Bound.reg_of_int hm] at e2
            simp only [Bound.fin.injEq, and_true] at e2
            rw [hm, e2]
          · rw [Bound.reg_of_between k1 k2] at e2; simp at e2
        have e3 : u.ext i + x * (u.ext i - u'.ext i) - (u.ext j + x * (u.ext j - u'.ext j)) = u.ext i - u.ext j := by
          have : u.ext i - u'.ext i - (u.ext j - u'.ext j) = 0 := by linarith
          have : x * (u.ext i - u'.ext i - (u.ext j - u'.ext j)) = 0 := by rw [this, mul_zero]
          linarith
        rw [e3]; exact s1
      · rw [e1, Bound.reg_of_between g1 g2] at s1 ⊢
        simp at s1 ⊢
        set D := u.ext i - u'.ext i - (u.ext j - u'.ext j) with hD
        set G := (n : ℚ) + 1 - (u.ext i - u.ext j) with hG
        have hG0 : 0 < G := by rw [hG]; linarith
        have hpos : 0 < |D| + 1 := by positivity
        refine ⟨G / (2 * (|D| + 1)), by positivity, fun x hx hle => ?_⟩
        have h1 : x * D ≤ x * |D| := mul_le_mul_of_nonneg_left (le_abs_self D) hx.le
        have h2 : x * |D| ≤ x * (|D| + 1) := mul_le_mul_of_nonneg_left (by linarith) hx.le
        have h3 : x * (|D| + 1) ≤ G / (2 * (|D| + 1)) * (|D| + 1) := mul_le_mul_of_nonneg_right hle hpos.le
        have h4 : G / (2 * (|D| + 1)) * (|D| + 1) = G / 2 := by field_simp
        have : u.ext i + x * (u.ext i - u'.ext i) - (u.ext j + x * (u.ext j - u'.ext j)) =
            u.ext i - u.ext j + x * D := by rw [hD]; ring
        linarith)
  refine ⟨e, he, fun x hx hle i hi j hj => ?_⟩
  exact h x hx hle (i, j) (by simp [hi, hj])

end Zone

/-! ### Morphisms -/

open Zone in
theorem accumulate_getD (w : TimedWord) {i : ℕ} (hi : i < w.durations.length) :
    w.accumulatedDurations.getD i 0 = w.clocks i := by
  rw [List.getD_eq_getElem?_getD, (Props.C20_accumulated w i hi).2]; rfl

/-- A morphism between regions, with a related word for every word of the domain. -/
structure SingleMorphism.Total (m : SingleMorphism) : Prop where
  left : m.domain.Proper
  leftNN : m.domain.Nonneg
  right : m.codomain.Proper
  rightNN : m.codomain.Nonneg
  simple : m.codomain.cond.Simple
  observable : ∀ a ∈ m.codomain.word, a ≠ unobservable
  inRange : m.rel.InRange m.domain m.codomain
  related : ∀ w, m.domain.Mem w → ∃ w', m.codomain.Mem w' ∧ m.rel.Relates w w'

namespace SingleMorphism
open Zone JuxtaposedZone

variable {m : SingleMorphism}

/-- The zone that `maps` samples. -/
def jointZone (m : SingleMorphism) (w : TimedWord) : Zone :=
  ((JuxtaposedZone.make (TimedCondition.makeExact w.accumulatedDurations).zone m.codomain.cond.zone).addRenaming
    m.rel).zone

theorem jointZone_spec (h : m.Total) {w : TimedWord} (hw : m.domain.Mem w) :
    (m.jointZone w).dim = w.durations.length + m.codomain.cond.size + 1 ∧ ∀ v : Valuation, (m.jointZone w).Mem v ↔
      (∀ i < w.durations.length, v i = w.clocks i) ∧
      m.codomain.cond.zone.Mem (fun k => v (w.durations.length + k)) ∧
      ∀ p ∈ m.rel, v p.1 = v (w.durations.length + p.2) := by
  obtain ⟨e1, e2⟩ := makeExact_mem w.accumulatedDurations
  have hlen : w.accumulatedDurations.length = w.durations.length := TimedWord.accumulate_length _
  have hr2 := h.right.canonical.1
  have hdim : m.codomain.cond.zone.dim = m.codomain.cond.size + 1 := by unfold TimedCondition.size; omega
  have hin : ∀ p ∈ m.rel, p.1 + 1 < (makeExact w.accumulatedDurations).zone.dim ∧ p.2 + 1 < m.codomain.cond.zone.dim := by
    intro p hp
    have := h.inRange p hp
    have a1 : m.domain.word.length + 1 = m.domain.cond.size := h.left.wf
    have a2 : m.codomain.word.length + 1 = m.codomain.cond.size := h.right.wf
    have a3 := hw.2.1
    rw [e1, hlen, hdim]; omega
  constructor
  · unfold jointZone
    rw [addRenaming_dim, make_dim, e1, hlen, hdim]; simp
  · intro v
    unfold jointZone
    rw [Props.C45_renaming_exact _ _ (by omega) (h.right.canonical.diagNN 0 (by omega)) m.rel hin, e2, e1, hlen]
    simp only [Nat.add_sub_cancel]
    refine and_congr_left fun _ => forall₂_congr fun i hi => ?_
    rw [accumulate_getD w hi]

theorem jointZone_relOpen (h : m.Total) {w : TimedWord} (hw : m.domain.Mem w) : (m.jointZone w).RelOpen := by
  intro u u' hu hu'
  obtain ⟨_, hm⟩ := jointZone_spec h hw
  obtain ⟨a1, a2, a3⟩ := (hm u).1 hu
  obtain ⟨b1, b2, b3⟩ := (hm u').1 hu'
  obtain ⟨e, he, h1⟩ := region_prolong h.right.canonical.diagNN a2 b2
    (fun v hv => h.simple.isRegion h.right.canonical.1 hv)
  refine ⟨e, he, (hm _).2 ⟨fun i hi => ?_, h1 e he (le_refl _), fun p hp => ?_⟩⟩
  · rw [a1 i hi, b1 i hi]; ring
  · rw [a3 p hp, b3 p hp]

theorem list_sum_nonneg {l : List ℚ} (h : ∀ q ∈ l, 0 ≤ q) : 0 ≤ l.sum := by
  induction l with
  | nil => simp
  | cons a l ih => rw [List.sum_cons]; exact add_nonneg (h a (by simp)) (ih fun q hq => h q (by simp [hq]))

theorem sum_nonneg_drop {w : TimedWord} (h : w.Nonneg) (i : ℕ) : 0 ≤ w.clocks i :=
  list_sum_nonneg fun q hq => h q (List.mem_of_mem_drop hq)

/-- Every word of the domain is mapped to a related word of the codomain. -/
theorem maps_ok (h : m.Total) {w : TimedWord} (hw : m.domain.Mem w) :
    ∃ w', m.maps w = some w' ∧ m.codomain.Mem w' ∧ m.rel.Relates w w' := by
  obtain ⟨hdim, hm⟩ := jointZone_spec h hw
  set n := w.durations.length with hn
  have hwf1 : m.domain.word.length + 1 = m.domain.cond.size := h.left.wf
  have hwf2 : m.codomain.word.length + 1 = m.codomain.cond.size := h.right.wf
  have hlen : n = m.domain.cond.size := hw.2.1
  have hne : ∃ v, (m.jointZone w).Mem v := by
    obtain ⟨w', g1, g2⟩ := h.related w hw
    refine ⟨fun i => if i < n then w.clocks i else w'.clocks (i - n), (hm _).2 ⟨?_, ?_, ?_⟩⟩
    · intro i hi; simp [hi]
    · simpa using (Equivalence.zone_of_mem h.right g1).2
    · intro p hp
      have := h.inRange p hp
      rw [if_pos (by omega), if_neg (by omega), Nat.add_sub_cancel_left]
      exact g2 p hp
  have hnn : ∀ v, (m.jointZone w).Mem v → ∀ i, i + 1 < (m.jointZone w).dim → 0 ≤ v i := by
    intro v hv i hi
    obtain ⟨a1, a2, _⟩ := (hm v).1 hv
    by_cases hi' : i < n
    · rw [a1 i hi']; exact sum_nonneg_drop (h.leftNN w hw) i
    · have hk : i - n < m.codomain.cond.size := by omega
      have := sum_nonneg_drop (h.rightNN _ (Equivalence.mem_of_zone h.right a2)) (i - n)
      rw [Equivalence.clocks_delays _ hk] at this
      rwa [show n + (i - n) = i by omega] at this
  have hcd : (m.jointZone w).canonize.dim = (m.jointZone w).dim := by simp
  have hco : (m.jointZone w).canonize.RelOpen := by
    intro u u' hu hu'
    simp only [canonize_mem] at hu hu' ⊢
    exact jointZone_relOpen h hw u u' hu hu'
  obtain ⟨s1, s2⟩ := hco.sample_mem (by simpa only [canonize_mem] using hne) (by
    intro v hv i hi
    rw [canonize_mem] at hv
    exact hnn v hv i (by rwa [hcd] at hi))
  rw [canonize_mem] at s1
  rw [hcd, hdim] at s2
  set values := (m.jointZone w).canonize.sample with hval
  obtain ⟨b1, b2, b3⟩ := (hm _).1 s1
  have hD : mapDurations values m.domain.word.length m.codomain.word.length =
      delays (fun k => values.getD (n + k) 0) m.codomain.cond.size := by
    unfold mapDurations delays
    rw [← hwf2]
    refine List.map_congr_left fun i hi => ?_
    rw [List.mem_range] at hi
    by_cases hic : i = m.codomain.word.length
    · rw [if_pos hic, if_neg (by omega), List.getLastD_eq_getLast?, List.getLast?_eq_getElem?, s2]
      show _ = values.getD _ _
      rw [List.getD_eq_getElem?_getD]
      congr 2; omega
    · rw [if_neg hic, if_pos (by omega)]
      congr 2 <;> omega
  have hmem := Equivalence.mem_of_zone h.right b2
  have hmake : TimedWord.make m.codomain.word (delays (fun k => values.getD (n + k) 0) m.codomain.cond.size) =
      ⟨m.codomain.word, delays (fun k => values.getD (n + k) 0) m.codomain.cond.size⟩ :=
    TimedWord.make_observable (u := ⟨m.codomain.word, _⟩) (by show List.length _ = _; simp; exact hwf2.symm) h.observable
  refine ⟨_, ?_, hmem, ?_⟩
  · unfold maps
    have c1 : m.inDomain w = true := by
      refine (Props.C21_contains_exact m.domain h.left.wf h.left.canonical.diagNN w ?_).2 hw
      show n = w.word.length + 1
      rw [hw.1, hwf1, hlen]
    have c2 : (m.jointZone w).canonize.isSatisfiableNoCanonize = true := by
      obtain ⟨v, hv⟩ := hne
      rw [isSatisfiableNoCanonize_iff]
      intro a ha b hb
      exact sat_pair_nonneg ((canonize_mem _ _).2 hv) ha hb
    show (if m.inDomain w && (m.jointZone w).canonize.isSatisfiableNoCanonize then
      some (TimedWord.make m.codomain.word (mapDurations values _ _)) else none) = _
    rw [c1, c2, hD, hmake]; rfl
  · intro p hp
    have hp2 := h.inRange p hp
    show w.clocks p.1 = TimedWord.clocks ⟨m.codomain.word, _⟩ p.2
    rw [Equivalence.clocks_delays _ (by omega), ← b1 p.1 (by omega)]
    exact b3 p hp

end SingleMorphism
end LearnTA
