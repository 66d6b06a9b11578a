import Verif.Lemmas.Candidates
import Verif.Props.Juxtaposed
import Mathlib.Tactic.IntervalCases

/-!
# Properties C48 (updates made of renaming relations) and C63 (search for a renaming)
-/

namespace LearnTA.Props
open LearnTA TimedCondition JuxtaposedZone

/-! ## C48 -/

/-- C48: `toValuation` returns the clocks of some word of the language, if all clocks are bounded. -/
theorem C48_toValuation (e : ElementaryLanguage) (he : e.Proper)
    (hb : ∀ i < e.cond.size, e.cond.upper i (e.cond.size - 1) ≠ .inf ∧ e.cond.lower i (e.cond.size - 1) ≠ .inf) :
    ∃ vals w, RenamingRelation.toValuation e.cond = some vals ∧ e.Mem w ∧ vals.length = e.word.length + 1 ∧
      ∀ x ≤ e.word.length, vals.getD x 0 = w.clocks x := by
  obtain ⟨vals, h1, h2, h3⟩ := RenamingRelation.toValuation_mem he.canonical hb
  have hw : e.word.length + 1 = e.cond.size := he.wf
  refine ⟨vals, _, h1, Equivalence.mem_of_zone he h3, by omega, fun x hx => ?_⟩
  rw [Equivalence.clocks_delays _ (by omega)]

theorem fixed_iff {e : ElementaryLanguage} (he : e.Proper) (hs : e.cond.Simple) {x : ℕ} (hx : x < e.cond.size) :
    e.cond.pointAt x = true ↔ e.Fixed x := by
  constructor
  · intro h w w' hw hw'
    exact Equivalence.point_value hx he.canonical.1 h (Equivalence.zone_of_mem he hw).2
      (Equivalence.zone_of_mem he hw').2
  · intro h
    by_contra hp
    obtain ⟨n, hn⟩ := hs x (e.cond.size - 1) (by omega) (by omega)
    rcases hn with ⟨h1, h2⟩ | ⟨h1, h2⟩
    · apply hp; unfold pointAt; rw [h1, h2]; simp [Bound.isPoint]
    · obtain ⟨v, hv, e1⟩ := RenamingRelation.pick he.canonical hx (t := n + 1 / 2)
        (by rw [h1]; simp; norm_num) (by rw [h2]; simp)
      obtain ⟨v', hv', e2⟩ := RenamingRelation.pick he.canonical hx (t := n + 1 / 3)
        (by rw [h1]; simp; norm_num) (by rw [h2]; simp)
      have := h _ _ (Equivalence.mem_of_zone he hv) (Equivalence.mem_of_zone he hv')
      rw [Equivalence.clocks_delays _ hx, Equivalence.clocks_delays _ hx, e1, e2] at this
      norm_num at this

/-- C48: `toReset` of a right-unique relation to a simple target never fails, and its updates give a clock that
is fixed in the target its value there, another clock `x` related to the clock `i` the value of `i`, and the
remaining clocks of the target their value in one and the same word of the target; other clocks are left as they
are. -/
theorem C48_toReset (target : ElementaryLanguage) (ht : target.Proper) (hs : target.cond.Simple)
    (r : RenamingRelation) (hu : r.RightUnique) (hr : ∀ p ∈ r, p.2 ≤ target.word.length) :
    ∃ U u, r.toReset target.cond = some U ∧ target.Mem u ∧ ∀ v : Valuation,
      (∀ x ≤ target.word.length, target.Fixed x → U.apply v x = u.clocks x) ∧
      (∀ p ∈ r, ¬ target.Fixed p.2 → U.apply v p.2 = v p.1) ∧
      (∀ x ≤ target.word.length, (∀ p ∈ r, p.2 ≠ x) → U.apply v x = u.clocks x) ∧
      (∀ x, target.word.length < x → U.apply v x = v x) := by
  have hw : target.word.length + 1 = target.cond.size := ht.wf
  obtain ⟨U, V, h1, h2, h3⟩ := RenamingRelation.toReset_apply ht.canonical hs
    ((RenamingRelation.rightUnique_iff r).1 hu) (fun p hp => by have := hr p hp; omega)
  refine ⟨U, _, h1, Equivalence.mem_of_zone ht h2, fun v => ?_⟩
  obtain ⟨a1, a2, a3, a4⟩ := h3 v
  refine ⟨fun x hx hf => ?_, fun p hp hf => ?_, fun x hx hf => ?_, fun x hx => a4 x (by omega)⟩
  · rw [Equivalence.clocks_delays _ (by omega)]
    exact a1 x (by omega) ((fixed_iff ht hs (by omega)).2 hf)
  · refine a2 p hp ?_
    rw [← fixed_iff ht hs (by have := hr p hp; omega)] at hf
    simpa using hf
  · rw [Equivalence.clocks_delays _ (by omega)]
    exact a3 x (by omega) hf

/-- C48: `impreciseClocks` are the clocks of the target that are neither fixed nor related, if there are related
clocks and some of them is not fixed; otherwise there are none. -/
theorem C48_impreciseClocks (target : ElementaryLanguage) (ht : target.Proper) (hs : target.cond.Simple)
    (r : RenamingRelation) (hr : ∀ p ∈ r, p.2 ≤ target.word.length) (x : ℕ) :
    x ∈ r.impreciseClocks target.cond ↔ (∃ p ∈ r, ¬ target.Fixed p.2) ∧ x ≤ target.word.length ∧ ¬ target.Fixed x ∧
      ∀ p ∈ r, p.2 ≠ x := by
  have hw : target.word.length + 1 = target.cond.size := ht.wf
  have hr' : ∀ p ∈ r, p.2 < target.cond.size := fun p hp => by have := hr p hp; omega
  have hfull := RenamingRelation.full_iff r target.cond hr'
  have htriv : r.onlyTrivial target.cond = true ↔ ∀ p ∈ r, target.Fixed p.2 := by
    unfold RenamingRelation.onlyTrivial
    rw [List.all_eq_true]
    exact forall₂_congr fun p hp => fixed_iff ht hs (hr' p hp)
  have hmem : ∀ y, y ∈ (List.range target.cond.size).filter (fun x => !target.cond.pointAt x &&
      !r.any fun p => p.2 == x) ↔ y ≤ target.word.length ∧ ¬ target.Fixed y ∧ ∀ p ∈ r, p.2 ≠ y := by
    intro y
    simp only [List.mem_filter, List.mem_range, Bool.and_eq_true, Bool.not_eq_true', List.any_eq_false, beq_iff_eq]
    rw [← hw, Nat.lt_succ_iff]
    refine and_congr_right fun hy => and_congr_left fun _ => ?_
    rw [← fixed_iff ht hs (by omega)]
    simp
  unfold RenamingRelation.impreciseClocks
  split
  · rename_i h
    unfold RenamingRelation.hasImpreciseClocks at h
    simp only [Bool.and_eq_true, Bool.not_eq_true'] at h
    rw [hmem]
    have : ∃ p ∈ r, ¬ target.Fixed p.2 := by
      by_contra hcon
      push Not at hcon
      rw [htriv.2 hcon] at h
      simp at h
    tauto
  · rename_i h
    simp only [List.not_mem_nil, false_iff]
    rintro ⟨⟨p, hp, hf⟩, h1, h2, h3⟩
    apply h
    unfold RenamingRelation.hasImpreciseClocks
    simp only [Bool.and_eq_true, Bool.not_eq_true']
    refine ⟨⟨?_, ?_⟩, ?_⟩
    · cases r with
      | nil => simp at hp
      | cons => rfl
    · rw [Bool.eq_false_iff, Ne, hfull]
      intro hall
      rcases hall x (by omega) with hc | ⟨q, hq, e⟩
      · exact h2 ((fixed_iff ht hs (by omega)).1 hc)
      · exact h3 q hq e
    · rw [Bool.eq_false_iff, Ne, htriv]
      intro hall; exact hf (hall p hp)

/-- A fixed clock has the value of its bounds. -/
theorem point_clock {e : ElementaryLanguage} (he : e.Proper) {x : ℕ} (hx : x < e.cond.size) (h : e.cond.pointAt x = true) :
    ∃ a : ℚ, e.cond.upper x (e.cond.size - 1) = .fin a true ∧ e.cond.lower x (e.cond.size - 1) = .fin (-a) true ∧
      ∀ w, e.Mem w → w.clocks x = a := by
  have hp := h
  unfold pointAt at h
  cases hu : e.cond.upper x (e.cond.size - 1) with
  | inf => rw [hu] at h; simp [Bound.isPoint] at h
  | fin a s =>
    cases hl : e.cond.lower x (e.cond.size - 1) with
    | inf => rw [hu, hl] at h; simp [Bound.isPoint] at h
    | fin b s' =>
      rw [hu, hl] at h
      simp only [Bound.isPoint, Bool.and_eq_true, decide_eq_true_eq] at h
      obtain ⟨⟨h1, rfl⟩, rfl⟩ := h
      have hb : b = -a := by linarith
      subst hb
      refine ⟨a, rfl, rfl, fun w hw => ?_⟩
      obtain ⟨v, hv, e1⟩ := RenamingRelation.pick he.canonical hx (t := a) (by rw [hu]; simp) (by rw [hl]; simp)
      rw [Equivalence.point_value hx he.canonical.1 hp (Equivalence.zone_of_mem he hw).2 hv, e1]

/-- C48: `containsAllTrivial` tells whether the relation has an entry for every clock of the target that has the same value as
some clock of the source in all words of both. -/
theorem C48_containsAllTrivial (source target : ElementaryLanguage) (hsp : source.Proper) (hss : source.cond.Simple)
    (ht : target.Proper) (hts : target.cond.Simple) (hsn : ∃ w, source.Mem w) (htn : ∃ w, target.Mem w) (r : RenamingRelation) :
    r.containsAllTrivial source.cond target.cond = true ↔ ∀ s ≤ source.word.length, ∀ t ≤ target.word.length,
      (∀ w w', source.Mem w → target.Mem w' → w.clocks s = w'.clocks t) → ∃ p ∈ r, p.2 = t := by
  have hw1 : source.word.length + 1 = source.cond.size := hsp.wf
  have hw2 : target.word.length + 1 = target.cond.size := ht.wf
  obtain ⟨w0, hw0⟩ := hsn
  obtain ⟨w0', hw0'⟩ := htn
  have hany : ∀ t, (r.any fun p => p.2 == t) = true ↔ ∃ p ∈ r, p.2 = t := by
    intro t; rw [List.any_eq_true]; simp
  have hboth : ∀ s < source.cond.size, ∀ t < target.cond.size,
      (∀ w w', source.Mem w → target.Mem w' → w.clocks s = w'.clocks t) ↔
        target.cond.pointAt t = true ∧ source.cond.pointAt s = true ∧
          source.cond.upper s (source.cond.size - 1) = target.cond.upper t (target.cond.size - 1) ∧
          source.cond.lower s (source.cond.size - 1) = target.cond.lower t (target.cond.size - 1) := by
    intro s hs t ht'
    constructor
    · intro h
      have p1 : target.cond.pointAt t = true := (fixed_iff ht hts ht').2 fun w w' hw hw' =>
        (h w0 w hw0 hw).symm.trans (h w0 w' hw0 hw')
      have p2 : source.cond.pointAt s = true := (fixed_iff hsp hss hs).2 fun w w' hw hw' =>
        (h w w0' hw hw0').trans (h w' w0' hw' hw0').symm
      obtain ⟨a, u1, l1, v1⟩ := point_clock ht ht' p1
      obtain ⟨b, u2, l2, v2⟩ := point_clock hsp hs p2
      have : b = a := by rw [← v2 w0 hw0, ← v1 w0' hw0']; exact h _ _ hw0 hw0'
      subst this
      exact ⟨p1, p2, u2.trans u1.symm, l2.trans l1.symm⟩
    · rintro ⟨p1, p2, hu, _⟩ w w' hw hw'
      obtain ⟨a, u1, l1, v1⟩ := point_clock ht ht' p1
      obtain ⟨b, u2, l2, v2⟩ := point_clock hsp hs p2
      rw [u1, u2] at hu
      simp only [Bound.fin.injEq, and_true] at hu
      rw [v1 w' hw', v2 w hw, hu]
  unfold RenamingRelation.containsAllTrivial
  rw [List.all_eq_true]
  simp only [List.mem_range]
  constructor
  · intro h s hs t ht' heq
    obtain ⟨p1, p2, hu, hl⟩ := (hboth s (by omega) t (by omega)).1 heq
    have := h t (by omega)
    rw [if_pos (show Bound.isPoint _ _ = true from p1), if_pos, hany] at this
    · exact this
    · rw [List.any_eq_true]
      exact ⟨s, by simp; omega, by simp only [Bool.and_eq_true, decide_eq_true_eq]; exact ⟨⟨p2, hu⟩, hl⟩⟩
  · intro h t ht'
    split
    · rename_i p1
      split
      · rename_i p2
        rw [List.any_eq_true] at p2
        obtain ⟨s, hs, p2⟩ := p2
        simp only [Bool.and_eq_true, decide_eq_true_eq] at p2
        rw [List.mem_range] at hs
        exact (hany t).2 (h s (by omega) t (by omega) ((hboth s hs t ht').2 ⟨p1, p2.1.1, p2.1.2, p2.2⟩))
      · rfl
    · rfl

/-- C48: the clocks that are not reported imprecise (when some clock is) are correct: after the updates they have
the value of *every* word of the target that the relation relates to the word before. -/
theorem C48_precise_clocks (source target : ElementaryLanguage) (hsp : source.Proper) (ht : target.Proper)
    (hs : target.cond.Simple) (r : RenamingRelation) (hu : r.RightUnique) (hr : r.InRange source target)
    (hi : r.impreciseClocks target.cond ≠ []) :
    ∃ U, r.toReset target.cond = some U ∧ ∀ w u, source.Mem w → target.Mem u → r.Relates w u →
      ∀ x ≤ target.word.length, x ∉ r.impreciseClocks target.cond → U.apply w.clocks x = u.clocks x := by
  obtain ⟨U, u0, h1, h2, h3⟩ := C48_toReset target ht hs r hu (fun p hp => (hr p hp).2)
  refine ⟨U, h1, fun w u hw hu' hrel x hx hni => ?_⟩
  obtain ⟨a1, a2, a3, _⟩ := h3 w.clocks
  obtain ⟨y, hy⟩ := List.exists_mem_of_ne_nil _ hi
  have hy := (C48_impreciseClocks target ht hs r (fun p hp => (hr p hp).2) y).1 hy
  rw [C48_impreciseClocks target ht hs r (fun p hp => (hr p hp).2)] at hni
  by_cases hf : target.Fixed x
  · rw [a1 x hx hf]; exact hf _ _ h2 hu'
  · have : ∃ p ∈ r, p.2 = x := by
      by_contra hcon
      push Not at hcon
      exact hni ⟨hy.1, hx, hf, hcon⟩
    obtain ⟨p, hp, rfl⟩ := this
    rw [a2 p hp hf]
    exact hrel p hp

/-- C48: if `hasImpreciseClocks` is false and some words are related, then the updates lead from the clocks of
*every* word of the (simple) source to the clocks of a word of the target that is related to it. -/
theorem C48_precise (source target : ElementaryLanguage) (hsp : source.Proper) (hss : source.cond.Simple)
    (ht : target.Proper) (hs : target.cond.Simple) (r : RenamingRelation) (hu : r.RightUnique)
    (hr : r.InRange source target) (hi : r.hasImpreciseClocks target.cond = false)
    (hex : ∃ w u, source.Mem w ∧ target.Mem u ∧ r.Relates w u) :
    ∃ U, r.toReset target.cond = some U ∧ ∀ w, source.Mem w → ∃ u, target.Mem u ∧ r.Relates w u ∧
      ∀ x ≤ target.word.length, U.apply w.clocks x = u.clocks x := by
  have hw : target.word.length + 1 = target.cond.size := ht.wf
  have hws : source.word.length + 1 = source.cond.size := hsp.wf
  have hu' := (RenamingRelation.rightUnique_iff r).1 hu
  have hr' : ∀ p ∈ r, p.2 < target.cond.size := fun p hp => by have := hr p hp; omega
  by_cases hf : ∀ x < target.cond.size, target.cond.pointAt x = true ∨ ∃ p ∈ r, p.2 = x
  · obtain ⟨U, h1, h2⟩ := Equivalence.reset_related hsp hss ht hs hr hu' (Or.inr hf) hex
    refine ⟨U, h1, fun w hw' => ?_⟩
    obtain ⟨u, g1, g2, g3⟩ := h2 w hw'
    exact ⟨u, g1, g2, fun x hx => g3 x (by omega)⟩
  · -- only trivial (or empty): every clock is set to the constant
    have htriv : ∀ p ∈ r, target.cond.pointAt p.2 = true := by
      unfold RenamingRelation.hasImpreciseClocks at hi
      rw [← RenamingRelation.full_iff r _ hr'] at hf
      simp only [Bool.and_eq_false_iff, Bool.not_eq_false'] at hi
      rcases hi with (hi | hi) | hi
      · have : r = [] := by simpa using hi
        subst this; intro p hp; simp at hp
      · exact absurd hi hf
      · unfold RenamingRelation.onlyTrivial at hi
        rw [List.all_eq_true] at hi; exact hi
    obtain ⟨U, V, h1, h2, h3⟩ := RenamingRelation.toReset_apply ht.canonical hs hu' hr'
    refine ⟨U, h1, fun w hw' => ?_⟩
    obtain ⟨a1, a2, a3, a4⟩ := h3 w.clocks
    have hall : ∀ x < target.cond.size, U.apply w.clocks x = V x := by
      intro x hx
      by_cases hp : target.cond.pointAt x = true
      · exact a1 x hx hp
      · refine a3 x hx ?_
        rintro p hpr rfl
        exact hp (htriv p hpr)
    refine ⟨_, Equivalence.mem_of_zone ht h2, ?_, fun x hx => ?_⟩
    · intro p hp
      have hpx := hr' p hp
      show w.clocks p.1 = TimedWord.clocks ⟨target.word, _⟩ p.2
      rw [Equivalence.clocks_delays _ hpx]
      obtain ⟨w0, u0, b1, b2, b3⟩ := hex
      have c1 := (Equivalence.zone_of_mem hsp b1).2
      have c2 := (Equivalence.zone_of_mem ht b2).2
      have c0 := (Equivalence.zone_of_mem hsp hw').2
      have hpl : p.1 < source.cond.size := by have := hr p hp; omega
      have e1 := (hs.pointAt_iff ht.canonical.1 c2 hpx).1 (htriv p hp)
      have hrel : w0.clocks p.1 = u0.clocks p.2 := b3 p hp
      have hi1 : source.cond.pointAt p.1 = true := by
        rw [hss.pointAt_iff hsp.canonical.1 c1 hpl, hrel]; exact e1
      rw [Equivalence.point_value hpl hsp.canonical.1 hi1 c0 c1,
        Equivalence.point_value hpx ht.canonical.1 (htriv p hp) h2 c2, hrel]
    · rw [Equivalence.clocks_delays _ (by omega)]
      exact hall x (by omega)

/-- C48: `addImplicitConstraints` makes the relation right-unique and, if it is satisfiable, keeps exactly the
related pairs of words (for a simple source and a right-unique relation or not). -/
theorem C48_addImplicitConstraints (source target : ElementaryLanguage) (hsp : source.Proper)
    (hss : source.cond.Simple) (ht : target.Proper) (r : RenamingRelation) (hr : r.InRange source target)
    (hex : ∃ w u, source.Mem w ∧ target.Mem u ∧ r.Relates w u) :
    let r' := r.addImplicitConstraints (make source.cond.zone target.cond.zone)
    r'.RightUnique ∧ r'.InRange source target ∧
      (∀ w u, source.Mem w → target.Mem u → (r'.Relates w u ↔ r.Relates w u)) ∧
      ∀ i j, i ≤ source.word.length → j ≤ target.word.length →
        (∀ w u, source.Mem w → target.Mem u → r.Relates w u → w.clocks i = u.clocks j) → ∃ p ∈ r', p.2 = j := by
  intro r'
  have hw : target.word.length + 1 = target.cond.size := ht.wf
  have hws : source.word.length + 1 = source.cond.size := hsp.wf
  have d1 := Equivalence.dim_eq hsp.canonical
  have d2 := Equivalence.dim_eq ht.canonical
  have hrz : ∀ p ∈ r, p.1 + 1 < source.cond.zone.dim ∧ p.2 + 1 < target.cond.zone.dim := by
    intro p hp; have := hr p hp; omega
  have h0 : 0 ≤ target.cond.zone.val 0 0 := ht.canonical.diagNN 0 (by omega)
  have hl1 : 1 ≤ source.cond.zone.dim := by omega
  have hexact := C45_renaming_exact source.cond.zone target.cond.zone hl1 h0 r hrz
  -- pairs of words as valuations
  have hjoin : ∀ w u, source.Mem w → target.Mem u → r.Relates w u → ∃ v, ((make source.cond.zone
      target.cond.zone).addRenaming r).zone.Mem v ∧ (∀ i < source.cond.size, v i = w.clocks i) ∧
      ∀ j < target.cond.size, v (source.cond.zone.dim - 1 + j) = u.clocks j := by
    intro w u hwm hum hrel
    refine ⟨fun i => if i < source.cond.zone.dim - 1 then w.clocks i else u.clocks (i - (source.cond.zone.dim - 1)),
      ?_, ?_, ?_⟩
    · rw [hexact]
      refine ⟨(Equivalence.zone_of_mem hsp hwm).2.congr fun i hi => ?_,
        (Equivalence.zone_of_mem ht hum).2.congr fun i hi => ?_, fun p hp => ?_⟩
      · cases i with
        | zero => rfl
        | succ i => simp only [Valuation.ext]; rw [if_pos (by omega)]
      · cases i with
        | zero => rfl
        | succ i => simp only [Valuation.ext]; rw [if_neg (by omega)]; congr 1; omega
      · have := hrz p hp
        rw [if_pos (by omega), if_neg (by omega)]
        have e := hrel p hp
        rw [show source.cond.zone.dim - 1 + p.2 - (source.cond.zone.dim - 1) = p.2 by omega]
        exact e
    · intro i hi; simp only; rw [if_pos (by omega)]
    · intro j hj; simp only; rw [if_neg (by omega)]; congr 1; omega
  have hne : ∃ v, ((make source.cond.zone target.cond.zone).addRenaming r).zone.Mem v := by
    obtain ⟨w, u, h1, h2, h3⟩ := hex
    obtain ⟨v, hv, _⟩ := hjoin w u h1 h2 h3
    exact ⟨v, hv⟩
  have himp := C45_implied_equalities source.cond.zone target.cond.zone hl1 r hrz hne
  have hmem : ∀ p ∈ r', p.1 ≤ source.word.length ∧ p.2 ≤ target.word.length ∧
      ∀ w u, source.Mem w → target.Mem u → r.Relates w u → w.clocks p.1 = u.clocks p.2 := by
    intro p hp
    rcases RenamingRelation.addImplicit_mem hp with h | h
    · exact ⟨(hr p h).1, (hr p h).2, fun w u _ _ hrel => hrel p h⟩
    · obtain ⟨g1, g2, g3⟩ := (himp p).1 h
      refine ⟨by omega, by omega, fun w u hwm hum hrel => ?_⟩
      obtain ⟨v, hv, b1, b2⟩ := hjoin w u hwm hum hrel
      rw [← b1 p.1 (by omega), ← b2 p.2 (by omega)]
      exact g3 v hv
  refine ⟨(RenamingRelation.rightUnique_iff _).2 (RenamingRelation.addImplicit_unique _ _),
    fun p hp => ⟨(hmem p hp).1, (hmem p hp).2.1⟩, fun w u hwm hum => ⟨fun hrel p hp => ?_, fun hrel p hp => ?_⟩, ?_⟩
  · obtain ⟨q, hq, e⟩ := RenamingRelation.addImplicit_covers r (make source.cond.zone target.cond.zone) (Or.inl hp)
    obtain ⟨w0, u0, b1, b2, b3⟩ := hex
    have e1 : w0.clocks q.1 = u0.clocks q.2 := (hmem q hq).2.2 w0 u0 b1 b2 b3
    have e2 : w0.clocks p.1 = u0.clocks p.2 := b3 p hp
    have e3 : w.clocks q.1 = u.clocks q.2 := hrel q hq
    -- the two left clocks are equal in the region of the source
    have hz := Equivalence.zone_of_mem hsp b1
    have hz' := Equivalence.zone_of_mem hsp hwm
    have hq1 := (hmem q hq).1
    have hp1 := (hr p hp).1
    have same : w.clocks p.1 = w.clocks q.1 := by
      by_cases hpq : p.1 = q.1
      · rw [hpq]
      have R0 := hss.isRegion hsp.canonical.1 hz.2
      have R1 := hss.isRegion hsp.canonical.1 hz'.2
      have f1 := R0 (p.1 + 1) (by omega) (q.1 + 1) (by omega) (by omega)
      have f2 := R1 (p.1 + 1) (by omega) (q.1 + 1) (by omega) (by omega)
      simp only [Valuation.ext] at f1 f2
      have : w0.clocks p.1 - w0.clocks q.1 = ((0 : ℤ) : ℚ) := by rw [e1, e2, e]; simp
      rw [f2, this, Bound.reg_int] at f1
      rcases Bound.cases_int (w.clocks p.1 - w.clocks q.1) with ⟨n, hn⟩ | ⟨n, g1, g2⟩
      · rw [hn, Bound.reg_int] at f1
        simp only [Bound.fin.injEq, and_true] at f1
        rw [f1] at hn; push_cast at hn; linarith
      · rw [Bound.reg_of_between g1 g2] at f1; simp at f1
    show w.clocks p.1 = u.clocks p.2
    rw [same, e3, e]
  · exact (hmem p hp).2.2 w u hwm hum hrel
  · intro i j hi hj himpl
    have : (i, j) ∈ ((make source.cond.zone target.cond.zone).addRenaming r).makeRenaming := by
      rw [himp]
      refine ⟨by simp only; omega, by simp only; omega, fun v hv => ?_⟩
      obtain ⟨a1, a2, a3⟩ := (hexact v).1 hv
      have m1 := Equivalence.mem_of_zone hsp a1
      have m2 := Equivalence.mem_of_zone ht a2
      have := himpl _ _ m1 m2 (by
        intro p hp
        have hp' := hr p hp
        show TimedWord.clocks ⟨source.word, _⟩ p.1 = TimedWord.clocks ⟨target.word, _⟩ p.2
        rw [Equivalence.clocks_delays _ (by omega), Equivalence.clocks_delays _ (by omega)]
        exact a3 p hp)
      rw [Equivalence.clocks_delays _ (by omega), Equivalence.clocks_delays _ (by omega)] at this
      exact this
    obtain ⟨q, hq, e⟩ := RenamingRelation.addImplicit_covers r (make source.cond.zone target.cond.zone) (Or.inr this)
    exact ⟨q, hq, e⟩

/-- C48: `isRightUnique` decides whether no right clock is related twice. -/
theorem C48_isRightUnique (r : RenamingRelation) : r.isRightUnique = true ↔ r.RightUnique := by
  rw [RenamingRelation.isRightUnique_iff, RenamingRelation.rightUnique_iff]

/-- C48: `apply` writes the value of the source to the target of every pair, and nothing else, if the pairs are in range of
the vector, no target is written twice and no target is the source of another pair. -/
theorem C48_apply (r : RenamingRelation) (value : List ℚ) (hr : ∀ p ∈ r, p.1 < value.length ∧ p.2 < value.length)
    (hu : (r.map Prod.snd).Nodup) (hs : ∀ p ∈ r, ∀ q ∈ r, p ≠ q → p.1 ≠ q.2) :
    ∃ v, r.applyTo value = some v ∧ v.length = value.length ∧ (∀ p ∈ r, v.getD p.2 0 = value.getD p.1 0) ∧
      ∀ j, (∀ p ∈ r, p.2 ≠ j) → v.getD j 0 = value.getD j 0 := by
  induction r generalizing value with
  | nil => exact ⟨value, rfl, rfl, by simp, fun _ _ => rfl⟩
  | cons p r ih =>
    rw [List.map_cons, List.nodup_cons] at hu
    obtain ⟨hp1, hp2⟩ := hr p (by simp)
    have hne : ∀ q ∈ r, q ≠ p := fun q hq e => hu.1 (List.mem_map.2 ⟨q, hq, by rw [e]⟩)
    have hset : ∀ j, j ≠ p.2 → (value.set p.2 (value.getD p.1 0)).getD j 0 = value.getD j 0 := by
      intro j hj
      simp [List.getD_eq_getElem?_getD, List.getElem?_set_ne (fun e => hj e.symm)]
    obtain ⟨v, e, e1, e2, e3⟩ := ih (value.set p.2 (value.getD p.1 0))
      (fun q hq => by rw [List.length_set]; exact hr q (by simp [hq])) hu.2
      (fun q hq q' hq' => hs q (by simp [hq]) q' (by simp [hq']))
    refine ⟨v, ?_, by rw [e1, List.length_set], ?_, ?_⟩
    · unfold RenamingRelation.applyTo at e ⊢
      rw [List.foldlM_cons]
      simp only [if_neg (show ¬ value.length ≤ p.2 by omega), if_pos (And.intro hp2 hp1)]
      exact e
    · intro q hq
      rcases List.mem_cons.1 hq with rfl | hq
      · rw [e3 q.2 fun q' hq' e => hu.1 (List.mem_map.2 ⟨q', hq', e⟩)]
        simp [List.getD_eq_getElem?_getD, hp2]
      · rw [e2 q hq, hset]
        exact hs q (by simp [hq]) p (by simp) (hne q hq)
    · intro j hj
      rw [e3 j fun q hq => hj q (by simp [hq]), hset j fun e => hj p (by simp) e.symm]

/-- `apply` of a relation that meets the hypotheses. -/
example : RenamingRelation.applyTo [(0, 2), (1, 1)] [5, 6, 7] = some [5, 6, 5] := by decide +kernel

/-- C48 does not hold of `apply`: it throws for every relation to a clock beyond the given ones (the vector is
resized to `target` instead of `target + 1` elements), even though the relation is in range of the target. -/
theorem C48_apply_throws_witness (value : List ℚ) (i j : ℕ) (h : value.length ≤ j) :
    RenamingRelation.applyTo [(i, j)] value = none := by
  simp only [RenamingRelation.applyTo, List.foldlM_cons, h, if_true]
  rw [if_neg]
  · rfl
  · rw [List.length_append, List.length_replicate]; omega

/-! ## C63 -/

/-- C63: the graph of `toGraph` has an edge between two clocks exactly if some words of the two regions give them
the same value; both adjacency lists are ascending. -/
theorem C63_graph (left right : ElementaryLanguage) (hl : left.Proper) (hls : left.cond.Simple) (hln : left.Nonneg)
    (hr : right.Proper) (hrs : right.cond.Simple) (hrn : right.Nonneg) :
    let g := Equivalence.toGraph left.cond right.cond
    (∀ j ≤ right.word.length, (g.2.getD j []).Pairwise (· < ·) ∧ ∀ i, i ∈ g.2.getD j [] ↔
      i ≤ left.word.length ∧ ∃ w u, left.Mem w ∧ right.Mem u ∧ w.clocks i = u.clocks j) ∧
    ∀ i ≤ left.word.length, (g.1.getD i []).Pairwise (· < ·) ∧ ∀ j, j ∈ g.1.getD i [] ↔
      j ≤ right.word.length ∧ ∃ w u, left.Mem w ∧ right.Mem u ∧ w.clocks i = u.clocks j := by
  intro g
  have hlw : left.word.length + 1 = left.cond.size := hl.wf
  have hrw : right.word.length + 1 = right.cond.size := hr.wf
  have d1 := Equivalence.dim_eq hl.canonical
  have d2 := Equivalence.dim_eq hr.canonical
  have key : ∀ i ≤ left.word.length, ∀ j ≤ right.word.length,
      (left.cond.upper i (left.cond.size - 1) = right.cond.upper j (right.cond.size - 1) ↔
        ∃ w u, left.Mem w ∧ right.Mem u ∧ w.clocks i = u.clocks j) := by
    intro i hi j hj
    have hU : ∀ {e : ElementaryLanguage} (he : e.Proper) (hs : e.cond.Simple) {w : TimedWord} (hw : e.Mem w) {x : ℕ}
        (hx : x < e.cond.size), e.cond.upper x (e.cond.size - 1) = Bound.reg (w.clocks x) ∧
          e.cond.lower x (e.cond.size - 1) = Bound.reg (-w.clocks x) := by
      intro e he hs w hw x hx
      have dd := Equivalence.dim_eq he.canonical
      have hreg := hs.isRegion he.canonical.1 (Equivalence.zone_of_mem he hw).2
      have f1 := hreg (x + 1) (by omega) 0 (by omega) (by omega)
      have f2 := hreg 0 (by omega) (x + 1) (by omega) (by omega)
      simp only [Valuation.ext, sub_zero, zero_sub] at f1 f2
      rw [upper_eq, lower_eq, RenamingRelation.eidx_last]
      exact ⟨f1, f2⟩
    constructor
    · intro h
      obtain ⟨v, hv⟩ := hl.canonical.nonempty
      have m := Equivalence.mem_of_zone hl hv
      obtain ⟨f1, f2⟩ := hU hl hls m (x := i) (by omega)
      obtain ⟨n, hn⟩ := hrs j (right.cond.size - 1) (by omega) (by omega)
      rw [Equivalence.clocks_delays _ (by omega)] at f1 f2
      have : ∃ u, right.cond.zone.Mem u ∧ u j = v i := by
        refine RenamingRelation.pick hr.canonical (by omega) ?_ ?_
        · rw [← h, f1]; exact Bound.sat_reg _
        · rw [h] at f1
          rcases hn with hn | hn
          · rw [hn.1] at f1
            rw [hn.2]
            rcases Bound.cases_int (v i) with ⟨k, hk⟩ | ⟨k, g1, g2⟩
            · rw [hk, Bound.reg_int] at f1
              simp only [Bound.fin.injEq, and_true] at f1
              rw [hk, f1]; simp
            · rw [Bound.reg_of_between g1 g2] at f1; simp at f1
          · rw [hn.1] at f1
            rw [hn.2]
            rcases Bound.cases_int (v i) with ⟨k, hk⟩ | ⟨k, g1, g2⟩
            · rw [hk, Bound.reg_int] at f1; simp at f1
            · rw [Bound.reg_of_between g1 g2] at f1
              simp only [Bound.fin.injEq, and_true] at f1
              simp; linarith
      obtain ⟨u, hu, e⟩ := this
      refine ⟨_, _, m, Equivalence.mem_of_zone hr hu, ?_⟩
      rw [Equivalence.clocks_delays _ (by omega), Equivalence.clocks_delays _ (by omega), e]
    · rintro ⟨w, u, h1, h2, h3⟩
      rw [(hU hl hls h1 (by omega)).1, (hU hr hrs h2 (by omega)).1, h3]
  obtain ⟨h1, h2⟩ := Equivalence.toGraph_spec (Equivalence.upper_antitone hl hls hln)
    (Equivalence.upper_antitone hr hrs hrn)
  constructor
  · intro j hj
    refine ⟨(h1 j (by omega)).1, fun i => ?_⟩
    rw [(h1 j (by omega)).2 i, ← hlw, Nat.lt_succ_iff]
    refine and_congr_right fun hi => ?_
    rw [hlw]
    exact key i hi j hj
  · intro i hi
    refine ⟨(h2 i (by omega)).1, fun j => ?_⟩
    rw [(h2 i (by omega)).2 j, ← hrw, Nat.lt_succ_iff]
    refine and_congr_right fun hj => ?_
    rw [hrw]
    exact key i hi j hj

/-- C63: the search for a renaming never reads the last element of an empty candidate, and a renaming it returns
makes merging correct: from the clocks of *every* word of the left region, the updates made of it lead to the clocks
of a word of the right region, related to it, that the target language does not distinguish from it by any
continuation in a suffix of the table. -/
theorem C63_search (f : TimedWord → Bool) (left right : ElementaryLanguage)
    (suffixes : List ElementaryLanguage) (leftRow rightRow : List TimedConditionSet)
    (hl : left.Proper) (hls : left.cond.Simple) (hln : left.Nonneg)
    (hr : right.Proper) (hrs : right.cond.Simple) (hrn : right.Nonneg) (hs : ∀ s ∈ suffixes, s.Proper)
    (hL : IsRow f left suffixes leftRow) (hR : IsRow f right suffixes rightRow) :
    ∃ o, Equivalence.findDeterministic left leftRow right rightRow suffixes = some o ∧ ∀ r, o = some r →
      r.RightUnique ∧ r.InRange left right ∧ ∃ U, r.toReset right.cond = some U ∧
        ∀ w, left.Mem w → ∃ w', right.Mem w' ∧ r.Relates w w' ∧
          (∀ x ≤ right.word.length, U.apply w.clocks x = w'.clocks x) ∧
          ∀ s ∈ suffixes, ∀ u, s.Mem u → f (w.append u) = f (w'.append u) := by
  have hrw : right.word.length + 1 = right.cond.size := hr.wf
  unfold Equivalence.findDeterministic
  split
  · exact ⟨none, rfl, by simp⟩
  obtain ⟨o, h1, h2⟩ := Equivalence.find_spec hl hls hln hr hrs hrn (lrow := leftRow) (rrow := rightRow) hL.1
  refine ⟨o, h1, ?_⟩
  intro r hro
  obtain ⟨g1, g2, g3, g4⟩ := h2 r hro
  have hsound := C62_equivalence_sound f left right r suffixes leftRow rightRow hl hr hs hL hR g1 g3
  obtain ⟨U, k1, k2⟩ := Equivalence.reset_related hl hls hr hrs g1 g2 g4 hsound.1
  refine ⟨(RenamingRelation.rightUnique_iff _).2 g2, g1, U, k1, fun w hw => ?_⟩
  obtain ⟨w', a1, a2, a3⟩ := k2 w hw
  refine ⟨w', a1, a2, fun x hx => a3 x (by omega), fun s hsm u hu => ?_⟩
  exact C62_equivalence_continuations f left right r suffixes leftRow rightRow hl hr hs hL hR g1 g3 w w' hw a1 a2 s hsm
    u hu

/-! ### The status of the cells -/

theorem status_bottom {f : TimedWord → Bool} {e : ElementaryLanguage} {cell : TimedConditionSet}
    (hc : IsCell f e cell) (he : e.Proper) :
    Equivalence.decideStatus e.cond cell = .bottom ↔ ∀ w, e.Mem w → f w = false := by
  constructor
  · intro h w hw
    match cell, hc, h with
    | [], hc, _ =>
      have := (hc.exact w hw.1).not.1 (by simp [TimedConditionSet.Holds])
      simpa [hw] using this
    | [c], _, h => simp only [Equivalence.decideStatus] at h; split at h <;> simp at h
    | _ :: _ :: _, _, h => simp [Equivalence.decideStatus] at h
  · intro h
    match cell, hc with
    | [], _ => rfl
    | c :: cs, hc =>
      exfalso
      obtain ⟨hcc, hsz⟩ := hc.canonical c (by simp)
      obtain ⟨v, hv⟩ := hcc.nonempty
      have hh : c.Holds (delays v c.size) :=
        (holds_iff_mem _ hcc.1 hcc.diagNN _).2 ⟨by simp, mem_delays hv⟩
      obtain ⟨g1, g2⟩ := (hc.exact ⟨e.word, delays v c.size⟩ rfl).1 ⟨c, by simp, hh⟩
      simp [h _ g1] at g2

theorem status_top {f : TimedWord → Bool} {e : ElementaryLanguage} {c : TimedCondition}
    (hc : IsCell f e [c]) (he : e.Proper) :
    Equivalence.decideStatus e.cond [c] = .top ↔ ∀ w, e.Mem w → f w = true := by
  obtain ⟨hcc, hsz⟩ := hc.canonical c (by simp)
  have d1 := Equivalence.dim_eq he.canonical
  have hdim : c.zone.dim = e.cond.zone.dim := by
    have h2 := hcc.1
    have h3 := he.canonical.1
    unfold TimedCondition.size at hsz
    omega
  have hst : Equivalence.decideStatus e.cond [c] = .top ↔ c.zone.strictEqual e.cond.zone = true := by
    have hs : (c.size == e.cond.size) = true := by simp [hsz]
    simp only [Equivalence.decideStatus, TimedCondition.beq, hs, Bool.true_and]
    split <;> simp_all
  rw [hst]
  constructor
  · intro h w hw
    obtain ⟨m1, m2⟩ := Equivalence.zone_of_mem he hw
    have : c.zone.Mem w.clocks :=
      Zone.sat_of_strictEqual hdim.symm hcc.diagNN (Zone.strictEqual_symm hdim h) m2
    exact ((hc.exact w hw.1).1 ⟨c, by simp,
      (holds_iff_mem _ hcc.1 hcc.diagNN _).2 ⟨by rw [m1, hsz], this⟩⟩).2
  · intro h
    have key : ∀ v, c.zone.Mem v ↔ e.cond.zone.Mem v := by
      intro v
      have e1 : c.Holds (delays v c.size) ↔ c.zone.Mem v := by
        rw [holds_iff_mem _ hcc.1 hcc.diagNN]
        constructor
        · rintro ⟨-, h⟩
          refine h.congr fun i hi => ?_
          cases i with
          | zero => rfl
          | succ i =>
            have hd := Equivalence.dim_eq hcc
            exact (accV_delays v _ (by omega))
        · intro h; exact ⟨by simp, mem_delays h⟩
      have e2 : e.Mem ⟨e.word, delays v c.size⟩ ↔ e.cond.zone.Mem v := by
        rw [hsz]
        constructor
        · intro h
          refine (Equivalence.zone_of_mem he h).2.congr fun i hi => ?_
          cases i with
          | zero => rfl
          | succ i => exact (accV_delays v _ (by omega))
        · exact Equivalence.mem_of_zone he
      rw [← e1, ← e2]
      have := hc.exact ⟨e.word, delays v c.size⟩ rfl
      simp only [TimedConditionSet.Holds, List.mem_singleton, exists_eq_left] at this
      rw [this]
      exact ⟨fun g => g.1, fun g => ⟨g, h _ g⟩⟩
    have := Zone.strictEqual_of_same_mem (z := c.zone.norm) (z' := e.cond.zone.norm) hdim hcc.normClosed
      he.canonical.normClosed (Zone.norm_diagNN _) (Zone.norm_diagNN _) (fun v => by
        unfold Zone.Mem
        rw [Zone.norm_sat _ hcc.diagNN, Zone.norm_sat _ he.canonical.diagNN]
        exact key v)
    unfold Zone.strictEqual at this ⊢
    simp only [List.all_eq_true, List.mem_range, decide_eq_true_eq] at this ⊢
    intro i hi j hj
    rcases this i hi j hj with h' | h'
    · exact Or.inl h'
    · by_cases hij : i = j
      · exact Or.inl hij
      · rw [Zone.norm_val_ne _ hij, Zone.norm_val_ne _ hij] at h'; exact Or.inr h'

/-- C63: rows are told apart by their shape alone: if the search finds a renaming, then for every suffix, some word
of one prefix continued by the suffix is in the target language exactly if this holds for the other prefix, and if
the two cells have one condition each, all words are in the target language for the one exactly if they are for
the other. -/
theorem C63_status (f : TimedWord → Bool) (left right : ElementaryLanguage)
    (suffixes : List ElementaryLanguage) (leftRow rightRow : List TimedConditionSet)
    (hl : left.Proper) (hr : right.Proper) (hs : ∀ s ∈ suffixes, s.Proper)
    (hL : IsRow f left suffixes leftRow) (hR : IsRow f right suffixes rightRow) (r : RenamingRelation)
    (h : Equivalence.findDeterministic left leftRow right rightRow suffixes = some (some r)) :
    ∀ i < suffixes.length,
      let s := suffixes.getD i .empty
      ((∃ w, (left.append s).Mem w ∧ f w = true) ↔ ∃ w, (right.append s).Mem w ∧ f w = true) ∧
      ((leftRow.getD i []).length = 1 → (rightRow.getD i []).length = 1 →
        ((∀ w, (left.append s).Mem w → f w = true) ↔ ∀ w, (right.append s).Mem w → f w = true)) := by
  intro i hi s
  have hsm : s ∈ suffixes := by
    have : s = suffixes[i] := by simp [s, hi]
    rw [this]; exact List.getElem_mem hi
  have p1 := Equivalence.append_proper hl (hs s hsm)
  have p2 := Equivalence.append_proper hr (hs s hsm)
  have c1 := hL.2 i hi
  have c2 := hR.2 i hi
  have hst : Equivalence.decideStatus (left.append s).cond (leftRow.getD i []) =
      Equivalence.decideStatus (right.append s).cond (rightRow.getD i []) := by
    unfold Equivalence.findDeterministic at h
    split at h
    · simp at h
    unfold Equivalence.findDeterministicCat at h
    split at h
    · simp at h
    rename_i he
    rw [ne_eq, not_not] at he
    have := congrArg (fun l => l[i]?) he
    have l1 := hL.1
    have l2 := hR.1
    simp only [List.getElem?_zipWith, List.getElem?_map] at this
    rw [List.getElem?_eq_getElem hi, List.getElem?_eq_getElem (by omega : i < leftRow.length),
      List.getElem?_eq_getElem (by omega : i < rightRow.length)] at this
    simp only [Option.map_some, Option.some.injEq] at this
    have e1 : leftRow.getD i [] = leftRow[i]'(by omega) := by simp [show i < leftRow.length by omega]
    have e2 : rightRow.getD i [] = rightRow[i]'(by omega) := by simp [show i < rightRow.length by omega]
    have e3 : s = suffixes[i] := by simp [s, hi]
    rw [e1, e2, e3]
    exact this
  constructor
  · have := (status_bottom c1 p1).symm.trans ((by rw [hst] : _ ↔ _).trans (status_bottom c2 p2))
    have := this.not
    push Not at this
    have e : ∀ x : TimedWord, f x ≠ false ↔ f x = true := by simp
    simp only [e] at this
    exact this
  · intro n1 n2
    obtain ⟨a, ha⟩ := List.length_eq_one_iff.1 n1
    obtain ⟨b, hb⟩ := List.length_eq_one_iff.1 n2
    rw [ha] at c1 hst
    rw [hb] at c2 hst
    exact (status_top c1 p1).symm.trans ((by rw [hst] : _ ↔ _).trans (status_top c2 p2))

/-- C63: the regions of the observation table meet the hypotheses of `C63_search`. -/
theorem C63_regions {L : ForwardRegional} (h : L.Reach) : L.toElementaryLanguage.Proper ∧ L.cond.Simple ∧
    L.toElementaryLanguage.Nonneg :=
  ⟨⟨(C25_reachable h).1, (C25_reachable h).2.2.1⟩, (C25_reachable h).2.1, h.nonneg⟩

/-! ### Concrete cases -/

/-- A delay between 0 and 1. -/
def rnS : List ElementaryLanguage := [(BackwardRegional.fromTimedWord ⟨[], [1 / 2]⟩).toElementaryLanguage]

/-- The words of `e` shorter than one time unit. -/
def short (e : ElementaryLanguage) : TimedCondition := e.cond.restrictUpper 0 (e.cond.size - 1) (.fin 1 false) false

theorem isCell_short {e : ElementaryLanguage} (he : e.Proper) (hc : (short e).Canonical) : IsCell eqF e [short e] := by
  have d := Equivalence.dim_eq he.canonical
  have hp : 0 < e.cond.size := by have := he.canonical.1; omega
  have hd : (short e).zone.dim = e.cond.zone.dim := restrictUpper_dim _ _ _ _ _
  have hsz : (short e).size = e.cond.size := by unfold TimedCondition.size; rw [hd]
  refine ⟨fun w hw => ?_, by simp, by simpa [hsz] using hc⟩
  simp only [TimedConditionSet.Holds, List.mem_singleton, exists_eq_left]
  rw [holds_iff_mem _ hc.1 hc.diagNN, hsz]
  unfold ElementaryLanguage.Mem
  rw [holds_iff_mem _ he.canonical.1 he.canonical.diagNN]
  have := restrictUpper_sat e.cond (i := 0) (j := e.cond.size - 1) (by omega) (by omega) (.fin 1 false)
    (accV w.durations).ext
  rw [RenamingRelation.eidx_last] at this
  have hm : (short e).zone.Mem (accV w.durations) ↔ e.cond.zone.Mem (accV w.durations) ∧ w.durations.sum < 1 := by
    refine this.trans (and_congr_right fun _ => ?_)
    simp [Valuation.ext, accV]
  rw [hm]
  simp only [eqF, decide_eq_true_eq]
  constructor
  · rintro ⟨h1, h2, h3⟩; exact ⟨⟨hw, h1, h2⟩, h3⟩
  · rintro ⟨⟨_, h1, h2⟩, h3⟩; exact ⟨h1, h2, h3⟩

def rnRow (e : ElementaryLanguage) : List TimedConditionSet := [[short (e.append (rnS.getD 0 .empty))]]

theorem rn_proper : ∀ s ∈ rnS, s.Proper := by
  intro s hs
  simp only [rnS, List.mem_singleton] at hs
  subst hs
  exact (ofAccumulated_queryable ⟨[], [1 / 2]⟩ rfl (by intro a ha; simp at ha)).proper

theorem rn_row {e : ElementaryLanguage} (he : e.Proper)
    (hc : (short (e.append (rnS.getD 0 .empty))).Canonical) : IsRow eqF e rnS (rnRow e) := by
  refine ⟨rfl, fun i hi => ?_⟩
  have : i = 0 := by
    have : i < 1 := hi
    omega
  subst this
  exact isCell_short (Equivalence.append_proper he (rn_proper _ (by simp [rnS]))) hc

set_option maxRecDepth 100000 in
/-- The hypotheses of `C63_search`, for a row that is not constant on the regions; the search finds that both clocks
of the right region must be renamed to the clock of the left one. -/
example : IsRow eqF eqL.toElementaryLanguage rnS (rnRow eqL.toElementaryLanguage) ∧
    IsRow eqF eqR.toElementaryLanguage rnS (rnRow eqR.toElementaryLanguage) ∧
    eqL.toElementaryLanguage.Nonneg ∧ eqL.cond.Simple ∧
    Equivalence.findDeterministic eqL.toElementaryLanguage (rnRow eqL.toElementaryLanguage) eqR.toElementaryLanguage
      (rnRow eqR.toElementaryLanguage) rnS = some (some [(0, 0), (0, 1)]) ∧
    RenamingRelation.toReset [(0, 0), (0, 1)] eqR.cond = some [(0, .clock 0), (1, .clock 0)] := by
  have hL : eqL.Reach := .time .init
  refine ⟨rn_row eq_proper.1 ?_, rn_row eq_proper.2.1 ?_, (C63_regions hL).2.2, (C63_regions hL).2.1, ?_, ?_⟩
  · unfold TimedCondition.Canonical; decide +kernel
  · unfold TimedCondition.Canonical; decide +kernel
  · decide +kernel
  · decide +kernel

set_option maxRecDepth 100000 in
/-- Here the empty relation is already accepted. -/
example : Equivalence.findDeterministic eqL.toElementaryLanguage (eqRow eqL.toElementaryLanguage)
    eqR.toElementaryLanguage (eqRow eqR.toElementaryLanguage) eqS = some (some []) := by decide +kernel

set_option maxRecDepth 100000 in
/-- The hypotheses of `C48_precise_clocks`: the region `τ₀, τ₁, τ₂ ∈ (0,1)` with different fractional parts, one
clock related. -/
example : let t := ForwardRegional.fromTimedWord ⟨[97, 97], [1 / 4, 1 / 3, 1 / 5]⟩
    RenamingRelation.impreciseClocks [(0, 1)] t.cond = [0, 2] ∧
    RenamingRelation.toReset [(0, 1)] t.cond = some [(1, .clock 0), (0, .const (1 / 2)), (2, .const (1 / 8))] := by
  decide +kernel

/-- Accepted are the words at the end of which less than one time unit has passed since the last action, but more since
the one before it (or since the start). -/
def lastTwo (w : TimedWord) : Bool :=
  decide (1 < accV w.durations (w.word.length - 1) ∧ accV w.durations w.word.length < 1)

def ltCell (e : ElementaryLanguage) : TimedCondition :=
  (e.cond.restrictLower (e.cond.size - 2) (e.cond.size - 1) (.fin (-1) false) false).restrictUpper (e.cond.size - 1)
    (e.cond.size - 1) (.fin 1 false) false

theorem isCell_lt {e : ElementaryLanguage} (he : e.Proper) (h2 : 2 ≤ e.cond.size) (hc : (ltCell e).Canonical) :
    IsCell lastTwo e [ltCell e] := by
  have d := Equivalence.dim_eq he.canonical
  have hd : (ltCell e).zone.dim = e.cond.zone.dim := by unfold ltCell; rw [restrictUpper_dim, restrictLower_dim]
  have hsz : (ltCell e).size = e.cond.size := by unfold TimedCondition.size; rw [hd]
  refine ⟨fun w hw => ?_, by simp, by simpa [hsz] using hc⟩
  simp only [TimedConditionSet.Holds, List.mem_singleton, exists_eq_left]
  rw [holds_iff_mem _ hc.1 hc.diagNN, hsz]
  unfold ElementaryLanguage.Mem
  rw [holds_iff_mem _ he.canonical.1 he.canonical.diagNN]
  have hs' : (e.cond.restrictLower (e.cond.size - 2) (e.cond.size - 1) (.fin (-1) false) false).size = e.cond.size := by
    unfold TimedCondition.size; rw [restrictLower_dim]
  have h1 := restrictUpper_sat (e.cond.restrictLower (e.cond.size - 2) (e.cond.size - 1) (.fin (-1) false) false)
    (i := e.cond.size - 1) (j := e.cond.size - 1) le_rfl (by rw [hs']; omega) (.fin 1 false) (accV w.durations).ext
  have h3 := restrictLower_sat e.cond (i := e.cond.size - 2) (j := e.cond.size - 1) (by omega) (by omega) (.fin (-1) false)
    (accV w.durations).ext
  rw [h3, restrictLower_eidx, RenamingRelation.eidx_last] at h1
  have hl : w.word.length = e.cond.size - 1 := by rw [hw]; have := he.wf; unfold ElementaryLanguage.WF at this; omega
  have hm : (ltCell e).zone.Mem (accV w.durations) ↔ (e.cond.zone.Mem (accV w.durations) ∧
      1 < accV w.durations (e.cond.size - 2)) ∧ accV w.durations (e.cond.size - 1) < 1 := by
    refine h1.trans (and_congr (and_congr Iff.rfl ?_) ?_)
    · simp [Valuation.ext]
    · simp [Valuation.ext]
  rw [hm]
  simp only [lastTwo, decide_eq_true_eq]
  rw [hl, show e.cond.size - 1 - 1 = e.cond.size - 2 by omega]
  constructor
  · rintro ⟨h1, ⟨h2, h3⟩, h4⟩; exact ⟨⟨hw, h1, h2⟩, h3, h4⟩
  · rintro ⟨⟨_, h1, h2⟩, h3, h4⟩; exact ⟨h1, ⟨h2, h3⟩, h4⟩

def ltRow (e : ElementaryLanguage) : List TimedConditionSet := [[ltCell (e.append (rnS.getD 0 .empty))]]

theorem lt_row {e : ElementaryLanguage} (he : e.Proper) (h2 : 2 ≤ (e.append (rnS.getD 0 .empty)).cond.size)
    (hc : (ltCell (e.append (rnS.getD 0 .empty))).Canonical) : IsRow lastTwo e rnS (ltRow e) := by
  refine ⟨rfl, fun i hi => ?_⟩
  have : i = 0 := by
    have : i < 1 := hi
    omega
  subst this
  exact isCell_lt (Equivalence.append_proper he (rn_proper _ (by simp [rnS]))) h2 hc

/-- The region of one action with both clocks in `(0,1)`. -/
def ltL : ForwardRegional := .fromTimedWord ⟨[98], [1/4, 1/4]⟩
/-- The region of two actions one time unit after the start, with the other two clocks in `(0,1)`. -/
def ltR : ForwardRegional := .fromTimedWord ⟨[97, 97], [1/2, 1/4, 1/4]⟩

/-- The zone with the only valuation `x0 = 1/2`, `x1 = 1/4`, `x2 = 0`. -/
def ltZ : Zone :=
  ⟨4, fun i j =>
    let p : ℕ → ℚ := fun k => match k with | 1 => 1/2 | 2 => 1/4 | _ => 0
    .fin (p i - p j) true⟩

theorem ltL_proper : ltL.toElementaryLanguage.Proper :=
  (ofAccumulated_queryable ⟨[98], [1/4, 1/4]⟩ rfl (by intro a ha; simp at ha; subst ha; decide)).proper

theorem ltR_proper : ltR.toElementaryLanguage.Proper :=
  (ofAccumulated_queryable ⟨[97, 97], [1/2, 1/4, 1/4]⟩ rfl (by intro a ha; simp at ha; subst ha; decide)).proper

set_option maxRecDepth 100000 in
/-- C63 and C18: the search returns renamings whose updates must be made at once.  For the language `lastTwo` and the
regions `ltL` and `ltR` the only renaming it finds is `x1 := x0, x2 := x1`, and these updates, in this order, are what
`toReset` makes of it: the zone of the clocks of a word of the left region, updated by `applyResets`, does not contain the
updated clocks. -/
theorem C63_order_witness :
    IsRow lastTwo ltL.toElementaryLanguage rnS (ltRow ltL.toElementaryLanguage) ∧
    IsRow lastTwo ltR.toElementaryLanguage rnS (ltRow ltR.toElementaryLanguage) ∧
    Equivalence.findDeterministic ltL.toElementaryLanguage (ltRow ltL.toElementaryLanguage) ltR.toElementaryLanguage
      (ltRow ltR.toElementaryLanguage) rnS = some (some [(0, 1), (1, 2)]) ∧
    ∃ U w, RenamingRelation.toReset [(0, 1), (1, 2)] ltR.cond = some U ∧ ltL.toElementaryLanguage.Mem w ∧
      ltZ.Mem w.clocks ∧ ¬ (ltZ.applyResets U).Mem (U.apply w.clocks) := by
  refine ⟨lt_row ltL_proper ?_ ?_, lt_row ltR_proper ?_ ?_, ?_, [(1, .clock 0), (2, .clock 1), (0, .const 1)], ⟨[98], [1/4, 1/4]⟩,
    ?_, (C24_region_of_word ⟨[98], [1/4, 1/4]⟩ rfl).1, ?_, ?_⟩
  · decide +kernel
  · unfold TimedCondition.Canonical; decide +kernel
  · decide +kernel
  · unfold TimedCondition.Canonical; decide +kernel
  · decide +kernel
  · decide +kernel
  · intro i hi j hj
    simp only [ltZ] at hi hj
    interval_cases i <;> interval_cases j <;> simp [ltZ, Valuation.ext, TimedWord.clocks] <;> norm_num
  · intro h
    have h1 := h 2 (by decide +kernel) 3 (by decide +kernel)
    have e : (ltZ.applyResets [(1, .clock 0), (2, .clock 1), (0, .const 1)]).val 2 3 = .fin 0 true := by
      decide +kernel
    rw [e] at h1
    simp [Resets.apply, Upd.eval, Valuation.ext, Bound.Sat, Function.update, TimedWord.clocks] at h1
    norm_num at h1

end LearnTA.Props
