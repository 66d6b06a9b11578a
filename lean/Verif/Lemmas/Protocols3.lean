import Verif.Lemmas.Protocols2

/-!
# Lemmas: the timing of "CAS" and "PC"
-/

namespace LearnTA
namespace Fixture

theorem apply_reset (v : Valuation) : Resets.apply ([0].map fun x => (x, Upd.const 0)) v 0 = 0 := by
  simp [Resets.apply, Upd.eval]

theorem guard_nil (u : Valuation) : Guard.Holds [] u := by intro c hc; cases hc

theorem guard_one_iff {u : Valuation} {c : Constraint} : Guard.Holds [c] u ↔ c.Holds u :=
  ⟨fun h => h c List.mem_cons_self, guard_one⟩

/-! ### CAS -/

/-- `CasTiming` for lists. -/
def CasT (as : List Action) (ds : List ℚ) : Prop :=
  ∀ i, (as[i]? = some (act 'a') → 2 ≤ ds.getD i 0) ∧
    (as[i]? = some (act 's') → as[i + 1]? = some (act 't') → 3 ≤ ds.getD (i + 1) 0) ∧
    (as[i]? = some (act 's') → as[i + 1]? = some (act 't') → as[i + 2]? = some (act 'g') → 27 ≤ ds.getD (i + 2) 0)

/-- What is still to be checked after `s`. -/
def Cas9 (as : List Action) (ds : List ℚ) : Prop :=
  (as[0]? = some (act 't') → 3 ≤ ds.getD 0 0) ∧
    (as[0]? = some (act 't') → as[1]? = some (act 'g') → 27 ≤ ds.getD 1 0)

/-- What is still to be checked after `s`, `t`. -/
def Cas11 (as : List Action) (ds : List ℚ) : Prop := as[0]? = some (act 'g') → 27 ≤ ds.getD 0 0

theorem casT_cons (a : Action) (as : List Action) (d : ℚ) (ds : List ℚ) :
    CasT (a :: as) (d :: ds) ↔ (a = act 'a' → 2 ≤ d) ∧ (a = act 's' → Cas9 as ds) ∧ CasT as ds := by
  constructor
  · intro h
    refine ⟨fun ha => by simpa [ha] using (h 0).1, fun ha => ⟨fun h1 => ?_, fun h1 h2 => ?_⟩, fun i => ?_⟩
    · simpa [ha, h1] using (h 0).2.1
    · simpa [ha, h1, h2] using (h 0).2.2
    · simpa using h (i + 1)
  · rintro ⟨h1, h2, h3⟩ i
    rcases i with _ | i
    · refine ⟨by simpa using h1, fun ha hb => ?_, fun ha hb hc => ?_⟩
      · simpa using (h2 (by simpa using ha)).1 (by simpa using hb)
      · simpa using (h2 (by simpa using ha)).2 (by simpa using hb) (by simpa using hc)
    · simpa using h3 i

theorem casT_nil (ds : List ℚ) : CasT [] ds := by intro i; simp

theorem cas_facts : ∀ e ∈ casEdges,
    (e.guard = if e.src = 3 ∧ e.act = act 'a' then [⟨0, .ge, 2⟩] else if e.src = 9 ∧ e.act = act 't' then [⟨0, .ge, 3⟩]
      else if e.src = 11 ∧ e.act = act 'g' then [⟨0, .ge, 27⟩] else []) ∧
    (e.act = act 'a' → e.src = 3) ∧ (e.tgt = 9 ↔ e.act = act 's') ∧ (e.tgt = 11 ↔ e.src = 9 ∧ e.act = act 't') ∧
    (e.tgt = 3 ∨ e.tgt = 9 ∨ e.tgt = 11 → e.resets = [0]) := by decide +kernel

/-- The clock is fresh in the states whose outgoing guards look at it. -/
def CasInv (p : ℕ) (u : Valuation) : Prop := p = 3 ∨ p = 9 ∨ p = 11 → u 0 = 0

theorem CasInv.step {e : Edge} (he : e ∈ casEdges) (v : Valuation) : CasInv e.tgt (e.trans.resets.apply v) := by
  intro h
  have := (cas_facts e he).2.2.2.2 h
  unfold Edge.trans
  rw [this]
  exact apply_reset v

theorem cas_guard {e : Edge} (he : e ∈ casEdges) {u : Valuation} (hi : CasInv e.src u) (d : ℚ) :
    e.guard.Holds (u.shift d) ↔ (e.act = act 'a' → 2 ≤ d) ∧ (e.src = 9 → e.act = act 't' → 3 ≤ d) ∧
      (e.src = 11 → e.act = act 'g' → 27 ≤ d) := by
  obtain ⟨h1, h2, -⟩ := cas_facts e he
  have hs : (u.shift d) 0 = u 0 + d := rfl
  have n1 : act 'a' ≠ act 't' := by decide
  have n2 : act 'a' ≠ act 'g' := by decide
  have n3 : act 't' ≠ act 'g' := by decide
  rw [h1]
  by_cases c1 : e.src = 3 ∧ e.act = act 'a'
  · rw [if_pos c1, guard_one_iff]
    have := hi (.inl c1.1)
    simp only [Constraint.Holds, hs, this, zero_add, c1.1, c1.2]
    simp [n1, n2]
  · rw [if_neg c1]
    have ha : e.act ≠ act 'a' := fun h => c1 ⟨h2 h, h⟩
    by_cases c2 : e.src = 9 ∧ e.act = act 't'
    · rw [if_pos c2, guard_one_iff]
      have := hi (.inr (.inl c2.1))
      simp only [Constraint.Holds, hs, this, zero_add, c2.1, c2.2]
      simp [n1.symm]
    · rw [if_neg c2]
      by_cases c3 : e.src = 11 ∧ e.act = act 'g'
      · rw [if_pos c3, guard_one_iff]
        have := hi (.inr (.inr c3.1))
        simp only [Constraint.Holds, hs, this, zero_add, c3.1, c3.2]
        simp [n2.symm]
      · rw [if_neg c3]
        exact ⟨fun _ => ⟨fun h => absurd h ha, fun h h' => absurd ⟨h, h'⟩ c2, fun h h' => absurd ⟨h, h'⟩ c3⟩, fun _ => guard_nil _⟩

theorem cas_goes : ∀ (as : List Action) (ds : List ℚ), ds.length = as.length + 1 → ∀ p (u u' : Valuation),
    CasInv p u → CasInv p u' →
    (Goes (fun p => decide (p < 14)) casEdges p u as ds ↔
      (∀ d ∈ ds, 0 ≤ d) ∧ Goes (fun p => decide (p < 14)) casEdges p u' as (ds.map fun _ => 27) ∧ CasT as ds ∧
        (p = 9 → Cas9 as ds) ∧ (p = 11 → Cas11 as ds)) := by
  intro as
  induction as with
  | nil =>
    intro ds hl p u u' _ _
    obtain ⟨d, rfl⟩ := List.length_eq_one_iff.1 hl
    simp [Goes, casT_nil, Cas9, Cas11]
  | cons a as ih =>
    intro ds hl p u u' hu hu'
    rcases ds with _ | ⟨d, ds⟩
    · simp at hl
    have hl' : ds.length = as.length + 1 := by simpa using hl
    have ih := ih ds hl'
    have n1 : act 't' ≠ act 'g' := by decide
    have n2 : act 's' ≠ act 't' := by decide
    constructor
    · rintro ⟨d', ds', h, hd, e, he, rfl, rfl, hg, hr⟩
      cases h
      obtain ⟨k1, k2, k3, k4, k5⟩ := (ih _ _ _ (CasInv.step he _) (CasInv.step he (u'.shift 27))).1 hr
      obtain ⟨g1, g2, g3⟩ := (cas_guard he hu d).1 hg
      obtain ⟨-, -, f1, f2, -⟩ := cas_facts e he
      refine ⟨?_, ⟨27, _, rfl, by norm_num, e, he, rfl, rfl, (cas_guard he hu' 27).2 ⟨?_, ?_, ?_⟩, k2⟩, ?_, ?_, ?_⟩
      · intro x hx
        rcases List.mem_cons.1 hx with rfl | hx
        · exact hd
        · exact k1 x hx
      · intro; norm_num
      · intros; norm_num
      · intros; norm_num
      · exact (casT_cons _ _ _ _).2 ⟨g1, fun h => k4 (f1.2 h), k3⟩
      · intro h
        refine ⟨fun ht => by simpa using g2 h (by simpa using ht), fun ht hg' => ?_⟩
        simpa using k5 (f2.2 ⟨h, by simpa using ht⟩) (by simpa using hg')
      · intro h ht
        simpa using g3 h (by simpa using ht)
    · rintro ⟨h1, ⟨d', ds', h, hd, e, he, rfl, rfl, hg, hr⟩, h3, h4, h5⟩
      rw [List.map_cons] at h
      cases h
      obtain ⟨c1, c2, c3⟩ := (casT_cons _ _ _ _).1 h3
      obtain ⟨-, -, f1, f2, -⟩ := cas_facts e he
      refine ⟨d, ds, rfl, h1 d List.mem_cons_self, e, he, rfl, rfl, (cas_guard he hu d).2 ⟨c1, ?_, ?_⟩, ?_⟩
      · intro h ht
        simpa [ht] using (h4 h).1
      · intro h ht
        simpa [ht, Cas11] using (h5 h)
      · refine (ih _ _ _ (CasInv.step he _) (CasInv.step he (u'.shift 27))).2
          ⟨fun x hx => h1 x (List.mem_cons_of_mem _ hx), hr, c3, fun h => c2 (f1.1 h), fun h => ?_⟩
        obtain ⟨h6, h7⟩ := f2.1 h
        intro hg'
        have := (h4 h6).2 (by simp [h7]) (by simpa using hg')
        simpa using this

/-- The words that reach an accepting state, alternating in a pair. -/
theorem goes_alternate {acc : ℕ → Bool} {edges : List Edge} (on : ℕ → Bool) (x y : Action) (hxy : x ≠ y)
    (h : ∀ e ∈ edges, (e.act = x → on e.src = false ∧ on e.tgt = true) ∧ (e.act = y → on e.src = true ∧ on e.tgt = false) ∧
      (e.act ≠ x → e.act ≠ y → on e.tgt = on e.src)) :
    ∀ (as : List Action) (ds : List ℚ) p (u : Valuation), Goes acc edges p u as ds →
      (on p = false → Alternate x y as) ∧ (on p = true → Alternate y x as) := by
  intro as
  induction as with
  | nil => intro ds p u _; simp [Alternate]
  | cons a as ih =>
    rintro ds p u ⟨d, ds', -, -, e, he, rfl, rfl, -, hr⟩
    obtain ⟨i1, i2⟩ := ih _ _ _ hr
    obtain ⟨h1, h2, h3⟩ := h e he
    by_cases c1 : e.act = x
    · obtain ⟨k1, k2⟩ := h1 c1
      refine ⟨fun _ => ?_, fun k => by rw [k1] at k; cases k⟩
      rw [Alternate, if_pos c1]
      exact i2 k2
    · by_cases c2 : e.act = y
      · obtain ⟨k1, k2⟩ := h2 c2
        refine ⟨fun k => (by rw [k1] at k; cases k), fun _ => ?_⟩
        rw [Alternate, if_pos c2]
        exact i1 k2
      · have k := h3 c1 c2
        refine ⟨fun k' => ?_, fun k' => ?_⟩
        · rw [Alternate, if_neg c1]
          exact ⟨c2, i1 (k.trans k')⟩
        · rw [Alternate, if_neg c2]
          exact ⟨c1, i2 (k.trans k')⟩

/-! ### PC -/

/-- The events that start a check. -/
def PcStart (a : Action) : Prop := a = act 'u' ∨ a = act 'e' ∨ a = act 'r'

instance (a : Action) : Decidable (PcStart a) := by unfold PcStart; infer_instance

/-- `pcAge` for lists, from the clock value `x`. -/
def pcAgeL (x : ℚ) (as : List Action) (ds : List ℚ) : ℕ → ℚ
  | 0 => x
  | j + 1 => if as[j]? = some (act 'u') ∨ as[j]? = some (act 'e') ∨ as[j]? = some (act 'r') then 0
    else pcAgeL x as ds j + ds.getD j 0

theorem pcAgeL_cons (x : ℚ) (a : Action) (as : List Action) (d : ℚ) (ds : List ℚ) (j : ℕ) :
    pcAgeL x (a :: as) (d :: ds) (j + 1) = pcAgeL (if PcStart a then 0 else x + d) as ds j := by
  induction j with
  | zero => simp [pcAgeL, PcStart]
  | succ j ih =>
    rw [pcAgeL, ih, pcAgeL]
    simp

theorem pcAgeL_eq (w : TimedWord) (j : ℕ) : pcAgeL 0 w.word w.durations j = pcAge w j := by
  induction j with
  | zero => rfl
  | succ j ih => rw [pcAgeL, pcAge, ih]

/-- `PcTiming` for lists. -/
def PcT (x : ℚ) (as : List Action) (ds : List ℚ) : Prop :=
  ∀ i, as[i]? = some (act 'l') ∨ as[i]? = some (act 'c') ∨ as[i]? = some (act 'g') →
    as[i + 1]? = some (act 's') ∨ as[i + 1]? = some (act 'y') → 10 ≤ pcAgeL x as ds (i + 1) + ds.getD (i + 1) 0

/-- What is still to be checked after `l`, `c`, `g`. -/
def PcE (x : ℚ) (as : List Action) (ds : List ℚ) : Prop :=
  as[0]? = some (act 's') ∨ as[0]? = some (act 'y') → 10 ≤ x + ds.getD 0 0

theorem pcT_cons (x : ℚ) (a : Action) (as : List Action) (d : ℚ) (ds : List ℚ) :
    PcT x (a :: as) (d :: ds) ↔ (a = act 'l' ∨ a = act 'c' ∨ a = act 'g' → PcE (if PcStart a then 0 else x + d) as ds) ∧
      PcT (if PcStart a then 0 else x + d) as ds := by
  constructor
  · intro h
    refine ⟨fun ha hb => ?_, fun i h1 h2 => ?_⟩
    · have := h 0 (by simpa using ha) (by simpa using hb)
      rw [pcAgeL_cons] at this
      simpa [pcAgeL] using this
    · have := h (i + 1) (by simpa using h1) (by simpa using h2)
      rw [pcAgeL_cons] at this
      simpa using this
  · rintro ⟨h1, h2⟩ i k1 k2
    rw [pcAgeL_cons]
    rcases i with _ | i
    · have := h1 (by simpa using k1) (by simpa using k2)
      simpa [pcAgeL] using this
    · have := h2 i (by simpa using k1) (by simpa using k2)
      simpa using this

theorem pc_facts : ∀ e ∈ pcEdges,
    (e.guard = if (e.src = 5 ∨ e.src = 15) ∧ (e.act = act 's' ∨ e.act = act 'y') then [⟨0, .ge, 10⟩] else []) ∧
    (e.resets = if e.act = act 'u' ∨ e.act = act 'e' ∨ e.act = act 'r' then [0] else []) ∧
    (e.tgt = 5 ∨ e.tgt = 15 ↔ e.act = act 'l' ∨ e.act = act 'c' ∨ e.act = act 'g') := by decide +kernel

theorem pc_clock {e : Edge} (he : e ∈ pcEdges) (v : Valuation) :
    e.trans.resets.apply v 0 = if PcStart e.act then 0 else v 0 := by
  have := (pc_facts e he).2.1
  unfold Edge.trans
  rw [this]
  by_cases h : PcStart e.act <;> simp only [h, if_true, if_false]
  · have h' : e.act = act 'u' ∨ e.act = act 'e' ∨ e.act = act 'r' := h
    rw [if_pos h']
    exact apply_reset v
  · have h' : ¬ (e.act = act 'u' ∨ e.act = act 'e' ∨ e.act = act 'r') := h
    rw [if_neg h']
    rfl

theorem pc_guard {e : Edge} (he : e ∈ pcEdges) (u : Valuation) (d : ℚ) :
    e.guard.Holds (u.shift d) ↔ ((e.src = 5 ∨ e.src = 15) → (e.act = act 's' ∨ e.act = act 'y') → 10 ≤ u 0 + d) := by
  have h := (pc_facts e he).1
  have hs : (u.shift d) 0 = u 0 + d := rfl
  rw [h]
  by_cases c : (e.src = 5 ∨ e.src = 15) ∧ (e.act = act 's' ∨ e.act = act 'y')
  · rw [if_pos c, guard_one_iff]
    simp only [Constraint.Holds, hs]
    exact ⟨fun h _ _ => by simpa using h, fun h => by simpa using h c.1 c.2⟩
  · rw [if_neg c]
    exact ⟨fun _ h1 h2 => absurd ⟨h1, h2⟩ c, fun _ => guard_nil _⟩

theorem pc_goes : ∀ (as : List Action) (ds : List ℚ), ds.length = as.length + 1 → ∀ p (u u' : Valuation), 0 ≤ u' 0 →
    (Goes (fun p => decide (p < 16)) pcEdges p u as ds ↔
      (∀ d ∈ ds, 0 ≤ d) ∧ Goes (fun p => decide (p < 16)) pcEdges p u' as (ds.map fun _ => 10) ∧ PcT (u 0) as ds ∧
        ((p = 5 ∨ p = 15) → PcE (u 0) as ds)) := by
  intro as
  induction as with
  | nil =>
    intro ds hl p u u' _
    obtain ⟨d, rfl⟩ := List.length_eq_one_iff.1 hl
    simp [Goes, PcT, PcE]
  | cons a as ih =>
    intro ds hl p u u' hu'
    rcases ds with _ | ⟨d, ds⟩
    · simp at hl
    have hl' : ds.length = as.length + 1 := by simpa using hl
    have ih := ih ds hl'
    have hpos : ∀ e ∈ pcEdges, 0 ≤ e.trans.resets.apply (u'.shift 10) 0 := by
      intro e he
      rw [pc_clock he]
      split
      · exact le_refl _
      · change 0 ≤ u' 0 + 10
        linarith
    have hc : ∀ e ∈ pcEdges, e.trans.resets.apply (u.shift d) 0 = if PcStart e.act then 0 else u 0 + d :=
      fun e he => pc_clock he _
    constructor
    · rintro ⟨d', ds', h, hd, e, he, rfl, rfl, hg, hr⟩
      cases h
      obtain ⟨k1, k2, k3, k4⟩ := (ih _ _ _ (hpos e he)).1 hr
      rw [hc e he] at k3 k4
      have g := (pc_guard he u d).1 hg
      have f := (pc_facts e he).2.2
      refine ⟨?_, ⟨10, _, rfl, by norm_num, e, he, rfl, rfl, (pc_guard he u' 10).2 fun _ _ => by linarith, k2⟩,
        (pcT_cons _ _ _ _ _).2 ⟨fun h => k4 (f.2 h), k3⟩, fun h hs => ?_⟩
      · intro x hx
        rcases List.mem_cons.1 hx with rfl | hx
        · exact hd
        · exact k1 x hx
      · simpa using g h (by simpa using hs)
    · rintro ⟨h1, ⟨d', ds', h, hd, e, he, rfl, rfl, hg, hr⟩, h3, h4⟩
      rw [List.map_cons] at h
      cases h
      obtain ⟨c1, c2⟩ := (pcT_cons _ _ _ _ _).1 h3
      have f := (pc_facts e he).2.2
      refine ⟨d, ds, rfl, h1 d List.mem_cons_self, e, he, rfl, rfl, (pc_guard he u d).2 fun hp hs => ?_, ?_⟩
      · have := h4 hp (by simpa using hs)
        simpa using this
      · refine (ih _ _ _ (hpos e he)).2 ⟨fun x hx => h1 x (List.mem_cons_of_mem _ hx), hr, ?_, ?_⟩ <;> rw [hc e he]
        · exact c2
        · exact fun h => c1 (f.1 h)

end Fixture
end LearnTA
