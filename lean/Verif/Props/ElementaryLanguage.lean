import Verif.Lemmas.Backward
import Verif.Lemmas.Enumerate
import Verif.Lemmas.ElementarySample

/-!
# Properties of elementary languages and regions (C21–C28, C56, C57)
-/

namespace LearnTA.Props

open LearnTA TimedCondition

/-! ### Example languages -/

/-- The word `a` with the delays 1/2 and 7/10 around it. -/
def exTW : TimedWord := ⟨[97], [1 / 2, 7 / 10]⟩

theorem exTW_wf : exTW.WF := rfl

/-- The region of `exTW`: `τ₀, τ₁ ∈ (0,1)`, `τ₀ + τ₁ ∈ (1,2)`. -/
def exRegion : ForwardRegional := .fromTimedWord exTW

/-- All delays around the action `a` with `τ₀ ≤ 2`, `τ₁ ≤ 2`, `1 < τ₀ + τ₁ ≤ 3`. -/
def exCond : TimedCondition :=
  ((((TimedCondition.mk (Zone.top 3)).restrictUpper 0 0 (.fin 2 true) false).restrictLower 0 0 (.fin 0 true)
    false).restrictUpper 1 1 (.fin 2 true) false).restrictLower 1 1 (.fin 0 true) false
  |>.restrictUpper 0 1 (.fin 3 true) false |>.restrictLower 0 1 (.fin (-1) false) false

def exLang : ElementaryLanguage := ⟨[97], exCond⟩

theorem exLang_wf : exLang.WF := by
  unfold ElementaryLanguage.WF; decide +kernel
theorem exCond_canonical : exCond.Canonical := by
  refine ⟨by decide +kernel, ?_, ?_⟩ <;> decide +kernel

/-! ## C21 -/

/-- C21: `contains` is true exactly if the word of the timed word is the one of the language and every
sum of consecutive delays respects its two bounds.  The condition may be any matrix with a
non-negative diagonal (canonical or not, satisfiable or not). -/
theorem C21_contains_exact (e : ElementaryLanguage) (he : e.WF)
    (hd : ∀ i < e.cond.zone.dim, 0 ≤ e.cond.zone.val i i) (w : TimedWord) (hw : w.WF) :
    e.contains w = true ↔ e.Mem w := by
  refine ElementaryLanguage.contains_iff e ?_ hd w hw he
  unfold ElementaryLanguage.WF TimedCondition.size at he; omega

example : exLang.contains ⟨[97], [1, 3 / 2]⟩ = true := by decide +kernel
example : exLang.contains ⟨[97], [1 / 2, 1 / 2]⟩ = false := by decide +kernel
example : exLang.contains ⟨[98], [1, 3 / 2]⟩ = false := by decide +kernel
example : ∀ i < exLang.cond.zone.dim, 0 ≤ exLang.cond.zone.val i i :=
  exCond_canonical.diagNN

/-! ## C22 -/

/-- C22: the sampled word belongs to the language (and `contains` says so), for every language with
a canonical condition, finite bounds of the single delays, and observable actions. -/
theorem C22_sample_mem (e : ElementaryLanguage) (he : e.WF) (hc : e.cond.Canonical)
    (hb : ∀ i < e.cond.size, e.cond.upper i i ≠ .inf ∧ e.cond.lower i i ≠ .inf)
    (ho : ∀ a ∈ e.word, a ≠ unobservable) :
    e.Mem e.sample ∧ e.sample.WF ∧ e.contains e.sample = true := by
  have hh := ElementaryLanguage.sampleDurations_holds e.cond hc hb
  have hs : e.word.length + 1 = e.cond.size := he
  have hwf : TimedWord.WF ⟨e.word, ElementaryLanguage.sampleDurations e.cond e.cond.size⟩ := by
    show (ElementaryLanguage.sampleDurations e.cond e.cond.size).length = e.word.length + 1
    rw [hh.1, hs]
  have hm := TimedWord.make_observable hwf ho
  have e1 : e.sample = ⟨e.word, ElementaryLanguage.sampleDurations e.cond e.cond.size⟩ := by
    unfold ElementaryLanguage.sample; rw [hs]; exact hm
  have hM : e.Mem e.sample := by rw [e1]; exact ⟨rfl, hh⟩
  have hW : e.sample.WF := by rw [e1]; exact hwf
  exact ⟨hM, hW, (C21_contains_exact e he hc.diagNN _ hW).2 hM⟩

example : exLang.sample = ⟨[97], [1, 1]⟩ := by decide +kernel
example : exRegion.sample = ⟨[97], [1 / 2, 3 / 4]⟩ := by decide +kernel
example : ∀ i < exLang.cond.size, exLang.cond.upper i i ≠ .inf ∧ exLang.cond.lower i i ≠ .inf := by
  decide +kernel

/-! ## C23 -/

/-- C23: a timed word belongs to the concatenation exactly if it is a word of the first language
followed by one of the second. -/
theorem C23_append_exact (a b : ElementaryLanguage) (ha : a.WF) (hb : b.WF) (hca : a.cond.Canonical)
    (hcb : b.cond.Canonical) (w : TimedWord) :
    (a.append b).Mem w ↔ ∃ u v, a.Mem u ∧ b.Mem v ∧ w = u.append v := by
  unfold ElementaryLanguage.Mem ElementaryLanguage.append
  simp only
  rw [append_holds a.cond b.cond hca hcb]
  constructor
  · rintro ⟨h1, d1, d2, h2, h3, h4⟩
    refine ⟨⟨a.word, d1⟩, ⟨b.word, d2⟩, ⟨rfl, h2⟩, ⟨rfl, h3⟩, ?_⟩
    rcases w with ⟨w, d⟩
    simp only at h1 h4
    subst h1; subst h4; rfl
  · rintro ⟨u, v, ⟨h1, h2⟩, ⟨h3, h4⟩, rfl⟩
    exact ⟨by simp [TimedWord.append, h1, h3], _, _, h2, h4, rfl⟩

/-- C23: the concatenation is again well-formed and canonical (so it can be concatenated again). -/
theorem C23_append_canonical (a b : ElementaryLanguage) (ha : a.WF) (hb : b.WF) (hca : a.cond.Canonical)
    (hcb : b.cond.Canonical) : (a.append b).WF ∧ (a.append b).cond.Canonical := by
  refine ⟨?_, append_canonical _ _ hca hcb⟩
  have : (a.append b).cond.size = a.cond.size + b.cond.size - 1 := by
    show (a.cond.append b.cond).size = _
    conv_lhs => rw [size, append_dim]
  unfold ElementaryLanguage.WF at *
  rw [this, ← ha, ← hb]
  simp [ElementaryLanguage.append]; omega

example : (exLang.append exLang).contains ⟨[97, 97], [1, 3, 3 / 2]⟩ = true := by decide +kernel
example : (exLang.append exLang).contains ⟨[97, 97], [1, 4, 3 / 2]⟩ = false := by decide +kernel

/-! ## C24 -/

/-- C24: the region of a timed word contains it, is well-formed, canonical and simple, and its order
of fractional parts is the one of the sums `T_{i,N}` of the word. -/
theorem C24_region_of_word (w : TimedWord) (hw : w.WF) :
    let L := ForwardRegional.fromTimedWord w
    L.Mem w ∧ L.contains w = true ∧ L.WF ∧ L.cond.Canonical ∧ L.cond.Simple ∧
      L.frac.Partition ∧ L.frac.size = w.durations.length ∧
      L.frac.Describes fun i => TimedCondition.T w.durations i (w.durations.length - 1) := by
  intro L
  have h := ForwardRegional.fromTimedWord_of w hw
  have hM : L.Mem w := (h.mem_iff w).2 ⟨rfl, rfl, h⟩
  have hWF : L.WF := by
    show L.word.length + 1 = L.cond.size
    rw [h.csize]; exact h.word
  refine ⟨hM, (C21_contains_exact _ hWF h.diag _ hw).2 hM, hWF, h.canonical, .of_isRegion h.region, h.part,
    h.size, h.desc.congr h.part ?_⟩
  intro i hi
  rw [h.size] at hi
  rw [T_eq _ (by omega), accV_ge _ (i := w.durations.length - 1 + 1) (by omega), sub_zero]

/-- C24: regions partition the timed words: a word belongs to the region of another one exactly if
their regions are equal (`==`). -/
theorem C24_regions_partition (w w' : TimedWord) (hw : w.WF) (hw' : w'.WF) :
    (ForwardRegional.fromTimedWord w).Mem w' ↔
      (ForwardRegional.fromTimedWord w).beq (.fromTimedWord w') = true := by
  have h := ForwardRegional.fromTimedWord_of w hw
  have h' := ForwardRegional.fromTimedWord_of w' hw'
  rw [h.mem_iff]
  constructor
  · rintro ⟨h1, h2, h3⟩
    rw [← h2] at h3
    exact h3.beq h' h1.symm
  · intro hb
    obtain ⟨e1, e2⟩ := h'.of_beq h (ForwardRegional.beq_symm h h' hb)
    exact ⟨((ForwardRegional.beq_iff _ _).1 hb).1.symm, e1.symm, e1 ▸ e2⟩

/-- C24: two words with the same actions have the same region exactly if all sums of consecutive
delays have the same integer part and are integers at the same time. -/
theorem C24_same_region_iff (w w' : TimedWord) (hw : w.WF) (hw' : w'.WF) :
    (ForwardRegional.fromTimedWord w).Mem w' ↔ w'.word = w.word ∧
      ∀ i j, i ≤ j → j < w.durations.length →
        ⌊T w.durations i j⌋ = ⌊T w'.durations i j⌋ ∧ ⌈T w.durations i j⌉ = ⌈T w'.durations i j⌉ := by
  have h := ForwardRegional.fromTimedWord_of w hw
  have hs := h.csize
  have hp := h.pos
  have key : ∀ i j, i ≤ j → j < w.durations.length →
      (ForwardRegional.fromTimedWord w).cond.upper i j = Bound.reg (T w.durations i j) ∧
      (ForwardRegional.fromTimedWord w).cond.lower i j = Bound.reg (-T w.durations i j) := by
    intro i j hij hj
    have hj' : j < (ForwardRegional.fromTimedWord w).cond.size := by rw [hs]; exact hj
    have h1 := eidx_lt hj'
    have h2 : i + 1 < (ForwardRegional.fromTimedWord w).cond.zone.dim := by rw [h.dim]; omega
    rw [upper_eq, lower_eq, h.region _ h2 _ h1 (Ne.symm (eidx_ne hij)), h.region _ h1 _ h2 (eidx_ne hij),
      ext_eidx (by rw [hs]) hj', T_eq _ hij]
    simp only [Zone.ext_succ]
    exact ⟨trivial, by rw [neg_sub]⟩
  unfold ElementaryLanguage.Mem TimedCondition.Holds
  rw [hs]
  constructor
  · rintro ⟨h1, h2, h3⟩
    refine ⟨h1, fun i j hij hj => ?_⟩
    obtain ⟨g1, g2⟩ := h3 i j hij hj
    rw [(key i j hij hj).1] at g1
    rw [(key i j hij hj).2] at g2
    have e1 := Bound.reg_same g1 g2
    have e2 : Bound.reg (-T w'.durations i j) = Bound.reg (-T w.durations i j) :=
      Bound.reg_same g2 (by simpa using g1)
    refine ⟨(reg_floor e1).symm, ?_⟩
    have := reg_floor e2
    rw [Int.floor_neg, Int.floor_neg] at this
    omega
  · rintro ⟨h1, h2⟩
    have hl : w'.durations.length = w.durations.length := by rw [hw, hw', h1]
    refine ⟨h1, hl, fun i j hij hj => ?_⟩
    obtain ⟨g1, g2⟩ := h2 i j hij hj
    obtain ⟨r1, r2⟩ := ForwardRegional.reg_of_floor_ceil g1 g2
    rw [(key i j hij hj).1, (key i j hij hj).2, r1, r2]
    exact ⟨Bound.sat_reg _, Bound.sat_reg _⟩

example : (ForwardRegional.fromTimedWord exTW).beq (.fromTimedWord ⟨[97], [9 / 10, 8 / 10]⟩) = true := by
  decide +kernel
example : (ForwardRegional.fromTimedWord exTW).beq (.fromTimedWord ⟨[97], [1 / 10, 8 / 10]⟩) = false := by
  decide +kernel

/-! ## C25 -/

theorem accV_addBack {d : List ℚ} (hd : d ≠ []) (q : ℚ) {i : ℕ} (hi : i < d.length) :
    accV (TimedWord.addBack d q) i = accV d i + q := by
  obtain ⟨x, l, rfl⟩ : ∃ x l, d = l ++ [x] := by
    rcases List.eq_nil_or_concat d with h | ⟨l, x, h⟩
    · exact absurd h hd
    · exact ⟨x, l, by simpa using h⟩
  simp only [List.length_append, List.length_cons, List.length_nil] at hi
  have e : TimedWord.addBack (l ++ [x]) q = l ++ [x + q] := by simp [TimedWord.addBack]
  rw [e, ElementaryLanguage.accV_append _ _ (by omega), ElementaryLanguage.accV_append _ _ (by omega)]
  ring

theorem appendDelay_mem {L : ForwardRegional} {n : ℕ} {v : Valuation} (h : L.Of n v) {w : TimedWord}
    (hl : w.durations.length = n) (hw : w.word = L.word) (q : ℚ) :
    L.Mem (w.appendDelay q) ↔ L.Of n fun i => accV w.durations i + q := by
  have hp := h.pos
  have hne : w.durations ≠ [] := by intro e; rw [e] at hl; simp at hl; omega
  have hv : ∀ i < n, accV (w.appendDelay q).durations i = accV w.durations i + q := fun i hi =>
    accV_addBack hne q (by omega)
  rw [h.mem_iff]
  constructor
  · rintro ⟨_, _, h3⟩; exact h3.congr hv
  · intro h3
    exact ⟨hw, by simp only [TimedWord.appendDelay]; rw [TimedWord.addBack_length _ _ hne, hl],
      h3.congr fun i hi => (hv i hi).symm⟩

/-- C25: from every word of a reachable region, letting time pass leads to the successor, and no other
region is visited in between. -/
theorem C25_successor_next {L : ForwardRegional} (h : L.Reach) {w : TimedWord} (hw : L.Mem w) :
    ∃ δ : ℚ, 0 < δ ∧ L.successor.Mem (w.appendDelay δ) ∧
      ∀ e, 0 ≤ e → e ≤ δ → L.Mem (w.appendDelay e) ∨ L.successor.Mem (w.appendDelay e) := by
  obtain ⟨n, v, h1, _⟩ := h.of
  obtain ⟨g1, g2, g3⟩ := (h1.mem_iff w).1 hw
  obtain ⟨δ, a1, a2, a3⟩ := g3.successor
  refine ⟨δ, a1, (appendDelay_mem a2 g2 g1 δ).2 a2, fun e he0 he1 => ?_⟩
  rw [appendDelay_mem g3 g2 g1, appendDelay_mem a2 g2 g1]
  exact a3 e he0 he1

/-- C25: conversely, every word of the successor is a word of the region with some more delay, and in
between only these two regions are visited. -/
theorem C25_successor_from {L : ForwardRegional} (h : L.Reach) {w : TimedWord} (hw : L.successor.Mem w) :
    ∃ (u : TimedWord) (δ : ℚ), 0 < δ ∧ L.Mem u ∧ w = u.appendDelay δ ∧
      ∀ e, 0 ≤ e → e ≤ δ → L.Mem (u.appendDelay e) ∨ L.successor.Mem (u.appendDelay e) := by
  obtain ⟨n, v, h1, _⟩ := h.of
  obtain ⟨δ0, _, h2, _⟩ := h1.successor
  obtain ⟨g1, g2, g3⟩ := (h2.mem_iff w).1 hw
  obtain ⟨δ, a1, _, a3, a4⟩ := g3.back
  rw [h1.back_successor] at a3 a4
  have hp := h1.pos
  have hne : w.durations ≠ [] := by intro e; rw [e] at g2; simp at g2; omega
  have hsum : ∀ q : ℚ, (w.appendDelay (-δ)).appendDelay q = w.appendDelay (q - δ) := by
    intro q
    obtain ⟨x, l, hx⟩ : ∃ x l, w.durations = l ++ [x] := by
      rcases List.eq_nil_or_concat w.durations with h | ⟨l, x, h⟩
      · exact absurd h hne
      · exact ⟨x, l, by simpa using h⟩
    simp only [TimedWord.appendDelay, TimedWord.addBack, hx, List.dropLast_concat, List.getLastD_concat]
    congr 3; ring
  have h0 : w.appendDelay 0 = w := by
    obtain ⟨x, l, hx⟩ : ∃ x l, w.durations = l ++ [x] := by
      rcases List.eq_nil_or_concat w.durations with h | ⟨l, x, h⟩
      · exact absurd h hne
      · exact ⟨x, l, by simpa using h⟩
    rcases w with ⟨ww, wd⟩
    simp only at hx; subst hx
    simp [TimedWord.appendDelay, TimedWord.addBack]
  have g1' : w.word = L.word := g1
  refine ⟨w.appendDelay (-δ), δ, a1, ?_, ?_, ?_⟩
  · rw [appendDelay_mem h1 g2 g1']; simpa [sub_eq_add_neg] using a3
  · rw [hsum, sub_self, h0]
  · intro e he0 he1
    rw [hsum, appendDelay_mem h1 g2 g1', appendDelay_mem h2 g2 g1]
    have := a4 (δ - e) (by linarith) (by linarith)
    have e1 : ∀ i, accV w.durations i - (δ - e) = accV w.durations i + (e - δ) := fun i => by ring
    simp only [e1] at this
    exact this.symm

/-- C25: the region and its successor are disjoint. -/
theorem C25_successor_disjoint {L : ForwardRegional} (h : L.Reach) (w : TimedWord) :
    ¬ (L.Mem w ∧ L.successor.Mem w) := by
  rintro ⟨h1, h2⟩
  obtain ⟨n, v, ho, _⟩ := h.of
  obtain ⟨_, _, hs, _⟩ := ho.successor
  have a1 := ((ho.mem_iff w).1 h1).2.2
  have a2 := ((hs.mem_iff w).1 h2).2.2
  have e := FractionalOrder.describes_unique a2.part a1.part (by rw [a1.size, a2.size]) a2.desc a1.desc
  have e' := FractionalOrder.predecessor_successor a1.part (by rw [a1.size]; exact a1.pos)
  have : L.successor.frac = L.frac.successor := rfl
  rw [this] at e
  rw [e] at e'
  exact ForwardRegional.predecessor_ne a1.part (by rw [a1.size]; exact a1.pos) e'

/-- C25: a word belongs to the discrete successor exactly if it is a word of the region followed by
the action and no further delay. -/
theorem C25_action_exact {L : ForwardRegional} (h : L.Reach) (a : Action) (w : TimedWord) :
    (L.successorAction a).Mem w ↔ ∃ u, L.Mem u ∧ w = u.appendAction a := by
  obtain ⟨n, v, ho, _⟩ := h.of
  have hs := ho.successorAction a
  have hp := ho.pos
  rw [hs.mem_iff]
  have hword : (L.successorAction a).word = L.word ++ [a] := rfl
  constructor
  · rintro ⟨h1, h2, h3⟩
    obtain ⟨x, l, hx⟩ : ∃ x l, w.durations = l ++ [x] := by
      rcases List.eq_nil_or_concat w.durations with h | ⟨l, x, h⟩
      · rw [h] at h2; simp at h2
      · exact ⟨x, l, by simpa using h⟩
    have hl : l.length = n := by rw [hx] at h2; simpa using h2
    have hv0 : accV w.durations n = 0 := by
      have hr := h3.region (n + 1) (by rw [hs.dim]; omega) 0 (by rw [hs.dim]; omega) (by omega)
      have hr' := hs.region (n + 1) (by rw [hs.dim]; omega) 0 (by rw [hs.dim]; omega) (by omega)
      rw [hr] at hr'
      simp only [Zone.ext_succ, Zone.ext_zero, sub_zero, Nat.lt_irrefl, if_false] at hr'
      have e0 : Bound.reg (0 : ℚ) = .fin 0 true := by have := Bound.reg_int 0; simpa using this
      rw [e0] at hr'
      exact ForwardRegional.reg_eq_zero hr'
    have hx0 : x = 0 := by
      rw [hx] at hv0
      simpa [accV, ← hl] using hv0
    subst hx0
    refine ⟨⟨L.word, l⟩, ?_, ?_⟩
    · rw [ho.mem_iff]
      refine ⟨rfl, hl, ?_⟩
      refine ⟨ho.pos, ho.word, ho.dim, ho.diag, ?_, ho.size, ho.part, ?_⟩
      · intro i hi j hj hij
        rw [ho.dim] at hi hj
        have hr := h3.region i (by rw [hs.dim]; omega) j (by rw [hs.dim]; omega) hij
        have e1 : (L.successorAction a).cond.zone.val i j = L.cond.zone.val i j := by
          simp only [ForwardRegional.successorAction, extendN, ho.dim]
          rw [if_neg (by omega), if_neg (by omega)]
        have e2 : ∀ k < n + 1, (accV w.durations).ext k = (accV l).ext k := by
          intro k hk
          cases k with
          | zero => rfl
          | succ k =>
            simp only [Zone.ext_succ, hx]
            rw [ElementaryLanguage.accV_append _ _ (by omega), add_zero]
        rw [← e1, hr, e2 i hi, e2 j hj]
      · obtain ⟨qs, q1, q2⟩ := h3.desc
        obtain ⟨g, gs, hg⟩ := ho.part.order_eq
        have e1 : (L.successorAction a).frac.order = (g ++ [L.frac.size]) :: gs := by
          simp [ForwardRegional.successorAction, FractionalOrder.extendN, hg]
        rw [e1] at q2
        obtain ⟨q3, q4⟩ := List.forall₂_cons.1 q2
        have hd : L.frac.Describes (accV w.durations) :=
          ⟨qs, q1, by rw [hg]; exact .cons (fun i hi => q3 i (by simp [hi])) q4⟩
        refine hd.congr ho.part fun i hi => ?_
        rw [ho.size] at hi
        rw [hx, ElementaryLanguage.accV_append _ _ (by omega), add_zero]
    · rcases w with ⟨ww, wd⟩
      simp only at hx h1
      subst hx; subst h1; rfl
  · rintro ⟨u, hu, rfl⟩
    obtain ⟨h1, h2, h3⟩ := (ho.mem_iff u).1 hu
    refine ⟨by simp [TimedWord.appendAction, hword, h1], by simp [TimedWord.appendAction, h2], ?_⟩
    refine (h3.successorAction a).congr fun i hi => ?_
    show _ = accV (u.durations ++ [0]) i
    by_cases hi' : i < n
    · rw [if_pos hi', ElementaryLanguage.accV_append _ _ (by omega), add_zero]
    · rw [if_neg hi', ElementaryLanguage.accV_append _ _ (by omega), accV_ge _ (by omega)]; simp

/-- C25: a reachable region is well-formed, simple and satisfiable by non-negative delays (all its
words have such delays), and it is the region of each of its words. -/
theorem C25_reachable {L : ForwardRegional} (h : L.Reach) :
    L.WF ∧ L.cond.Simple ∧ L.cond.Canonical ∧ (∃ w, L.Mem w) ∧
      (∀ w, L.Mem w → w.WF ∧ ∀ q ∈ w.durations, 0 ≤ q) ∧
      ∀ w, L.Mem w → L.beq (.fromTimedWord w) = true := by
  obtain ⟨n, v, ho, hm⟩ := h.of
  have hp := ho.pos
  have hWF : L.WF := by
    show L.word.length + 1 = L.cond.size
    rw [ho.csize]; exact ho.word
  refine ⟨hWF, .of_isRegion ho.region, ho.canonical, ?_, ?_, ?_⟩
  · refine ⟨⟨L.word, delays v n⟩, (ho.mem_iff _).2 ⟨rfl, by simp, ho.congr fun i hi => ?_⟩⟩
    rw [accV_delays _ _ hi]
  · intro w hw
    obtain ⟨h1, h2, h3⟩ := (ho.mem_iff w).1 hw
    refine ⟨by show w.durations.length = _; rw [h1, h2, ho.word], ?_⟩
    intro q hq
    obtain ⟨i, hi, rfl⟩ := List.getElem_of_mem hq
    have hst := accV_step w.durations hi
    have hgd : w.durations.getD i 0 = w.durations[i] := by simp [List.getD, hi]
    rw [hgd] at hst
    have hle : ∀ x y : ℚ, 0 ≤ x → Bound.reg (-x) = Bound.reg (-y) → 0 ≤ y := by
      intro x y hx e
      have := (reg_le_iff e 0).1 (by simpa using hx)
      simpa using this
    by_cases hlast : i + 1 = n
    · have e1 := ho.region 0 (by rw [ho.dim]; omega) (i + 1) (by rw [ho.dim]; omega) (by omega)
      have e2 := h3.region 0 (by rw [ho.dim]; omega) (i + 1) (by rw [ho.dim]; omega) (by omega)
      rw [e1] at e2
      simp only [Zone.ext_succ, Zone.ext_zero, zero_sub] at e2
      have := hle _ _ (hm.nonneg (by omega)) e2
      rw [hst, accV_ge _ (by omega)] at this
      simpa using this
    · have e1 := ho.region (i + 2) (by rw [ho.dim]; omega) (i + 1) (by rw [ho.dim]; omega) (by omega)
      have e2 := h3.region (i + 2) (by rw [ho.dim]; omega) (i + 1) (by rw [ho.dim]; omega) (by omega)
      rw [e1] at e2
      simp only [Zone.ext_succ] at e2
      rw [← neg_sub (v i), ← neg_sub (accV w.durations i)] at e2
      have := hle _ _ (by have := hm.1 i (i + 1) (by omega) (by omega); linarith) e2
      linarith
  · intro w hw
    obtain ⟨h1, h2, h3⟩ := (ho.mem_iff w).1 hw
    have hwf : w.WF := by show w.durations.length = _; rw [h1, h2, ho.word]
    have h4 := ForwardRegional.fromTimedWord_of w hwf
    rw [h2] at h4
    exact h3.beq h4 h1.symm

/-- A reachable region: wait, do `a`, wait twice. -/
def exReach : ForwardRegional := ((ForwardRegional.init.successor).successorAction 97).successor.successor

theorem exReach_reach : exReach.Reach := .time (.time (.action 97 (.time .init)))

/-- `τ₀ ∈ (0,1)`, `τ₁ ∈ (0,1)` and `τ₀ + τ₁ = 1`. -/
example : exReach.beq (.fromTimedWord ⟨[97], [1 / 4, 3 / 4]⟩) = true := by decide +kernel
example : exReach.contains ⟨[97], [1 / 4, 3 / 4]⟩ = true := by decide +kernel
example : exReach.successor.beq (.fromTimedWord exTW) = true := by decide +kernel

/-! ## C26 -/

theorem built_partition {f : FractionalOrder} (h : f.Built) : f.Partition ∧ 0 < f.size := by
  induction h with
  | init => exact ⟨FractionalOrder.init_partition, by decide⟩
  | successor _ ih => obtain ⟨h1, h2⟩ := ih.1.successor ih.2; exact ⟨h1, h2 ▸ ih.2⟩
  | predecessor _ ih => obtain ⟨h1, h2⟩ := ih.1.predecessor ih.2; exact ⟨h1, h2 ▸ ih.2⟩
  | extendN _ ih => exact ⟨ih.1.extendN, Nat.succ_pos _⟩
  | extendZero _ ih => exact ⟨ih.1.extendZero, Nat.succ_pos _⟩
  | @removeN f _ h1 h2 ih =>
    refine ⟨(FractionalOrder.removeN_of ih.1 (n := f.size - 1) (by omega) h2).1, ?_⟩
    show 0 < f.size - 1
    omega

/-- C26: after any sequence of operations each variable occurs in exactly one group, exactly once, and
only the group of fractional part zero may be empty. -/
theorem C26_partition {f : FractionalOrder} (h : f.Built) : f.Partition := (built_partition h).1

/-- C26: each variable has exactly one group. -/
theorem C26_unique_group {f : FractionalOrder} (h : f.Built) {i : ℕ} (hi : i < f.size) :
    (f.order.flatten.count i = 1) := by
  have hp := (built_partition h).1
  rw [hp.perm.count_eq]
  exact List.count_eq_one_of_mem List.nodup_range (List.mem_range.2 hi)

/-- C26: `predecessor` undoes `successor` and conversely. -/
theorem C26_successor_invertible {f : FractionalOrder} (h : f.Built) :
    f.successor.predecessor = f ∧ f.predecessor.successor = f :=
  ⟨FractionalOrder.predecessor_successor (built_partition h).1 (built_partition h).2,
    (FractionalOrder.successor_predecessor (built_partition h).1 (built_partition h).2).1⟩

/-- C26: `removeN` undoes `extendN`, and conversely where it is allowed. -/
theorem C26_extend_invertible {f : FractionalOrder} (h : f.Built) :
    f.extendN.removeN = f ∧ (1 < f.size → f.size - 1 ∈ f.order.headD [] → f.removeN.extendN = f) :=
  ⟨FractionalOrder.removeN_extendN (built_partition h).1, fun h1 h2 =>
    (FractionalOrder.removeN_of (built_partition h).1 (n := f.size - 1) (by omega) h2).2⟩

example : FractionalOrder.Built ⟨[[], [1, 2], [0]], 3⟩ := by
  have : FractionalOrder.Built (FractionalOrder.init.successor.extendN.extendN.successor) :=
    .successor (.extendN (.extendN (.successor .init)))
  exact this
example : (FractionalOrder.mk [[], [1, 2], [0]] 3).successor = ⟨[[0], [1, 2]], 3⟩ := rfl
example : FractionalOrder.Built (FractionalOrder.init.extendN.removeN) :=
  .removeN (.extendN .init) (by decide) (by decide)

/-! ## C27 -/

theorem holds_of_zone {c x : TimedCondition} (hd : x.zone.dim = c.zone.dim) (hc : c.Canonical) (hx : x.Canonical)
    (h : ∀ w, x.zone.Sat w → c.zone.Sat w) {d : List ℚ} (hh : x.Holds d) : c.Holds d := by
  rw [holds_iff_mem _ hx.1 hx.diagNN] at hh
  rw [holds_iff_mem _ hc.1 hc.diagNN]
  exact ⟨by rw [hh.1]; unfold TimedCondition.size; rw [hd], h _ hh.2⟩

/-- C27: enumerating a satisfiable (canonical) condition with finite integer bounds terminates, and
gives simple conditions that are pairwise disjoint and together hold for exactly the same delays. -/
theorem C27_enumerate_partition (c : TimedCondition) (hc : c.Canonical) (hb : c.Bounded) (hi : c.Integral) :
    ∃ l, c.enumerate = some l ∧ (∀ x ∈ l, x.Simple ∧ x.Canonical ∧ ∃ d, x.Holds d) ∧
      (∀ d, c.Holds d ↔ ∃ x ∈ l, x.Holds d) ∧
      l.Pairwise fun x y => ∀ d, ¬ (x.Holds d ∧ y.Holds d) := by
  obtain ⟨l, h1, h2, h3, h4⟩ := TimedCondition.enumerate_spec hc hb hi
  refine ⟨l, h1, ?_, ?_, ?_⟩
  · intro x hx
    obtain ⟨g1, g2, g3, g4, g5⟩ := h2 x hx
    obtain ⟨v, hv⟩ := g2.nonempty
    refine ⟨.of_isRegion (isRegion_of_simple g3 g1 hv), g2, delays v x.size, ?_⟩
    rw [holds_iff_mem _ g2.1 g2.diagNN]
    exact ⟨by simp, mem_delays hv⟩
  · intro d
    constructor
    · intro hh
      rw [holds_iff_mem _ hc.1 hc.diagNN] at hh
      obtain ⟨x, hx, hs⟩ := (h3 _).1 hh.2
      obtain ⟨g1, g2, g3, g4, g5⟩ := h2 x hx
      refine ⟨x, hx, ?_⟩
      rw [holds_iff_mem _ g2.1 g2.diagNN]
      exact ⟨by rw [hh.1]; unfold TimedCondition.size; rw [g5], hs⟩
    · rintro ⟨x, hx, hh⟩
      obtain ⟨g1, g2, g3, g4, g5⟩ := h2 x hx
      exact holds_of_zone g5 hc g2 (fun w hw => (h3 w).2 ⟨x, hx, hw⟩) hh
  · refine List.Pairwise.imp_of_mem ?_ h4
    intro x y hx hy hxy d hd
    obtain ⟨_, g2, _⟩ := h2 x hx
    obtain ⟨_, k2, _⟩ := h2 y hy
    have e1 := hd.1; have e2 := hd.2
    rw [holds_iff_mem _ g2.1 g2.diagNN] at e1
    rw [holds_iff_mem _ k2.1 k2.diagNN] at e2
    exact hxy _ ⟨e1.2, e2.2⟩

/-- C27: the same for elementary languages: the pieces have the word of the language, are pairwise
disjoint, and contain together exactly its timed words. -/
theorem C27_enumerate_language (e : ElementaryLanguage) (hc : e.cond.Canonical) (hb : e.cond.Bounded)
    (hi : e.cond.Integral) :
    ∃ l, e.enumerate = some l ∧ (∀ x ∈ l, x.word = e.word ∧ x.cond.Simple) ∧
      (∀ w, e.Mem w ↔ ∃ x ∈ l, x.Mem w) ∧ l.Pairwise fun x y => ∀ w, ¬ (x.Mem w ∧ y.Mem w) := by
  unfold ElementaryLanguage.enumerate
  by_cases hs : e.isSimple = true
  · rw [if_pos hs]
    refine ⟨[e], rfl, ?_, by simp, by simp⟩
    intro x hx
    rw [List.mem_singleton.1 hx]
    obtain ⟨v, hv⟩ := hc.nonempty
    exact ⟨rfl, .of_isRegion (isRegion_of_simple hi hs hv)⟩
  · rw [if_neg hs]
    obtain ⟨l, h1, h2, h3, h4⟩ := C27_enumerate_partition e.cond hc hb hi
    refine ⟨l.map fun c => ⟨e.word, c⟩, by rw [h1]; rfl, ?_, ?_, ?_⟩
    · intro x hx
      obtain ⟨c, hc, rfl⟩ := List.mem_map.1 hx
      exact ⟨rfl, (h2 c hc).1⟩
    · intro w
      unfold ElementaryLanguage.Mem
      rw [h3]
      constructor
      · rintro ⟨g1, x, hx, g2⟩; exact ⟨⟨e.word, x⟩, List.mem_map.2 ⟨x, hx, rfl⟩, g1, g2⟩
      · rintro ⟨x, hx, g1, g2⟩
        obtain ⟨c, hc, rfl⟩ := List.mem_map.1 hx
        exact ⟨g1, c, hc, g2⟩
    · rw [List.pairwise_map]
      exact h4.imp fun h w hw => h _ ⟨hw.1.2, hw.2.2⟩

theorem exCond_bounded : exCond.Bounded := by
  unfold TimedCondition.Bounded; decide +kernel
theorem exCond_integral : exCond.Integral := by
  have h : ∀ i < exCond.zone.dim, ∀ j < exCond.zone.dim,
      exCond.zone.val i j = .inf ∨ ∃ k ∈ [-3, -2, -1, 0, 1, 2, 3], ∃ b ∈ [true, false],
        exCond.zone.val i j = .fin k b := by decide +kernel
  intro i hi j hj
  rcases h i hi j hj with e | ⟨k, hk, b, _, e⟩
  · rw [e]; trivial
  · rw [e]
    simp only [List.mem_cons, List.not_mem_nil, or_false] at hk
    rcases hk with rfl | rfl | rfl | rfl | rfl | rfl | rfl
    · exact ⟨-3, by norm_num⟩
    · exact ⟨-2, by norm_num⟩
    · exact ⟨-1, by norm_num⟩
    · exact ⟨0, by norm_num⟩
    · exact ⟨1, by norm_num⟩
    · exact ⟨2, by norm_num⟩
    · exact ⟨3, by norm_num⟩

example : (exCond.enumerate.map List.length) = some 22 := by decide +kernel

/-! ## C28 -/

/-- C28: the convex hull holds for all delays of both conditions. -/
theorem C28_hull_upper (a b : TimedCondition) (hd : a.zone.dim = b.zone.dim) (ha : a.Canonical)
    (hb : b.Canonical) (d : List ℚ) (h : a.Holds d ∨ b.Holds d) : (a.convexHull b).Holds d := by
  have hc := convexHull_canonical hd ha hb
  rcases h with h | h
  · exact holds_of_zone (c := a.convexHull b) (x := a) rfl hc ha (fun _ hw => convexHull_left hw) h
  · exact holds_of_zone (c := a.convexHull b) hd.symm hc hb (fun _ hw => convexHull_right hd hw) h

/-- C28: every condition that holds for all delays of both holds for all delays of the hull. -/
theorem C28_hull_least (a b c : TimedCondition) (hd : a.zone.dim = b.zone.dim) (hdc : a.zone.dim = c.zone.dim)
    (hcd : ∀ i < c.zone.dim, 0 ≤ c.zone.val i i) (ha : a.Canonical) (hb : b.Canonical)
    (h : ∀ d, a.Holds d ∨ b.Holds d → c.Holds d) (d : List ℚ) (hh : (a.convexHull b).Holds d) : c.Holds d := by
  have hc := convexHull_canonical hd ha hb
  have h2 : 2 ≤ c.zone.dim := by rw [← hdc]; exact ha.1
  have key : ∀ x : TimedCondition, x.Canonical → x.zone.dim = c.zone.dim → (∀ d, x.Holds d → c.Holds d) →
      ∀ w, x.zone.Sat w → c.zone.Sat w := by
    intro x hx hxd hxc w hw
    have hw0 := Zone.Sat.shift hw (w 0)
    let v : Valuation := fun i => w (i + 1) - w 0
    have hv : x.zone.Mem v := by
      refine hw0.congr fun i _ => ?_
      cases i with
      | zero => simp [Valuation.ext]
      | succ i => rfl
    have hm := mem_delays hv
    have hH : x.Holds (delays v x.size) := by
      rw [holds_iff_mem _ hx.1 hx.diagNN]; exact ⟨by simp, hm⟩
    have hC := hxc _ hH
    rw [holds_iff_mem _ h2 hcd] at hC
    have := Zone.Sat.shift hC.2 (-w 0)
    refine this.congr fun i hi => ?_
    cases i with
    | zero => simp [Valuation.ext]
    | succ i =>
      simp only [Zone.ext_succ]
      rw [accV_delays _ _ (by unfold TimedCondition.size; rw [hxd]; omega)]
      simp [v]
  rw [holds_iff_mem _ hc.1 hc.diagNN] at hh
  rw [holds_iff_mem _ h2 hcd]
  refine ⟨by rw [hh.1]; show a.zone.dim - 1 = c.zone.dim - 1; rw [hdc], ?_⟩
  exact convexHull_least hd hdc hcd ha hb (key a ha hdc fun d hd => h d (Or.inl hd))
    (key b hb (by rw [← hd, hdc]) fun d hd => h d (Or.inr hd)) hh.2

/-- C28: the hull of a list of languages with the same word contains each of them, and is canonical. -/
theorem C28_hull_list (e : ElementaryLanguage) (l : List ElementaryLanguage)
    (hc : ∀ x ∈ e :: l, x.cond.Canonical ∧ x.cond.zone.dim = e.cond.zone.dim ∧ x.word = e.word) :
    (ElementaryLanguage.convexHull (e :: l)).cond.Canonical ∧
      ∀ x ∈ e :: l, ∀ w, x.Mem w → (ElementaryLanguage.convexHull (e :: l)).Mem w := by
  have key : ∀ (l : List ElementaryLanguage) (c : TimedCondition), c.Canonical → c.zone.dim = e.cond.zone.dim →
      (∀ x ∈ l, x.cond.Canonical ∧ x.cond.zone.dim = e.cond.zone.dim ∧ x.word = e.word) →
      let r := l.foldl (fun c e' => c.convexHull e'.cond) c
      r.Canonical ∧ r.zone.dim = e.cond.zone.dim ∧ (∀ d, c.Holds d → r.Holds d) ∧
        ∀ x ∈ l, ∀ d, x.cond.Holds d → r.Holds d := by
    intro l
    induction l with
    | nil => intro c h1 h2 _; exact ⟨h1, h2, fun _ h => h, by simp⟩
    | cons a l ih =>
      intro c h1 h2 h3
      obtain ⟨k1, k2, k3⟩ := h3 a (by simp)
      have hd : c.zone.dim = a.cond.zone.dim := by rw [h2, k2]
      obtain ⟨g1, g2, g3, g4⟩ := ih (c.convexHull a.cond) (convexHull_canonical hd h1 k1) h2
        fun x hx => h3 x (by simp [hx])
      refine ⟨g1, g2, fun d hh => g3 d (C28_hull_upper _ _ hd h1 k1 d (Or.inl hh)), ?_⟩
      intro x hx d hh
      rcases List.mem_cons.1 hx with rfl | hx
      · exact g3 d (C28_hull_upper _ _ hd h1 k1 d (Or.inr hh))
      · exact g4 x hx d hh
  obtain ⟨h1, _, _⟩ := hc e (by simp)
  obtain ⟨g1, _, g3, g4⟩ := key (e :: l) e.cond h1 rfl hc
  refine ⟨g1, fun x hx w hw => ⟨?_, ?_⟩⟩
  · rw [hw.1, (hc x hx).2.2]; rfl
  · exact g4 x hx _ hw.2

/-- The hull of `τ₀ = τ₁ = 0` and of a region with `τ₀ + τ₁ ∈ (1,2)`. -/
example : (TimedCondition.convexHull (.ofAccumulated [0, 0]) exRegion.cond).upper 0 1 = .fin 2 false := by
  decide +kernel
example : (TimedCondition.convexHull (.ofAccumulated [0, 0]) exRegion.cond).lower 0 1 = .fin 0 true := by
  decide +kernel

/-! ## C56 -/

/-- C56: the immediate prefix of the continuous successor of a reachable region is the region
itself. -/
theorem C56_prefix_of_successor {L : ForwardRegional} (h : L.Reach) :
    L.successor.immediatePrefix = some L := by
  obtain ⟨n, v, ho, hm⟩ := h.of
  obtain ⟨δ, h1, h2, _⟩ := ho.successor
  rw [h2.immediatePrefix, if_pos (by have := hm.2; linarith), ho.back_successor]

/-- C56: the immediate prefix of the discrete successor of a reachable region is the region itself
(up to `==`). -/
theorem C56_prefix_of_action {L : ForwardRegional} (h : L.Reach) (a : Action) :
    ∃ P, (L.successorAction a).immediatePrefix = some P ∧ P.beq L = true := by
  obtain ⟨n, v, ho, hm⟩ := h.of
  have hp := ho.pos
  have hs := ho.successorAction a
  have hv : (fun i => if i < n then v i else 0) n = 0 := by simp
  refine ⟨(L.successorAction a).chop, ?_, ?_⟩
  · rw [hs.immediatePrefix]
    simp only [Nat.add_sub_cancel, Nat.lt_irrefl, if_false, ne_eq, not_true_eq_false]
    rw [if_neg (by omega)]
  · refine ((hs.chop hp hv).1.congr fun i hi => ?_).beq ho ?_
    · simp [hi]
    · show (L.word ++ [a]).dropLast = L.word
      simp

/-- C56: among the reachable regions, only the initial one has no immediate prefix. -/
theorem C56_no_prefix {L : ForwardRegional} (h : L.Reach) :
    L.immediatePrefix = none ↔ ForwardRegional.init.beq L = true := by
  obtain ⟨n, v, ho, hm⟩ := h.of
  have hp := ho.pos
  constructor
  · intro hn
    rw [ho.immediatePrefix] at hn
    split at hn
    · simp at hn
    · rename_i hv
      push Not at hv
      split at hn
      · rename_i h1
        subst h1
        have hw : L.word = [] := List.length_eq_zero_iff.1 (by have := ho.word; omega)
        exact ForwardRegional.init_of.beq (ho.congr fun i hi => by rw [show i = 0 by omega]; exact hv)
          (by rw [hw]; rfl)
      · simp at hn
  · intro hb
    obtain ⟨e, h1⟩ := ForwardRegional.init_of.of_beq ho hb
    rw [h1.immediatePrefix]; simp

/-- C56: `prefixes` of the region of any timed word with non-negative delays terminates, starts with
the initial region, ends with the region itself, each element is the continuous or a discrete
successor of the one before, and every element equals (`==`) a region reachable by successors: the
lookups by `==` in the observation table find them. -/
theorem C56_prefixes_chain (w : TimedWord) (hw : w.WF) (hn : ∀ q ∈ w.durations, 0 ≤ q) :
    ∃ (N : ℕ) (l : List ForwardRegional),
      (∀ f, N < f → ForwardRegional.prefixes f (.fromTimedWord w) = some (l ++ [.fromTimedWord w])) ∧
      (∃ I, (l ++ [ForwardRegional.fromTimedWord w]).head? = some I ∧ ForwardRegional.init.beq I = true) ∧
      (l ++ [ForwardRegional.fromTimedWord w]).IsChain ForwardRegional.Step ∧
      ∀ P ∈ l ++ [ForwardRegional.fromTimedWord w], ∃ R : ForwardRegional, R.Reach ∧ R.beq P = true := by
  have h := ForwardRegional.fromTimedWord_of w hw
  obtain ⟨l, h1, h2, h3, h4, h5⟩ := ForwardRegional.prefixes_aux _ h (ForwardRegional.accV_mono hn) (le_refl _)
  refine ⟨_, l, h1, h4, h5, ?_⟩
  intro P hP
  rcases List.mem_append.1 hP with hP | hP
  · exact h3 P hP
  · rw [List.mem_singleton.1 hP]; exact h2

example : ((exRegion.prefixes 10).map (·.length)) = some 6 := by decide +kernel
example : exReach.immediatePrefix.isSome = true := by decide +kernel

/-! ## C57 -/

theorem backward_of {L : BackwardRegional} (h : L.Reach) :
    ∃ n v, L.Of n v ∧ ∀ i < n, v i ≤ 0 := by
  induction h with
  | init => exact ⟨1, _, BackwardRegional.init_of, by simp⟩
  | action a _ ih =>
    obtain ⟨n, v, h1, h2⟩ := ih
    refine ⟨n + 1, _, h1.predecessorAction a, ?_⟩
    intro i hi
    split
    · exact le_refl _
    · exact h2 _ (by omega)
  | time _ ih =>
    obtain ⟨n, v, h1, h2⟩ := ih
    obtain ⟨δ, g1, g2, _⟩ := h1.predecessor
    exact ⟨n, _, g2, fun i hi => by have := h2 i hi; linarith⟩

theorem prependDelay_mem {L : BackwardRegional} {n : ℕ} {v : ℕ → ℚ} (h : L.Of n v) {w : TimedWord}
    (hl : w.durations.length = n) (hw : w.word = L.word) (q : ℚ) :
    L.Mem (w.prependDelay q) ↔ L.Of n fun i => BackwardRegional.negT w.durations i - q := by
  have hp := h.pos
  obtain ⟨x, l, hx⟩ : ∃ x l, w.durations = x :: l := by
    cases hd : w.durations with
    | nil => rw [hd] at hl; simp at hl; omega
    | cons x l => exact ⟨x, l, rfl⟩
  have hv : ∀ i < n, BackwardRegional.negT (w.prependDelay q).durations i =
      BackwardRegional.negT w.durations i - q := by
    intro i _
    simp only [TimedWord.prependDelay, hx, List.headD_cons, List.tail_cons]
    exact BackwardRegional.negT_front _ _ _ _
  rw [h.mem_iff]
  constructor
  · rintro ⟨_, _, h3⟩; exact h3.congr hv
  · intro h3
    refine ⟨hw, ?_, h3.congr fun i hi => (hv i hi).symm⟩
    rw [← hl]; simp [TimedWord.prependDelay, hx]

/-- C57: for backward regions built by `predecessor`s from the empty word: letting time pass before
the word leads to the continuous predecessor, and no other region is visited in between. -/
theorem C57_predecessor_next {L : BackwardRegional} (h : L.Reach) {w : TimedWord} (hw : L.Mem w) :
    ∃ δ : ℚ, 0 < δ ∧ L.predecessor.Mem (w.prependDelay δ) ∧
      ∀ e, 0 ≤ e → e ≤ δ → L.Mem (w.prependDelay e) ∨ L.predecessor.Mem (w.prependDelay e) := by
  obtain ⟨n, v, h1, _⟩ := backward_of h
  obtain ⟨g1, g2, g3⟩ := (h1.mem_iff w).1 hw
  obtain ⟨δ, a1, a2, a3⟩ := g3.predecessor
  refine ⟨δ, a1, (prependDelay_mem a2 g2 g1 δ).2 a2, fun e he0 he1 => ?_⟩
  rw [prependDelay_mem g3 g2 g1, prependDelay_mem a2 g2 g1]
  exact a3 e he0 he1

/-- C57: such a region is simple, satisfiable, and disjoint from its continuous predecessor. -/
theorem C57_reachable {L : BackwardRegional} (h : L.Reach) :
    L.WF ∧ L.cond.Simple ∧ L.cond.Canonical ∧ (∃ w, L.Mem w) ∧
      ∀ w, ¬ (L.Mem w ∧ L.predecessor.Mem w) := by
  obtain ⟨n, v, ho, _⟩ := backward_of h
  have hWF : L.WF := by
    show L.word.length + 1 = L.cond.size
    rw [ho.csize]; exact ho.word
  refine ⟨hWF, .of_isRegion ho.region, ho.canonical, ?_, ?_⟩
  · obtain ⟨u, hu⟩ := ho.canonical.nonempty
    refine ⟨⟨L.word, delays u L.cond.size⟩, rfl, ?_⟩
    rw [holds_iff_mem _ ho.canonical.1 ho.diag]
    exact ⟨by simp, mem_delays hu⟩
  · rintro w ⟨h1, h2⟩
    obtain ⟨_, _, hs, _⟩ := ho.predecessor
    exact BackwardRegional.predecessor_disjoint ((ho.mem_iff w).1 h1).2.2 ((hs.mem_iff w).1 h2).2.2

/-- A backward region: wait, prepend `a`, wait twice. -/
def exBack : BackwardRegional := ((BackwardRegional.init.predecessor).predecessorAction 97).predecessor.predecessor

theorem exBack_reach : exBack.Reach := .time (.time (.action 97 (.time .init)))

example : exBack.contains ⟨[97], [1 / 4, 3 / 4]⟩ = true := by decide +kernel

/-- C57 fails for regions made by `fromTimedWord`: their order is the one of the fractional parts of
`T_{0,i}`, but `predecessor` reads it as the one of `-T_{0,i}`.  For the word `a` with the delays
3/10, 4/10, the "predecessor" fixes `τ₀ = 1` and keeps `τ₀ + τ₁ ∈ (0,1)`: it contains no timed word
with non-negative delays, in particular no later start of the word. -/
theorem C57_fromTimedWord_witness :
    let L := BackwardRegional.fromTimedWord ⟨[97], [3 / 10, 4 / 10]⟩
    L.contains ⟨[97], [3 / 10, 4 / 10]⟩ = true ∧
      ∀ w, L.predecessor.Mem w → ¬ ∀ q ∈ w.durations, 0 ≤ q := by
  intro L
  refine ⟨by decide +kernel, ?_⟩
  rintro w ⟨_, hl, hb⟩ hn
  have hs : L.predecessor.cond.size = 2 := by decide +kernel
  have h00 : L.predecessor.cond.lower 0 0 = .fin (-1) true := by decide +kernel
  have h01 : L.predecessor.cond.upper 0 1 = .fin 1 false := by decide +kernel
  have b0 := (hb 0 0 (by omega) (by omega)).2
  have b1 := (hb 0 1 (by omega) (by omega)).1
  rw [h00] at b0; rw [h01] at b1
  rw [hs] at hl
  match hd : w.durations, hl with
  | [x, y], _ =>
    rw [hd] at b0 b1 hn
    simp [T] at b0 b1 hn
    linarith
end LearnTA.Props
