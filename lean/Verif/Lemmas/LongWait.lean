import Verif.Spec.Termination
import Verif.Lemmas.ObservationTable2
import Verif.Lemmas.RegionLine
import Mathlib.Algebra.Order.BigOperators.Group.Finset

/-!
# Lemmas about regions with a long wait at the end
-/

namespace LearnTA
open TimedCondition

namespace TimedWord

/-- The word without the last delay. -/
def cut (w : TimedWord) : TimedWord := ⟨w.word, w.durations.dropLast ++ [0]⟩

theorem cut_delay {w : TimedWord} (h : w.durations ≠ []) : w.cut.appendDelay (w.durations.getLastD 0) = w := by
  obtain ⟨ws, ds⟩ := w
  obtain ⟨l, x, rfl⟩ : ∃ l x, ds = l ++ [x] := by
    rcases List.eq_nil_or_concat ds with e | ⟨l, x, e⟩
    · exact absurd e h
    · exact ⟨l, x, by simpa using e⟩
  simp [cut, appendDelay, addBack]

theorem appendDelay_cut {w : TimedWord} (h : w.durations ≠ []) (δ : ℚ) :
    w.appendDelay δ = w.cut.appendDelay (w.durations.getLastD 0 + δ) := by
  obtain ⟨ws, ds⟩ := w
  obtain ⟨l, x, rfl⟩ : ∃ l x, ds = l ++ [x] := by
    rcases List.eq_nil_or_concat ds with e | ⟨l, x, e⟩
    · exact absurd e h
    · exact ⟨l, x, by simpa using e⟩
  simp [cut, appendDelay, addBack]

theorem cut_legal {w : TimedWord} (h : w.Legal) : w.cut.Legal := by
  have hw : w.durations.length = w.word.length + 1 := h.wf
  refine ⟨?_, h.observable, ?_⟩
  · show (w.durations.dropLast ++ [0]).length = w.word.length + 1
    simp [hw]
  · intro q hq
    simp only [cut, List.mem_append, List.mem_singleton] at hq
    rcases hq with hq | rfl
    · exact h.nonneg q (List.mem_of_mem_dropLast hq)
    · exact le_refl _

theorem cut_region {w w' : TimedWord} (h : w.SameRegion w') : w.cut.SameRegion w'.cut := by
  obtain ⟨h1, h2, h3⟩ := h
  refine ⟨h1, by simp [cut, h2], fun i j hij hj => ?_⟩
  simp only [cut, List.length_append, List.length_dropLast, List.length_singleton] at hj ⊢
  -- the sums
  have key : ∀ d : List ℚ, d.length = w.durations.length →
      T (d.dropLast ++ [0]) i j = if j + 1 < w.durations.length then T d i j else if i < j then T d i (j - 1) else 0 := by
    intro d hd
    unfold T
    by_cases hlt : j + 1 < w.durations.length
    · rw [if_pos hlt, List.dropLast_eq_take]
      congr 1
      rw [List.drop_append_of_le_length (by simp; omega), List.take_append_of_le_length (by simp; omega),
        List.drop_take, List.take_take]
      congr 1; omega
    · rw [if_neg hlt, List.dropLast_eq_take]
      by_cases hlt' : i < j
      · rw [if_pos hlt', List.drop_append_of_le_length (by simp; omega), List.take_of_length_le (by simp; omega),
          List.sum_append, List.drop_take]
        simp only [List.sum_singleton, add_zero]
        congr 2; omega
      · rw [if_neg hlt', List.drop_append, List.drop_of_length_le (by simp; omega)]
        have e : i - (List.take (d.length - 1) d).length ≤ 1 := by simp; omega
        rcases Nat.le_one_iff_eq_zero_or_eq_one.1 e with e | e <;> rw [e] <;> simp
        · cases j + 1 - i <;> simp
  rw [key w.durations rfl, key w'.durations h2.symm]
  split
  · rename_i hlt
    exact h3 i j hij (by omega)
  · split
    · exact h3 i (j - 1) (by omega) (by omega)
    · exact ⟨rfl, rfl⟩

end TimedWord

/-- Words of a simple condition are in one region. -/
theorem ElementaryLanguage.same_region {e : ElementaryLanguage} (hs : e.cond.Simple) {w w' : TimedWord} (h : e.Mem w) (h' : e.Mem w') :
    w.SameRegion w' := by
  refine ⟨h.1.trans h'.1.symm, h.2.1.trans h'.2.1.symm, fun i j hij hj => ?_⟩
  exact hs.floor_eq h.2 h'.2 hij (by rw [← h.2.1]; exact hj)

namespace ObsTable
variable {σ : Type} {env : Env σ} {f : TimedWord → Bool} {E : Fail → Prop} {T : ObsTable σ}

/-- The last delay of the words of the region is more than `K`. -/
def Beyond (K : ℕ) (p : ForwardRegional) : Prop := ∀ w, p.toElementaryLanguage.Mem w → (K : ℚ) < w.durations.getLastD 0

theorem PreOk.legal' {p : ForwardRegional} (h : PreOk p) {w : TimedWord} (hw : p.toElementaryLanguage.Mem w) : w.Legal :=
  mem_legal h.queryable h.reach.nonneg hw

/-- A word of a region beyond `K` or its successor, and what the language says of a continuation. -/
theorem long_wait {K : ℕ} (hf : Forgetful f K) {p : ForwardRegional} (hp : PreOk p) (hb : Beyond K p) {w w' : TimedWord}
    (hw : p.toElementaryLanguage.Mem w) (hw' : p.toElementaryLanguage.Mem w' ∨ p.successor.toElementaryLanguage.Mem w')
    {s : BackwardRegional} (hs : s.Good) {u u' : TimedWord} (hu : s.toElementaryLanguage.Mem u) (hu' : s.toElementaryLanguage.Mem u') :
    f (w.append u) = f (w'.append u') := by
  have ne : ∀ x : TimedWord, x.Legal → x.durations ≠ [] := by
    intro x hx e
    have : x.durations.length = x.word.length + 1 := hx.wf
    rw [e] at this; simp at this
  obtain ⟨v, ε, hε, hv, rfl⟩ : ∃ (v : TimedWord) (ε : ℚ), 0 ≤ ε ∧ p.toElementaryLanguage.Mem v ∧ w' = v.appendDelay ε := by
    rcases hw' with h | h
    · refine ⟨w', 0, le_refl _, h, ?_⟩
      rw [TimedWord.appendDelay_cut (ne _ (hp.legal' h)), add_zero, TimedWord.cut_delay (ne _ (hp.legal' h))]
    · obtain ⟨v, ε, h1, h2, h3, _⟩ := Props.C25_successor_from hp.reach h
      exact ⟨v, ε, h1.le, h2, h3⟩
  have lw := hp.legal' hw
  have lv := hp.legal' hv
  have e1 : w.append u = (w.cut.appendDelay (w.durations.getLastD 0)).append u := by rw [TimedWord.cut_delay (ne _ lw)]
  rw [e1, TimedWord.appendDelay_cut (ne _ lv)]
  refine hf _ _ _ _ (TimedWord.cut_legal lw) (TimedWord.cut_legal lv) (mem_legal hs.queryable hs.nonneg hu)
    (mem_legal hs.queryable hs.nonneg hu') (TimedWord.cut_region (ElementaryLanguage.same_region hp.simple hw hv))
    (ElementaryLanguage.same_region hs.simple hu hu') _ _ (hb w hw) ?_
  have := hb v hv
  linarith

theorem holds_some {c : TimedCondition} (h : c.Canonical) : ∃ d, c.Holds d := by
  obtain ⟨v, hv⟩ := h.nonempty
  exact ⟨delays v c.size, (holds_iff_mem _ h.1 h.diagNN _).2 ⟨by simp, mem_delays hv⟩⟩

/-- The cell of a language whose words are all accepted or all rejected. -/
theorem cell_const {e : ElementaryLanguage} {r : TimedConditionSet} (h : IsCell f e r) (hw : SymOracle.Whole e f r) (b : Bool)
    (hb : ∀ w, e.Mem w → f w = b) :
    r.length ≤ 1 ∧ Equivalence.decideStatus e.cond r = if b then .top else .bottom := by
  cases b with
  | true =>
    obtain ⟨c, rfl, hc⟩ := hw hb
    simp [Equivalence.decideStatus, hc]
  | false =>
    cases r with
    | nil => simp [Equivalence.decideStatus]
    | cons c r =>
      exfalso
      obtain ⟨d, hd⟩ := holds_some (h.canonical c (by simp)).1
      obtain ⟨h1, h2⟩ := (h.exact ⟨e.word, d⟩ rfl).1 ⟨c, by simp, hd⟩
      have := hb _ h1
      rw [h2] at this; cases this

theorem append_mem {p : ForwardRegional} (hp : PreOk p) {s : BackwardRegional} (hs : s.Good) {x : TimedWord}
    (h : (p.toElementaryLanguage.append s.toElementaryLanguage).Mem x) :
    ∃ w u, p.toElementaryLanguage.Mem w ∧ s.toElementaryLanguage.Mem u ∧ x = w.append u := by
  obtain ⟨u, v, h1, h2, e⟩ := (Props.C23_append_exact _ _ hp.queryable.wf hs.queryable.wf hp.queryable.canonical hs.queryable.canonical x).1 h
  exact ⟨u, v, h1, h2, e⟩

/-- The rows of a region beyond `K` and of its successor are found equal by the empty renaming. -/
theorem find_empty {K : ℕ} (hf : Forgetful f K) {p : ForwardRegional} (hp : PreOk p) (hq : PreOk p.successor) (hb : Beyond K p)
    {ss : List BackwardRegional} (hs : ∀ s ∈ ss, s.Good) {row row' : List TimedConditionSet} {cat cat' : List TimedCondition}
    (h : RowOk f ss p.successor row cat) (h' : RowOk f ss p row' cat') :
    Equivalence.findDeterministicCat p.successor.toElementaryLanguage row cat p.toElementaryLanguage row' cat'
      (ss.map (·.toElementaryLanguage)) = some (some []) := by
  have hss : ∀ s ∈ ss.map (·.toElementaryLanguage), s.Proper := by
    intro s hsm
    obtain ⟨t, ht, rfl⟩ := List.mem_map.1 hsm
    exact (hs t ht).queryable.proper
  have hP := hp.queryable.proper
  have hQ := hq.queryable.proper
  -- the verdicts
  obtain ⟨d, hd⟩ := holds_some hP.canonical
  have hw : p.toElementaryLanguage.Mem ⟨p.word, d⟩ := ⟨rfl, hd⟩
  generalize (⟨p.word, d⟩ : TimedWord) = w at hw
  obtain ⟨d', hd'⟩ := holds_some hQ.canonical
  have hw' : p.successor.toElementaryLanguage.Mem ⟨p.successor.word, d'⟩ := ⟨rfl, hd'⟩
  generalize (⟨p.successor.word, d'⟩ : TimedWord) = w' at hw'
  have verdict : ∀ s ∈ ss, ∃ b, (∀ x, (p.toElementaryLanguage.append s.toElementaryLanguage).Mem x → f x = b) ∧
      (∀ x, (p.successor.toElementaryLanguage.append s.toElementaryLanguage).Mem x → f x = b) := by
    intro s hsm
    obtain ⟨du, hdu⟩ := holds_some (hs s hsm).queryable.canonical
    have hu : s.toElementaryLanguage.Mem ⟨s.word, du⟩ := ⟨rfl, hdu⟩
    refine ⟨f (w.append ⟨s.word, du⟩), fun x hx => ?_, fun x hx => ?_⟩
    · obtain ⟨a, b, h1, h2, rfl⟩ := append_mem hp (hs s hsm) hx
      exact (long_wait hf hp hb hw (.inl h1) (hs s hsm) hu h2).symm
    · obtain ⟨a, b, h1, h2, rfl⟩ := append_mem hq (hs s hsm) hx
      exact (long_wait hf hp hb hw (.inr h1) (hs s hsm) hu h2).symm
  have cells : ∀ i, (hi : i < ss.length) → ∃ b : Bool,
      ((row.getD i []).length ≤ 1 ∧ Equivalence.decideStatus (cat.getD i .empty) (row.getD i []) = if b then .top else .bottom) ∧
      ((row'.getD i []).length ≤ 1 ∧ Equivalence.decideStatus (cat'.getD i .empty) (row'.getD i []) = if b then .top else .bottom) := by
    intro i hi
    obtain ⟨b, h1, h2⟩ := verdict ss[i] (List.getElem_mem hi)
    have key : ∀ {q : ForwardRegional} {r : List TimedConditionSet} {c : List TimedCondition}, RowOk f ss q r c →
        (∀ x, (q.toElementaryLanguage.append ss[i].toElementaryLanguage).Mem x → f x = b) →
        ((r.getD i []).length ≤ 1 ∧ Equivalence.decideStatus (c.getD i .empty) (r.getD i []) = if b then .top else .bottom) := by
      intro q r c hr hall
      have hrl := hr.length
      have e1 : (ss.map (·.toElementaryLanguage)).getD i .empty = ss[i].toElementaryLanguage := by
        rw [List.getD_eq_getElem?_getD, List.getElem?_map, List.getElem?_eq_getElem hi]; rfl
      have e2 : c.getD i .empty = (q.toElementaryLanguage.append ss[i].toElementaryLanguage).cond := by
        rw [hr.cat, List.getD_eq_getElem?_getD, List.getElem?_map, List.getElem?_map, List.getElem?_eq_getElem hi]; rfl
      have e3 : r.getD i [] = r[i] := by rw [List.getD_eq_getElem?_getD, List.getElem?_eq_getElem]; rfl
      have hc := hr.row.2 i (by simpa using hi)
      have hwh := hr.whole.get hi (by omega)
      simp only [List.get_eq_getElem] at hwh
      rw [e1] at hc
      rw [e2]
      rw [← e3] at hwh
      exact cell_const hc hwh b hall
    exact ⟨b, key h h2, key h' h1⟩
  have hl := h.length
  have hl' := h'.length
  have hcl : cat.length = ss.length := by rw [h.cat]; simp
  have hcl' : cat'.length = ss.length := by rw [h'.cat]; simp
  have one : ∀ {r : List TimedConditionSet}, r.length = ss.length → (∀ i < ss.length, (r.getD i []).length ≤ 1) → ∀ c ∈ r, c.length ≤ 1 := by
    intro r hr hall c hc
    obtain ⟨i, hi, rfl⟩ := List.getElem_of_mem hc
    have := hall i (by omega)
    rwa [List.getD_eq_getElem?_getD, List.getElem?_eq_getElem hi] at this
  unfold Equivalence.findDeterministicCat
  rw [if_neg, if_pos]
  · have := Equivalence.equivalence_complete (r := []) hQ hP hss h.row h'.row (by intro p hp; cases hp)
      (one hl fun i hi => (cells i hi).choose_spec.1.1) (one hl' fun i hi => (cells i hi).choose_spec.2.1)
      ⟨w', w, hw', hw, by intro p hp; cases hp⟩ ?_
    · unfold Equivalence.equivalence at this
      rw [h.cat, h'.cat]; exact this
    · intro s hsm x y hc
      obtain ⟨t, ht, rfl⟩ := List.mem_map.1 hsm
      obtain ⟨b, h1, h2⟩ := verdict t ht
      rw [h2 x hc.inLeft, h1 y hc.inRight]
  · rw [not_not]
    refine List.ext_getElem (by simp; omega) fun i h1 h2 => ?_
    simp only [List.length_zipWith] at h1
    obtain ⟨b, ⟨_, a1⟩, ⟨_, a2⟩⟩ := cells i (by omega)
    rw [List.getElem_zipWith, List.getElem_zipWith]
    rw [List.getD_eq_getElem?_getD, List.getD_eq_getElem?_getD, List.getElem?_eq_getElem (by omega), List.getElem?_eq_getElem (by omega)] at a1 a2
    exact a1.trans a2.symm

/-! ### How long it takes to wait long -/

theorem pos_diff {a D : ℚ} {K : ℕ} (h : D ≤ K) : LearnTA.pos (a + D) - LearnTA.pos a ≤ 2 * K + 1 := by
  have h1 : (⌊a + D⌋ : ℚ) ≤ a + D := Int.floor_le _
  have h2 : (⌈a + D⌉ : ℚ) < a + D + 1 := Int.ceil_lt_add_one _
  have h3 : a < ⌊a⌋ + 1 := Int.lt_floor_add_one _
  have h4 : a ≤ ⌈a⌉ := Int.le_ceil _
  have : ((LearnTA.pos (a + D) - LearnTA.pos a : ℤ) : ℚ) < ((2 * K + 2 : ℤ) : ℚ) := by
    unfold LearnTA.pos; push_cast; linarith
  have := Int.cast_lt.1 this
  omega

theorem reach_chain {p : ForwardRegional} (h : p.Reach) (m : ℕ) : (p.chain m).Reach := by
  induction m with
  | zero => exact h
  | succ m ih => exact .time ih

theorem chain_preOk {p : ForwardRegional} (h : PreOk p) (m : ℕ) : PreOk (p.chain m) :=
  ⟨reach_chain h.reach m, by rw [ForwardRegional.chain_word]; exact h.obs⟩

/-- After so many time successors, the last delay is more than `K`. -/
theorem beyond_chain {p : ForwardRegional} (h : p.Reach) (K m : ℕ) (hm : (p.word.length + 1) * (2 * K + 1) < m) :
    Beyond K (p.chain m) := by
  obtain ⟨n, v, ho, hmono⟩ := h.of
  obtain ⟨D, hD⟩ := ho.delays
  have hn := ho.word
  have hv : ∀ x < n, 0 ≤ v x := fun x hx => hmono.nonneg hx
  have line := hD.line hv m
  have sum : ∀ j ≤ m, (j : ℤ) ≤ ∑ x ∈ Finset.range n, (ForwardRegional.posOf v D j x - ForwardRegional.posOf v D 0 x) := by
    intro j
    induction j with
    | zero => intro _; simp
    | succ j ih =>
      intro hj
      have h1 := ih (by omega)
      obtain ⟨x, hx, hmv⟩ := line.move j (by omega)
      have : ∑ x ∈ Finset.range n, (ForwardRegional.posOf v D j x - ForwardRegional.posOf v D 0 x) <
          ∑ x ∈ Finset.range n, (ForwardRegional.posOf v D (j + 1) x - ForwardRegional.posOf v D 0 x) := by
        refine Finset.sum_lt_sum (fun y hy => ?_) ⟨x, Finset.mem_range.2 hx, by omega⟩
        have := line.mono (show j ≤ j + 1 by omega) hj (Finset.mem_range.1 hy)
        omega
      push_cast
      omega
  have hbig : (K : ℚ) < v (n - 1) + D m := by
    by_contra hc
    push Not at hc
    have hDK : D m ≤ K := by have := hv (n - 1) (by omega); linarith
    have h1 := sum m (le_refl _)
    have h2 : ∑ x ∈ Finset.range n, (ForwardRegional.posOf v D m x - ForwardRegional.posOf v D 0 x) ≤
        ∑ x ∈ Finset.range n, (2 * (K : ℤ) + 1) := by
      refine Finset.sum_le_sum fun x _ => ?_
      unfold ForwardRegional.posOf
      rw [hD.zero, add_zero]
      exact pos_diff hDK
    rw [Finset.sum_const, Finset.card_range, nsmul_eq_mul] at h2
    have : (m : ℤ) ≤ ((p.word.length + 1) * (2 * K + 1) : ℕ) := by rw [hn]; push_cast at h2 ⊢; omega
    omega
  intro w hw
  have hof := hD.of m
  obtain ⟨_, h2, h3⟩ := (hof.mem_iff w).1 hw
  have hp := hof.pos_eq h3 (show n - 1 < n by omega)
  unfold ForwardRegional.after at hp
  have e : accV w.durations (n - 1) = w.durations.getLastD 0 := by
    unfold accV
    obtain ⟨l, x, hl⟩ : ∃ l x, w.durations = l ++ [x] := by
      rcases List.eq_nil_or_concat w.durations with e | ⟨l, x, e⟩
      · rw [e] at h2; simp at h2; omega
      · exact ⟨l, x, by simpa using e⟩
    have hl' : n - 1 = l.length := by rw [hl] at h2; simp at h2; omega
    rw [hl, hl']; simp
  rw [e] at hp
  by_contra hc
  push Not at hc
  have h4 := pos_mono hc
  have h5 : LearnTA.pos (K : ℚ) = 2 * K := pos_of_eq (n := K) (by simp)
  rw [h5] at h4
  rcases cases_pos (v (n - 1) + D m) with ⟨k, g1, g2⟩ | ⟨k, g1, g2, g3⟩
  · have : (K : ℤ) < k := by rw [g1] at hbig; exact_mod_cast hbig
    omega
  · have : (K : ℤ) < k + 1 := by
      have : (K : ℚ) < k + 1 := lt_trans hbig g2
      exact_mod_cast this
    omega

/-- So many calls are enough to move the region to `P`. -/
def Enough (f : TimedWord → Bool) (n : ℕ) (p : ForwardRegional) : Prop :=
  ∃ K, Forgetful f K ∧ ∃ m < n, Beyond K (p.chain m)

theorem chain_succ' (p : ForwardRegional) (m : ℕ) : p.chain (m + 1) = p.successor.chain m := by
  induction m with
  | zero => rfl
  | succ m ih => rw [ForwardRegional.chain_succ, ih, ForwardRegional.chain_succ]

theorem enough_of {K : ℕ} (hf : Forgetful f K) {p : ForwardRegional} (h : p.Reach) {n : ℕ}
    (hn : (p.word.length + 1) * (2 * K + 1) + 1 < n) : Enough f n p :=
  ⟨K, hf, _, hn, beyond_chain h K _ (Nat.lt_succ_self _)⟩

/-- If the comparison of the successor with the region fails, the successor can be moved with one call less. -/
theorem Enough.next {n i j : ℕ} {p : ForwardRegional} {T T' : ObsTable σ} (h : Enough f (n + 1) p) (hI : Inv f T)
    (hi : T.prefixes[i]? = some p) (hj : T.prefixes[j]? = some p.successor) (ha : ¬ T.Apart j i) (hc : Compared f j i T none T') :
    Enough f n p.successor := by
  obtain ⟨K, hf, m, hm, hb⟩ := h
  cases m with
  | succ m => exact ⟨K, hf, m, by omega, by rw [← chain_succ']; exact hb⟩
  | zero =>
    exfalso
    obtain ⟨p', row, cat, h1, h2, h3, h4, h5⟩ := hI.get (List.getElem?_eq_some_iff.1 hi).1
    obtain ⟨q', row', cat', g1, g2, g3, g4, g5⟩ := hI.get (List.getElem?_eq_some_iff.1 hj).1
    rw [hi] at h1; rw [hj] at g1
    simp only [Option.some.injEq] at h1 g1
    subst h1; subst g1
    rcases hc.why rfl with hx | hx
    · exact ha hx
    · have := hx _ _ _ _ _ _ hj hi g2 h2 g3 h3
      rw [find_empty hf h4 g4 hb hI.sufs g5 h5] at this
      cases this

end ObsTable
end LearnTA
