import Verif.Lemmas.Recognizable

/-!
# Lemmas about splitting words
-/

namespace LearnTA
open TimedCondition Zone

namespace RecognizableLanguage

theorem fixDelays_eq (e : ElementaryLanguage) (w : TimedWord) :
    fixDelays e w = (List.range e.word.length).foldl (pin w.durations) e.cond := rfl

theorem foldl_pin_le (d : List ℚ) (l : List ℕ) (c : TimedCondition) (p q : ℕ) :
    (l.foldl (pin d) c).zone.val p q ≤ c.zone.val p q := by
  induction l generalizing c with
  | nil => exact le_refl _
  | cons a l ih =>
    rw [List.foldl_cons]
    exact (ih _).trans ((restrictLower_le _ _ _ _ _ _).trans (restrictUpper_le _ _ _ _ _ _))

theorem foldl_pin_canonical (d : List ℚ) (n : ℕ) {c : TimedCondition} (hc : c.Canonical) {v : Valuation}
    (h : ((List.range n).foldl (pin d) c).zone.Mem v) : ((List.range n).foldl (pin d) c).Canonical := by
  cases n with
  | zero => exact hc
  | succ n =>
    rw [List.range_succ, List.foldl_append] at h ⊢
    simp only [List.foldl_cons, List.foldl_nil] at h ⊢
    have h2 : 2 ≤ ((List.range n).foldl (pin d) c).zone.dim := by simpa using hc.1
    generalize (List.range n).foldl (pin d) c = c' at h h2 ⊢
    unfold pin at h ⊢
    rw [restrictLower_eq] at h ⊢
    exact canonical_canonize (by simpa using h2) ((canonize_mem _ _).1 h)

variable {e : ElementaryLanguage} {w : TimedWord}

/-- Changing only the last delay. -/
theorem accV_last (l : List ℚ) (t s : ℚ) {k : ℕ} (hk : k ≤ l.length) :
    accV (l ++ [t]) k = accV (l ++ [s]) k + (t - s) := by
  rw [ElementaryLanguage.accV_append l t hk, ElementaryLanguage.accV_append l s hk]; ring

theorem sat_le {q q' : ℚ} {b : Bound} (h : q' ≤ q) (hq : Bound.Sat q b) : Bound.Sat q' b := by
  cases b with
  | inf => simp
  | fin c s => cases s <;> simp at hq ⊢ <;> linarith

theorem mem_between {z : Zone} {l : List ℚ} (hdim : z.dim = l.length + 2) {t0 t t1 : ℚ}
    (h0 : z.Mem (accV (l ++ [t0]))) (h1 : z.Mem (accV (l ++ [t1]))) (ht0 : t0 ≤ t) (ht1 : t ≤ t1) :
    z.Mem (accV (l ++ [t])) := by
  intro i hi j hj
  have a0 := h0 i hi j hj
  have a1 := h1 i hi j hj
  cases i with
  | zero =>
    cases j with
    | zero => exact a0
    | succ j =>
      simp only [ext_zero, ext_succ] at a0 ⊢
      refine sat_le ?_ a0
      rw [accV_last l t t0 (by omega)]; linarith
  | succ i =>
    cases j with
    | zero =>
      simp only [ext_zero, ext_succ] at a1 ⊢
      refine sat_le ?_ a1
      rw [accV_last l t t1 (by omega)]; linarith
    | succ j =>
      simp only [ext_succ] at a0 ⊢
      rw [accV_last l t t0 (by omega), accV_last l t t0 (by omega)]
      have e1 : accV (l ++ [t0]) i + (t - t0) - (accV (l ++ [t0]) j + (t - t0)) = accV (l ++ [t0]) i - accV (l ++ [t0]) j := by
        ring
      rw [e1]; exact a0

/-- The last delay that `split` chooses: the prefix is in the domain, and not longer than the word. -/
theorem lastDelay_ok (he : e.Proper) (hb : ∀ i < e.cond.size, e.cond.upper i i ≠ .inf ∧ e.cond.lower i i ≠ .inf)
    (hn : e.word.length < w.durations.length) {t0 : ℚ}
    (h0 : e.cond.Holds (w.durations.take e.word.length ++ [t0])) (ht0 : t0 ≤ w.durations.getD e.word.length 0)
    (hobs : ∀ a ∈ e.word, a ≠ unobservable) :
    e.cond.Holds (w.durations.take e.word.length ++ [lastDelay e w]) ∧ lastDelay e w ≤ w.durations.getD e.word.length 0 := by
  set n := e.word.length with hnn
  set l := w.durations.take n with hl
  set d := w.durations.getD n 0 with hd
  have hll : l.length = n := by rw [hl, List.length_take]; omega
  have hsz : n + 1 = e.cond.size := he.wf
  have h2 := he.canonical.1
  have hdim : e.cond.zone.dim = n + 2 := by unfold TimedCondition.size at hsz; omega
  have hold : ∀ t, e.cond.Holds (l ++ [t]) ↔ e.cond.zone.Mem (accV (l ++ [t])) := by
    intro t
    rw [holds_iff_mem _ he.canonical.1 he.canonical.diagNN]
    simp [hll, hsz]
  have hgetl : ∀ t, ∀ i < n, (l ++ [t]).getD i 0 = w.durations.getD i 0 := by
    intro t i hi
    simp only [List.getD_eq_getElem?_getD]
    rw [List.getElem?_append_left (by omega), hl, List.getElem?_take_of_lt hi]
  have eidx_of : ∀ i < n, e.cond.eidx i = i + 2 := by
    intro i hi; unfold eidx; rw [if_neg (by omega)]
  -- the pinned condition
  set c := fixDelays e w with hc
  have hcd : c.zone.dim = n + 2 := by rw [hc, fixDelays_eq]; simpa using hdim
  have hcs : c.size = n + 1 := by unfold TimedCondition.size; omega
  have hsat : ∀ v : Valuation, c.zone.Mem v ↔ e.cond.zone.Mem v ∧ ∀ i < n, v i - v (i + 1) = w.durations.getD i 0 := by
    intro v
    rw [hc, fixDelays_eq]
    show Zone.Sat _ _ ↔ _
    rw [foldl_pin _ _ _ (by intro i hi; rw [List.mem_range] at hi; omega)]
    refine and_congr_right fun _ => ?_
    simp only [List.mem_range]
    refine forall₂_congr fun i hi => ?_
    rw [eidx_of i hi]; rfl
  have hpt : ∀ t, c.zone.Mem (accV (l ++ [t])) ↔ e.cond.zone.Mem (accV (l ++ [t])) := by
    intro t
    rw [hsat]
    refine and_iff_left fun i hi => ?_
    rw [accV_step _ (by simp; omega), hgetl t i hi]; ring
  have hval : ∀ v : Valuation, c.zone.Mem v → ∀ k ≤ n, v k = accV (l ++ [v n]) k := by
    intro v hv k hk
    obtain ⟨_, hv⟩ := (hsat v).1 hv
    obtain ⟨j, hj⟩ : ∃ j, k + j = n := ⟨n - k, by omega⟩
    induction j generalizing k with
    | zero =>
      have : k = n := by omega
      subst this
      rw [ElementaryLanguage.accV_append _ _ (by omega), accV_ge l (by omega)]; ring
    | succ j ih =>
      have := ih (k + 1) (by omega) (by omega)
      have h1 := hv k (by omega)
      rw [accV_step _ (by simp; omega), hgetl _ k (by omega), ← this]; linarith
  have hmemT : ∀ v : Valuation, c.zone.Mem v → c.zone.Mem (accV (l ++ [v n])) := by
    intro v hv
    refine hv.congr fun i hi => ?_
    cases i with
    | zero => rfl
    | succ i => exact hval v hv i (by omega)
  have h0c := (hpt t0).2 ((hold t0).1 h0)
  have hcan : c.Canonical := by
    rw [hc, fixDelays_eq] at h0c ⊢
    exact foldl_pin_canonical _ _ he.canonical h0c
  have hup : c.upper n n = c.zone.val (n + 1) 0 := by unfold TimedCondition.upper; rw [if_pos (by omega)]
  have above : ∀ q, Bound.Sat q (c.upper n n) → ∃ t, q ≤ t ∧ c.zone.Mem (accV (l ++ [t])) := by
    intro q hq
    obtain ⟨v, hv, hle⟩ := realize_above _ hcan.normClosed (norm_diagNN _) (i := n + 1) (j := 0) (by simp; omega)
      (by simp; omega) (by omega) q (by rw [norm_val_ne _ (by omega), ← hup]; exact hq)
    have hv := (norm_sat _ hcan.diagNN _).1 hv
    exact ⟨v n, by simpa [ext_succ, ext_zero] using hle, hmemT v hv⟩
  have below : ∀ t, c.zone.Mem (accV (l ++ [t])) → Bound.Sat t (c.upper n n) := by
    intro t ht
    have := ht (n + 1) (by omega) 0 (by omega)
    rw [hup]
    simp only [ext_succ, ext_zero, sub_zero] at this
    rwa [ElementaryLanguage.accV_append _ _ (by omega), accV_ge l (by omega), zero_add] at this
  have goal : ∀ t, c.zone.Mem (accV (l ++ [t])) → e.cond.Holds (l ++ [t]) := fun t ht => (hold t).2 ((hpt t).1 ht)
  have hld : lastDelay e w = if Bound.fin d true ≤ c.upper n n then d
      else if Zone.secondOf (c.upper n n) then ElementaryLanguage.first (c.upper n n)
      else ((ElementaryLanguage.mk e.word c).sample).durations.getLastD 0 := rfl
  rw [hld]
  split
  · rename_i h
    refine ⟨?_, le_refl _⟩
    obtain ⟨t1, k1, k2⟩ := above d (Bound.Sat.mono (b := .fin d true) (by simp) h)
    exact goal d (mem_between (by omega) h0c k2 ht0 k1)
  · rename_i h
    cases hu : c.upper n n with
    | inf => rw [hu] at h; exact absurd (Bound.le_inf _) h
    | fin q s =>
      rw [hu] at h above below
      rw [Bound.fin_le_fin] at h
      push Not at h
      have hqd : q ≤ d := h.1
      cases s with
      | true =>
        simp only [Zone.secondOf, if_true, ElementaryLanguage.first]
        obtain ⟨t1, k1, k2⟩ := above q (by simp)
        have k3 : t1 ≤ q := by simpa using below t1 k2
        have : t1 = q := le_antisymm k3 k1
        subst this
        exact ⟨goal _ k2, hqd⟩
      | false =>
        simp only [Zone.secondOf]
        have hcb : ∀ i < c.size, c.upper i i ≠ .inf ∧ c.lower i i ≠ .inf := by
          intro i hi
          obtain ⟨b1, b2⟩ := hb i (by omega)
          have ee : c.eidx i = e.cond.eidx i := by unfold eidx; rw [hcs, hsz]
          rw [upper_eq] at b1
          rw [lower_eq] at b2
          rw [upper_eq, lower_eq, ee]
          have l1 := foldl_pin_le w.durations (List.range n) e.cond (i + 1) (e.cond.eidx i)
          have l2 := foldl_pin_le w.durations (List.range n) e.cond (e.cond.eidx i) (i + 1)
          rw [← fixDelays_eq, ← hc] at l1 l2
          constructor
          · intro x; rw [x] at l1; exact b1 (le_antisymm (Bound.le_inf _) l1)
          · intro x; rw [x] at l2; exact b2 (le_antisymm (Bound.le_inf _) l2)
        have hs := ElementaryLanguage.sampleDurations_holds c hcan hcb
        have hsl := hs.1
        have hmk : (ElementaryLanguage.mk e.word c).sample = ⟨e.word, ElementaryLanguage.sampleDurations c c.size⟩ := by
          unfold ElementaryLanguage.sample
          simp only
          rw [← hnn, ← hcs]
          exact TimedWord.make_observable (u := ⟨e.word, ElementaryLanguage.sampleDurations c c.size⟩)
            (by show (ElementaryLanguage.sampleDurations c c.size).length = _; rw [hsl, hcs]) hobs
        rw [hmk]
        simp only
        have hsm := ((holds_iff_mem _ hcan.1 hcan.diagNN _).1 hs).2
        generalize ElementaryLanguage.sampleDurations c c.size = ds at hs hsl hsm
        have hlast : ds.getLastD 0 = accV ds n := by
          rw [accV_step ds (by omega), accV_ge ds (by omega), add_zero, List.getLastD_eq_getLast?, List.getLast?_eq_getElem?,
            List.getD_eq_getElem?_getD]
          congr 2; omega
        rw [hlast]
        have hm := hmemT _ hsm
        refine ⟨goal _ hm, ?_⟩
        have := below _ hm
        simp only [Bound.sat_false] at this
        simp only [Bool.false_eq_true, if_false]
        linarith

/-! ### Beginnings of a word -/

/-- The beginning of `w` with `n` actions and the last delay `t`. -/
def cut (w : TimedWord) (n : ℕ) (t : ℚ) : TimedWord := ⟨w.word.take n, w.durations.take n ++ [t]⟩

/-- The rest of the word. -/
def rest (w : TimedWord) (n : ℕ) (t : ℚ) : TimedWord := ⟨w.word.drop n, TimedWord.subFront (w.durations.drop n) t⟩

theorem subFront_nonneg {l : List ℚ} (h : ∀ q ∈ l, 0 ≤ q) {t : ℚ} (ht : t ≤ l.headD 0) : ∀ q ∈ TimedWord.subFront l t, 0 ≤ q := by
  intro q hq
  cases l with
  | nil => simp [TimedWord.subFront] at hq
  | cons a l =>
    simp only [TimedWord.subFront, List.mem_cons, List.headD_cons] at hq ht
    rcases hq with rfl | hq
    · linarith
    · exact h q (by simp [hq])

theorem headD_drop (l : List ℚ) (n : ℕ) : (l.drop n).headD 0 = l.getD n 0 := by
  rw [List.headD_eq_head?_getD, List.head?_drop, List.getD_eq_getElem?_getD]

/-- A beginning and the rest: both are legal, and together they are the word. -/
theorem cut_spec {w : TimedWord} (hw : w.Legal) {n : ℕ} {t : ℚ} (hn : n < w.durations.length) (ht0 : 0 ≤ t)
    (ht : t ≤ w.durations.getD n 0) :
    (cut w n t).Legal ∧ (rest w n t).Legal ∧ (cut w n t).append (rest w n t) = w := by
  have hwf : w.durations.length = w.word.length + 1 := hw.wf
  have hlast : (w.durations.take n ++ [t]).getLastD 0 = t := by simp
  refine ⟨⟨?_, fun a ha => hw.observable a (List.mem_of_mem_take ha), ?_⟩,
    ⟨?_, fun a ha => hw.observable a (List.mem_of_mem_drop ha), ?_⟩, ?_⟩
  · show (w.durations.take n ++ [t]).length = (w.word.take n).length + 1
    simp only [List.length_append, List.length_take, List.length_singleton]; omega
  · intro q hq
    rcases List.mem_append.1 hq with hq | hq
    · exact hw.nonneg q (List.mem_of_mem_take hq)
    · rw [List.mem_singleton.1 hq]; exact ht0
  · show (TimedWord.subFront (w.durations.drop n) t).length = (w.word.drop n).length + 1
    have : (TimedWord.subFront (w.durations.drop n) t).length = (w.durations.drop n).length := by
      unfold TimedWord.subFront; cases w.durations.drop n <;> rfl
    rw [this, List.length_drop, List.length_drop]; omega
  · exact subFront_nonneg (fun q hq => hw.nonneg q (List.mem_of_mem_drop hq)) (by rw [headD_drop]; exact ht)
  · obtain ⟨ww, wd⟩ := w
    simp only [cut, rest, TimedWord.append, TimedWord.mk.injEq, List.take_append_drop, true_and]
    simp only at hn
    rw [List.drop_eq_getElem_cons hn]
    simp only [TimedWord.subFront, TimedWord.addBack, List.dropLast_concat, hlast, List.headD_cons, List.tail_cons]
    rw [List.append_assoc, List.singleton_append, add_sub_cancel, ← List.drop_eq_getElem_cons hn]
    exact List.take_append_drop n wd

/-- Every prefix of a region of a beginning of `w` is a region of a beginning of `w`. -/
theorem prefixes_cut {w : TimedWord} (hw : w.Legal) (fuel : ℕ) : ∀ {L : ForwardRegional} {n : ℕ} {t : ℚ} {ps},
    n < w.durations.length → 0 ≤ t → t ≤ w.durations.getD n 0 →
    L.Of (n + 1) (accV (cut w n t).durations) → L.word = w.word.take n → L.prefixes fuel = some ps →
    ∀ P ∈ ps, ∃ m s, m < w.durations.length ∧ 0 ≤ s ∧ s ≤ w.durations.getD m 0 ∧
      P.Of (m + 1) (accV (cut w m s).durations) ∧ P.word = w.word.take m := by
  induction fuel with
  | zero => intro L n t ps _ _ _ _ _ h; simp [ForwardRegional.prefixes] at h
  | succ fuel ih =>
    intro L n t ps hn ht0 ht hL hword h P hP
    have self := (⟨n, t, hn, ht0, ht, hL, hword⟩ : ∃ m s, m < w.durations.length ∧ 0 ≤ s ∧ s ≤ w.durations.getD m 0 ∧
      L.Of (m + 1) (accV (cut w m s).durations) ∧ L.word = w.word.take m)
    have hlen : (w.durations.take n).length = n := by rw [List.length_take]; omega
    have hvn : accV (cut w n t).durations n = t := by
      show accV (w.durations.take n ++ [t]) n = t
      rw [ElementaryLanguage.accV_append _ _ (by omega), accV_ge _ (by omega), zero_add]
    have hI := hL.immediatePrefix
    simp only [Nat.add_sub_cancel, hvn] at hI
    simp only [ForwardRegional.prefixes] at h
    have step : ∀ Q, L.immediatePrefix = some Q → (∃ m s, m < w.durations.length ∧ 0 ≤ s ∧ s ≤ w.durations.getD m 0 ∧
        Q.Of (m + 1) (accV (cut w m s).durations) ∧ Q.word = w.word.take m) →
        ∃ m s, m < w.durations.length ∧ 0 ≤ s ∧ s ≤ w.durations.getD m 0 ∧
          P.Of (m + 1) (accV (cut w m s).durations) ∧ P.word = w.word.take m := by
      rintro Q hQ ⟨m, s, a1, a2, a3, a4, a5⟩
      rw [hQ] at h
      simp only [Option.map_eq_some_iff] at h
      obtain ⟨ps', h1, rfl⟩ := h
      rcases List.mem_append.1 hP with hP | hP
      · exact ih a1 a2 a3 a4 a5 h1 P hP
      · rw [List.mem_singleton.1 hP]; exact self
    by_cases h0 : t ≠ 0
    · rw [if_pos h0] at hI
      have hm : ForwardRegional.Mono (n + 1) (accV (cut w n t).durations) := by
        have := ForwardRegional.accV_mono (d := (cut w n t).durations) (cut_spec hw hn ht0 ht).1.nonneg
        have e : (cut w n t).durations.length = n + 1 := by show (w.durations.take n ++ [t]).length = _; simp [hlen]
        rwa [e] at this
      obtain ⟨δ, g1, g2, g3, _⟩ := hL.back_mono hm (by simpa [hvn] using h0)
      have g4 := g3.2
      simp only [Nat.add_sub_cancel, hvn] at g4
      refine step _ hI ⟨n, t - δ, hn, g4, by linarith, g2.congr fun i hi => ?_, hword⟩
      show accV (w.durations.take n ++ [t]) i - δ = accV (w.durations.take n ++ [t - δ]) i
      rw [accV_last _ (t - δ) t (by omega)]; ring
    · rw [if_neg h0] at hI
      push Not at h0
      subst h0
      by_cases h1 : n + 1 = 1
      · rw [if_pos h1] at hI
        rw [hI] at h
        simp only [Option.some.injEq] at h
        subst h
        rw [List.mem_singleton.1 hP]; exact self
      · rw [if_neg h1] at hI
        obtain ⟨m, rfl⟩ : ∃ m, n = m + 1 := ⟨n - 1, by omega⟩
        have hc := (hL.chop (by omega) hvn).1
        refine step _ hI ⟨m, w.durations.getD m 0, by omega, ?_, le_refl _, hc.congr fun i hi => ?_, ?_⟩
        · rw [List.getD_eq_getElem?_getD, List.getElem?_eq_getElem (by omega)]
          exact hw.nonneg _ (List.getElem_mem _)
        · show accV (w.durations.take (m + 1) ++ [0]) i = accV (w.durations.take m ++ [w.durations.getD m 0]) i
          have e : w.durations.take (m + 1) = w.durations.take m ++ [w.durations.getD m 0] := by
            rw [List.take_add_one, List.getD_eq_getElem?_getD, List.getElem?_eq_getElem (by omega)]; rfl
          rw [ElementaryLanguage.accV_append _ _ (by rw [hlen]; omega), e, add_zero]
        · show L.word.dropLast = _
          have : w.durations.length = w.word.length + 1 := hw.wf
          rw [hword, List.dropLast_eq_take, List.take_take, List.length_take]
          congr 1; omega

theorem prefixes_spec {w : TimedWord} (hw : w.Legal) {fuel : ℕ} {ps : List ForwardRegional}
    (h : ForwardRegional.prefixes fuel (.fromTimedWord w) = some ps) :
    ∀ P ∈ ps, ∃ m s, m < w.durations.length ∧ 0 ≤ s ∧ s ≤ w.durations.getD m 0 ∧
      P.Of (m + 1) (accV (cut w m s).durations) ∧ P.word = w.word.take m := by
  have hwf : w.durations.length = w.word.length + 1 := hw.wf
  have hself : w.durations.take w.word.length ++ [w.durations.getD w.word.length 0] = w.durations := by
    rw [List.getD_eq_getElem?_getD, List.getElem?_eq_getElem (by omega), Option.getD_some, List.take_append_getElem,
      List.take_of_length_le (by omega)]
  refine prefixes_cut hw fuel (n := w.word.length) (t := w.durations.getD w.word.length 0) (by omega) ?_ (le_refl _) ?_ ?_ h
  · rw [List.getD_eq_getElem?_getD, List.getElem?_eq_getElem (by omega)]
    exact hw.nonneg _ (List.getElem_mem _)
  · have := ForwardRegional.fromTimedWord_of w hw.wf
    rw [hwf] at this
    show ForwardRegional.Of _ _ (accV (w.durations.take w.word.length ++ [_]))
    rw [hself]; exact this
  · show w.word = _
    rw [List.take_length]

/-- A morphism whose domain is a region of legal words. -/
structure OfRegion (m : SingleMorphism) : Prop where
  total : m.Total
  region : ∃ p : ForwardRegional, p.Reach ∧ (∀ a ∈ p.word, a ≠ unobservable) ∧ m.domain = p.toElementaryLanguage

/-- What `split` returns. -/
structure SplitOk (R : RecognizableLanguage) (w : TimedWord) (t : SplitTriple) : Prop where
  morphism : t.morphism ∈ R.morphisms
  inDomain : t.morphism.domain.Mem t.pre
  suffix : t.suf.Legal
  whole : t.pre.append t.suf = w
  shape : t.suf = ⟨[], [0]⟩ ∨ t.pre.durations.getLastD 0 = lastDelay t.morphism.domain w

theorem append_empty {w : TimedWord} (hw : w.WF) : w.append ⟨[], [0]⟩ = w := by
  obtain ⟨uw, ud⟩ := w
  have hne : ud ≠ [] := by rintro rfl; simp [TimedWord.WF] at hw
  simp only [TimedWord.append, List.append_nil, TimedWord.mk.injEq, true_and, List.headD_cons, List.tail_cons,
    TimedWord.addBack, add_zero]
  rw [List.getLastD_eq_getLast?, List.getLast?_eq_getLast_of_ne_nil hne]
  exact List.dropLast_append_getLast hne

theorem split_ok {R : RecognizableLanguage} (hR : ∀ m ∈ R.morphisms, OfRegion m) {w : TimedWord} (hw : w.Legal)
    {fuel : ℕ} {t : SplitTriple} (h : R.split fuel w = .ok (some t)) : SplitOk R w t := by
  unfold split at h
  split at h
  · simp at h
  · rename_i ps hps
    split at h
    · simp at h
    · rename_i m hm
      have hmem := List.mem_of_find?_eq_some hm
      have hany := List.find?_some hm
      simp only [List.any_eq_true] at hany
      obtain ⟨P, hP, hbeq⟩ := hany
      have ht := (hR m hmem).total
      by_cases hc : m.domain.contains w = true
      · rw [if_pos hc] at h
        simp only [Except.ok.injEq, Option.some.injEq] at h
        subst h
        refine ⟨hmem, (Props.C21_contains_exact m.domain ht.left.wf ht.left.canonical.diagNN w hw.wf).1 hc, ?_, ?_, Or.inl rfl⟩
        · exact ⟨rfl, fun a ha => by simp [TimedWord.make] at ha, fun q hq => by simp [TimedWord.make] at hq; rw [hq]⟩
        · exact append_empty hw.wf
      · rw [if_neg hc] at h
        simp only [Except.ok.injEq, Option.some.injEq] at h
        obtain ⟨n, s, a1, a2, a3, a4, a5⟩ := prefixes_spec hw hps P hP
        obtain ⟨p, b1, b2, b3⟩ := (hR m hmem).region
        have hwf : w.durations.length = w.word.length + 1 := hw.wf
        -- the beginning of `w` is in the domain
        unfold SingleMorphism.isDomain ElementaryLanguage.beq TimedCondition.beq strictEqual at hbeq
        simp only [Bool.and_eq_true, beq_iff_eq, List.all_eq_true, List.mem_range, decide_eq_true_eq] at hbeq
        obtain ⟨k1, k2, k3⟩ := hbeq
        have hlen : m.domain.word.length = n := by
          rw [k1]; show P.word.length = n; rw [a5, List.length_take]; omega
        have hword : m.domain.word = w.word.take n := by rw [k1]; exact a5
        have hsz : n + 1 = m.domain.cond.size := by rw [← hlen]; exact ht.left.wf
        have hdim : m.domain.cond.zone.dim = n + 2 := by
          have := ht.left.canonical.1
          unfold TimedCondition.size at hsz; omega
        have hPd := a4.dim
        have hdl : (w.durations.take n ++ [s]).length = n + 1 := by
          rw [List.length_append, List.length_take]; simp; omega
        have hz : m.domain.cond.zone.Mem (accV (w.durations.take n ++ [s])) := by
          refine IsRegion.sat ?_ ht.left.canonical.diagNN
          intro i hi j hj hij
          rw [(k3 i hi j hj).resolve_left hij]
          exact a4.region i (by omega) j (by omega) hij
        have hh : m.domain.cond.Holds (w.durations.take m.domain.word.length ++ [s]) := by
          rw [holds_iff_mem _ ht.left.canonical.1 ht.left.canonical.diagNN, hlen]
          exact ⟨by rw [hdl, hsz], hz⟩
        have hq : m.domain.Queryable := by rw [b3]; exact b1.queryable b2
        have hb : ∀ i < m.domain.cond.size, m.domain.cond.upper i i ≠ .inf ∧ m.domain.cond.lower i i ≠ .inf := by
          intro i hi
          have hei := TimedCondition.eidx_lt hi
          have hne : i + 1 ≠ m.domain.cond.eidx i := by unfold eidx; split <;> omega
          rw [upper_eq, lower_eq]
          exact ⟨hq.bounded _ (by omega) _ hei hne, hq.bounded _ hei _ (by omega) hne.symm⟩
        obtain ⟨l1, l2⟩ := lastDelay_ok ht.left hb (by omega) hh (by rw [hlen]; exact a3) hq.observable
        rw [hlen] at l1 l2
        have hlm : m.domain.Mem (cut w n (lastDelay m.domain w)) := ⟨hword.symm, l1⟩
        have l0 : 0 ≤ lastDelay m.domain w := ht.leftNN _ hlm _ (by simp [cut])
        obtain ⟨c1, c2, c3⟩ := cut_spec hw a1 l0 l2
        have hmk : TimedWord.make m.domain.word (w.durations.take m.domain.word.length ++ [lastDelay m.domain w]) =
            cut w n (lastDelay m.domain w) := by
          rw [hlen, hword]
          exact TimedWord.make_observable (u := cut w n (lastDelay m.domain w)) c1.wf c1.observable
        rw [hmk] at h
        have hsuf : w.getSuffix (cut w n (lastDelay m.domain w)) = rest w n (lastDelay m.domain w) := by
          have := TimedWord.getSuffix_append c1.wf c2.wf c2.observable
          rwa [c3] at this
        subst h
        exact ⟨hmem, hlm, by rw [hsuf]; exact c2, by rw [hsuf]; exact c3, Or.inr (by simp [cut])⟩

end RecognizableLanguage
end LearnTA
