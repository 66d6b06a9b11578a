import Verif.Lemmas.Split

/-!
# Lemmas about beginnings of timed words
-/

namespace LearnTA
open TimedCondition Zone RecognizableLanguage

/-- A beginning of a word is a cut of it. -/
theorem cut_of_append {u v : TimedWord} (hu : u.Legal) (hv : v.Legal) :
    cut (u.append v) u.word.length (u.durations.getLastD 0) = u ∧
      u.word.length < (u.append v).durations.length ∧ 0 ≤ u.durations.getLastD 0 ∧
      u.durations.getLastD 0 ≤ (u.append v).durations.getD u.word.length 0 := by
  obtain ⟨uw, ud⟩ := u
  obtain ⟨vw, vd⟩ := v
  have h1 : ud.length = uw.length + 1 := hu.wf
  have h2 : vd.length = vw.length + 1 := hv.wf
  obtain ⟨l, t, rfl⟩ : ∃ l t, ud = l ++ [t] := ⟨ud.dropLast, ud.getLast (by intro h; simp [h] at h1), (List.dropLast_append_getLast _).symm⟩
  obtain ⟨x, k, rfl⟩ : ∃ x k, vd = x :: k := by
    cases vd with
    | nil => simp at h2
    | cons x k => exact ⟨x, k, rfl⟩
  have hl : l.length = uw.length := by simpa using h1
  have hx : 0 ≤ x := hv.nonneg x (by simp)
  have ht : 0 ≤ t := hu.nonneg t (by simp)
  simp only [cut, TimedWord.append, TimedWord.addBack, List.dropLast_concat, List.headD_cons, List.tail_cons,
    List.getLastD_eq_getLast?, List.getLast?_concat, Option.getD_some, TimedWord.mk.injEq]
  refine ⟨⟨by simp, ?_⟩, ?_, ht, ?_⟩
  · rw [← hl]; simp
  · simp only [List.length_append, List.length_singleton]; omega
  · rw [List.getD_eq_getElem?_getD, ← hl]; simp [hx]

/-- Of two beginnings of one word, one is a beginning of the other. -/
theorem beginnings {u v u' v' : TimedWord} (hu : u.Legal) (hv : v.Legal) (hu' : u'.Legal) (hv' : v'.Legal)
    (h : u.append v = u'.append v') :
    (∃ x : TimedWord, x.Legal ∧ u' = u.append x ∧ v = x.append v') ∨
      ∃ n t, n < u.durations.length ∧ 0 ≤ t ∧ t ≤ u.durations.getD n 0 ∧ u' = cut u n t := by
  obtain ⟨uw, ud⟩ := u
  obtain ⟨vw, vd⟩ := v
  obtain ⟨uw', ud'⟩ := u'
  obtain ⟨vw', vd'⟩ := v'
  have h1 : ud.length = uw.length + 1 := hu.wf
  have h2 : vd.length = vw.length + 1 := hv.wf
  have h1' : ud'.length = uw'.length + 1 := hu'.wf
  have h2' : vd'.length = vw'.length + 1 := hv'.wf
  obtain ⟨l, t, rfl⟩ : ∃ l t, ud = l ++ [t] := ⟨ud.dropLast, ud.getLast (by intro h; simp [h] at h1), (List.dropLast_append_getLast _).symm⟩
  obtain ⟨l', t', rfl⟩ : ∃ l t, ud' = l ++ [t] := ⟨ud'.dropLast, ud'.getLast (by intro h; simp [h] at h1'), (List.dropLast_append_getLast _).symm⟩
  obtain ⟨x, k, rfl⟩ : ∃ x k, vd = x :: k := by
    cases vd with
    | nil => simp at h2
    | cons x k => exact ⟨x, k, rfl⟩
  obtain ⟨x', k', rfl⟩ : ∃ x k, vd' = x :: k := by
    cases vd' with
    | nil => simp at h2'
    | cons x k => exact ⟨x, k, rfl⟩
  simp only [TimedWord.append, TimedWord.addBack, List.dropLast_concat, List.headD_cons, List.tail_cons,
    List.getLastD_eq_getLast?, List.getLast?_concat, Option.getD_some, TimedWord.mk.injEq, List.append_assoc,
    List.singleton_append] at h
  obtain ⟨hw, hd⟩ := h
  simp only [List.length_append, List.length_singleton, List.length_cons, Nat.add_right_cancel_iff] at h1 h1' h2 h2'
  have hx : 0 ≤ x := hv.nonneg x (by simp)
  have hx' : 0 ≤ x' := hv'.nonneg x' (by simp)
  have ht' : 0 ≤ t' := hu'.nonneg t' (by simp)
  rcases lt_trichotomy l.length l'.length with hlt | heq | hgt
  · left
    have hwpre : uw <+: uw' := List.prefix_of_prefix_length_le (l₃ := uw' ++ vw') ⟨vw, hw⟩ ⟨vw', rfl⟩ (by omega)
    obtain ⟨yw, rfl⟩ := hwpre
    have hdpre : l ++ [t + x] <+: l' := List.prefix_of_prefix_length_le (l₃ := l' ++ (t' + x') :: k')
      ⟨k, by rw [← hd]; simp⟩ ⟨_, rfl⟩ (by simp; omega)
    obtain ⟨yd, rfl⟩ := hdpre
    simp only [List.append_assoc, List.append_cancel_left_eq, List.singleton_append, List.cons_append, List.cons.injEq,
      true_and] at hw hd
    subst hw hd
    refine ⟨⟨yw, x :: (yd ++ [t'])⟩, ⟨?_, ?_, ?_⟩, ?_, ?_⟩
    · show (x :: (yd ++ [t'])).length = yw.length + 1
      simp only [List.length_append, List.length_cons, List.length_nil] at h1 h1' ⊢; omega
    · intro a ha; exact hv.observable a (by simp at ha ⊢; exact Or.inl ha)
    · intro q hq
      simp only [List.mem_cons, List.mem_append, List.not_mem_nil, or_false] at hq
      rcases hq with rfl | hq | rfl
      · exact hx
      · exact hu'.nonneg q (by simp [hq])
      · exact ht'
    · simp [TimedWord.append, TimedWord.addBack]
    · have e : x :: (yd ++ [t']) = (x :: yd) ++ [t'] := rfl
      simp only [TimedWord.append, TimedWord.addBack, List.headD_cons, List.tail_cons, e, List.dropLast_concat,
        List.getLastD_eq_getLast?, List.getLast?_concat, Option.getD_some, TimedWord.mk.injEq, true_and]
      simp
  · obtain ⟨e1, e2⟩ := List.append_inj hd heq
    obtain ⟨e3, e4⟩ := List.append_inj hw (by omega)
    subst e1 e3 e4
    simp only [List.cons.injEq] at e2
    obtain ⟨e5, rfl⟩ := e2
    by_cases hle : t ≤ t'
    · left
      refine ⟨⟨[], [t' - t]⟩, ⟨rfl, by intro a ha; simp at ha, by intro q hq; simp at hq; rw [hq]; linarith⟩, ?_, ?_⟩
      · simp [TimedWord.append, TimedWord.addBack, List.getLastD_eq_getLast?]
      · simp only [TimedWord.append, TimedWord.addBack, List.dropLast_singleton, List.nil_append,
          List.headD_cons, List.tail_cons, List.singleton_append, TimedWord.mk.injEq, true_and, List.cons.injEq, and_true,
          List.getLastD_cons, List.getLastD_nil]
        linarith
    · right
      refine ⟨l.length, t', by simp, ht', ?_, ?_⟩
      · push Not at hle; simp [List.getD_eq_getElem?_getD]; exact hle.le
      · have hl' : l.length = uw.length := by simpa using h1
        simp only [cut, TimedWord.mk.injEq]; refine ⟨by rw [hl']; simp, by simp⟩
  · right
    have hwpre : uw' <+: uw := List.prefix_of_prefix_length_le (l₃ := uw ++ vw) ⟨vw', hw.symm⟩ ⟨vw, rfl⟩ (by omega)
    obtain ⟨yw, rfl⟩ := hwpre
    have hdpre : l' ++ [t' + x'] <+: l := List.prefix_of_prefix_length_le (l₃ := l ++ (t + x) :: k)
      ⟨k', by rw [hd]; simp⟩ ⟨_, rfl⟩ (by simp; omega)
    obtain ⟨yd, rfl⟩ := hdpre
    have hl' : l'.length = uw'.length := by simpa using h1'
    refine ⟨l'.length, t', by simp, ht', ?_, ?_⟩
    · simp [List.getD_eq_getElem?_getD, hx']
    · simp only [cut, TimedWord.mk.injEq]; refine ⟨by rw [hl']; simp, by simp⟩

theorem ForwardRegional.Of.zero {L : ForwardRegional} {n : ℕ} {v v' : Valuation} (h : L.Of n v) (h' : L.Of n v') {i : ℕ}
    (hi : i < n) (hv : v i = 0) : v' i = 0 := by
  obtain ⟨a1, _⟩ := ForwardRegional.Of.reg_eq (L' := L) h.region h'.region h.dim
  have e := a1 i hi
  have e0 : Bound.reg (v' i) = .fin 0 true := by
    rw [← e, hv]; have := Bound.reg_int 0; simpa using this
  unfold Bound.reg at e0
  split at e0
  · rename_i hfl
    simp only [Bound.fin.injEq, and_true] at e0
    exact e0
  · simp at e0

namespace ObsTable
variable {σ : Type} {f : TimedWord → Bool} {T : ObsTable σ}

theorem cut_full {w : TimedWord} (hw : w.WF) : cut w w.word.length (w.durations.getLastD 0) = w := by
  obtain ⟨ww, wd⟩ := w
  have h1 : wd.length = ww.length + 1 := hw
  obtain ⟨l, t, rfl⟩ : ∃ l t, wd = l ++ [t] := ⟨wd.dropLast, wd.getLast (by intro h; simp [h] at h1), (List.dropLast_append_getLast _).symm⟩
  have hl : l.length = ww.length := by simpa using h1
  simp [cut, ← hl]

/-- The beginnings of the words of a prefix are in `P` or in the prefix. -/
theorem prefix_cut (h : Inv f T) (i : ℕ) : ∀ {p : ForwardRegional} {w : TimedWord} {n : ℕ} {t : ℚ},
    T.prefixes[i]? = some p → w.Legal → p.toElementaryLanguage.Mem w → n < w.durations.length → 0 ≤ t →
    t ≤ w.durations.getD n 0 →
    ∃ j, (j ∈ T.pIndices ∨ j = i) ∧ ∃ q, T.prefixes[j]? = some q ∧ q.toElementaryLanguage.Mem (cut w n t) := by
  induction i using Nat.strong_induction_on with
  | _ i ih =>
    intro p w n t hp hw hm hn ht0 ht
    have hwf : w.durations.length = w.word.length + 1 := hw.wf
    have self : cut w n t = w → ∃ j, (j ∈ T.pIndices ∨ j = i) ∧ ∃ q, T.prefixes[j]? = some q ∧
        q.toElementaryLanguage.Mem (cut w n t) := fun e => ⟨i, Or.inr rfl, p, hp, by rw [e]; exact hm⟩
    obtain ⟨l, d, hld⟩ : ∃ l d, w.durations = l ++ [d] :=
      ⟨w.durations.dropLast, w.durations.getLast (by intro h; simp [h] at hwf), (List.dropLast_append_getLast _).symm⟩
    have hll : l.length = w.word.length := by rw [hld] at hwf; simpa using hwf
    obtain ⟨ww, wd⟩ := w
    simp only at hld hll hwf hn ht
    subst hld
    have hd0 : 0 ≤ d := hw.nonneg d (by simp)
    obtain ⟨k0, v0, hpo, _⟩ := (h.preOk (List.mem_of_getElem? hp)).reach.of
    obtain ⟨m1, m2, m3⟩ := (hpo.mem_iff _).1 hm
    simp only at m1 m2 m3
    have hlast : n = l.length → t = d → cut ⟨ww, l ++ [d]⟩ n t = ⟨ww, l ++ [d]⟩ := by
      rintro rfl rfl
      have := cut_full hw.wf
      simpa [hll] using this
    have hacc : accV (l ++ [d]) l.length = d := by
      rw [ElementaryLanguage.accV_append _ _ (by omega), accV_ge _ (by omega), zero_add]
    have hk0 : k0 = l.length + 1 := by rw [← m2]; simp
    subst hk0
    have hget : (l ++ [d]).getD l.length 0 = d := by simp [List.getD_eq_getElem?_getD]
    have hn' : n ≤ l.length := by simp at hn; omega
    rcases Nat.eq_zero_or_pos i with rfl | hpos
    · -- the initial region
      rw [h.closed.root.1] at hp
      simp only [Option.some.injEq] at hp
      subst hp
      have hz := ForwardRegional.init_of
      have e := (hz.mem_iff _).1 hm
      have hl0 : l.length = 0 := by have := e.2.1; simpa using this
      have hd : d = 0 := by rw [← hacc, hl0]; exact hz.zero e.2.2 (by omega) rfl
      have hnl : n = l.length := by omega
      exact self (hlast hnl (by rw [hnl, hget] at ht; linarith))
    · obtain ⟨k, hk, hki, hpar⟩ := h.closed.parent i hpos (List.getElem?_eq_some_iff.1 hp).1
      obtain ⟨q, hq⟩ : ∃ q, T.prefixes[k]? = some q := ⟨_, List.getElem?_eq_getElem (h.closed.inside.2 k hk)⟩
      have ih : ∀ {p : ForwardRegional} {w : TimedWord} {n : ℕ} {t : ℚ}, T.prefixes[k]? = some p → w.Legal →
          p.toElementaryLanguage.Mem w → n < w.durations.length → 0 ≤ t → t ≤ w.durations.getD n 0 →
          ∃ j, (j ∈ T.pIndices ∨ j = i) ∧ ∃ q, T.prefixes[j]? = some q ∧ q.toElementaryLanguage.Mem (cut w n t) := by
        intro p w n t a1 a2 a3 a4 a5 a6
        obtain ⟨j, hj, b⟩ := ih k hki a1 a2 a3 a4 a5 a6
        exact ⟨j, Or.inl (hj.elim id fun e => e ▸ hk), b⟩
      have hqr := (h.preOk (List.mem_of_getElem? hq)).reach
      obtain ⟨k1, v1, hqo, hqm⟩ := hqr.of
      rcases hpar with hs | ⟨a, ha, hs⟩
      · -- a successor by time
        obtain ⟨j, hj, hjp⟩ := h.closed.time k hk q hq
        rw [hs] at hj
        simp only [Option.some.injEq] at hj
        subst hj
        rw [hp] at hjp
        simp only [Option.some.injEq] at hjp
        subst hjp
        obtain ⟨δ, hδ, hso, _⟩ := hqo.successor
        have hk1 : k1 = l.length + 1 := by rw [← hso.word, m3.word]
        subst hk1
        have hne : d ≠ 0 := by
          intro hd
          have := m3.zero hso (i := l.length) (by omega) (by rw [hacc, hd])
          have h2 := hqm.2
          simp only [Nat.add_sub_cancel] at h2
          linarith
        have hmono : ForwardRegional.Mono (l.length + 1) (accV (l ++ [d])) := by
          have := ForwardRegional.accV_mono (d := l ++ [d]) hw.nonneg
          simpa using this
        obtain ⟨ε, hε, hb, hbm, _⟩ := m3.back_mono hmono (by simp only [Nat.add_sub_cancel, hacc]; exact hne)
        rw [hqo.back_successor] at hb
        have hdε : 0 ≤ d - ε := by have := hbm.2; simpa only [Nat.add_sub_cancel, hacc] using this
        have hsub : ∀ e : ℚ, ∀ i < l.length + 1, accV (l ++ [d]) i - ε + e = accV (l ++ [d - ε + e]) i := by
          intro e i hi
          rw [accV_last l d (d - ε + e) (by omega)]; ring
        have hb' : q.Of (l.length + 1) (accV (l ++ [d - ε])) := hb.congr fun i hi => by
          have := hsub 0 i hi; simpa using this
        have hqw : ww = q.word := m1
        have memq : ∀ s, q.Of (l.length + 1) (accV (l ++ [s])) → q.toElementaryLanguage.Mem ⟨ww, l ++ [s]⟩ := fun s hs =>
          (hs.mem_iff _).2 ⟨hqw, by simp, hs⟩
        have mems : ∀ s, q.successor.Of (l.length + 1) (accV (l ++ [s])) →
            q.successor.toElementaryLanguage.Mem ⟨ww, l ++ [s]⟩ := fun s hs => (hs.mem_iff _).2 ⟨m1, by simp, hs⟩
        have hleg : (⟨ww, l ++ [d - ε]⟩ : TimedWord).Legal := by
          refine ⟨?_, hw.observable, ?_⟩
          · show (l ++ [d - ε]).length = ww.length + 1; simp [hll]
          · intro x hx
            rcases List.mem_append.1 hx with hx | hx
            · exact hw.nonneg x (by simp [hx])
            · rw [List.mem_singleton.1 hx]; exact hdε
        have hcut : n ≤ l.length → cut ⟨ww, l ++ [d - ε]⟩ n t = cut ⟨ww, l ++ [d]⟩ n t := by
          intro hn
          simp only [cut, TimedWord.mk.injEq, true_and]
          rw [List.take_append_of_le_length hn, List.take_append_of_le_length hn]
        have hfull : n = l.length → cut ⟨ww, l ++ [d]⟩ n t = ⟨ww, l ++ [t]⟩ := by
          rintro rfl
          simp only [cut, TimedWord.mk.injEq]
          refine ⟨by rw [hll]; simp, by simp⟩
        rcases Nat.lt_or_ge n l.length with hlt | hge
        · rw [← hcut hlt.le]
          refine ih hq hleg (memq _ hb') (by simp; omega) ht0 ?_
          rw [List.getD_append _ _ _ _ hlt] at ht ⊢; exact ht
        · have hnl : n = l.length := by omega
          rw [hnl, hget] at ht
          by_cases hle : t ≤ d - ε
          · rw [← hcut hn']
            refine ih hq hleg (memq _ hb') (by simp; omega) ht0 ?_
            rw [hnl]; simpa [List.getD_eq_getElem?_getD] using hle
          · push Not at hle
            rw [hfull hnl]
            obtain ⟨η, hη, hso', hbet⟩ := hb.successor
            have key : ∀ x : ℚ, t = d - ε + x → ∀ L : ForwardRegional,
                L.Of (l.length + 1) (fun i => accV (l ++ [d]) i - ε + x) → L.Of (l.length + 1) (accV (l ++ [t])) := by
              rintro x rfl L hL
              exact hL.congr (hsub x)
            by_cases hle' : t - (d - ε) ≤ η
            · rcases hbet (t - (d - ε)) (by linarith) hle' with hL | hL
              · exact ⟨k, Or.inl hk, q, hq, memq _ (key _ (by ring) _ hL)⟩
              · exact ⟨i, Or.inr rfl, _, hp, mems _ (key _ (by ring) _ hL)⟩
            · push Not at hle'
              refine ⟨i, Or.inr rfl, _, hp, mems _ (m3.transfer ?_)⟩
              have h0 : q.successor.Of (l.length + 1) (accV (l ++ [d - ε + η])) := hso'.congr (hsub η)
              exact mem_between (by rw [m3.dim]) h0.sat m3.sat (by linarith) ht
      · -- a successor by an action
        obtain ⟨j, hj, hjp⟩ := h.closed.action k hk q hq a ha
        rw [hs] at hj
        simp only [Option.some.injEq] at hj
        subst hj
        rw [hp] at hjp
        simp only [Option.some.injEq] at hjp
        subst hjp
        have hso := hqo.successorAction a
        have hk1 : k1 = l.length := by have h1 := hso.word; have h2 := m3.word; omega
        subst hk1
        have hd : d = 0 := by
          rw [← hacc]; exact hso.zero m3 (by omega) (by simp)
        rcases Nat.lt_or_ge n l.length with hlt | hge
        · obtain ⟨l', d', rfl⟩ : ∃ l' d', l = l' ++ [d'] := ⟨l.dropLast, l.getLast (by intro h; simp [h] at hlt), (List.dropLast_append_getLast _).symm⟩
          have hword : ww = q.word ++ [a] := m1
          have hqo' : q.Of (l' ++ [d']).length (accV (l' ++ [d'])) := by
            have hp' := hqo.pos
            have hc := (m3.chop hp' (by rw [hacc, hd])).1
            have hcb := (hc.congr (v' := accV (l' ++ [d'])) fun i hi => by
              rw [ElementaryLanguage.accV_append _ _ (by omega), hd, add_zero])
            have hc2 := ((hso.chop hp' (by simp)).1.congr (v' := v1) fun i hi => if_pos hi)
            exact hqo.transfer (by
              have e1 := hc2.region
              have hbq : (q.successorAction a).chop.beq q = true :=
                hc2.beq hqo (by show (q.word ++ [a]).dropLast = q.word; simp)
              exact (hcb.of_beq hqo hbq).2.sat)
          have hm0 : q.toElementaryLanguage.Mem ⟨q.word, l' ++ [d']⟩ := (hqo'.mem_iff _).2 ⟨rfl, rfl, hqo'⟩
          have hleg : (⟨q.word, l' ++ [d']⟩ : TimedWord).Legal := by
            refine ⟨?_, ?_, ?_⟩
            · show (l' ++ [d']).length = q.word.length + 1; exact hqo'.word.symm
            · intro x hx; exact hw.observable x (by show x ∈ ww; rw [hword]; simp [show x ∈ q.word from hx])
            · intro x hx; exact hw.nonneg x (by simp at hx ⊢; rcases hx with hx | hx <;> simp [hx])
          have hcut : cut ⟨q.word, l' ++ [d']⟩ n t = cut ⟨ww, l' ++ [d'] ++ [d]⟩ n t := by
            simp only [cut, TimedWord.mk.injEq]
            have := hqo'.word
            refine ⟨?_, ?_⟩
            · rw [hword, List.take_append_of_le_length (by omega)]
            · rw [List.take_append_of_le_length (l₁ := l' ++ [d']) (by omega)]
          rw [← hcut]
          refine ih hq hleg hm0 hlt ht0 ?_
          rw [List.getD_append _ _ _ _ hlt] at ht; exact ht
        · have hnl : n = l.length := by omega
          exact self (hlast hnl (by rw [hnl, hget] at ht; linarith))

/-- `P` contains the beginnings of its words. -/
theorem inside_cut (h : Inv f T) (i : ℕ) {p : ForwardRegional} {w : TimedWord} {n : ℕ} {t : ℚ} (hi : i ∈ T.pIndices)
    (hp : T.prefixes[i]? = some p) (hw : w.Legal) (hm : p.toElementaryLanguage.Mem w) (hn : n < w.durations.length)
    (ht0 : 0 ≤ t) (ht : t ≤ w.durations.getD n 0) :
    ∃ j ∈ T.pIndices, ∃ q, T.prefixes[j]? = some q ∧ q.toElementaryLanguage.Mem (cut w n t) := by
  obtain ⟨j, hj, b⟩ := prefix_cut h i hp hw hm hn ht0 ht
  exact ⟨j, hj.elim id fun e => e ▸ hi, b⟩

end ObsTable
end LearnTA
