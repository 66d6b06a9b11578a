import Verif.Lemmas.Oracle
import Verif.Props.SimplifyZones

/-!
# Properties of the oracles and of the learner (C40, C42, C43, C44, C54, C55)
-/

namespace LearnTA.Props

open LearnTA

/-! ## C40: the membership cache -/

/-- C40: the cache is transparent: on every sequence of queries it gives the answers of the
underlying oracle, if these depend only on the word. -/
theorem C40_transparent {σ : Type} (ask : σ → TimedWord → σ × Bool) (f : TimedWord → Bool)
    (hf : ∀ s w, (ask s w).2 = f w) (s : σ) (ws : List TimedWord) :
    (MemCache.answerAll ask (MemCache.start s) ws).2 = ws.map f :=
  MemCache.answerAll_det ask f hf _ (by simp [MemCache.start]) ws

/-- C40: the underlying oracle (whatever it is) is asked exactly for the words that are queried, and
for each of them once. -/
theorem C40_once {σ : Type} (ask : σ → TimedWord → σ × Bool) (s : σ) (ws : List TimedWord) :
    let asked := (MemCache.answerAll (recorded ask) (MemCache.start (s, [])) ws).1.oracle.2
    asked.Nodup ∧ ∀ u, u ∈ asked ↔ u ∈ ws := by
  have := MemCache.answerAll_recorded ask (MemCache.start (s, [])) ws (by simp [MemCache.start])
    (by simp [MemCache.start])
  exact ⟨this.1, fun u => (this.2 u).trans (by simp [MemCache.start])⟩

/-- C40: equal queries get equal answers, also if the underlying oracle would change its mind. -/
theorem C40_consistent {σ : Type} (ask : σ → TimedWord → σ × Bool) (s : σ) (ws : List TimedWord)
    (i j : ℕ) (hi : i < ws.length) (hj : j < ws.length) (h : ws[i] = ws[j]) :
    (MemCache.answerAll ask (MemCache.start s) ws).2[i]? =
      (MemCache.answerAll ask (MemCache.start s) ws).2[j]? := by
  rw [MemCache.answerAll_final ask _ ws i hi, MemCache.answerAll_final ask _ ws j hj, h]

/-- C40: the counter counts the queries. -/
theorem C40_count {σ : Type} (ask : σ → TimedWord → σ × Bool) (s : σ) (ws : List TimedWord) :
    (MemCache.answerAll ask (MemCache.start s) ws).1.countNoCache = ws.length := by
  rw [(MemCache.answerAll_count ask _ ws).1]; simp [MemCache.start]

/-- C40 with C30: a cache around the simulated deterministic automaton answers every sequence of
queries by membership in the language. -/
theorem C40_simulated (A : TA) (hw : A.WF) (he : A.EpsFree) (hdet : A.deterministic = true)
    (hi : A.Startable) (fuel : ℕ) (ws : List TimedWord)
    (hws : ∀ w ∈ ws, w.WF ∧ w.Observable ∧ w.Nonneg) (r0 : Runner) :
    let ask := fun (r : Runner) w => (Runner.answerQuery A (fuel + 1) r w).getD (r, false)
    List.Forall₂ (fun w b => b = true ↔ A.Accepts w) ws
      (MemCache.answerAll ask (MemCache.start r0) ws).2 := by
  intro ask
  have key : ∀ (ws : List TimedWord) (c : MemCache Runner),
      (∀ w ∈ ws, w.WF ∧ w.Observable ∧ w.Nonneg) →
      (∀ u b, c.cache.lookup u = some b → (b = true ↔ A.Accepts u)) →
      List.Forall₂ (fun w b => b = true ↔ A.Accepts w) ws (MemCache.answerAll ask c ws).2 := by
    intro ws
    induction ws with
    | nil => intro c _ _; exact .nil
    | cons w ws ih =>
      intro c hws hc
      obtain ⟨h1, h2, h3⟩ := hws w List.mem_cons_self
      have hq : ((MemCache.answerQuery ask c w).2 = true ↔ A.Accepts w) ∧
          ∀ u b, (MemCache.answerQuery ask c w).1.cache.lookup u = some b →
            (b = true ↔ A.Accepts u) := by
        unfold MemCache.answerQuery
        cases hl : c.cache.lookup w with
        | some b => exact ⟨hc w b hl, hc⟩
        | none =>
          obtain ⟨r', b, e1, e2⟩ := C30_membership_exact A hw he hdet hi fuel c.oracle w h1 h2 h3
          have : ask c.oracle w = (r', b) := by simp [ask, e1]
          rw [this]
          refine ⟨e2, fun u b' hu => ?_⟩
          simp only [List.lookup_cons] at hu
          by_cases huw : u = w
          · subst huw
            simp only [beq_self_eq_true, Option.some.injEq] at hu
            rw [← hu]; exact e2
          · rw [beq_false_of_ne huw] at hu
            exact hc u b' hu
      exact .cons hq.1 (ih _ (fun u hu => hws u (List.mem_cons_of_mem _ hu)) hq.2)
  exact key ws _ hws (by simp [MemCache.start])

/-- A query sequence with a repetition on the example automaton: three queries, two of them reach the
automaton. -/
example :
    let ask := fun (r : Runner) w => (Runner.answerQuery exA 1 r w).getD (r, false)
    let ws := [exW, ⟨[actA], [2, 0]⟩, exW]
    (MemCache.answerAll ask (MemCache.start (Runner.start exA)) ws).2 = [true, false, true] ∧
    (MemCache.answerAll (recorded ask) (MemCache.start (Runner.start exA, [])) ws).1.oracle.2 =
      [exW, ⟨[actA], [2, 0]⟩] ∧
    (∀ w ∈ ws, w.WF ∧ w.Observable ∧ w.Nonneg) := by
  refine ⟨by decide +kernel, by decide +kernel, ?_⟩
  unfold TimedWord.WF TimedWord.Observable TimedWord.Nonneg
  decide +kernel

/-! ## C42: equivalence oracles by tests, with memory, in a chain -/

/-- C42: the test-based oracle.  A counterexample is a test word cut off after a delay or after an
action, and the two systems answer differently on it.  Without a counterexample they agree on every
test word and on all these prefixes of it. -/
theorem C42_byTest (o : ByTest) (ho : ∀ w ∈ o.words, w.WF ∧ w.Observable) (fuel : ℕ) (H : TA)
    (o' : ByTest) (r : Option TimedWord) (h : o.findCounterExample fuel H = some (o', r)) :
    (∀ c, r = some c → Differ o.automaton H fuel c ∧ ∃ w ∈ o.words, ByTest.Derived w c) ∧
    (r = none → ∀ w ∈ o.words, ∀ c, ByTest.Derived w c → Agree o.automaton H fuel c) ∧
    o'.words = o.words ∧ o'.automaton = o.automaton ∧ o'.eqQueryCount = o.eqQueryCount + 1 := by
  obtain ⟨e1, e2⟩ := byTest_find h
  simp only at e1 e2
  have := ByTest.findFrom_spec o.words ho r e2
  subst e1
  refine ⟨?_, ?_, rfl, rfl, rfl⟩
  · rintro c rfl; exact this
  · rintro rfl; exact this

/-- C42 with C30: for deterministic automata the languages differ on a returned word. -/
theorem C42_byTest_language (o : ByTest) (hw : o.automaton.WF) (he : o.automaton.EpsFree)
    (hd : o.automaton.deterministic = true) (hi : o.automaton.Startable)
    (ho : ∀ w ∈ o.words, w.WF ∧ w.Observable ∧ w.Nonneg) (fuel : ℕ) (H : TA) (hHw : H.WF)
    (hHe : H.EpsFree) (hHd : H.deterministic = true) (hHi : H.Startable)
    (o' : ByTest) (r : Option TimedWord) (h : o.findCounterExample (fuel + 1) H = some (o', r)) :
    (∀ c, r = some c → ¬ (o.automaton.Accepts c ↔ H.Accepts c)) ∧
    (r = none → ∀ w ∈ o.words, (o.automaton.Accepts w ↔ H.Accepts w)) := by
  obtain ⟨h1, h2, -⟩ := C42_byTest o (fun w hw => ⟨(ho w hw).1, (ho w hw).2.1⟩) _ H o' r h
  refine ⟨fun c hc => ?_, fun hr w hw' => ?_⟩
  · obtain ⟨⟨a, b, x, y, e1, e2, hne⟩, w, hw', hder⟩ := h1 c hc
    obtain ⟨k1, k2, k3⟩ := ho w hw'
    obtain ⟨c1, c2⟩ := ByTest.derived_ok k1 k2 hder
    have c3 := ByTest.derived_nonneg k3 hder
    obtain ⟨r1, x', f1, f2⟩ := C30_membership_exact o.automaton hw he hd hi fuel
      (Runner.start _) c c1 c2 c3
    obtain ⟨r2, y', g1, g2⟩ := C30_membership_exact H hHw hHe hHd hHi fuel (Runner.start _) c c1 c2 c3
    rw [e1] at f1; rw [e2] at g1
    cases f1; cases g1
    rw [← f2, ← g2]
    cases x <;> cases y <;> simp_all
  · obtain ⟨a, b, x, e1, e2⟩ := h2 hr w hw' w (.inl rfl)
    obtain ⟨k1, k2, k3⟩ := ho w hw'
    obtain ⟨r1, x', f1, f2⟩ := C30_membership_exact o.automaton hw he hd hi fuel
      (Runner.start _) w k1 k2 k3
    obtain ⟨r2, y', g1, g2⟩ := C30_membership_exact H hHw hHe hHd hHi fuel (Runner.start _) w k1 k2 k3
    rw [e1] at f1; rw [e2] at g1
    cases f1; cases g1
    rw [← f2, ← g2]

/-- C42: random tests, whatever is drawn (observable actions): a returned word distinguishes the two
systems; without one they agree on all the drawn words. -/
theorem C42_randomTest (A H : TA) (fuel : ℕ) (tests : List (List (ℚ × Action) × ℚ))
    (ht : ∀ t ∈ tests, ∀ p ∈ t.1, p.2 ≠ unobservable) (r : Option TimedWord)
    (h : RandomTest.find A H fuel tests = some r) :
    (∀ c, r = some c → Differ A H fuel c) ∧
    (r = none → ∀ t ∈ tests, Agree A H fuel ⟨t.1.map Prod.snd, t.1.map Prod.fst ++ [t.2]⟩) := by
  have := RandomTest.find_spec tests ht r h
  exact ⟨by rintro c rfl; exact this, by rintro rfl; exact this⟩

/-- C42: the chain asks its members in order: it returns nothing exactly if they all return nothing,
otherwise what the first of them that finds a counterexample returns; the later ones are not
asked. -/
theorem C42_chain {Ω : Type} (call : EqCall Ω) (os os' : List Ω) (H : TA) (r : Option TimedWord)
    (h : chainCall call os H = some (os', r)) :
    (r = none ↔ List.Forall₂ (fun o o' => call o H = some (o', none)) os os') ∧
    ∀ w, r = some w → ∃ pre o post pre' o', os = pre ++ o :: post ∧ os' = pre' ++ o' :: post ∧
      List.Forall₂ (fun o o' => call o H = some (o', none)) pre pre' ∧
      call o H = some (o', some w) := by
  have := chainCall_spec call os os' H r h
  refine ⟨⟨by rintro rfl; exact this, fun h2 => ?_⟩, by rintro w rfl; exact this⟩
  cases r with
  | none => rfl
  | some w =>
    obtain ⟨pre, o, post, pre', o', rfl, rfl, h3, h4⟩ := this
    exfalso
    clear h
    induction h3 with
    | nil =>
      cases h2 with
      | cons h _ => rw [h4] at h; cases h
    | cons _ _ ih =>
      cases h2 with
      | cons _ h => exact ih h

/-- C42: if all members only return counterexamples with the property `P` (for instance that the
answers differ), over all histories of calls, then so does the chain. -/
theorem C42_chain_sound {Ω : Type} (call : EqCall Ω) (P : TA → TimedWord → Prop) (os : List Ω)
    (h : ∀ o ∈ os, EqCall.Sound call P o) : EqCall.Sound (chainCall call) P os :=
  chain_sound h

/-- C42: the memo only returns genuine counterexamples, over all histories of calls, if the oracle
behind it does. -/
theorem C42_memo_sound {Ω : Type} (call : EqCall Ω) (A : TA) (fuel : ℕ) (o : Ω)
    (h : EqCall.Sound call (fun H w => Differ A H fuel w ∧ w.WF ∧ w.Observable) o) :
    EqCall.Sound (memoCall call fuel) (fun H w => Differ A H fuel w ∧ w.WF ∧ w.Observable)
      (o, ⟨[], A, 0⟩) :=
  memo_sound (A := A) (fun H w h1 h2 h3 => ⟨h3, h1, h2⟩) (fun H w h => h.2)
    (t := ⟨[], A, 0⟩) (by intro w hw; cases hw) rfl h

/-- C42: the memo never forgets: once it returned `w`, it returns "no counterexample" only for
hypotheses that agree with the system on `w`, whatever happened in between; and it does so only if
the oracle behind it does. -/
theorem C42_memo_remembers {Ω : Type} (call : EqCall Ω) (A : TA) (fuel : ℕ) (o : Ω)
    (h : EqCall.Sound call (fun H w => Differ A H fuel w ∧ w.WF ∧ w.Observable) o)
    (hs hs' : List TA) (s1 s2 s3 s4 : Ω × ByTest) (H H' : TA) (w : TimedWord)
    (h1 : EqCall.After (memoCall call fuel) (o, ⟨[], A, 0⟩) hs s1)
    (h2 : memoCall call fuel s1 H = some (s2, some w))
    (h3 : EqCall.After (memoCall call fuel) s2 hs' s3)
    (h4 : memoCall call fuel s3 H' = some (s4, none)) :
    Agree A H' fuel w ∧ call s3.1 H' = some (s4.1, none) := by
  let P := fun H w => Differ A H fuel w ∧ w.WF ∧ w.Observable
  let I := fun s : Ω × ByTest => s.2.OK ∧ s.2.automaton = A ∧ EqCall.Sound call P s.1
  have step : ∀ s H s' r, I s → memoCall call fuel s H = some (s', r) → I s' ∧
      s.2.words <+: s'.2.words ∧ (∀ w, r = some w → ∃ u ∈ s'.2.words, ByTest.Derived u w) := by
    rintro s H s' r ⟨i1, i2, i3⟩ hc
    obtain ⟨m1, m2, m3, m4⟩ := memo_words i1 hc
    refine ⟨⟨?_, m1.trans i2, ?_⟩, m2, m3⟩
    all_goals
      obtain ⟨o, t⟩ := s
      unfold memoCall at hc
      simp only at hc i3
      cases hf : t.findCounterExample fuel H with
      | none => rw [hf] at hc; cases hc
      | some p =>
        obtain ⟨t1, r1⟩ := p
        obtain ⟨e1, e2⟩ := byTest_find hf
        simp only at e1 e2
        have ht1 : t1.OK := by rw [e1]; exact i1
        cases r1 with
        | some w =>
          rw [hf] at hc
          simp only [Option.some.injEq, Prod.mk.injEq] at hc
          obtain ⟨rfl, rfl⟩ := hc
          first | exact ht1 | exact i3
        | none =>
          rw [hf] at hc
          simp only at hc
          cases hq : call o H with
          | none => rw [hq] at hc; cases hc
          | some q =>
            obtain ⟨o1, r2⟩ := q
            cases r2 with
            | none =>
              rw [hq] at hc
              simp only [Option.some.injEq, Prod.mk.injEq] at hc
              obtain ⟨rfl, rfl⟩ := hc
              first | exact ht1 | exact i3.step hq
            | some w =>
              rw [hq] at hc
              simp only [Option.some.injEq, Prod.mk.injEq] at hc
              obtain ⟨rfl, rfl⟩ := hc
              first
                | exact i3.step hq
                | (intro u hu
                   simp only [ByTest.pushBack, List.mem_append, List.mem_singleton] at hu
                   rcases hu with hu | rfl
                   · exact ht1 u hu
                   · exact (i3.now hq).2)
  have run : ∀ s hs s', EqCall.After (memoCall call fuel) s hs s' → I s → I s' ∧
      s.2.words <+: s'.2.words := by
    intro s hs s' ha
    induction ha with
    | nil s => exact fun h => ⟨h, List.prefix_rfl⟩
    | cons hc _ ih =>
      intro hi
      obtain ⟨k1, k2, -⟩ := step _ _ _ _ hi hc
      obtain ⟨k3, k4⟩ := ih k1
      exact ⟨k3, k2.trans k4⟩
  obtain ⟨i1, -⟩ := run _ _ _ h1 ⟨(by intro w hw; cases hw), rfl, h⟩
  obtain ⟨i2, -, k⟩ := step _ _ _ _ i1 h2
  obtain ⟨u, hu, hder⟩ := k w rfl
  obtain ⟨i3, hpre⟩ := run _ _ _ h3 i2
  obtain ⟨-, -, -, m4⟩ := memo_words i3.1 h4
  obtain ⟨-, m5, m6⟩ := m4 rfl
  exact ⟨by rw [← i3.2.1]; exact m6 u (hpre.subset hu) w hder, m5⟩

/-- The language of `exA` without its last transition: a hypothesis that is wrong on `exW`. -/
def exH : TA := { exA with loc := fun p => { exA.loc p with isMatch := false } }

/-- The hypotheses of the theorems about tests are met: the test suite `exW` refutes the hypothesis
`exH` and does not refute `exA`; the memo around the test-based oracle is sound. -/
example :
    (∀ w ∈ [exW], w.WF ∧ w.Observable ∧ w.Nonneg) ∧
    ((ByTest.mk [exW] exA 0).findCounterExample 1 exA).map (·.2) = some none ∧
    ((ByTest.mk [exW] exA 0).findCounterExample 1 exH).map (·.2) = some (some ⟨[actA], [1, 0]⟩) := by
  refine ⟨?_, by decide +kernel, by decide +kernel⟩
  unfold TimedWord.WF TimedWord.Observable TimedWord.Nonneg
  decide +kernel

/-! ## C43: the learner -/

/-- C43: if the learner returns `H`, the equivalence oracle has been asked about the hypotheses of
the counterexample rounds, each time answering with the counterexample that was then given to the
table, and last about `H`, with the answer "no counterexample".  `H` is the simplified hypothesis of
a table on which all four checks passed one after the other.  This holds for every oracle and every
table.  The recorded execution is the execution (`C43_recorded`). -/
theorem C43_returned {τ σ : Type} (T : Table τ) (eq : EqCall σ) (post : TA → Option TA) (fuel : ℕ)
    (t : τ) (s : σ) (H : TA) (t' : τ) (s' : σ) (cs : List TimedWord)
    (qs : List (TA × Option TimedWord))
    (h : Learner.run (Learner.loggedTable T) (Learner.logged eq) post fuel (t, []) (s, []) =
      some (H, (t', cs), (s', qs))) :
    (∃ s1, eq s1 H = some (s', none)) ∧
    qs.map Prod.snd = cs.map some ++ [none] ∧ qs.getLast?.map Prod.fst = some H ∧
    qs.length = cs.length + 1 ∧
    ∃ H0, post H0 = some H ∧ ∃ t0 t1 t2 t3 t4, T.close t0 = (t1, true) ∧
      T.consistent t1 = (t2, true) ∧ T.exteriorConsistent t2 = (t3, true) ∧
      T.timeSaturate t3 = (t4, true) ∧ T.generateHypothesis t4 = (t', H0) := by
  obtain ⟨h1, h2, cexs, h3, h4⟩ := Learner.run_spec T eq post fuel _ _ _ _ H h
  simp only [List.nil_append] at h3 h4
  subst h3 h4
  refine ⟨h1, ?_, ?_, ?_, h2⟩
  · simp [Function.comp_def]
  · simp
  · simp

/-- C43: the records do not influence the execution. -/
theorem C43_recorded {τ σ : Type} (T : Table τ) (eq : EqCall σ) (post : TA → Option TA) (fuel : ℕ)
    (t : τ) (s : σ) :
    (Learner.run (Learner.loggedTable T) (Learner.logged eq) post fuel (t, []) (s, [])).map
      (fun r => (r.1, r.2.1.1, r.2.2.1)) = Learner.run T eq post fuel t s :=
  Learner.run_proj T eq post fuel (t, []) (s, [])

/-- C43: the two simplifications between the table and the oracle keep the language of the
hypothesis. -/
theorem C43_simplified (H0 : TA) (hw : H0.WF) (ho : H0.ResetsOrdered)
    (hch : CharActions H0.simplifyStrong) (o : HashOrder) (fuel : ℕ) (H : TA)
    (h : H0.simplifyStrong.simplifyWithZones o fuel = some H) (w : TimedWord) (hwf : w.WF) :
    (H.Accepts w ↔ H0.Accepts w) ∧ H.WF := by
  have hs := C34_simplify_language H0 hw w
  have := C54_language _ hs.2.2.2 ((TA.simplifyStrong_keeps H0 hw).2 ho) hch o fuel H h w hwf
  exact ⟨this.1.trans hs.2.2.1, this.2⟩

/-- A learner run with one counterexample round: a table whose first hypothesis is `exH`, replaced by
`exA` by the first counterexample, and the test-based oracle. -/
example :
    let T : Table Bool := ⟨(·, true), (·, true), (·, true), (·, true),
      fun b => (b, if b then exA else exH), fun _ _ => true⟩
    let eq : EqCall ByTest := fun o H => o.findCounterExample 1 H
    ((Learner.run (Learner.loggedTable T) (Learner.logged eq) some 3 (false, [])
      (⟨[exW], exA, 0⟩, [])).map fun r => (r.2.1.2, r.2.2.2.map Prod.snd)) =
      some ([⟨[actA], [1, 0]⟩], [some ⟨[actA], [1, 0]⟩, none]) := by
  decide +kernel

/-! ## C44: the oracle based on complements -/

/-- What the two zone automata the oracle samples from are made of. -/
theorem subset_language (Cm H : TA) (hC : Cm.WF) (hCe : Cm.EpsFree) (hH : H.WF) (hHe : H.EpsFree)
    (w : TimedWord) (hw : w.WF) :
    ((ComplementOracle.subsetTA Cm H).Accepts w ↔ Cm.Accepts w ∧ H.Accepts w) ∧
    (ComplementOracle.subsetTA Cm H).WF ∧ (ComplementOracle.subsetTA Cm H).EpsFree ∧
    (Cm.ResetsOrdered → H.ResetsOrdered → (ComplementOracle.subsetTA Cm H).ResetsOrdered) := by
  have hI := C36_product_wf Cm H hC hH
  have hs := C34_simplify_language _ hI w
  have he : (Cm.intersection H).simplifyStrong.EpsFree :=
    (TA.simplifyStrong_keeps _ hI).1 (C36_product_epsFree Cm H hCe hHe)
  have heq : ComplementOracle.subsetTA Cm H = (Cm.intersection H).simplifyStrong :=
    TA.addUpperBound_epsFree _ hs.2.2.2.nodup he
  rw [heq]
  exact ⟨hs.2.2.1.trans (C36_product_language Cm H hC hH w hw), hs.2.2.2, he, fun h1 h2 =>
    (TA.simplifyStrong_keeps _ hI).2 (TA.intersection_ordered hC.clocks h1 h2)⟩

theorem superset_language (A H : TA) (alphabet : List Action) (hA : A.WF) (hAe : A.EpsFree)
    (hH : H.WF) (hHe : H.EpsFree) (hu : unobservable ∉ alphabet) (w : TimedWord) (hw : w.WF) :
    ((ComplementOracle.supersetTA A H alphabet).Accepts w ↔
      A.Accepts w ∧ (H.complement alphabet).Accepts w) ∧
    (ComplementOracle.supersetTA A H alphabet).WF ∧
    (ComplementOracle.supersetTA A H alphabet).EpsFree ∧
    (A.ResetsOrdered → H.ResetsOrdered →
      (ComplementOracle.supersetTA A H alphabet).ResetsOrdered) := by
  have hc := TA.complement_wf H alphabet hH hHe
  have hce := TA.complement_epsFree H alphabet hH hHe hu
  obtain ⟨h1, h2, h3, h4⟩ := subset_language A (H.complement alphabet) hA hAe hc hce w hw
  have hs := C34_simplify_language _ h2 w
  have hk := TA.simplify_keeps _ h2
  exact ⟨hs.1.trans h1, hs.2.1, hk.1 h3, fun k1 k2 =>
    hk.2 (h4 k1 (TA.complement_ordered H alphabet hH hHe k2))⟩

/-- The search for a sample misses: the zone automaton has an accepting state but no word is sampled
from it. -/
def SampleMisses (A : TA) (o : HashOrder) (fuel : ℕ) : Prop :=
  ∃ za, ta2za A o true fuel = some za ∧ (∃ p ∈ za.states, (za.loc p).isMatch = true) ∧
    za.sample = none

theorem empty_of_sample_none (A : TA) (hA : A.WF) (ho : A.ResetsOrdered) (o : HashOrder) (fuel : ℕ)
    (h : ComplementOracle.sampleOf o fuel A = some none) :
    (∀ w : TimedWord, w.WF → ¬ A.Accepts w) ∨ SampleMisses A o fuel := by
  unfold ComplementOracle.sampleOf at h
  obtain ⟨za, hza, hs⟩ := Option.map_eq_some_iff.1 h
  rw [Ta2za.ta2za_memo A o true fuel za hza] at hs
  have hm : za.memo = none := by
    have hs' := Ta2za.ta2za_memo A o true fuel za hza
    unfold ZA.sampleWithMemo at hs'
    cases hmm : za.memo with
    | none => rfl
    | some u => rw [hmm, hs] at hs'; cases hs'
  by_cases hp : ∃ p ∈ za.states, (za.loc p).isMatch = true
  · exact .inr ⟨za, hza, hp, hs⟩
  · refine .inl fun w hw hacc => hp ?_
    obtain ⟨-, -, -, j, hj, -, h2, -⟩ := C37_words_simulated A hA ho o true fuel za hza (.inr hm) w hw hacc
    exact ⟨j, hj, h2⟩

/-- C44, partial: the complement-based oracle says "equivalent" only if the languages are equal or
the sampling from one of the two zone automata missed an accepting state.  Missing: that sampling
never misses, which is false of the code (`C44_misses_witness`). -/
theorem C44_equivalent_partial (target Cm H : TA) (alphabet : List Action)
    (hT : target.WF) (hTe : target.EpsFree) (hTo : target.ResetsOrdered)
    (hC : Cm.WF) (hCe : Cm.EpsFree) (hCo : Cm.ResetsOrdered)
    (hH : H.WF) (hHe : H.EpsFree) (hHo : H.ResetsOrdered)
    (hdet : H.deterministic = true) (hi : H.init.length ≤ 1) (hu : unobservable ∉ alphabet)
    (hcompl : ∀ w : TimedWord, w.WF → w.Nonneg → (∀ a ∈ w.word, a ∈ alphabet) →
      (Cm.Accepts w ↔ ¬ target.Accepts w))
    (o : HashOrder) (fuel : ℕ)
    (h : ComplementOracle.findCounterExample target Cm alphabet o fuel H = some none) :
    (∀ w : TimedWord, w.WF → w.Nonneg → (∀ a ∈ w.word, a ∈ alphabet) →
      (H.Accepts w ↔ target.Accepts w)) ∨
    SampleMisses (ComplementOracle.subsetTA Cm H) o fuel ∨
    SampleMisses (ComplementOracle.supersetTA target H alphabet) o fuel := by
  unfold ComplementOracle.findCounterExample at h
  split at h
  · cases h
  · cases h
  · rename_i h1
    have e0 := subset_language Cm H hC hCe hH hHe
    have f0 := superset_language target H alphabet hT hTe hH hHe hu
    have e1 := (e0 ⟨[], [0]⟩ rfl).2
    have f1 := (f0 ⟨[], [0]⟩ rfl).2
    rcases empty_of_sample_none _ e1.1 (e1.2.2 hCo hHo) o fuel h1 with e2 | e2
    · rcases empty_of_sample_none _ f1.1 (f1.2.2 hTo hHo) o fuel h with f2 | f2
      · refine .inl fun w hw hn hwd => ?_
        have a1 := hcompl w hw hn hwd
        have a2 := C31_complement_language H alphabet hH hHe hdet hu hi w hw hwd hn
        constructor
        · intro hHw
          by_contra hTw
          exact e2 w hw ((e0 w hw).1.2 ⟨a1.2 hTw, hHw⟩)
        · intro hTw
          by_contra hHw
          exact f2 w hw ((f0 w hw).1.2 ⟨hTw, a2.2 hHw⟩)
      · exact .inr (.inr f2)
    · exact .inr (.inl e2)

/-- A deterministic automaton with three clocks that accepts `(1, a, 1, a, 1, a, 0)`. -/
def missT : TA where
  loc
    | 0 => ⟨false, fun a => if a = actA then [⟨1, [(1, .const 0)], [⟨2, .gt, 0⟩]⟩] else []⟩
    | 1 => ⟨false, fun a => if a = actA then [⟨2, [(0, .const 0)], [⟨1, .gt, 0⟩]⟩] else []⟩
    | 2 => ⟨false, fun a => if a = actA then [⟨3, [], [⟨0, .gt, 0⟩, ⟨2, .ge, 1⟩]⟩] else []⟩
    | _ => ⟨true, fun _ => []⟩
  states := [0, 1, 2, 3]
  init := [0]
  maxC := [0, 0, 1]

/-- An automaton that accepts nothing. -/
def missH : TA where
  loc _ := ⟨false, fun _ => []⟩
  states := [0]
  init := [0]
  maxC := []

theorem ordered_of_check {A : TA}
    (h : ∀ p ∈ A.states, ∀ a, ∀ t ∈ (A.loc p).next a, t.resets.length ≤ 1) : A.ResetsOrdered := by
  intro p hp a t ht
  have := h p hp a t ht
  rcases ht' : t.resets with _ | ⟨r, _ | ⟨r', l⟩⟩
  · simp [Zone.NoReadAfterWrite]
  · simp [Zone.NoReadAfterWrite]
  · rw [ht'] at this; simp at this

theorem missT_ok : missT.WF ∧ missT.EpsFree ∧ missT.ResetsOrdered ∧ missT.deterministic = true ∧
    missT.init.length = 1 ∧ missT.MaxOK := by
  refine ⟨wf_of_check (by decide +kernel), by unfold TA.EpsFree; decide +kernel,
    ordered_of_check (by decide +kernel), by decide +kernel, rfl, by decide, fun p hp a t ht => ⟨?_, ?_⟩⟩
  · have : ∀ p ∈ missT.states, ∀ a, ∀ t ∈ (missT.loc p).next a, ∀ c ∈ t.guard,
        c.c ≤ missT.maxC.getD c.x 0 := by decide +kernel
    exact this p hp a t ht
  · have : ∀ p ∈ missT.states, ∀ a, ∀ t ∈ (missT.loc p).next a, ∀ r ∈ t.resets,
        r.2 = .const 0 := by decide +kernel
    intro r hr y hy
    rw [this p hp a t ht r hr] at hy; cases hy

theorem missH_ok : missH.WF ∧ missH.EpsFree ∧ missH.ResetsOrdered ∧ missH.deterministic = true ∧
    missH.init.length = 1 := by
  refine ⟨wf_of_check (by decide +kernel), by unfold TA.EpsFree; decide +kernel,
    ordered_of_check (by decide +kernel), by decide +kernel, rfl⟩

set_option maxRecDepth 100000 in
/-- C44: the claim is false of the code: the oracle says that the automaton that accepts nothing is
equivalent to an automaton that accepts a word.  Both are deterministic, without unobservable
transitions, and the complement given to the oracle is the one the code computes.  The reason is
that `Zone::sample` returns a point outside of the last zone of the only path (see
`C17_outside_witness`), and the reconstruction of a word gives up. -/
theorem C44_misses_witness :
    (missT.WF ∧ missT.EpsFree ∧ missT.ResetsOrdered ∧ missT.deterministic = true ∧
      missT.init.length = 1 ∧ missT.MaxOK) ∧
    (missH.WF ∧ missH.EpsFree ∧ missH.ResetsOrdered ∧ missH.deterministic = true ∧
      missH.init.length = 1) ∧
    ComplementOracle.findCounterExample missT (missT.complement [actA]) [actA] exOrder 30 missH =
      some none ∧
    missT.Accepts ⟨[actA, actA, actA], [1, 1, 1, 0]⟩ ∧ ∀ w, ¬ missH.Accepts w := by
  refine ⟨missT_ok, missH_ok, by decide +kernel, ?_, ?_⟩
  · obtain ⟨h1, h2, -, h4, h5, -⟩ := missT_ok
    obtain ⟨r, b, e1, e2⟩ := C30_membership_exact missT h1 h2 h4 (.inl h5) 0 (Runner.start missT)
      ⟨[actA, actA, actA], [1, 1, 1, 0]⟩ rfl
      (by unfold TimedWord.Observable; decide) (by unfold TimedWord.Nonneg; decide +kernel)
    have : (Runner.answerQuery missT 1 (Runner.start missT)
      ⟨[actA, actA, actA], [1, 1, 1, 0]⟩).map (·.2) = some true := by decide +kernel
    rw [e1] at this
    simp only [Option.map_some, Option.some.injEq] at this
    exact e2.1 this
  · rintro w ⟨q, -, c, -, hm⟩
    cases hm

/-- C44 with C31, partial: the oracle built from a deterministic target and the complement the code
computes for it.  Missing as in `C44_equivalent_partial`. -/
theorem C44_equivalent_computed_partial (target H : TA) (alphabet : List Action)
    (hT : target.WF) (hTe : target.EpsFree) (hTo : target.ResetsOrdered)
    (hTd : target.deterministic = true) (hTi : target.init.length = 1)
    (hH : H.WF) (hHe : H.EpsFree) (hHo : H.ResetsOrdered)
    (hdet : H.deterministic = true) (hi : H.init.length ≤ 1) (hu : unobservable ∉ alphabet)
    (o : HashOrder) (fuel : ℕ)
    (h : ComplementOracle.findCounterExample target (target.complement alphabet) alphabet o fuel H =
      some none) :
    (∀ w : TimedWord, w.WF → w.Nonneg → (∀ a ∈ w.word, a ∈ alphabet) →
      (H.Accepts w ↔ target.Accepts w)) ∨
    SampleMisses (ComplementOracle.subsetTA (target.complement alphabet) H) o fuel ∨
    SampleMisses (ComplementOracle.supersetTA target H alphabet) o fuel :=
  C44_equivalent_partial target _ H alphabet hT hTe hTo (TA.complement_wf target alphabet hT hTe)
    (TA.complement_epsFree target alphabet hT hTe hu) (TA.complement_ordered target alphabet hT hTe hTo)
    hH hHe hHo hdet hi hu
    (fun w hw hn hwd => C31_complement_language target alphabet hT hTe hTd hu hTi.le w hw hwd hn) o fuel h

set_option maxRecDepth 100000 in
/-- The hypotheses are met, without missing samples: the oracle finds the automaton with one clock
below equivalent to itself, and finds a difference to `missH`. -/
example :
    let A : TA := ⟨fun p => ⟨decide (p = 1), fun a => if a = actA ∧ p = 0 then
      [⟨1, [(0, .const 0)], [⟨0, .gt, 1⟩, ⟨0, .le, 3⟩]⟩] else []⟩, [0, 1], [0], [3]⟩
    ComplementOracle.findCounterExample A (A.complement [actA]) [actA] exOrder 30 A = some none ∧
    ComplementOracle.findCounterExample A (A.complement [actA]) [actA] exOrder 30 missH =
      some (some ⟨[actA], [3 / 2, 0]⟩) := by
  decide +kernel

end LearnTA.Props
