import Verif.Props.Learner
import Verif.Props.SampleComplete
import Verif.Spec.Experiment

/-!
# Properties of the experiments: C76
-/

namespace LearnTA.Props
open ObsTable Experiment

/-- An invariant of the equivalence oracle and the record, up to the last query. -/
theorem learn_invariant {σ Ω : Type} (env : Env σ) (henv : HypEnv) (zones : HashOrder) (rounds : ℕ) (eq : EqCall Ω)
    (I : Ω → List (TA × Option TimedWord) → Prop)
    (hI : ∀ e L H e' r, I e L → eq e H = some (e', r) → I e' (L ++ [(H, r)])) (n : ℕ) :
    ∀ (e0 e : Ω) (L L' : List (TA × Option TimedWord)) (T0 T : ObsTable σ) (H : TA),
      (learn env henv zones rounds (Learner.logged eq) n (e0, L)).run T0 = .ok ((H, (e, L')), T) → I e0 L →
      ∃ e1 L1, I e1 L1 ∧ eq e1 H = some (e, none) ∧ L' = L1 ++ [(H, none)] := by
  induction n with
  | zero => intro e0 e L L' T0 T H h; simp [learn, throw, throwThe, MonadExceptOf.throw, StateT.run, StateT.lift] at h
  | succ n ih =>
    intro e0 e L L' T0 T H h h0
    obtain ⟨T1, H0, H1, h1, h2, h3, ⟨e', h4, h5⟩ | ⟨⟨e', L1⟩, w, T2, h4, h5, h6⟩⟩ := (learn_succ_ok ..).1 h
    · cases h5
      simp only [Learner.logged] at h4
      obtain ⟨⟨r1, r2⟩, k1, k2⟩ := Option.map_eq_some_iff.1 h4
      simp only [Prod.mk.injEq] at k2
      obtain ⟨⟨rfl, rfl⟩, rfl⟩ := k2
      exact ⟨e0, L, h0, k1, rfl⟩
    · simp only [Learner.logged] at h4
      obtain ⟨⟨r1, r2⟩, k1, k2⟩ := Option.map_eq_some_iff.1 h4
      simp only [Prod.mk.injEq] at k2
      obtain ⟨⟨rfl, rfl⟩, rfl⟩ := k2
      exact ih _ _ _ _ _ _ _ h6 (hI _ _ _ _ _ h0 k1)

variable {c : Experiment.Config} {env : Env Runner} {henv : HypEnv} {zones : HashOrder} {rounds fuel n : ℕ}

/-- The state of the oracle during a run. -/
structure OracleInv (c : Experiment.Config) (e : List Member × ByTest) (L : List (TA × Option TimedWord)) : Prop where
  chain : ∃ k j, e.1 = [.tests ⟨c.testWords, c.target, k⟩, .compare j]
  memo : e.2.OK
  automaton : e.2.automaton = c.target
  recorded : ∀ x ∈ L, ∀ w, x.2 = some w → ∃ u ∈ e.2.words, ByTest.Derived u w

theorem startOracle_inv (c : Experiment.Config) : OracleInv c (startOracle c) [] := by
  have h : ∀ (l : List TimedWord) (o : ByTest), l.foldl ByTest.pushBack o = ⟨o.words ++ l, o.automaton, o.eqQueryCount⟩ := by
    intro l
    induction l with
    | nil => intro o; simp
    | cons w l ih => intro o; rw [List.foldl_cons, ih]; simp [ByTest.pushBack]
  refine ⟨⟨0, 0, ?_⟩, fun w hw => (by cases hw), rfl, fun x hx => (by cases hx)⟩
  unfold startOracle
  rw [h]; rfl

/-- What the complement-based oracle returns is a well-formed word without unobservable actions. -/
theorem compare_word {target Cm H : TA} {alphabet : List Action} {w : TimedWord}
    (h : ComplementOracle.findCounterExample target Cm alphabet zones rounds H = some (some w)) : w.WF ∧ w.Observable := by
  have key : ∀ A, ComplementOracle.sampleOf zones rounds A = some (some w) → w.WF ∧ w.Observable := by
    intro A hA
    unfold ComplementOracle.sampleOf at hA
    obtain ⟨za, hza, hs⟩ := Option.map_eq_some_iff.1 hA
    rw [Ta2za.ta2za_memo A zones true rounds za hza] at hs
    obtain ⟨_, _, _, _, _, _, _, h1, h2⟩ := C38_sample_path za w hs
    exact ⟨h1, h2⟩
  unfold ComplementOracle.findCounterExample at h
  split at h
  · cases h
  · rename_i w' h1
    cases h
    exact key _ h1
  · exact key _ h

theorem chain_step (hw : ∀ w ∈ c.testWords, w.WF ∧ w.Observable) {Cm H : TA} {k j : ℕ} {ms : List Member}
    {r : Option TimedWord}
    (h : chainCall (call c Cm zones rounds fuel) [.tests ⟨c.testWords, c.target, k⟩, .compare j] H = some (ms, r)) :
    (∃ k j, ms = [.tests ⟨c.testWords, c.target, k⟩, .compare j]) ∧ (∀ w, r = some w → w.WF ∧ w.Observable) ∧
      (r = none → (∀ w ∈ c.testWords, ∀ d, ByTest.Derived w d → Agree c.target H fuel d) ∧
        ComplementOracle.findCounterExample c.target Cm c.alphabet zones rounds H = some none) := by
  unfold chainCall at h
  cases ht : ByTest.findCounterExample ⟨c.testWords, c.target, k⟩ fuel H with
  | none => simp only [call, ht] at h; cases h
  | some p =>
    obtain ⟨t, r1⟩ := p
    obtain ⟨t1, t2, t3, t4, -⟩ := C42_byTest _ hw fuel H t r1 ht
    have ht' : t = ⟨c.testWords, c.target, t.eqQueryCount⟩ := by
      obtain ⟨a, b, d⟩ := t
      simp only at t3 t4
      rw [t3, t4]
    simp only [call, ht, Option.map_some] at h
    cases r1 with
    | some w =>
      simp only [Option.some.injEq, Prod.mk.injEq] at h
      obtain ⟨rfl, rfl⟩ := h
      refine ⟨⟨t.eqQueryCount, j, by rw [ht']⟩, ?_, by rintro ⟨⟩⟩
      rintro w' ⟨⟩
      obtain ⟨_, u, hu, hd⟩ := t1 w rfl
      exact ByTest.derived_ok (hw u hu).1 (hw u hu).2 hd
    | none =>
      simp only [chainCall] at h
      cases hq : ComplementOracle.findCounterExample c.target Cm c.alphabet zones rounds H with
      | none => simp only [call, hq] at h; cases h
      | some r2 =>
        simp only [call, hq, Option.map_some] at h
        cases r2 with
        | some w =>
          simp only [Option.map_some, Option.some.injEq, Prod.mk.injEq] at h
          obtain ⟨rfl, rfl⟩ := h
          refine ⟨⟨t.eqQueryCount, j + 1, by rw [← ht']⟩, ?_, by rintro ⟨⟩⟩
          rintro w' ⟨⟩
          exact compare_word hq
        | none =>
          simp only [Option.map_some, Option.some.injEq, Prod.mk.injEq] at h
          obtain ⟨rfl, rfl⟩ := h
          exact ⟨⟨t.eqQueryCount, j + 1, by rw [← ht']⟩, by rintro w ⟨⟩, fun _ => ⟨t2 rfl, rfl⟩⟩

theorem oracle_step (hw : ∀ w ∈ c.testWords, w.WF ∧ w.Observable) {Cm : TA} (e : List Member × ByTest)
    (L : List (TA × Option TimedWord)) (H : TA) (e' : List Member × ByTest) (r : Option TimedWord) (h : OracleInv c e L)
    (hc : Experiment.oracle c Cm zones rounds fuel e H = some (e', r)) : OracleInv c e' (L ++ [(H, r)]) := by
  unfold Experiment.oracle at hc
  obtain ⟨m1, m2, m3, m4⟩ := memo_words h.memo hc
  obtain ⟨k, j, hch⟩ := h.chain
  have hrec : ∀ x ∈ L ++ [(H, r)], ∀ w, x.2 = some w → ∃ u ∈ e'.2.words, ByTest.Derived u w := by
    intro x hx w hxw
    rcases List.mem_append.1 hx with hx | hx
    · obtain ⟨u, hu, hd⟩ := h.recorded x hx w hxw
      exact ⟨u, m2.subset hu, hd⟩
    · rw [List.mem_singleton] at hx
      subst hx
      exact m3 w hxw
  obtain ⟨ms, t⟩ := e
  simp only at hch
  subst hch
  unfold memoCall at hc
  have hOK := h.memo
  have hauto := h.automaton
  simp only at hc hOK hauto
  cases hf : t.findCounterExample fuel H with
  | none => rw [hf] at hc; cases hc
  | some p =>
    obtain ⟨t1, r1⟩ := p
    rw [hf] at hc
    obtain ⟨e1, e2⟩ := byTest_find hf
    simp only at e1 e2
    have hOK1 : t1.OK := by rw [e1]; exact hOK
    cases r1 with
    | some w =>
      simp only [Option.some.injEq, Prod.mk.injEq] at hc
      obtain ⟨rfl, rfl⟩ := hc
      exact ⟨⟨k, j, rfl⟩, hOK1, by rw [e1]; exact hauto, hrec⟩
    | none =>
      simp only at hc
      cases hq : chainCall (call c Cm zones rounds fuel) [.tests ⟨c.testWords, c.target, k⟩, .compare j] H with
      | none => rw [hq] at hc; cases hc
      | some q =>
        obtain ⟨ms, r2⟩ := q
        rw [hq] at hc
        obtain ⟨c1, c2, -⟩ := chain_step hw hq
        cases r2 with
        | none =>
          simp only [Option.some.injEq, Prod.mk.injEq] at hc
          obtain ⟨rfl, rfl⟩ := hc
          exact ⟨c1, hOK1, by rw [e1]; exact hauto, hrec⟩
        | some w =>
          simp only [Option.some.injEq, Prod.mk.injEq] at hc
          obtain ⟨rfl, rfl⟩ := hc
          refine ⟨c1, ?_, by rw [e1]; exact hauto, hrec⟩
          intro u hu
          simp only [ByTest.pushBack, List.mem_append, List.mem_singleton] at hu
          rcases hu with hu | rfl
          · exact hOK1 u hu
          · exact c2 u rfl

theorem loggedRun_ok {r} : loggedRun c env henv zones rounds fuel n = .ok r ↔
    ∃ Cm T0, complement c zones rounds = some Cm ∧ ObsTable.create env c.alphabet (Runner.start c.target) = .ok T0 ∧
      (learn env henv zones rounds (Learner.logged (Experiment.oracle c Cm zones rounds fuel)) n (startOracle c, [])).run T0 = .ok r := by
  unfold loggedRun
  cases complement c zones rounds with
  | none => simp
  | some Cm =>
    cases ObsTable.create env c.alphabet (Runner.start c.target) with
    | error x => simp
    | ok T => simp

/-- What is known about the last query. -/
theorem last_query (hw : ∀ w ∈ c.testWords, w.WF ∧ w.Observable) {H : TA} {o : List Member × ByTest}
    {log : List (TA × Option TimedWord)} {T : ObsTable Runner}
    (h : loggedRun c env henv zones rounds fuel n = .ok ((H, (o, log)), T)) :
    ∃ Cm, complement c zones rounds = some Cm ∧
      ComplementOracle.findCounterExample c.target Cm c.alphabet zones rounds H = some none ∧
      (∀ w ∈ c.testWords, ∀ d, ByTest.Derived w d → Agree c.target H fuel d) ∧
      ∀ x ∈ log, ∀ w, x.2 = some w → Agree c.target H fuel w := by
  obtain ⟨Cm, T0, h1, h2, h3⟩ := loggedRun_ok.1 h
  obtain ⟨e1, L1, k1, k2, rfl⟩ := learn_invariant env henv zones rounds (Experiment.oracle c Cm zones rounds fuel) (OracleInv c)
    (fun e L H e' r => oracle_step hw e L H e' r) n _ _ _ _ _ _ _ h3 (startOracle_inv c)
  obtain ⟨-, -, -, m4⟩ := memo_words k1.memo k2
  obtain ⟨m5, m6, m7⟩ := m4 rfl
  obtain ⟨k, j, hch⟩ := k1.chain
  rw [hch] at m6
  obtain ⟨-, -, c3⟩ := chain_step hw m6
  obtain ⟨c4, c5⟩ := c3 rfl
  refine ⟨Cm, h1, c5, c4, fun x hx w hxw => ?_⟩
  rcases List.mem_append.1 hx with hx | hx
  · obtain ⟨u, hu, hd⟩ := k1.recorded x hx w hxw
    rw [k1.automaton] at m7
    exact m7 u hu w hd
  · rw [List.mem_singleton] at hx
    subst hx
    cases hxw

/-- C76: recording the answers of the equivalence oracle does not influence the experiment. -/
theorem C76_logged {H : TA} {o : List Member × ByTest} {T : ObsTable Runner}
    (h : Experiment.run c env henv zones rounds fuel n = .ok ((H, o), T)) :
    ∃ log, loggedRun c env henv zones rounds fuel n = .ok ((H, (o, log)), T) := by
  unfold Experiment.run at h
  cases h1 : complement c zones rounds with
  | none => rw [h1] at h; cases h
  | some Cm =>
    rw [h1] at h
    simp only at h
    cases h2 : ObsTable.create env c.alphabet (Runner.start c.target) with
    | error x => rw [h2] at h; cases h
    | ok T0 =>
      rw [h2] at h
      obtain ⟨log, k⟩ := C66_logged h
      exact ⟨log, loggedRun_ok.2 ⟨Cm, T0, h1, h2, k⟩⟩

/-- C76: the automaton that an experiment returns gives the same answers as the target on all test words, on their
prefixes, and on all the counterexamples found on the way. -/
theorem C76_agrees (hw : ∀ w ∈ c.testWords, w.WF ∧ w.Observable) {H : TA} {o : List Member × ByTest}
    {log : List (TA × Option TimedWord)} {T : ObsTable Runner}
    (h : loggedRun c env henv zones rounds fuel n = .ok ((H, (o, log)), T)) :
    (∀ w ∈ c.testWords, ∀ d, ByTest.Derived w d → Agree c.target H fuel d) ∧
      ∀ x ∈ log, ∀ w, x.2 = some w → Agree c.target H fuel w := by
  obtain ⟨_, _, _, h3, h4⟩ := last_query hw h
  exact ⟨h3, h4⟩

/-- C76: every word given to `pushTestWord` is among the words on which the returned automaton agrees with the target. -/
theorem C76_pushed (al : List Action) (A : TA) (ws : List TimedWord) (hw : ∀ w ∈ ws, w.WF ∧ w.Observable) {H : TA}
    {o : List Member × ByTest} {log : List (TA × Option TimedWord)} {T : ObsTable Runner}
    (h : loggedRun (ws.foldl Config.pushTestWord ⟨al, A, []⟩) env henv zones rounds fuel n = .ok ((H, (o, log)), T)) :
    ∀ w ∈ ws, ∀ d, ByTest.Derived w d → Agree A H fuel d := by
  have key : ∀ (ws : List TimedWord) (c : Experiment.Config),
      (ws.foldl Config.pushTestWord c).testWords = c.testWords ++ ws ∧ (ws.foldl Config.pushTestWord c).target = c.target := by
    intro ws
    induction ws with
    | nil => intro c; simp
    | cons w ws ih => intro c; simp [ih, Config.pushTestWord]
  obtain ⟨e1, e2⟩ := key ws ⟨al, A, []⟩
  have := (C76_agrees (by rw [e1]; simpa using hw) h).1
  rw [e1, e2] at this
  simpa using this

/-- The recorded counterexamples are words as one can give them to the system, but for the sign of the delays. -/
theorem log_words (hw : ∀ w ∈ c.testWords, w.WF ∧ w.Observable) {H : TA} {o : List Member × ByTest}
    {log : List (TA × Option TimedWord)} {T : ObsTable Runner}
    (h : loggedRun c env henv zones rounds fuel n = .ok ((H, (o, log)), T)) :
    ∀ x ∈ log, ∀ w, x.2 = some w → w.WF ∧ w.Observable := by
  obtain ⟨Cm, T0, h1, h2, h3⟩ := loggedRun_ok.1 h
  obtain ⟨e1, L1, k1, k2, rfl⟩ := learn_invariant env henv zones rounds (Experiment.oracle c Cm zones rounds fuel) (OracleInv c)
    (fun e L H e' r => oracle_step hw e L H e' r) n _ _ _ _ _ _ _ h3 (startOracle_inv c)
  intro x hx w hxw
  rcases List.mem_append.1 hx with hx | hx
  · obtain ⟨u, hu, hd⟩ := k1.recorded x hx w hxw
    exact ByTest.derived_ok (k1.memo u hu).1 (k1.memo u hu).2 hd
  · rw [List.mem_singleton] at hx
    subst hx
    cases hxw

/-- The complement used by the experiment is a well-formed automaton for the complement of the language. -/
theorem complement_spec (hok : c.Ok) {Cm : TA} (h : complement c zones rounds = some Cm) :
    Cm.WF ∧ Cm.EpsFree ∧ Cm.ResetsOrdered ∧ Cm.Over c.alphabet ∧
      ∀ w : TimedWord, w.WF → w.Nonneg → (∀ a ∈ w.word, a ∈ c.alphabet) → (Cm.Accepts w ↔ ¬ c.target.Accepts w) := by
  unfold complement at h
  have a1 := TA.complement_wf c.target c.alphabet hok.wf hok.eps
  have a2 := TA.complement_epsFree c.target c.alphabet hok.wf hok.eps hok.observable
  have a3 := TA.complement_ordered c.target c.alphabet hok.wf hok.eps hok.ordered
  have a4 := TA.complement_over c.target c.alphabet hok.wf hok.eps hok.over
  have b1 := (C34_simplify_language _ a1 ⟨[], [0]⟩).2.2.2
  have b2 := (TA.simplifyStrong_keeps _ a1).1 a2
  have b3 := (TA.simplifyStrong_keeps _ a1).2 a3
  have b4 := Over.simplifyStrong (alphabet := c.alphabet) a1 a4
  have hlang := fun w hw => (C43_simplified _ a1 a3 (fun p hp a hne => hok.chars a (b4 p hp a hne)) zones rounds Cm h w hw).1
  unfold TA.simplifyWithZones at h
  obtain ⟨za, hza, rfl⟩ := Option.map_eq_some_iff.1 h
  have hab := abstracts _ b1 zones false rounds za hza
  have hsub := TA.keepLive_sub b1 hab
  exact ⟨TA.keepLive_wf b1 hab, hsub.epsFree b2, hsub.ordered b3, hsub.over b4, fun w hw hn ha => (hlang w hw).trans
    (C31_complement_language c.target c.alphabet hok.wf hok.eps hok.det hok.observable hok.init.le w hw ha hn)⟩

/-- C76: if the automaton that an experiment returns is well-formed and deterministic, it accepts the test words and the
counterexamples exactly if the target does, and over the alphabet it accepts the language of the target, or the sampling
from one of the two products has missed an accepting state (C68). -/
theorem C76_equivalent (hok : c.Ok) {H : TA} {o : List Member × ByTest} {log : List (TA × Option TimedWord)}
    {T : ObsTable Runner} (h : loggedRun c env henv zones rounds (fuel + 1) n = .ok ((H, (o, log)), T))
    (hH : H.WF) (hHe : H.EpsFree) (hdet : H.Deterministic) (hi : H.Startable) :
    (∀ w ∈ c.testWords, (H.Accepts w ↔ c.target.Accepts w)) ∧
    (∀ x ∈ log, ∀ w, x.2 = some w → w.Nonneg → (H.Accepts w ↔ c.target.Accepts w)) ∧
    (H.ResetsOrdered → (∀ w : TimedWord, w.WF → w.Nonneg → (∀ a ∈ w.word, a ∈ c.alphabet) →
        (H.Accepts w ↔ c.target.Accepts w)) ∨
      ∃ Cm, complement c zones rounds = some Cm ∧ (SampleMisses (ComplementOracle.subsetTA Cm H) zones rounds ∨
        SampleMisses (ComplementOracle.supersetTA c.target H c.alphabet) zones rounds)) := by
  have hw : ∀ w ∈ c.testWords, w.WF ∧ w.Observable := fun w hw => ⟨(hok.words w hw).1, (hok.words w hw).2.1⟩
  obtain ⟨Cm, k1, k2, k3, k4⟩ := last_query hw h
  have hdB := (TA.deterministic_iff H hH.small).2 hdet
  have hlang : ∀ w : TimedWord, w.WF → w.Observable → w.Nonneg → Agree c.target H (fuel + 1) w →
      (H.Accepts w ↔ c.target.Accepts w) := by
    rintro w w1 w2 w3 ⟨r, r', x, e1, e2⟩
    obtain ⟨r1, x1, f1, f2⟩ := C30_membership_exact c.target hok.wf hok.eps hok.det (.inl hok.init) fuel (Runner.start _) w w1 w2 w3
    obtain ⟨r2, x2, g1, g2⟩ := C30_membership_exact H hH hHe hdB hi fuel (Runner.start _) w w1 w2 w3
    rw [e1] at f1
    rw [e2] at g1
    cases f1
    cases g1
    exact g2.symm.trans f2
  refine ⟨fun w hwt => ?_, fun x hx w hxw hn => ?_, fun ho => ?_⟩
  · obtain ⟨w1, w2, w3⟩ := hok.words w hwt
    exact hlang w w1 w2 w3 (k3 w hwt w (.inl rfl))
  · obtain ⟨w1, w2⟩ := log_words hw h x hx w hxw
    exact hlang w w1 w2 hn (k4 x hx w hxw)
  · obtain ⟨c1, c2, c3, -, c5⟩ := complement_spec hok k1
    have hi1 : H.init.length ≤ 1 := by
      rcases hi with hi | hi
      · exact hi.le
      · have : H.init = [] := List.eq_nil_iff_forall_not_mem.2 fun q hq => by
          have := hH.closed.1 q hq
          rw [hi] at this; cases this
        simp [this]
    rcases C44_equivalent_partial c.target Cm H c.alphabet hok.wf hok.eps hok.ordered c1 c2 c3 hH hHe ho hdB hi1 hok.observable
      c5 zones rounds k2 with h | h
    · exact .inl h
    · exact .inr ⟨Cm, k1, h⟩

/-- C76: an experiment with a regular final table returns a well-formed deterministic automaton over the alphabet for which
the conclusions of `C76_equivalent` hold. -/
theorem C76_learned (hok : c.Ok) (hI : c.target.IntResets) (hs : Simulates env c.target) (hl : env.Lawful) (hh : henv.Lawful)
    {H : TA} {o : List Member × ByTest} {log : List (TA × Option TimedWord)} {T : ObsTable Runner}
    (h : loggedRun c env henv zones rounds (fuel + 1) n = .ok ((H, (o, log)), T))
    (hn : ∀ x ∈ log, ∀ w, x.2 = some w → w.Nonneg) (hreg : T.Regular) (hsm : SmallPrefixes T) :
    H.WF ∧ H.EpsFree ∧ H.Deterministic ∧ H.Startable ∧ H.Over c.alphabet ∧
    (∀ w ∈ c.testWords, (H.Accepts w ↔ c.target.Accepts w)) ∧
    (∀ x ∈ log, ∀ w, x.2 = some w → (H.Accepts w ↔ c.target.Accepts w)) ∧
    (H.ResetsOrdered → (∀ w : TimedWord, w.WF → w.Nonneg → (∀ a ∈ w.word, a ∈ c.alphabet) →
        (H.Accepts w ↔ c.target.Accepts w)) ∨
      ∃ Cm, complement c zones rounds = some Cm ∧ (SampleMisses (ComplementOracle.subsetTA Cm H) zones rounds ∨
        SampleMisses (ComplementOracle.supersetTA c.target H c.alphabet) zones rounds)) := by
  classical
  have hw : ∀ w ∈ c.testWords, w.WF ∧ w.Observable := fun w hw => ⟨(hok.words w hw).1, (hok.words w hw).2.1⟩
  have he : EnvOk env (fun w => decide (c.target.Accepts w)) := C46_simulated c.target hok.wf hok.eps hok.det hok.init hI env hs hl _
    (fun w => by simp)
  obtain ⟨Cm, T0, h1, h2, h3⟩ := loggedRun_ok.1 h
  have hlog : LegalLog log := fun x hx w hxw => ⟨(log_words hw h x hx w hxw).1, (log_words hw h x hx w hxw).2, hn x hx w hxw⟩
  obtain ⟨-, k1, k2, k3, k4, k5, -⟩ := C66_returned he hok.nodup (fun a ha e => hok.observable (e ▸ ha)) hok.chars hh h2 h3 hlog
    hreg hsm
  obtain ⟨m1, m2, m3⟩ := C76_equivalent hok h k1 k2 k3 k4
  exact ⟨k1, k2, k3, k4, k5, m1, fun x hx w hxw => m2 x hx w hxw (hn x hx w hxw), m3⟩

/-- C76: up to two clocks the returned automaton has exactly the language of the target, if the updates of both assign
constants only, the constants recorded for the clocks bound those in the guards, and the hash tables are iterated in ascending
order of the actions (or there is only one action). -/
theorem C76_two_clocks (hok : c.Ok) (hTo : c.target.UpdatesInOrder) (hTc : c.target.ConstResets) (hTm : c.target.MaxOK)
    {H : TA} {o : List Member × ByTest} {log : List (TA × Option TimedWord)}
    {T : ObsTable Runner} (h : loggedRun c env henv zones rounds fuel n = .ok ((H, (o, log)), T))
    (hH : H.WF) (hHe : H.EpsFree) (hdet : H.Deterministic) (hi : H.Startable) (hHa : H.Over c.alphabet)
    (hHo : H.UpdatesInOrder) (hHc : H.ConstResets) (hHm : H.MaxOK) (hn : c.target.clockSize + H.clockSize ≤ 2)
    (ho : (∀ A, zones.Ascending A) ∨ ∃ a, c.alphabet = [a]) :
    ∀ w : TimedWord, w.WF → w.Nonneg → (∀ a ∈ w.word, a ∈ c.alphabet) → (H.Accepts w ↔ c.target.Accepts w) := by
  obtain ⟨Cm, k1, k2, -, -⟩ := last_query (fun w hw => ⟨(hok.words w hw).1, (hok.words w hw).2.1⟩) h
  have hdB := (TA.deterministic_iff H hH.small).2 hdet
  have hi1 : H.init.length ≤ 1 := by
    rcases hi with hi | hi
    · exact hi.le
    · have : H.init = [] := List.eq_nil_iff_forall_not_mem.2 fun q hq => by
        have := hH.closed.1 q hq
        rw [hi] at this; cases this
      simp [this]
  obtain ⟨c1, c2, -, c4, c5⟩ := complement_spec hok k1
  obtain ⟨d1, d2, d3, d4, d5⟩ : Cm.UpdatesInOrder ∧ Cm.IntegerResets ∧ Cm.ConstResets ∧ Cm.MaxOK ∧
      Cm.clockSize ≤ c.target.clockSize := by
    unfold complement at k1
    have a1 := TA.complement_wf c.target c.alphabet hok.wf hok.eps
    have b1 := (C34_simplify_language _ a1 ⟨[], [0]⟩).2.2.2
    obtain ⟨e1, -, e3⟩ := TA.simplifyStrong_reconstruct _ a1
    obtain ⟨f1, f2, -⟩ := TA.simplifyStrong_search (alphabet := c.alphabet) _ a1
    have g1 := TA.complement_constResets c.target c.alphabet hok.wf hok.eps hTc
    have g2 := TA.complement_maxOK c.target c.alphabet hok.wf hok.eps hTm
    rw [TA.complement_clocks c.target c.alphabet hok.wf hok.eps] at e3
    unfold TA.simplifyWithZones at k1
    obtain ⟨za, hza, rfl⟩ := Option.map_eq_some_iff.1 k1
    have hab := abstracts _ b1 zones false rounds za hza
    have hsub := TA.keepLive_sub b1 hab
    have hmax := (TA.keepLive_eq b1 hab).2.2.1
    have hc := hsub.constResets (f1 g1)
    refine ⟨hsub.inOrder (e1 (TA.complement_inOrder c.target c.alphabet hok.wf hok.eps hTo)), hc.int, hc,
      hsub.maxOK hmax (f2 g1 g2), ?_⟩
    unfold TA.clockSize at e3 ⊢
    rw [hmax]
    exact e3
  have s1 := subset_search Cm H c.alphabet c1 c2 hH hHe c4 hHa
  have s2 := superset_search c.target H c.alphabet hok.wf hok.eps hH hHe hok.observable hok.over hHa
  have hasc : ∀ A : TA, A.Over c.alphabet → zones.Ascending A := by
    intro A hA
    rcases ho with ho | ⟨a, ha⟩
    · exact ho A
    · rw [ha] at hA
      exact ascending_of_one zones A a hA
  exact (C44_exact c.target Cm H c.alphabet hok.wf hok.eps hTo hTc.int hok.over c1 c2 d1 d2 c4 hH hHe hHo hHc.int hHa hdB hi1
    hok.observable hok.chars c5 (by omega) hn (s1.2 d3 hHc d4 hHm).1 (s2.2 hTc hHc hTm hHm) zones (hasc _ s1.1) (hasc _ s2.1)
    rounds none k2).1 rfl

/-! ### An example -/

/-- At least two `a`. -/
def twoA : TA where
  loc
    | 1 => ⟨false, fun a => if a = actA then [⟨2, [], []⟩] else []⟩
    | 2 => ⟨false, fun a => if a = actA then [⟨3, [], []⟩] else []⟩
    | _ => ⟨true, fun a => if a = actA then [⟨3, [], []⟩] else []⟩
  states := [1, 2, 3]
  init := [1]
  maxC := []

/-- The experiment with this target and one test word. -/
def twoC : Experiment.Config := (⟨[actA], twoA, []⟩ : Experiment.Config).pushTestWord ⟨[actA, actA], [1, 2, 0]⟩

/-- The additional hypotheses of `C76_two_clocks` as a test. -/
def niceB (A : TA) : Bool := A.maxC.all (fun m => decide (0 ≤ m)) && A.states.all fun p => allActions.all fun a =>
  ((A.loc p).next a).all fun t => decide (t.resets.map Prod.fst).Nodup &&
    (t.resets.all (fun r => match r.2 with
      | .const q => q.den == 1
      | .clock _ => false) &&
    t.guard.all fun c => decide (c.c ≤ A.maxC.getD c.x 0))

theorem nice_of_test {A : TA} (h : niceB A = true) : A.UpdatesInOrder ∧ A.ConstResets ∧ A.MaxOK := by
  unfold niceB at h
  rw [Bool.and_eq_true, List.all_eq_true] at h
  obtain ⟨h0, h⟩ := h
  have key : ∀ p ∈ A.states, ∀ a, ∀ t ∈ (A.loc p).next a, (t.resets.map Prod.fst).Nodup ∧
      (∀ r ∈ t.resets, ∃ k : ℤ, r.2 = .const k) ∧ ∀ c ∈ t.guard, c.c ≤ A.maxC.getD c.x 0 := by
    intro p hp a t ht
    rw [List.all_eq_true] at h
    have h1 := h p hp
    rw [List.all_eq_true] at h1
    have h2 := h1 a (by simp [allActions])
    rw [List.all_eq_true] at h2
    have h3 := h2 t ht
    rw [Bool.and_eq_true, Bool.and_eq_true, decide_eq_true_eq, List.all_eq_true, List.all_eq_true] at h3
    refine ⟨h3.1, fun r hr => ?_, fun c hc => of_decide_eq_true (h3.2.2 c hc)⟩
    have h4 := h3.2.1 r hr
    obtain ⟨x, v⟩ := r
    cases v with
    | clock y => cases h4
    | const q =>
      simp only [beq_iff_eq] at h4
      exact ⟨q.num, by rw [Rat.coe_int_num_of_den_eq_one h4]⟩
  refine ⟨fun p hp a t ht => ⟨(key p hp a t ht).1, ?_, ?_⟩, fun p hp a t ht => (key p hp a t ht).2.1,
    ⟨fun m hm => of_decide_eq_true (h0 m hm), fun p hp a t ht => ⟨(key p hp a t ht).2.2, fun r hr y hy => ?_⟩⟩⟩
  · refine List.pairwise_iff_forall_sublist.2 fun {a b} hs e => ?_
    obtain ⟨k, hk⟩ := (key p hp _ t ht).2.1 b (hs.subset (by simp))
    rw [hk] at e; cases e
  · intro r hr e
    obtain ⟨k, hk⟩ := (key p hp a t ht).2.1 r hr
    rw [hk] at e; cases e
  · obtain ⟨k, hk⟩ := (key p hp a t ht).2.1 r hr
    rw [hk] at hy; cases hy

theorem twoC_run : okB (loggedRun twoC (simEnv twoA 20) plainHyp plainZones 40 1 4) (fun p =>
      smallB p.2 && (p.1.1.states.length == 3 && (decide (p.1.2.2.map Prod.snd = [some ⟨[actA, actA], [1, 2, 0]⟩, none]) &&
        (orderedB p.1.1 && (niceB p.1.1 && p.1.1.clockSize == 2))))) = true := by
  decide +kernel

theorem twoW_legal : TimedWord.Legal ⟨[actA, actA], [1, 2, 0]⟩ := by
  refine ⟨rfl, ?_, ?_⟩
  · intro a ha
    simp only [List.mem_cons, List.not_mem_nil, or_false, or_self] at ha
    subst ha
    decide +kernel
  · intro d hd
    simp only [List.mem_cons, List.not_mem_nil, or_false] at hd
    rcases hd with rfl | rfl | rfl <;> norm_num

theorem twoC_ok : twoC.Ok where
  wf := wf_of_check (by decide +kernel)
  eps := by show TA.EpsFree twoA; unfold TA.EpsFree; decide +kernel
  det := by decide +kernel
  init := rfl
  ordered := ordered_of_test (by decide +kernel)
  over := by show TA.Over [actA] twoA; unfold TA.Over; decide +kernel
  nodup := by decide
  observable := by decide +kernel
  chars := by decide +kernel
  words := by
    intro w hw
    rw [List.mem_singleton.1 (show w ∈ [_] from hw)]
    exact ⟨twoW_legal.wf, twoW_legal.observable, twoW_legal.nonneg⟩

/-- The hypotheses of C76 are met by an experiment in which the test word is the counterexample to the first hypothesis, and
the second, with three states and two clocks, is returned; it has the language of the target. -/
theorem two_learned : ∃ H o log T, loggedRun twoC (simEnv twoA 20) plainHyp plainZones 40 1 4 = .ok ((H, (o, log)), T) ∧ twoC.Ok ∧
    twoA.IntResets ∧ Simulates (simEnv twoA 20) twoA ∧ (simEnv twoA 20).Lawful ∧ plainHyp.Lawful ∧
    (∀ x ∈ log, ∀ w, x.2 = some w → w.Nonneg) ∧ T.Regular ∧ SmallPrefixes T ∧ log.length = 2 ∧ H.states.length = 3 ∧
    H.ResetsOrdered ∧ H.UpdatesInOrder ∧ H.ConstResets ∧ H.MaxOK ∧ twoA.clockSize + H.clockSize ≤ 2 ∧
    H.Accepts ⟨[actA, actA], [1, 2, 0]⟩ ∧ H.WF ∧ H.Over [actA] ∧
    ∀ w : TimedWord, w.WF → w.Nonneg → (∀ a ∈ w.word, a ∈ [actA]) → (H.Accepts w ↔ twoA.Accepts w) := by
  classical
  obtain ⟨⟨⟨H, o, log⟩, T⟩, h1, h2⟩ := okB_ok twoC_run
  simp only [Bool.and_eq_true, beq_iff_eq, decide_eq_true_eq] at h2
  obtain ⟨a1, a2, a3, a4, a5, a6⟩ := h2
  have hI : twoA.IntResets := by
    have : ∀ p ∈ twoA.states, ∀ a, ∀ t ∈ (twoA.loc p).next a, t.resets = [] := by decide +kernel
    intro p hp a t ht r hr
    rw [this p hp a t ht] at hr
    cases hr
  have hlog : ∀ x ∈ log, ∀ w, x.2 = some w → w = ⟨[actA, actA], [1, 2, 0]⟩ := by
    intro x hx w hw
    have := List.mem_map_of_mem (f := Prod.snd) hx
    rw [a3, hw] at this
    simpa using this
  have hsim : Simulates (simEnv twoA 20) twoA := ⟨0, fun _ _ => rfl⟩
  have he : EnvOk (simEnv twoA 20) (fun w => decide (twoA.Accepts w)) := C46_simulated twoA twoC_ok.wf twoC_ok.eps twoC_ok.det
    twoC_ok.init hI _ hsim (simEnv_lawful _ _) _ (fun w => by simp)
  obtain ⟨Cm, T0, k1, k2, k3⟩ := loggedRun_ok.1 h1
  have hreg : T.Regular := C66_regular he twoC_ok.nodup (fun a ha e => twoC_ok.observable (e ▸ ha)) k2 k3 (by
    intro x hx w hw
    rw [hlog x hx w hw]
    refine ⟨twoW_legal, fun d hd => ?_⟩
    simp only [List.tail_cons, List.mem_cons, List.not_mem_nil, or_false] at hd
    rcases hd with rfl | rfl
    · exact ⟨2, by norm_num⟩
    · exact ⟨0, by simp⟩)
  have hnn : ∀ x ∈ log, ∀ w, x.2 = some w → w.Nonneg := fun x hx w hw => by rw [hlog x hx w hw]; exact twoW_legal.nonneg
  have hsm := small_of_test a1
  have hC := C76_learned twoC_ok hI hsim (simEnv_lawful _ _) plainHyp_lawful h1 hnn hreg hsm
  refine ⟨H, o, log, T, h1, twoC_ok, hI, hsim, simEnv_lawful _ _, plainHyp_lawful, hnn, hreg, hsm, ?_, a2, ordered_of_test a4,
    (nice_of_test a5).1, (nice_of_test a5).2.1, (nice_of_test a5).2.2, ?_, ?_, hC.1, hC.2.2.2.2.1, ?_⟩
  · have := congrArg List.length a3
    simpa using this
  · rw [a6]; decide
  · refine (hC.2.2.2.2.2.1 ⟨[actA, actA], [1, 2, 0]⟩ (List.mem_singleton.2 rfl)).2 ?_
    obtain ⟨r, b, e1, e2⟩ := C30_membership_exact twoA twoC_ok.wf twoC_ok.eps twoC_ok.det (.inl rfl) 0 (Runner.start twoA)
      ⟨[actA, actA], [1, 2, 0]⟩ twoW_legal.wf twoW_legal.observable twoW_legal.nonneg
    have : (Runner.answerQuery twoA 1 (Runner.start twoA) ⟨[actA, actA], [1, 2, 0]⟩).map (·.2) = some true := by decide +kernel
    rw [e1] at this
    simp only [Option.map_some, Option.some.injEq] at this
    exact e2.1 this
  · obtain ⟨b1, b2, b3⟩ := nice_of_test (A := twoA) (by decide +kernel)
    obtain ⟨d1, d2, d3⟩ := nice_of_test a5
    exact C76_two_clocks twoC_ok b1 b2 b3 h1 hC.1 hC.2.1 hC.2.2.1 hC.2.2.2.1 hC.2.2.2.2.1 d1 d2 d3
      (by rw [a6]; decide) (.inr ⟨actA, rfl⟩)

open Classical in
/-- The oracle, stuck if it finds no counterexample for an automaton without the property `P`. -/
noncomputable def onlyFor {Ω : Type} (P : TA → Prop) (eq : EqCall Ω) : EqCall Ω := fun e H =>
  if (∃ e', eq e H = some (e', none)) ∧ ¬ P H then none else eq e H

theorem learn_onlyFor {σ Ω : Type} (env : Env σ) (henv : HypEnv) (zones : HashOrder) (rounds : ℕ) (eq : EqCall Ω) (P : TA → Prop)
    (n : ℕ) : ∀ (e0 e : Ω) (T0 T : ObsTable σ) (H : TA), (learn env henv zones rounds eq n e0).run T0 = .ok ((H, e), T) → P H →
      (learn env henv zones rounds (onlyFor P eq) n e0).run T0 = .ok ((H, e), T) := by
  induction n with
  | zero => intro e0 e T0 T H h; simp [learn, throw, throwThe, MonadExceptOf.throw, StateT.run, StateT.lift] at h
  | succ n ih =>
    intro e0 e T0 T H h hP
    obtain ⟨T1, H0, H1, h1, h2, h3, ⟨e', h4, h5⟩ | ⟨e', w, T2, h4, h5, h6⟩⟩ := (learn_succ_ok ..).1 h
    · cases h5
      refine (learn_succ_ok ..).2 ⟨T, H0, H, h1, h2, h3, .inl ⟨_, ?_, rfl⟩⟩
      unfold onlyFor
      rw [if_neg (fun k => k.2 hP)]
      exact h4
    · refine (learn_succ_ok ..).2 ⟨T1, H0, H1, h1, h2, h3, .inr ⟨_, w, T2, ?_, h5, ih _ _ _ _ _ h6 hP⟩⟩
      unfold onlyFor
      rw [if_neg]
      · exact h4
      · rintro ⟨⟨e'', k⟩, -⟩
        rw [h4] at k
        cases k

open Classical in
/-- The hypotheses of `C66_exact` are met by a run of the learner with an exact oracle that finds a counterexample first:
the oracle of the experiment above, stuck if it would err. -/
example : ∃ (Ω : Type) (eq : EqCall Ω) (e0 e : Ω) (T0 T : ObsTable Runner) (H : TA),
    (∀ e H e', eq e H = some (e', none) → ∀ w : TimedWord, w.Legal → (H.Accepts w ↔ decide (twoA.Accepts w) = true)) ∧
    ObsTable.create (simEnv twoA 20) [actA] (Runner.start twoA) = .ok T0 ∧
    (learn (simEnv twoA 20) plainHyp plainZones 40 eq 4 e0).run T0 = .ok ((H, e), T) ∧ H.states.length = 3 ∧
    H.Accepts ⟨[actA, actA], [1, 2, 0]⟩ := by
  classical
  obtain ⟨H, o, log, T, h1, h2, -, -, -, -, -, -, -, -, h3, -, -, -, -, -, h4, h5, h6, h7⟩ := two_learned
  obtain ⟨Cm, T0, k1, k2, k3⟩ := loggedRun_ok.1 h1
  have hall : ∀ w : TimedWord, w.Legal → (H.Accepts w ↔ twoA.Accepts w) := by
    intro w hw
    by_cases ha : ∀ a ∈ w.word, a ∈ [actA]
    · exact h7 w hw.wf hw.nonneg ha
    · exact iff_of_false (fun h => ha (accepts_over h5.closed h6 hw.wf h)) (fun h => ha (accepts_over h2.wf.closed h2.over hw.wf h))
  refine ⟨_, onlyFor (fun H => ∀ w : TimedWord, w.Legal → (H.Accepts w ↔ twoA.Accepts w)) _, _, _, T0, T, H, ?_, k2,
    learn_onlyFor _ _ _ _ _ _ _ _ _ _ _ _ k3 hall, h3, h4⟩
  intro e H' e' h w hw
  rw [decide_eq_true_eq]
  unfold onlyFor at h
  split at h
  · cases h
  · rename_i hn
    by_contra hc
    exact hn ⟨⟨e', h⟩, fun k => hc (k w hw)⟩

end LearnTA.Props
