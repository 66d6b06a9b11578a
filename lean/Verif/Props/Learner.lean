import Verif.Lemmas.RegularWord
import Verif.Lemmas.Rounds
import Verif.Lemmas.TableFrame
import Verif.Model.Learner
import Verif.Props.Counterexample
import Verif.Props.Hypothesis
import Verif.Props.Oracle

/-!
# Properties of the learner: C66
-/

namespace LearnTA.Props
open ObsTable

variable {σ Ω : Type} {f : TimedWord → Bool} {env : Env σ} {henv : HypEnv} {zones : HashOrder} {rounds : ℕ} {eq : EqCall Ω}
  {alphabet : List Action} {s : σ} {T : ObsTable σ}

theorem _root_.LearnTA.TA.simplifyStrong_init_length (A : TA) : A.simplifyStrong.init.length ≤ A.init.length := by
  have hfold : ∀ (l : List ℕ) (g : TA → ℕ → TAState) (B : TA), (l.foldl (fun B p => B.setLoc p (g B p)) B).init = B.init := by
    intro l g
    induction l with
    | nil => intro B; rfl
    | cons p l ih => intro B; rw [List.foldl_cons, ih]; rfl
  have h1 : ∀ B : TA, B.removeUnusedClockVariables.init = B.init := fun B => hfold _ _ _
  have h2 : ∀ B : TA, B.removeUselessTransitions.init = B.init := by
    intro B
    unfold TA.removeUselessTransitions
    generalize (B.states.filter fun p => !(B.loc p).isMatch) = l
    induction l generalizing B with
    | nil => rfl
    | cons p l ih =>
      rw [List.foldl_cons, ih]
      unfold TA.removeUselessStep
      split
      · rfl
      · split
        · exact hfold _ _ _
        · rfl
  have h3 : ∀ B : TA, B.removeDeadLoop.init = B.init := by
    intro B
    unfold TA.removeDeadLoop
    generalize (B.states.filter fun p => !(B.loc p).isMatch) = l
    induction l generalizing B with
    | nil => rfl
    | cons p l ih =>
      rw [List.foldl_cons, ih]
      split
      · rfl
      · split <;> rfl
  have h4 : ∀ B : TA, B.removeTriviallyDeadStates.init.length ≤ B.init.length := by
    intro B
    unfold TA.removeTriviallyDeadStates
    simp only
    split
    · unfold TA.keepStates
      simp only
      rw [hfold]
      exact List.length_filter_le _ _
    · exact le_refl _
  unfold TA.simplifyStrong
  rw [h1, h2, h3]
  refine (h4 _).trans ?_
  rw [(TA.removeUnreachable_loc _).2]
  exact (congrArg List.length (hfold _ _ _)).le

theorem learn_keeps (n : ℕ) (e : Ω) : Keeps (learn env henv zones rounds eq n e) := by
  induction n generalizing e with
  | zero => exact Keeps.throw _
  | succ n ih =>
    unfold learn
    refine Keeps.bind (refine_keeps _) fun _ => Keeps.bind Keeps.get fun T => ?_
    split
    · exact Keeps.throw _
    · split
      · exact Keeps.throw _
      · split
        · exact Keeps.throw _
        · exact Keeps.pure _
        · exact Keeps.bind (handleCEX_keeps _) fun _ => ih _

/-- What the last round of a run was. -/
structure LastRound (env : Env σ) (henv : HypEnv) (zones : HashOrder) (rounds : ℕ) (eq : EqCall Ω) (H : TA) (e : Ω)
    (T : ObsTable σ) : Prop where
  asked : ∃ e', eq e' H = some (e, none)
  made : ∃ H0, generateHypothesis env henv T = .ok H0 ∧ H0.simplifyStrong.simplifyWithZones zones rounds = some H

theorem regular_of_prefix {T T' : ObsTable σ} (h : T.suffixes <+: T'.suffixes) (hr : T'.Regular) : T.Regular :=
  fun x hx => hr x (h.subset hx)

theorem learn_last (he : EnvOk env f) (hal : alphabet.Nodup) (hob : ∀ a ∈ alphabet, a ≠ unobservable)
    (hq : ∀ e H e' w, eq e H = some (e', some w) → w.Legal) (n : ℕ) (e : Ω) (h : Reached env alphabet s T) :
    Ok (fun _ => True) (learn env henv zones rounds eq n e) T fun p T' => T'.Regular →
      LastRound env henv zones rounds eq p.1 p.2 T' ∧ Reached env alphabet s T' ∧ Ready f T' := by
  induction n generalizing e T with
  | zero => exact Ok.throw trivial
  | succ n ih =>
    suffices hh : T.Regular → Ok (fun _ => True) (learn env henv zones rounds eq (n + 1) e) T fun p T' => T'.Regular →
        LastRound env henv zones rounds eq p.1 p.2 T' ∧ Reached env alphabet s T' ∧ Ready f T' by
      by_cases hT : T.Regular
      · exact hh hT
      · exact (learn_keeps (n + 1) e T).mono fun p T' hk hr => absurd (regular_of_prefix hk hr) hT
    intro hT
    unfold learn
    refine Ok.bind ((reached_refine he hal hob _ h hT).mono ?_)
    rintro _ T1 ⟨h1, h2, h3, -⟩
    refine Ok.bind (Ok.get ?_)
    cases hg : generateHypothesis env henv T1 with
    | error x => exact Ok.throw trivial
    | ok H0 =>
      dsimp only
      cases hz : H0.simplifyStrong.simplifyWithZones zones rounds with
      | none => exact Ok.throw trivial
      | some H =>
        dsimp only
        cases heq : eq e H with
        | none => exact Ok.throw trivial
        | some r =>
          obtain ⟨e', o⟩ := r
          cases o with
          | none => exact Ok.pure fun _ => ⟨⟨⟨e, heq⟩, H0, hg, hz⟩, h1, h3⟩
          | some w =>
            dsimp only
            refine Ok.bind ?_
            have hw := hq _ _ _ _ heq
            have hk := (handleCEX_keeps (env := env) w T1).record
            refine hk.mono ?_
            rintro _ T2 ⟨_, h4⟩
            exact ih e' (.cex h1 hw h4)

/-- See `C66_returned`.  `T` is the final table.  The last hypothesis is `H0`, the equivalence oracle
has found no counterexample for the simplified `H`.  `H` is a well-formed deterministic automaton over the alphabet; what it
accepts is accepted by the system, unless some end of the word shows that a merging is wrong.  The converse, and the verdicts
for the words of the table, hold if no update of `H0` reads a clock after writing it (see C18). -/
theorem learn_returned (he : EnvOk env f) (hal : alphabet.Nodup) (hob : ∀ a ∈ alphabet, a ≠ unobservable)
    (hch : ∀ a ∈ alphabet, a.val < 127) (hh : henv.Lawful) (hq : ∀ e H e' w, eq e H = some (e', some w) → w.Legal)
    {T0 : ObsTable σ} (hc : ObsTable.create env alphabet s = .ok T0) {n : ℕ} {e0 e : Ω} {H : TA}
    (hr : (learn env henv zones rounds eq n e0).run T0 = .ok ((H, e), T)) (hreg : T.Regular) (hs : SmallPrefixes T) :
    (∃ e', eq e' H = some (e, none)) ∧ H.WF ∧ H.EpsFree ∧ H.Deterministic ∧ H.Startable ∧ H.Over alphabet ∧
      (∀ w : TimedWord, w.Legal → H.Accepts w → (∀ a ∈ w.word, a ∈ alphabet) ∧ (f w = true ∨ Wrong f T w)) ∧
      ∃ H0, generateHypothesis env henv T = .ok H0 ∧ (H0.ResetsOrdered →
        (∀ w : TimedWord, w.Legal → (∀ a ∈ w.word, a ∈ alphabet) → (H.Accepts w ↔ f w = true) ∨ Wrong f T w) ∧
        ∀ p ∈ T.prefixes, ∀ w, p.toElementaryLanguage.Mem w → (H.Accepts w ↔ f w = true)) := by
  obtain ⟨⟨ha, H0, hg, hz⟩, h1, h3⟩ := (learn_last he hal hob hq n e0 (.create hc)).ok hr hreg
  obtain ⟨g1, g2, g3, g7, g4, g5, g6⟩ := C64_hypothesis he hal hob h1 h3 hs hh H0 hg
  have hlang := C65_hypothesis_language he hal hob h1 h3 hs hh H0 hg
  have hst := fun w => C34_simplify_language H0 g1 w
  have hW := (hst ⟨[], [0]⟩).2.2.2
  obtain ⟨k1, k2, k3, k4⟩ : H.WF ∧ H.EpsFree ∧ H.Deterministic ∧ ∀ w, H.Accepts w → H0.Accepts w := by
    have hz' := hz
    unfold TA.simplifyWithZones at hz'
    obtain ⟨za, hza, rfl⟩ := Option.map_eq_some_iff.1 hz'
    have hab := abstracts _ hW zones false rounds za hza
    have hsub := TA.keepLive_sub hW hab
    exact ⟨TA.keepLive_wf hW hab, hsub.epsFree ((TA.simplifyStrong_keeps H0 g1).1 g2),
      hsub.deterministic (simplifyStrong_deterministic H0 g1 g3),
      fun w hw => (hst w).2.2.1.1 (TA.keepLive_accepts_of hW hab w hw)⟩
  have hover := Over.simplifyStrong (alphabet := alphabet) g1 g4
  have hst1 : H.Startable := C54_startable _ hW ((TA.simplifyStrong_init_length H0).trans g7.le) zones rounds H hz
  refine ⟨ha, k1, k2, k3, hst1, fun p hp a hne => ?_, fun w hw hacc => ?_, H0, hg, fun ho => ?_⟩
  · obtain ⟨h1, -, -, h4⟩ := C54_part _ hW zones rounds H hz
    exact hover p (h1.subset hp) a fun e => hne (by have := (h4 p hp).2 a; rw [e] at this; exact List.sublist_nil.1 this)
  · have hacc0 := k4 w hacc
    have hwa := g6 w hw hacc0
    refine ⟨hwa, (hlang w hw hwa).imp (fun h => h.1 hacc0) id⟩
  · have hl : ∀ w : TimedWord, w.Legal → (H.Accepts w ↔ H0.Accepts w) := fun w hw =>
      (C43_simplified H0 g1 ho (fun p hp a hne => hch a (hover p hp a hne)) zones rounds H hz w hw.wf).1
    refine ⟨fun w hw hwa => (hlang w hw hwa).imp (fun h => (hl w hw).trans h) id, fun p hp w hm => ?_⟩
    have hwl : w.Legal := by
      have hI := (reached_inv he hal hob h1).1
      obtain ⟨r1, r2⟩ := hI.closed.region p hp
      exact r1.legal (fun a ha => hI.alpha.2 a (r2 a ha)) hm
    exact (hl w hwl).trans (g5 p hp w hm)

/-- One round of a run that returns. -/
theorem learn_succ_ok (env : Env σ) (henv : HypEnv) (zones : HashOrder) (rounds : ℕ) (eq : EqCall Ω) (n : ℕ) (e : Ω)
    (T0 : ObsTable σ) (r : (TA × Ω) × ObsTable σ) : (learn env henv zones rounds eq (n + 1) e).run T0 = .ok r ↔
      ∃ T1 H0 H, (refine env env.fuel).run T0 = .ok ((), T1) ∧ generateHypothesis env henv T1 = .ok H0 ∧
        H0.simplifyStrong.simplifyWithZones zones rounds = some H ∧
        ((∃ e', eq e H = some (e', none) ∧ r = ((H, e'), T1)) ∨
          ∃ e' w T2, eq e H = some (e', some w) ∧ (handleCEX env w).run T1 = .ok ((), T2) ∧
            (learn env henv zones rounds eq n e').run T2 = .ok r) := by
  rw [learn]
  simp only [StateT.run_bind]
  cases h1 : (refine env env.fuel).run T0 with
  | error x => simp [bind, Except.bind]
  | ok y =>
    obtain ⟨⟨⟩, T1⟩ := y
    simp only [bind, Except.bind, StateT.run, get, getThe, MonadStateOf.get, StateT.get, pure, Except.pure, Except.ok.injEq,
      Prod.mk.injEq, true_and, exists_and_left, exists_eq_left']
    cases hg : generateHypothesis env henv T1 with
    | error x => simp [throw, throwThe, MonadExceptOf.throw, StateT.lift, bind, Except.bind]
    | ok H0 =>
      dsimp only
      cases hz : H0.simplifyStrong.simplifyWithZones zones rounds with
      | none => simp [throw, throwThe, MonadExceptOf.throw, StateT.lift, bind, Except.bind, hz]
      | some H =>
        dsimp only
        cases hq : eq e H with
        | none => simp [throw, throwThe, MonadExceptOf.throw, StateT.lift, bind, Except.bind, hz, hq]
        | some y =>
          obtain ⟨e1, o⟩ := y
          cases o with
          | none =>
            simp [hz, hq, StateT.pure, pure, Except.pure, eq_comm]
          | some w =>
            dsimp only
            simp only [StateT.bind, bind, Except.bind]
            cases hw : handleCEX env w T1 with
            | error x => simp [hz, hq, hw]
            | ok z =>
              obtain ⟨⟨⟩, T2⟩ := z
              simp [hz, hq, hw]

/-- Every run that returns ends with an answer "no counterexample" for the automaton that is returned. -/
theorem learn_none (env : Env σ) (henv : HypEnv) (zones : HashOrder) (rounds : ℕ) (eq : EqCall Ω) (n : ℕ) :
    ∀ (e0 e : Ω) (T0 T : ObsTable σ) (H : TA), (learn env henv zones rounds eq n e0).run T0 = .ok ((H, e), T) →
      ∃ hs e', EqCall.After eq e0 hs e' ∧ eq e' H = some (e, none) := by
  induction n with
  | zero => intro e0 e T0 T H h; simp [learn, throw, throwThe, MonadExceptOf.throw, StateT.run, StateT.lift] at h
  | succ n ih =>
    intro e0 e T0 T H h
    obtain ⟨T1, H0, H1, h1, h2, h3, ⟨e', h4, h5⟩ | ⟨e', w, T2, h4, h5, h6⟩⟩ := (learn_succ_ok ..).1 h
    · cases h5; exact ⟨[], e0, .nil _, h4⟩
    · obtain ⟨hs, e'', k1, k2⟩ := ih _ _ _ _ _ h6
      exact ⟨H1 :: hs, e'', .cons h4 k1, k2⟩

/-- Recording the queries does not influence the run. -/
theorem learn_logged (env : Env σ) (henv : HypEnv) (zones : HashOrder) (rounds : ℕ) (eq : EqCall Ω) (n : ℕ) :
    ∀ (e0 e : Ω) (L : List (TA × Option TimedWord)) (T0 T : ObsTable σ) (H : TA),
      (learn env henv zones rounds eq n e0).run T0 = .ok ((H, e), T) →
      ∃ L', (learn env henv zones rounds (Learner.logged eq) n (e0, L)).run T0 = .ok ((H, (e, L')), T) := by
  induction n with
  | zero => intro e0 e L T0 T H h; simp [learn, throw, throwThe, MonadExceptOf.throw, StateT.run, StateT.lift] at h
  | succ n ih =>
    intro e0 e L T0 T H h
    obtain ⟨T1, H0, H1, h1, h2, h3, ⟨e', h4, h5⟩ | ⟨e', w, T2, h4, h5, h6⟩⟩ := (learn_succ_ok ..).1 h
    · cases h5
      exact ⟨_, (learn_succ_ok ..).2 ⟨T, H0, H, h1, h2, h3, .inl ⟨_, by simp only [Learner.logged, h4]; rfl, rfl⟩⟩⟩
    · obtain ⟨L', k⟩ := ih _ _ (L ++ [(H1, some w)]) _ _ _ h6
      exact ⟨L', (learn_succ_ok ..).2 ⟨T1, H0, H1, h1, h2, h3, .inr ⟨_, w, T2, by simp only [Learner.logged, h4]; rfl, h5, k⟩⟩⟩

open Classical in
/-- The oracle, stuck if it returns a word without the property `P`. -/
noncomputable def guarded (P : TimedWord → Prop) (eq : EqCall Ω) : EqCall Ω := fun e H =>
  if ∃ e' w, eq e H = some (e', some w) ∧ ¬ P w then none else eq e H

theorem guarded_ok (P : TimedWord → Prop) (eq : EqCall Ω) :
    ∀ e H e' w, guarded P eq e H = some (e', some w) → P w := by
  intro e H e' w h
  unfold guarded at h
  split at h
  · cases h
  · rename_i hn
    by_contra hP
    exact hn ⟨e', w, h, hP⟩

theorem guarded_sub (P : TimedWord → Prop) (eq : EqCall Ω) {e : Ω} {H : TA} {r} (h : guarded P eq e H = some r) :
    eq e H = some r := by
  unfold guarded at h
  split at h
  · cases h
  · exact h

/-- A run whose recorded counterexamples all have the property `P` is a run with the guarded oracle. -/
theorem learn_guarded (env : Env σ) (henv : HypEnv) (zones : HashOrder) (rounds : ℕ) (eq : EqCall Ω) (P : TimedWord → Prop)
    (n : ℕ) : ∀ (e0 e : Ω) (L L' : List (TA × Option TimedWord)) (T0 T : ObsTable σ) (H : TA),
      (learn env henv zones rounds (Learner.logged eq) n (e0, L)).run T0 = .ok ((H, (e, L')), T) →
      (∀ x ∈ L', ∀ w, x.2 = some w → P w) →
      L <+: L' ∧ (learn env henv zones rounds (Learner.logged (guarded P eq)) n (e0, L)).run T0 = .ok ((H, (e, L')), T) := by
  induction n with
  | zero => intro e0 e L L' T0 T H h; simp [learn, throw, throwThe, MonadExceptOf.throw, StateT.run, StateT.lift] at h
  | succ n ih =>
    intro e0 e L L' T0 T H h hL
    obtain ⟨T1, H0, H1, h1, h2, h3, ⟨e', h4, h5⟩ | ⟨⟨e', L1⟩, w, T2, h4, h5, h6⟩⟩ := (learn_succ_ok ..).1 h
    · cases h5
      simp only [Learner.logged] at h4
      obtain ⟨⟨r1, r2⟩, k1, k2⟩ := Option.map_eq_some_iff.1 h4
      simp only [Prod.mk.injEq] at k2
      obtain ⟨⟨rfl, rfl⟩, rfl⟩ := k2
      refine ⟨List.prefix_append _ _, (learn_succ_ok ..).2 ⟨T, H0, H, h1, h2, h3, .inl ⟨_, ?_, rfl⟩⟩⟩
      have : guarded P eq e0 H = some (r1, none) := by
        unfold guarded
        rw [if_neg]
        · exact k1
        · rintro ⟨e', w, k3, -⟩
          rw [k1] at k3; cases k3
      simp only [Learner.logged, this]; rfl
    · simp only [Learner.logged] at h4
      obtain ⟨⟨r1, r2⟩, k1, k2⟩ := Option.map_eq_some_iff.1 h4
      simp only [Prod.mk.injEq] at k2
      obtain ⟨⟨rfl, rfl⟩, rfl⟩ := k2
      obtain ⟨g1, g2⟩ := ih _ _ _ _ _ _ _ h6 hL
      have hP : P w := hL (H1, some w) (g1.subset (by simp)) w rfl
      refine ⟨(List.prefix_append _ _).trans g1, (learn_succ_ok ..).2 ⟨T1, H0, H1, h1, h2, h3, .inr ⟨_, w, T2, ?_, h5, g2⟩⟩⟩
      have : guarded P eq e0 H1 = some (r1, some w) := by
        unfold guarded
        rw [if_neg]
        · exact k1
        · rintro ⟨e', w', k3, k4⟩
          rw [k1] at k3; cases k3; exact k4 hP
      simp only [Learner.logged, this]; rfl

/-- C66: with an exact equivalence oracle, the automaton that the learner returns is equivalent to the system: this holds for
every run that returns, whatever the table and the counterexamples. -/
theorem C66_exact (hx : ∀ e H e', eq e H = some (e', none) → ∀ w : TimedWord, w.Legal → (H.Accepts w ↔ f w = true))
    {T0 : ObsTable σ} {n : ℕ} {e0 e : Ω} {H : TA}
    (hr : (learn env henv zones rounds eq n e0).run T0 = .ok ((H, e), T)) (w : TimedWord) (hw : w.Legal) :
    H.Accepts w ↔ f w = true := by
  obtain ⟨_, e', _, h1⟩ := learn_none env henv zones rounds eq n e0 e T0 T H hr
  exact hx _ _ _ h1 w hw

/-- All delays but the first one are integers. -/
def WholeDelays (w : TimedWord) : Prop := ∀ d ∈ w.durations.tail, ∃ m : ℤ, d = m

theorem oneFraction_of_whole {v s : TimedWord} (hv : v.Legal) (hs : s.Legal) (h : WholeDelays (v.append s)) : s.OneFraction := by
  have hvd : v.durations ≠ [] := by
    have := hv.wf
    unfold TimedWord.WF at this
    intro e; rw [e] at this; simp at this
  cases hd : s.durations with
  | nil => have := hs.wf; unfold TimedWord.WF at this; rw [hd] at this; simp at this
  | cons x d =>
    have hint : ∀ y ∈ d, ∃ m : ℤ, y = m := by
      intro y hy
      refine h y ?_
      simp only [TimedWord.append, hd, List.tail_cons]
      rw [List.tail_append_of_ne_nil]
      · exact List.mem_append_right _ hy
      · intro e
        have := congrArg List.length e
        rw [TimedWord.addBack_length _ _ hvd] at this
        exact hvd (List.length_eq_zero_iff.1 this)
    refine ⟨Int.fract x, fun i _ => Or.inr ?_⟩
    have : ∃ m : ℤ, TimedCondition.T s.durations 0 i = x + m := by
      rw [hd]
      simp only [TimedCondition.T, List.drop_zero, Nat.sub_zero, List.take_succ_cons, List.sum_cons]
      have key : ∀ l : List ℚ, (∀ y ∈ l, ∃ m : ℤ, y = m) → ∃ m : ℤ, l.sum = m := by
        intro l
        induction l with
        | nil => intro _; exact ⟨0, by simp⟩
        | cons y l ih =>
          intro hl
          obtain ⟨a, ha⟩ := hl y (by simp)
          obtain ⟨b, hb⟩ := ih fun z hz => hl z (by simp [hz])
          exact ⟨a + b, by rw [List.sum_cons, ha, hb]; push_cast; ring⟩
      obtain ⟨m, hm⟩ := key (d.take i) fun y hy => hint y (List.mem_of_mem_take hy)
      exact ⟨m, by rw [hm]⟩
    obtain ⟨m, hm⟩ := this
    rw [hm, Int.fract_add_intCast]

theorem handleCEX_regular (he : EnvOk env f) (hal : alphabet.Nodup) (hob : ∀ a ∈ alphabet, a ≠ unobservable)
    (h : Reached env alphabet s T) (hT : T.Regular) {w : TimedWord} (hw : w.Legal) (hi : WholeDelays w) {T' : ObsTable σ}
    (hr : (handleCEX env w).run T = .ok ((), T')) : T'.Regular := by
  obtain ⟨⟨_, _, x, h1, ⟨v, h2, rfl⟩, h3, _⟩, _⟩ := C47_progress he hal hob h hw hr
  intro y hy
  rw [h3, List.mem_append, List.mem_singleton] at hy
  rcases hy with hy | rfl
  · exact hT y hy
  · exact BackwardRegional.fromTimedWord_regular x h1 (oneFraction_of_whole h2 h1 hi)

/-- See `C66_regular`: the final table is regular if all delays of the counterexamples, but the first of each, are integers. -/
theorem learn_regular (he : EnvOk env f) (hal : alphabet.Nodup) (hob : ∀ a ∈ alphabet, a ≠ unobservable)
    (hq : ∀ e H e' w, eq e H = some (e', some w) → w.Legal ∧ WholeDelays w)
    {T0 : ObsTable σ} (hc : ObsTable.create env alphabet s = .ok T0) {n : ℕ} {e0 e : Ω} {H : TA}
    (hr : (learn env henv zones rounds eq n e0).run T0 = .ok ((H, e), T)) : T.Regular := by
  have key : ∀ n e T, Reached env alphabet s T → T.Regular →
      Ok (fun _ => True) (learn env henv zones rounds eq n e) T fun _ T' => T'.Regular := by
    intro n
    induction n with
    | zero => intro e T _ _; exact Ok.throw trivial
    | succ n ih =>
      intro e T h hT
      unfold learn
      refine Ok.bind ((reached_refine he hal hob _ h hT).mono ?_)
      rintro _ T1 ⟨h1, h2, h3, -⟩
      refine Ok.bind (Ok.get ?_)
      cases hg : generateHypothesis env henv T1 with
      | error x => exact Ok.throw trivial
      | ok H0 =>
        dsimp only
        cases hz : H0.simplifyStrong.simplifyWithZones zones rounds with
        | none => exact Ok.throw trivial
        | some H =>
          dsimp only
          cases heq : eq e H with
          | none => exact Ok.throw trivial
          | some r =>
            obtain ⟨e', o⟩ := r
            cases o with
            | none => exact Ok.pure h2
            | some w =>
              dsimp only
              refine Ok.bind ((handleCEX_keeps (env := env) w T1).record.mono ?_)
              rintro _ T2 ⟨_, h4⟩
              obtain ⟨hw, hi⟩ := hq _ _ _ _ heq
              exact ih e' T2 (.cex h1 hw h4) (handleCEX_regular he hal hob h1 h2 hw hi h4)
  exact (key n e0 T0 (.create hc) (C46_create_regular he hal hob hc)).ok hr

/-- See `C66_progress`.  `cexs` are the counterexamples that the equivalence oracle has returned, in this order.  Of each of them an
end was added to the suffixes of the table, and these suffixes are all different entries of the final table.  So the number
of hypotheses is at most the number of suffixes of the final table. -/
theorem learn_progress (he : EnvOk env f) (hal : alphabet.Nodup) (hob : ∀ a ∈ alphabet, a ≠ unobservable)
    (hq : ∀ e H e' w, eq e H = some (e', some w) → w.Legal)
    {T0 : ObsTable σ} (hc : ObsTable.create env alphabet s = .ok T0) {n : ℕ} {e0 : Ω}
    {e : Ω × List (TA × Option TimedWord)} {H : TA}
    (hr : (learn env henv zones rounds (Learner.logged eq) n (e0, [])).run T0 = .ok ((H, e), T)) (hreg : T.Regular) :
    ∃ (rounds : List (TA × TimedWord)) (added : List TimedWord),
      e.2 = rounds.map (fun r => (r.1, some r.2)) ++ [(H, none)] ∧
      List.Forall₂ (fun (r : TA × TimedWord) (t : TimedWord) => t.Legal ∧ ∃ v : TimedWord, v.Legal ∧ r.2 = v.append t) rounds added ∧
      (T0.suffixes ++ added.map BackwardRegional.fromTimedWord).Sublist T.suffixes ∧ e.2.length ≤ T.suffixes.length := by
  have key : ∀ n e T, Reached env alphabet s T →
      Ok (fun _ => True) (learn env henv zones rounds (Learner.logged eq) n e) T fun p T' => T'.Regular →
        ∃ (rounds : List (TA × TimedWord)) (added : List TimedWord),
          p.2.2 = e.2 ++ rounds.map (fun r => (r.1, some r.2)) ++ [(p.1, none)] ∧
          List.Forall₂ (fun (r : TA × TimedWord) (t : TimedWord) => t.Legal ∧ ∃ v : TimedWord, v.Legal ∧ r.2 = v.append t)
            rounds added ∧ (T.suffixes ++ added.map BackwardRegional.fromTimedWord).Sublist T'.suffixes := by
    intro n
    induction n with
    | zero => intro e T _; exact Ok.throw trivial
    | succ n ih =>
      intro e T h
      by_cases hT : T.Regular
      swap
      · exact (learn_keeps (n + 1) e T).mono fun p T' hk hr => absurd (regular_of_prefix hk hr) hT
      unfold learn
      refine Ok.bind ((reached_refine he hal hob _ h hT).record.mono ?_)
      rintro _ T1 ⟨⟨h1, h2, h3, -⟩, hrun⟩
      have hk := (refine_keeps (env := env) env.fuel T).ok hrun
      refine Ok.bind (Ok.get ?_)
      cases hg : generateHypothesis env henv T1 with
      | error x => exact Ok.throw trivial
      | ok H0 =>
        dsimp only
        cases hz : H0.simplifyStrong.simplifyWithZones zones rounds with
        | none => exact Ok.throw trivial
        | some H =>
          dsimp only [Learner.logged]
          cases heq : eq e.1 H with
          | none => exact Ok.throw trivial
          | some r =>
            obtain ⟨e', o⟩ := r
            simp only [Option.map_some]
            cases o with
            | none => exact Ok.pure fun _ => ⟨[], [], by simp, .nil, by simpa using hk.sublist⟩
            | some w =>
              dsimp only
              refine Ok.bind ((handleCEX_keeps (env := env) w T1).record.mono ?_)
              rintro _ T2 ⟨_, h4⟩
              have hw := hq _ _ _ _ heq
              obtain ⟨⟨_, _, x, x1, x2, x3, _⟩, _⟩ := C47_progress he hal hob h1 hw h4
              refine (ih _ T2 (.cex h1 hw h4)).mono fun p T' hh hreg => ?_
              obtain ⟨rs, ad, a1, a2, a3⟩ := hh hreg
              refine ⟨(H, w) :: rs, x :: ad, ?_, .cons ⟨x1, x2⟩ a2, ?_⟩
              · rw [a1]; simp
              · rw [x3] at a3
                refine List.Sublist.trans ?_ a3
                simp only [List.map_cons, List.append_assoc, List.singleton_append]
                exact hk.sublist.append (List.Sublist.refl _)
  obtain ⟨rs, ad, a1, a2, a3⟩ := (key n (e0, []) T0 (.create hc)).ok hr hreg
  refine ⟨rs, ad, by simpa using a1, a2, a3, ?_⟩
  have l1 := a3.length_le
  have l2 := a2.length_eq
  have hI := (reached_inv he hal hob (.create hc)).1
  have l3 : 0 < T0.suffixes.length := by
    have := hI.suf0
    exact List.length_pos_iff.2 (by intro e; rw [e] at this; simp at this)
  rw [a1]
  simp only [List.length_append, List.length_map, List.nil_append] at l1 ⊢
  simp only [List.length_singleton]
  omega


/-- See `C66_rounds`. -/
theorem learn_rounds (he : EnvOk env f) (hal : alphabet.Nodup) (hob : ∀ a ∈ alphabet, a ≠ unobservable)
    (hq : ∀ e H e' w, eq e H = some (e', some w) → w.Legal)
    {T0 : ObsTable σ} (hc : ObsTable.create env alphabet s = .ok T0) {n : ℕ} {e0 : Ω}
    {e : Ω × List (TA × Option TimedWord)} {H : TA}
    (hr : (learn env henv zones rounds (Learner.logged eq) n (e0, [])).run T0 = .ok ((H, e), T)) (hreg : T.Regular) {L : ℕ}
    (hL : ∀ p ∈ T.prefixes, p.word.length ≤ L) : e.2.length ≤ T.prefixes.length ^ 2 * 2 ^ (L + 1) ^ 2 + 1 := by
  have key : ∀ n e T, Reached env alphabet s T →
      Ok (fun _ => True) (learn env henv zones rounds (Learner.logged eq) n e) T fun p T' => T'.Regular →
        Grew T T' ∧ ∃ l : List ((ℕ × ℕ) × Finset (ℕ × ℕ)), l.Nodup ∧ (∀ x ∈ l, Refuted f T T' x) ∧
          p.2.2.length = e.2.length + l.length + 1 := by
    intro n
    induction n with
    | zero => intro e T _; exact Ok.throw trivial
    | succ n ih =>
      intro e T h
      by_cases hT : T.Regular
      swap
      · exact (learn_keeps (n + 1) e T).mono fun p T' hk hr => absurd (regular_of_prefix hk hr) hT
      unfold learn
      refine Ok.bind ((reached_refine he hal hob _ h hT).record.mono ?_)
      rintro _ T1 ⟨⟨h1, h2, h3, -⟩, hrun⟩
      have hI := (reached_inv he hal hob h).1
      have hk : Grew T T1 := ((refine_ok (E := fun _ => True) he trivial trivial env.fuel hI hT).ok hrun).2.1
      refine Ok.bind (Ok.get ?_)
      cases hg : generateHypothesis env henv T1 with
      | error x => exact Ok.throw trivial
      | ok H0 =>
        dsimp only
        cases hz : H0.simplifyStrong.simplifyWithZones zones rounds with
        | none => exact Ok.throw trivial
        | some H =>
          dsimp only [Learner.logged]
          cases heq : eq e.1 H with
          | none => exact Ok.throw trivial
          | some r =>
            obtain ⟨e', o⟩ := r
            simp only [Option.map_some]
            cases o with
            | none => exact Ok.pure fun _ => ⟨hk, [], .nil, by simp, by simp⟩
            | some w =>
              dsimp only
              refine Ok.bind ((handleCEX_keeps (env := env) w T1).record.mono ?_)
              rintro _ T2 ⟨_, h4⟩
              have hw := hq _ _ _ _ heq
              obtain ⟨hsep, _⟩ := C47_progress he hal hob h1 hw h4
              obtain ⟨x, hx⟩ := hsep.refuted
              refine (ih _ T2 (.cex h1 hw h4)).mono fun p T' hh hreg => ?_
              obtain ⟨g, l, a1, a2, a3⟩ := hh hreg
              refine ⟨(hk.trans hsep.grew).trans g, x :: l, List.nodup_cons.2 ⟨fun hxl => hx.once (a2 x hxl) g, a1⟩, ?_, ?_⟩
              · intro y hy
                rcases List.mem_cons.1 hy with rfl | hy
                · exact (hx.later g).weaken hk
                · exact (a2 y hy).weaken (hk.trans hsep.grew)
              · rw [a3]; simp; omega
  obtain ⟨_, l, a1, a2, a3⟩ := (key n (e0, []) T0 (.create hc)).ok hr hreg
  have := refuted_count a1 a2 hL
  simp only [List.length_nil, Nat.zero_add] at a3
  omega

theorem logged_legal {P : TimedWord → Prop} (h : ∀ e H e' w, eq e H = some (e', some w) → P w) :
    ∀ e H e' w, Learner.logged eq e H = some (e', some w) → P w := by
  intro e H e' w hw
  unfold Learner.logged at hw
  obtain ⟨r, h1, h2⟩ := Option.map_eq_some_iff.1 hw
  simp only [Prod.mk.injEq] at h2
  obtain ⟨r1, r2⟩ := r
  simp only at h2
  rw [h2.2] at h1
  exact h _ _ _ _ h1

/-! ### The statements, for runs whose counterexamples are legal words -/

/-- All the counterexamples that were recorded are legal timed words. -/
def LegalLog (log : List (TA × Option TimedWord)) : Prop := ∀ x ∈ log, ∀ w, x.2 = some w → w.Legal

/-- C66: the automaton that the learner returns.  `T` is the final table, `log` lists the hypotheses and the answers of the
equivalence oracle.  The last hypothesis is `H0`, the equivalence oracle has found no counterexample for the simplified `H`.
`H` is a well-formed deterministic automaton over the alphabet that can be simulated; what it
accepts is accepted by the system, unless some end of the word shows that a merging is wrong.  The converse, and the verdicts
for the words of the table, hold if no update of `H0` reads a clock after writing it (see C18). -/
theorem C66_returned (he : EnvOk env f) (hal : alphabet.Nodup) (hob : ∀ a ∈ alphabet, a ≠ unobservable)
    (hch : ∀ a ∈ alphabet, a.val < 127) (hh : henv.Lawful)
    {T0 : ObsTable σ} (hc : ObsTable.create env alphabet s = .ok T0) {n : ℕ} {e0 e : Ω} {log : List (TA × Option TimedWord)}
    {H : TA} (hr : (learn env henv zones rounds (Learner.logged eq) n (e0, [])).run T0 = .ok ((H, (e, log)), T))
    (hq : LegalLog log) (hreg : T.Regular) (hs : SmallPrefixes T) :
    (∃ e', eq e' H = some (e, none)) ∧ H.WF ∧ H.EpsFree ∧ H.Deterministic ∧ H.Startable ∧ H.Over alphabet ∧
      (∀ w : TimedWord, w.Legal → H.Accepts w → (∀ a ∈ w.word, a ∈ alphabet) ∧ (f w = true ∨ Wrong f T w)) ∧
      ∃ H0, generateHypothesis env henv T = .ok H0 ∧ (H0.ResetsOrdered →
        (∀ w : TimedWord, w.Legal → (∀ a ∈ w.word, a ∈ alphabet) → (H.Accepts w ↔ f w = true) ∨ Wrong f T w) ∧
        ∀ p ∈ T.prefixes, ∀ w, p.toElementaryLanguage.Mem w → (H.Accepts w ↔ f w = true)) := by
  obtain ⟨-, hr'⟩ := learn_guarded env henv zones rounds eq TimedWord.Legal n e0 e [] log T0 T H hr hq
  obtain ⟨⟨⟨e', L⟩, h1⟩, h2⟩ := learn_returned he hal hob hch hh
    (logged_legal (P := TimedWord.Legal) (guarded_ok TimedWord.Legal eq)) hc hr' hreg hs
  refine ⟨⟨e', ?_⟩, h2⟩
  simp only [Learner.logged] at h1
  obtain ⟨⟨r1, r2⟩, k1, k2⟩ := Option.map_eq_some_iff.1 h1
  simp only [Prod.mk.injEq] at k2
  obtain ⟨⟨rfl, -⟩, rfl⟩ := k2
  exact guarded_sub _ _ k1

/-- C66: the final table is regular if all delays of the counterexamples, but the first of each, are integers. -/
theorem C66_regular (he : EnvOk env f) (hal : alphabet.Nodup) (hob : ∀ a ∈ alphabet, a ≠ unobservable)
    {T0 : ObsTable σ} (hc : ObsTable.create env alphabet s = .ok T0) {n : ℕ} {e0 e : Ω} {log : List (TA × Option TimedWord)}
    {H : TA} (hr : (learn env henv zones rounds (Learner.logged eq) n (e0, [])).run T0 = .ok ((H, (e, log)), T))
    (hq : ∀ x ∈ log, ∀ w, x.2 = some w → w.Legal ∧ WholeDelays w) : T.Regular := by
  obtain ⟨-, hr'⟩ := learn_guarded env henv zones rounds eq (fun w => w.Legal ∧ WholeDelays w) n e0 e [] log T0 T H hr hq
  exact learn_regular he hal hob (logged_legal (P := fun w => w.Legal ∧ WholeDelays w) (guarded_ok _ eq)) hc hr'

/-- C66: progress.  Of each counterexample of the equivalence oracle an
end was added to the suffixes of the table, and these suffixes are all different entries of the final table.  So the number
of hypotheses is at most the number of suffixes of the final table. -/
theorem C66_progress (he : EnvOk env f) (hal : alphabet.Nodup) (hob : ∀ a ∈ alphabet, a ≠ unobservable)
    {T0 : ObsTable σ} (hc : ObsTable.create env alphabet s = .ok T0) {n : ℕ} {e0 e : Ω} {log : List (TA × Option TimedWord)}
    {H : TA} (hr : (learn env henv zones rounds (Learner.logged eq) n (e0, [])).run T0 = .ok ((H, (e, log)), T))
    (hq : LegalLog log) (hreg : T.Regular) :
    ∃ (rounds : List (TA × TimedWord)) (added : List TimedWord),
      log = rounds.map (fun r => (r.1, some r.2)) ++ [(H, none)] ∧
      List.Forall₂ (fun (r : TA × TimedWord) (t : TimedWord) => t.Legal ∧ ∃ v : TimedWord, v.Legal ∧ r.2 = v.append t) rounds added ∧
      (T0.suffixes ++ added.map BackwardRegional.fromTimedWord).Sublist T.suffixes ∧ log.length ≤ T.suffixes.length := by
  obtain ⟨-, hr'⟩ := learn_guarded env henv zones rounds eq TimedWord.Legal n e0 e [] log T0 T H hr hq
  exact learn_progress he hal hob (guarded_ok TimedWord.Legal eq) hc hr' hreg

/-- C66: the number of hypotheses is bounded by the size of the final table: each counterexample refutes a merge of two prefixes by a
relation between their clocks that no counterexample before has refuted.  `L` bounds the number of actions of the prefixes. -/
theorem C66_rounds (he : EnvOk env f) (hal : alphabet.Nodup) (hob : ∀ a ∈ alphabet, a ≠ unobservable)
    {T0 : ObsTable σ} (hc : ObsTable.create env alphabet s = .ok T0) {n : ℕ} {e0 e : Ω} {log : List (TA × Option TimedWord)}
    {H : TA} (hr : (learn env henv zones rounds (Learner.logged eq) n (e0, [])).run T0 = .ok ((H, (e, log)), T))
    (hq : LegalLog log) (hreg : T.Regular) {L : ℕ} (hL : ∀ p ∈ T.prefixes, p.word.length ≤ L) :
    log.length ≤ T.prefixes.length ^ 2 * 2 ^ (L + 1) ^ 2 + 1 := by
  obtain ⟨-, hr'⟩ := learn_guarded env henv zones rounds eq TimedWord.Legal n e0 e [] log T0 T H hr hq
  exact learn_rounds he hal hob (guarded_ok TimedWord.Legal eq) hc hr' hreg hL

/-- C66: recording the answers does not influence the run. -/
theorem C66_logged {T0 : ObsTable σ} {n : ℕ} {e0 e : Ω} {H : TA}
    (hr : (learn env henv zones rounds eq n e0).run T0 = .ok ((H, e), T)) :
    ∃ log, (learn env henv zones rounds (Learner.logged eq) n (e0, [])).run T0 = .ok ((H, (e, log)), T) :=
  learn_logged env henv zones rounds eq n e0 e [] T0 T H hr

/-! ### An example -/

/-- The hash containers in the order of the actions and of insertion. -/
def plainZones : HashOrder := ⟨fun _ => allActions, fun _ => .refl _, id, fun _ => .refl _⟩

/-- An equivalence oracle that finds one counterexample. -/
def oneCex : EqCall ℕ := fun n _ => if n = 0 then some (1, some ⟨[actA], [2, 0]⟩) else some (n, none)

theorem oneCex_legal : ∀ e H e' w, oneCex e H = some (e', some w) → w.Legal ∧ WholeDelays w := by
  intro e H e' w h
  unfold oneCex at h
  split at h
  · simp only [Option.some.injEq, Prod.mk.injEq] at h
    obtain ⟨_, rfl⟩ := h
    refine ⟨⟨rfl, ?_, ?_⟩, ?_⟩
    · intro a ha
      rw [List.mem_singleton] at ha
      subst ha
      decide +kernel
    · intro d hd
      simp only [List.mem_cons, List.not_mem_nil, or_false] at hd
      rcases hd with rfl | rfl <;> norm_num
    · intro d hd
      simp only [List.tail_cons, List.mem_cons, List.not_mem_nil, or_false] at hd
      exact ⟨0, by simp [hd]⟩
  · simp at h

/-- `ResetsOrdered` as a test. -/
def orderedB (A : TA) : Bool := A.states.all fun p => allActions.all fun a => ((A.loc p).next a).all fun t =>
  decide ((t.resets.map Prod.fst).Nodup) && go t.resets
where
  go : Resets → Bool
    | [] => true
    | p :: r => (match p.2 with
      | .clock y => p.1 == y || r.all fun p' => !decide (p'.2 = .clock p.1)
      | .const _ => true) && go r

theorem ordered_of_test {A : TA} (h : orderedB A = true) : A.ResetsOrdered := by
  have hgo : ∀ r : Resets, orderedB.go r = true → Zone.NoReadAfterWrite r := by
    intro r
    induction r with
    | nil => intro _; trivial
    | cons p r ih =>
      intro hr
      unfold orderedB.go at hr
      rw [Bool.and_eq_true] at hr
      refine ⟨fun y hy hne p' hp' => ?_, ih hr.2⟩
      have h1 := hr.1
      rw [hy] at h1
      simp only [Bool.or_eq_true, beq_iff_eq, hne, false_or, List.all_eq_true, Bool.not_eq_true', decide_eq_false_iff_not] at h1
      exact h1 p' hp'
  intro p hp a t ht
  unfold orderedB at h
  rw [List.all_eq_true] at h
  have h1 := h p hp
  rw [List.all_eq_true] at h1
  have h2 := h1 a (by simp [allActions])
  rw [List.all_eq_true] at h2
  have h3 := h2 t ht
  rw [Bool.and_eq_true, decide_eq_true_eq] at h3
  exact ⟨h3.1, hgo _ h3.2⟩

theorem obA_learn : okB (ObsTable.create (simEnv obA 20) [actA] (Runner.start obA)) (fun T0 =>
    okB ((learn (simEnv obA 20) plainHyp plainZones 20 (Learner.logged oneCex) 3 (0, [])).run T0) fun p =>
      smallB p.2 && (p.2.suffixes.length == 2 && (p.1.1.states.length == 2 && (decide (p.1.2.2.map Prod.snd = [some ⟨[actA], [2, 0]⟩, none]) &&
        okB (generateHypothesis (simEnv obA 20) plainHyp p.2) orderedB)))) = true := by
  decide +kernel

/-- The hypotheses of C66 are met by a run on the system `obA` with one counterexample: two hypotheses are made, the table
has two suffixes at the end, and the automaton that is returned has two states. -/
example (f : TimedWord → Bool) (hf : ∀ w, f w = true ↔ obA.Accepts w) :
    ∃ T0 H e T H0, ObsTable.create (simEnv obA 20) [actA] (Runner.start obA) = .ok T0 ∧
      (learn (simEnv obA 20) plainHyp plainZones 20 (Learner.logged oneCex) 3 (0, [])).run T0 = .ok ((H, e), T) ∧
      EnvOk (simEnv obA 20) f ∧ LegalLog e.2 ∧ T.Regular ∧ SmallPrefixes T ∧ plainHyp.Lawful ∧ H.states.length = 2 ∧ T.suffixes.length = 2 ∧
      e.2.length = 2 ∧ generateHypothesis (simEnv obA 20) plainHyp T = .ok H0 ∧ H0.ResetsOrdered ∧
      ∀ w : TimedWord, w.Legal → (∀ a ∈ w.word, a ∈ [actA]) → (H.Accepts w ↔ obA.Accepts w) ∨ Wrong f T w := by
  have he := obA_ok f hf 20
  have hal : [actA].Nodup := by simp
  have hmem : ∀ a ∈ [actA], a = actA := fun a ha => List.mem_singleton.1 ha
  have hob : ∀ a ∈ [actA], a ≠ unobservable := by
    intro a ha
    rw [hmem a ha]
    decide +kernel
  have hch : ∀ a ∈ [actA], a.val < 127 := by
    intro a ha
    rw [hmem a ha]
    decide +kernel
  obtain ⟨T0, h0, h1⟩ := okB_ok obA_learn
  obtain ⟨⟨⟨H, e⟩, T⟩, h2, h3⟩ := okB_ok h1
  simp only [Bool.and_eq_true, beq_iff_eq, decide_eq_true_eq] at h3
  obtain ⟨a1, a2, a3, a4, a5⟩ := h3
  obtain ⟨H0, b1, b2⟩ := okB_ok a5
  have hq : ∀ x ∈ e.2, ∀ w, x.2 = some w → w.Legal ∧ WholeDelays w := by
    intro x hx w hw
    have := List.mem_map_of_mem (f := Prod.snd) hx
    rw [a4, hw] at this
    simp only [List.mem_cons, Option.some.injEq, reduceCtorEq, List.not_mem_nil, or_false] at this
    subst this
    exact oneCex_legal 0 obA 1 _ rfl
  have hreg := C66_regular he hal hob h0 h2 hq
  have hs := small_of_test a1
  have hlog : LegalLog e.2 := fun x hx w hw => (hq x hx w hw).1
  refine ⟨T0, H, e, T, H0, h0, h2, he, hlog, hreg, hs, plainHyp_lawful, a3, a2, ?_, b1, ordered_of_test b2, fun w hw hwa => ?_⟩
  · have := congrArg List.length a4
    simpa using this
  obtain ⟨_, _, _, _, _, _, _, H0', g1, g2⟩ := C66_returned he hal hob hch plainHyp_lawful h0 h2 hlog hreg hs
  rw [b1] at g1
  cases g1
  exact ((g2 (ordered_of_test b2)).1 w hw hwa).imp (fun h => h.trans (hf w)) id

end LearnTA.Props
