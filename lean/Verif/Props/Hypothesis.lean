import Verif.Lemmas.HypExact
import Verif.Lemmas.Ordered
import Verif.Props.ObservationTable
import Verif.Props.TA

/-!
# Properties of the construction of a hypothesis: C64, C65
-/

namespace LearnTA.Props
open ObsTable

variable {σ : Type} {f : TimedWord → Bool} {env : Env σ} {alphabet : List Action} {s : σ} {T : ObsTable σ}

theorem simplify_deterministic (A : TA) (hw : A.WF) (hd : A.Deterministic) : A.simplify.Deterministic := by
  obtain ⟨h1, h2⟩ := TA.simplify_core A hw
  exact TA.removeUnused_deterministic _ h2 (h1.deterministic hd)

/-- The transitions have actions in the list. -/
def Over (A : TA) (alphabet : List Action) : Prop := ∀ p ∈ A.states, ∀ a, (A.loc p).next a ≠ [] → a ∈ alphabet

theorem Over.sub {A B : TA} (h : Over A alphabet) (hs : TA.Sub B A) : Over B alphabet := by
  intro p hp a hne
  refine h p (hs.states.subset hp) a fun e => hne ?_
  have := hs.next p hp a
  rw [e] at this
  exact List.eq_nil_of_sublist_nil this

theorem Over.removeUnused {A : TA} (hn : A.states.Nodup) (h : Over A alphabet) : Over A.removeUnusedClockVariables alphabet := by
  rw [TA.removeUnused_eq A hn]
  intro p hp a hne
  have hp : p ∈ A.states := hp
  simp only [hp, if_true, ne_eq, List.map_eq_nil_iff] at hne
  exact h p hp a hne

theorem Over.simplify {A : TA} (hw : A.WF) (h : Over A alphabet) : Over A.simplify alphabet := by
  obtain ⟨h1, h2⟩ := TA.simplify_core A hw
  exact (h.sub h1).removeUnused h2.nodup

theorem Over.simplifyStrong {A : TA} (hw : A.WF) (h : Over A alphabet) : Over A.simplifyStrong alphabet := by
  obtain ⟨h1, h2⟩ := TA.simplifyStrong_core A hw
  exact (h.sub h1).removeUnused h2.nodup

theorem simplifyStrong_deterministic (A : TA) (hw : A.WF) (hd : A.Deterministic) : A.simplifyStrong.Deterministic := by
  obtain ⟨h1, h2⟩ := TA.simplifyStrong_core A hw
  exact TA.removeUnused_deterministic _ h2 (h1.deterministic hd)

theorem simplify_init (A : TA) (hw : A.WF) : A.simplify.init = A.init := by
  obtain ⟨_, h2⟩ := TA.simplify_core A hw
  unfold TA.simplify
  rw [TA.removeUnused_eq _ h2.nodup]
  show A.simplifyTransitions.removeTriviallyUnreachableStates.init = _
  rw [(TA.removeUnreachable_loc _).2, TA.simplifyTransitions_eq A hw.nodup]

theorem turns_of_changes (he : EnvOk env f) (hI : Inv f T) (h : Changes T) : TurnsWithTime f T := by
  obtain ⟨i, hi, j, hj, hne⟩ := h
  obtain ⟨p, hp, hpR⟩ := hI.pget hi
  have hq := hI.time_get hi hj hp
  obtain ⟨b, h1, h2⟩ := hI.isMatch he hp
  obtain ⟨c, h3, h4⟩ := hI.isMatch he hq
  obtain ⟨u, hu⟩ := hpR.exists_mem
  obtain ⟨w, hw⟩ := (ForwardRegional.Reach.time hpR).exists_mem
  refine ⟨i, hi, p, hp, u, w, hu, hw, ?_⟩
  rw [h2 u hu, h4 w hw]
  intro e
  exact hne (by rw [h1, h3, e])

/-- C64: on a ready table, `generateHypothesis` fails only by `abort()`, and only if acceptance changes by the passing of
time alone somewhere in the table. -/
theorem C64_fails_only (he : EnvOk env f) (hal : alphabet.Nodup) (hob : ∀ a ∈ alphabet, a ≠ unobservable)
    (h : Reached env alphabet s T) (hR : Ready f T) (hs : SmallPrefixes T) {henv : HypEnv} (hh : henv.Lawful) (e : Fail)
    (hg : generateHypothesis env henv T = .error e) : e = .abort ∧ TurnsWithTime f T := by
  have hI := (reached_inv he hal hob h).1
  rcases generate_ok he hh hI hR hs with ⟨A, h1, _⟩ | ⟨h1, h2⟩
  · rw [h1] at hg; cases hg
  · rw [h1] at hg; cases hg
    exact ⟨rfl, turns_of_changes he hI h2⟩

/-- C64: the hypothesis is a well-formed deterministic automaton with one initial state whose transitions have actions of the
alphabet only (so none is unobservable); it decides the words of all prefixes of the table, those outside of `P` included, as the system does, and it accepts
no words with actions that are not in the alphabet. -/
theorem C64_hypothesis (he : EnvOk env f) (hal : alphabet.Nodup) (hob : ∀ a ∈ alphabet, a ≠ unobservable)
    (h : Reached env alphabet s T) (hR : Ready f T) (hs : SmallPrefixes T) {henv : HypEnv} (hh : henv.Lawful) (A : TA)
    (hg : generateHypothesis env henv T = .ok A) :
    A.WF ∧ A.EpsFree ∧ A.Deterministic ∧ A.init.length = 1 ∧
      (∀ p ∈ A.states, ∀ a, (A.loc p).next a ≠ [] → a ∈ alphabet) ∧
      (∀ p ∈ T.prefixes, ∀ w, p.toElementaryLanguage.Mem w → (A.Accepts w ↔ f w = true)) ∧
      ∀ w : TimedWord, w.Legal → A.Accepts w → ∀ a ∈ w.word, a ∈ alphabet := by
  obtain ⟨hI, ha⟩ := reached_inv he hal hob h
  rcases generate_ok he hh hI hR hs with ⟨A', h1, H, B0, bd, loc, hx, hF, rfl⟩ | ⟨h1, _⟩
  swap
  · rw [h1] at hg; cases hg
  rw [h1] at hg
  cases hg
  obtain ⟨hw, hef, hd⟩ := raw_ok hI hx hF
  have hsimp := fun w => C34_simplify_language (rawTA H loc) hw w
  refine ⟨(hsimp ⟨[], [0]⟩).2.1, (TA.simplify_keeps _ hw).1 hef, simplify_deterministic _ hw hd, ?_, ?_, ?_, ?_⟩
  · have := simplify_init _ hw
    show (rawTA H loc).simplify.init.length = 1
    rw [this]; rfl
  · refine Over.simplify hw ?_
    intro q hq a hne
    obtain ⟨t, ht⟩ := List.exists_mem_of_ne_nil _ hne
    rw [← ha]
    exact (hF.trans (List.mem_range.1 hq) ht).1
  · intro p hp w hm
    obtain ⟨i, hi⟩ := List.getElem?_of_mem hp
    exact (hsimp w).1.trans (raw_prefix he hI hx hF hi hm)
  · intro w hl hacc
    rw [← ha]
    exact raw_foreign hI hx hF hl ((hsimp w).1.1 hacc)

/-- C65: the hypothesis decides every word over the alphabet as the system does, unless some end of the word shows that one
of the mergings recorded in the table is wrong. -/
theorem C65_hypothesis_language (he : EnvOk env f) (hal : alphabet.Nodup) (hob : ∀ a ∈ alphabet, a ≠ unobservable)
    (h : Reached env alphabet s T) (hR : Ready f T) (hs : SmallPrefixes T) {henv : HypEnv} (hh : henv.Lawful) (A : TA)
    (hg : generateHypothesis env henv T = .ok A) (w : TimedWord) (hw : w.Legal) (hwa : ∀ a ∈ w.word, a ∈ alphabet) :
    (A.Accepts w ↔ f w = true) ∨ Wrong f T w := by
  obtain ⟨hI, ha⟩ := reached_inv he hal hob h
  rcases generate_ok he hh hI hR hs with ⟨A', h1, H, B0, bd, loc, hx, hF, rfl⟩ | ⟨h1, _⟩
  swap
  · rw [h1] at hg; cases hg
  rw [h1] at hg
  cases hg
  obtain ⟨hwf, _, _⟩ := raw_ok hI hx hF
  rcases raw_language he hI hR hx hF hw (by rw [ha]; exact hwa) with h2 | h2
  · exact Or.inl ((C34_simplify_language (rawTA H loc) hwf w).1.trans h2)
  · exact Or.inr h2

/-- C65: if all recorded mergings are right, the hypothesis is equivalent to the system. -/
theorem C65_exact (he : EnvOk env f) (hal : alphabet.Nodup) (hob : ∀ a ∈ alphabet, a ≠ unobservable)
    (h : Reached env alphabet s T) (hR : Ready f T) (hs : SmallPrefixes T) {henv : HypEnv} (hh : henv.Lawful) (A : TA)
    (hg : generateHypothesis env henv T = .ok A)
    (hm : ∀ (i j : ℕ) (p q : ForwardRegional) (r : RenamingRelation), i ∉ T.pIndices → j ∈ T.pIndices →
      T.prefixes[i]? = some p → T.prefixes[j]? = some q → T.getRelation i j = some r →
      ∀ u u', p.toElementaryLanguage.Mem u → q.toElementaryLanguage.Mem u' → r.Relates u u' →
        ∀ t : TimedWord, t.Legal → f (u.append t) = f (u'.append t))
    (w : TimedWord) (hw : w.Legal) (hwa : ∀ a ∈ w.word, a ∈ alphabet) : A.Accepts w ↔ f w = true := by
  rcases C65_hypothesis_language he hal hob h hR hs hh A hg w hw hwa with h1 | ⟨x, t, _, ht, _, i, j, p, q, r, a1, a2, a3, a4,
    a5, u, u', a6, a7, a8, a9⟩
  · exact h1
  · exact absurd (hm i j p q r a1 a2 a3 a4 a5 u u' a6 a7 a8 t ht) a9

theorem refineStep_reached (he : EnvOk env f) (hI : Inv f T) (hr : T.Regular) (h : Reached env alphabet s T) :
    Ok (fun _ => True) (refineStep env) T fun _ T' => Reached env alphabet s T' := by
  unfold refineStep
  refine Ok.bind ((close_ok (E := fun _ => True) he (.inl trivial) hI).record.mono ?_)
  rintro b T1 ⟨⟨c1, _⟩, e1⟩
  cases b with
  | false => exact Ok.pure (.close h e1)
  | true =>
    obtain ⟨i1, s1, cov⟩ := c1 rfl
    have r1 : T1.Regular := by intro s hs; rw [s1.suffixes] at hs; exact hr s hs
    simp only [if_true]
    refine Ok.bind ((consistent_ok (E := fun _ => True) he trivial i1 r1).record.mono ?_)
    rintro b T2 ⟨⟨_, d2⟩, e2⟩
    cases b with
    | false => exact Ok.pure (.consistent (.close h e1) r1 e2)
    | true =>
      obtain ⟨w2, _⟩ := d2 rfl
      simp only [if_true]
      refine Ok.bind ((exterior_ok (E := fun _ => True) he (.inl trivial) w2.inv).record.mono ?_)
      rintro b T3 ⟨⟨x1, _⟩, e3⟩
      cases b with
      | false => exact Ok.pure (.exterior (.consistent (.close h e1) r1 e2) e3)
      | true =>
        obtain ⟨rfl, _⟩ := x1 rfl
        simp only [if_true]
        refine (timeSaturate_ok (E := fun _ => True) he (.inl trivial) w2.inv).record.mono ?_
        rintro b T4 ⟨_, e4⟩
        exact .saturate (.exterior (.consistent (.close h e1) r1 e2) e3) e4

/-- The loop leads from tables made by the public operations to such tables. -/
theorem reached_refine (he : EnvOk env f) (hal : alphabet.Nodup) (hob : ∀ a ∈ alphabet, a ≠ unobservable) (n : ℕ)
    (h : Reached env alphabet s T) (hr : T.Regular) :
    Ok (fun _ => True) (refine env n) T fun _ T' => Reached env alphabet s T' ∧ T'.Regular ∧ Ready f T' ∧
      ∀ i ∈ T'.pIndices, Settled f T' i := by
  induction n generalizing T with
  | zero => exact Ok.throw trivial
  | succ n ih =>
    have hI := (reached_inv he hal hob h).1
    unfold refine
    refine Ok.bind ((refineStep_ok (E := fun _ => True) he (.inl trivial) trivial hI hr).record.mono ?_)
    rintro b T1 ⟨⟨_, _, h3, h4, _⟩, e⟩
    have h1 := (refineStep_reached he hI hr h).ok e
    cases b with
    | true => exact Ok.pure ⟨h1, h3, (h4 rfl).1⟩
    | false => exact ih h1 h3

/-- The order of insertion. -/
def plainHyp : HypEnv where
  orderMap := id
  hash :=
    { region := fun _ => 0
      pair := fun _ => 0
      acts := fun s => allActions.filter fun a => !(s.next a).isEmpty
      pick := fun _ => 0
      clocks := fun s => (List.range 256).filter fun x => decide (x ∈ s) }
  fuel := 100

/-- `SmallPrefixes` as a test. -/
def smallB (T : ObsTable σ) : Bool := T.pIndices.all fun i => match T.prefixes[i]? with
  | some p => p.cond.toGuard.all fun c => decide (c.c < intMax)
  | none => true

theorem small_of_test (h : smallB T = true) : SmallPrefixes T := by
  intro i hi p hp
  have := List.all_eq_true.1 h i hi
  simp only [hp] at this
  exact fun c hc => of_decide_eq_true (List.all_eq_true.1 this c hc)

/-- The system `obA`: the table is made ready and the hypothesis has more than one state, transitions and a guard. -/
theorem obA_hypothesis : okB (ObsTable.create (simEnv obA 20) [actA] (Runner.start obA)) (fun T =>
    okB ((refine (simEnv obA 20) 20).run T) fun p => smallB p.2 &&
      okB (generateHypothesis (simEnv obA 20) plainHyp p.2) fun A =>
        A.states.length == 2 && !((A.loc 0).next actA).isEmpty) = true := by
  decide +kernel

theorem okB_ok {α : Type} {m : Except Fail α} {p : α → Bool} (h : okB m p = true) : ∃ a, m = .ok a ∧ p a = true := by
  cases m with
  | error e => simp [okB] at h
  | ok a => exact ⟨a, rfl, h⟩

theorem plainHyp_lawful : plainHyp.Lawful := by
  intro m; exact .refl _

/-- The hypotheses of C64 and C65 are met by a table of the system `obA`. -/
example (f : TimedWord → Bool) (hf : ∀ w, f w = true ↔ obA.Accepts w) :
    ∃ T A, Reached (simEnv obA 20) [actA] (Runner.start obA) T ∧ Ready f T ∧ SmallPrefixes T ∧ plainHyp.Lawful ∧
      generateHypothesis (simEnv obA 20) plainHyp T = .ok A ∧ A.states.length = 2 := by
  have he := obA_ok f hf 20
  have hal : [actA].Nodup := by simp
  have hob : ∀ a ∈ [actA], a ≠ unobservable := by
    intro a ha
    rw [List.mem_singleton] at ha
    subst ha
    decide +kernel
  obtain ⟨T0, h0, h1⟩ := okB_ok obA_hypothesis
  obtain ⟨⟨⟨⟩, T⟩, h2, h3⟩ := okB_ok h1
  rw [Bool.and_eq_true] at h3
  obtain ⟨A, h4, h5⟩ := okB_ok h3.2
  rw [Bool.and_eq_true] at h5
  have hr := C46_create_regular he hal hob h0
  obtain ⟨k1, _, k2, _⟩ := (reached_refine he hal hob 20 (.create h0) hr).ok h2
  exact ⟨T, A, k1, k2, small_of_test h3.1, plainHyp_lawful, h4, by simpa using h5.1⟩

end LearnTA.Props
