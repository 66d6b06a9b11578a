import Verif.Lemmas.Counterexample
import Verif.Lemmas.CexTerm
import Verif.Props.ObservationTable

/-!
# C47: recognizable languages and the analysis of counterexamples
-/

namespace LearnTA.Props
open ObsTable
variable {σ : Type} {env : Env σ} {f : TimedWord → Bool} {alphabet : List Action} {s : σ} {T T' : ObsTable σ}
  {R : RecognizableLanguage}

theorem fromTable_of (h : Inv f T) {i : ℕ} {m : SingleMorphism} (hm : MorphismOf f T i m) : FromTable f T i m := by
  obtain ⟨j, p, q, h1, h2, h3, h4, h5, h6, h7, h8⟩ := hm
  refine ⟨j, p, q, h1, h2, h3, h4, h5, h6, h7, ?_, h8⟩
  unfold ObsTable.getRelation at h7
  cases hl : T.closedRelation i with
  | none => rw [hl] at h7; simp at h7
  | some l =>
    rw [hl] at h7
    obtain ⟨_, _, hall⟩ := h.rel i l hl
    obtain ⟨p', q', e1, e2, hst⟩ := hall j m.rel (lookup_mem h7)
    rw [h3] at e1
    rw [h4] at e2
    cases e1; cases e2
    exact hst.toStatic

theorem morphismOf_of {i : ℕ} {m : SingleMorphism} (hm : FromTable f T i m) : MorphismOf f T i m := by
  obtain ⟨j, p, q, h1, h2, h3, h4, h5, h6, h7, h8, h9⟩ := hm
  exact ⟨j, p, q, h1, h2, h3, h4, h5, h6, h7, h9⟩

theorem recognized_of (h : Inv f T) (hR : TableLanguage f T R) : Recognized f T R := by
  obtain ⟨ks, h1, h2⟩ := hR.morphisms
  exact ⟨hR.prefixes, hR.final, ks, h1, h2.imp fun _ _ hm => fromTable_of h hm⟩

theorem tableLanguage_of (hR : Recognized f T R) : TableLanguage f T R := by
  obtain ⟨ks, h1, h2⟩ := hR.morphisms
  exact ⟨hR.prefixes, hR.final, ks, h1, h2.imp fun _ _ hm => morphismOf_of hm⟩

theorem ofRegion_of (h : Inv f T) (hR : TableLanguage f T R) : ∀ m ∈ R.morphisms, RecognizableLanguage.OfRegion m :=
  fun m hm => by
    obtain ⟨i, hi⟩ := (recognized_of h hR).from_table hm
    exact hi.ofRegion h

theorem step_of {R : RecognizableLanguage} (h : Inv f T) (hR : TableLanguage f T R) {w w' t : TimedWord} (hw : w.Legal)
    (hr : CEX.Reduces R w w' t) : R.Step w w' t := by
  refine ⟨hr.legal, fun e he hm => ?_, hr.by_morphism⟩
  obtain ⟨i, hi, p, hp, rfl⟩ := (hR.prefixes e).1 he
  have := ((recognized_of h hR).inPrefixes_iff h hw).2 ⟨i, hi, p, hp, hm⟩
  exact absurd hr.outside (by rw [this]; simp)

/-- C46: the words of `P` form a language closed under beginnings. -/
theorem C46_beginnings (he : EnvOk env f) (hal : alphabet.Nodup) (hob : ∀ a ∈ alphabet, a ≠ unobservable)
    (h : Reached env alphabet s T) {u v : TimedWord} (hu : u.Legal) (hv : v.Legal)
    (hP : ∃ i ∈ T.pIndices, ∃ p, T.prefixes[i]? = some p ∧ p.toElementaryLanguage.Mem (u.append v)) :
    ∃ i ∈ T.pIndices, ∃ p, T.prefixes[i]? = some p ∧ p.toElementaryLanguage.Mem u := by
  have hi := (reached_inv he hal hob h).1
  obtain ⟨i, hiP, p, hp, hm⟩ := hP
  obtain ⟨e, k1, k2, k3⟩ := cut_of_append hu hv
  have := inside_cut hi i hiP hp (append_legal hu hv) hm k1 k2 k3
  rwa [e] at this

/-- C47: `toRecognizable` does not fail, keeps the table, and gives the language of the table: its prefixes are those of
`P`, its final prefixes are those whose words are accepted, and its morphisms lead from prefixes outside of `P` to
prefixes of `P` they are merged into. -/
theorem C47_read_off (he : EnvOk env f) (hal : alphabet.Nodup) (hob : ∀ a ∈ alphabet, a ≠ unobservable)
    (h : Reached env alphabet s T) :
    ∃ R T', (toRecognizable env).run T = .ok (R, T') ∧ Same T T' ∧ TableLanguage f T' R := by
  have hi := (reached_inv he hal hob h).1
  have hrec := toRecognizable_ok (E := fun _ => False) he hi
  cases hr : (toRecognizable env).run T with
  | error e => exact (hrec.error hr).elim
  | ok p =>
    obtain ⟨_, h2, h3, _⟩ := hrec.ok hr
    exact ⟨p.1, p.2, rfl, same_of_relStep h2, tableLanguage_of h3⟩

/-- C47: a prefix outside of `P` that is merged into prefixes of `P` gets a morphism, unless it is now recorded as
different from all of them. -/
theorem C47_covered (he : EnvOk env f) (hal : alphabet.Nodup) (hob : ∀ a ∈ alphabet, a ≠ unobservable)
    (h : Reached env alphabet s T) (hr : (toRecognizable env).run T = .ok (R, T')) {i : ℕ} (hi : i < T.prefixes.length)
    (hP : i ∉ T.pIndices) : (∃ m ∈ R.morphisms, MorphismOf f T' i m) ∨
      ∀ j ∈ T.pIndices, (∃ r, T.getRelation i j = some r) → T'.Apart i j := by
  have hinv := (reached_inv he hal hob h).1
  obtain ⟨_, _, _, h4⟩ := (toRecognizable_ok (E := fun _ => True) he hinv).ok hr
  exact (h4 i hi hP).imp (fun ⟨m, a, b⟩ => ⟨m, a, morphismOf_of b⟩) id

/-- C47: `SingleMorphism::maps` maps every word of the domain to a related word of the codomain. -/
theorem C47_maps (he : EnvOk env f) (hal : alphabet.Nodup) (hob : ∀ a ∈ alphabet, a ≠ unobservable)
    (h : Reached env alphabet s T) {i : ℕ} {m : SingleMorphism} (hm : MorphismOf f T i m) {w : TimedWord}
    (hw : m.domain.Mem w) : ∃ w', m.maps w = some w' ∧ m.codomain.Mem w' ∧ m.rel.Relates w w' :=
  have hi := (reached_inv he hal hob h).1
  SingleMorphism.maps_ok ((fromTable_of hi hm).ofRegion hi).total hw

/-- C47: `split` splits a word into a beginning in the domain of a morphism of the language, and the rest. -/
theorem C47_split (he : EnvOk env f) (hal : alphabet.Nodup) (hob : ∀ a ∈ alphabet, a ≠ unobservable)
    (h : Reached env alphabet s T) (hR : TableLanguage f T R) {w : TimedWord} (hw : w.Legal) {fuel : ℕ} {t : SplitTriple}
    (hs : R.split fuel w = .ok (some t)) : t.morphism ∈ R.morphisms ∧ t.morphism.domain.Mem t.pre ∧ t.suf.Legal ∧
      w = t.pre.append t.suf := by
  have hi := (reached_inv he hal hob h).1
  have := RecognizableLanguage.split_ok (ofRegion_of hi hR) hw hs
  exact ⟨this.morphism, this.inDomain, this.suffix, this.whole.symm⟩

/-- C47: if there is a morphism for every prefix outside of `P`, every word over the alphabet that is not in `P` can be
split. -/
theorem C47_split_exists (he : EnvOk env f) (hal : alphabet.Nodup) (hob : ∀ a ∈ alphabet, a ≠ unobservable)
    (h : Reached env alphabet s T) (hR : TableLanguage f T R)
    (hcov : ∀ i < T.prefixes.length, i ∉ T.pIndices → ∃ m ∈ R.morphisms, MorphismOf f T i m) {w : TimedWord} (hw : w.Legal)
    (hα : ∀ a ∈ w.word, a ∈ alphabet) (hout : ∀ e ∈ R.prefixes, ¬ e.Mem w) (fuel : ℕ) :
    R.split fuel w = .error .fuel ∨ ∃ t, R.split fuel w = .ok (some t) := by
  obtain ⟨hi, ha⟩ := reached_inv he hal hob h
  have hR' := recognized_of hi hR
  refine split_exists hi hR' (fun i hi' hP => ?_) hw (by rw [ha]; exact hα) ?_ fuel
  · obtain ⟨m, hm, hf⟩ := hcov i hi' hP
    exact ⟨m, hm, fromTable_of hi hf⟩
  · by_contra hc
    obtain ⟨i, hi', p, hp, hm⟩ := (hR'.inPrefixes_iff hi hw).1 (by simpa using hc)
    exact hout _ ((hR.prefixes _).2 ⟨i, hi', p, hp, rfl⟩) hm

/-- C47: `contains` answers what the system answers for a word of `P` that is reached by replacing beginnings by related
words. -/
theorem C47_contains (he : EnvOk env f) (hal : alphabet.Nodup) (hob : ∀ a ∈ alphabet, a ≠ unobservable)
    (h : Reached env alphabet s T) (hR : TableLanguage f T R) {w : TimedWord} (hw : w.Legal) {fuel n : ℕ} {b : Bool}
    (hc : R.contains fuel n w = .ok b) :
    ∃ x, Relation.ReflTransGen (fun a b => ∃ t, R.Step a b t) w x ∧ (∃ e ∈ R.prefixes, e.Mem x) ∧ b = f x := by
  have hi := (reached_inv he hal hob h).1
  have hR' := recognized_of hi hR
  rcases CEX.reductions_ok (ofRegion_of hi hR) fuel n (w := w) .empty hw with ⟨e, g1, g2⟩ | ⟨l, x, g1, g2, g3, g4, g5, g6, g7⟩
  · rw [hc] at g2; simp at g2
  · rw [hc] at g2
    simp only [Except.ok.injEq] at g2
    refine ⟨x.1, ?_, ?_, by rw [g2, hR'.isFinal_eq he hi g6 g5]⟩
    · have key : ∀ (l : List (TimedWord × TimedWord)) (a x : TimedWord × TimedWord), l.head? = some a → l.getLast? = some x →
          a.1.Legal → l.IsChain (fun a b => CEX.Reduces R a.1 b.1 b.2) →
          Relation.ReflTransGen (fun a b => ∃ t, R.Step a b t) a.1 x.1 := by
        intro l
        induction l with
        | nil => intro a x ha; simp at ha
        | cons y l ih =>
          intro a x ha hx hl hc
          simp only [List.head?_cons, Option.some.injEq] at ha
          subst ha
          cases l with
          | nil => simp only [List.getLast?_singleton, Option.some.injEq] at hx; subst hx; exact .refl
          | cons z l =>
            rw [List.isChain_cons_cons] at hc
            rw [List.getLast?_cons_cons] at hx
            exact .head ⟨z.2, step_of hi hR hl hc.1⟩ (ih z x rfl hx hc.1.legal.1 hc.2)
      exact key l (w, .empty) x g3 g4 hw g7
    · obtain ⟨i, hiP, p, hp, hm⟩ := (hR'.inPrefixes_iff hi g6).1 g5
      exact ⟨_, (hR.prefixes _).2 ⟨i, hiP, p, hp, rfl⟩, hm⟩

/-- C47: a language whose morphisms preserve the language of the system is right. -/
theorem C47_correct (he : EnvOk env f) (hal : alphabet.Nodup) (hob : ∀ a ∈ alphabet, a ≠ unobservable)
    (h : Reached env alphabet s T) (hR : TableLanguage f T R) {w : TimedWord} (hw : w.Legal) {fuel n : ℕ} {b : Bool}
    (hc : R.contains fuel n w = .ok b)
    (hM : ∀ m ∈ R.morphisms, ∀ u u', m.domain.Mem u → m.codomain.Mem u' → m.rel.Relates u u' →
      ∀ t : TimedWord, t.Legal → f (u.append t) = f (u'.append t)) : b = f w := by
  obtain ⟨x, h1, h2, h3⟩ := C47_contains he hal hob h hR hw hc
  rw [h3]
  clear h3 h2
  induction h1 with
  | refl => rfl
  | tail _ hst ih =>
    obtain ⟨t, hst⟩ := hst
    obtain ⟨m, hm, p, p', b1, b2, b3, b4, b5⟩ := hst.by_morphism
    rw [← ih, b5, b4, hM m hm p p' b1 b2 b3 t hst.legal.2]

/-- C47: with a morphism for every prefix outside of `P`, `contains` is defined for every word over the alphabet; the only
failure is the given bound on the iterations. -/
theorem C47_contains_defined (he : EnvOk env f) (hal : alphabet.Nodup) (hob : ∀ a ∈ alphabet, a ≠ unobservable)
    (h : Reached env alphabet s T) (hR : TableLanguage f T R)
    (hcov : ∀ i < T.prefixes.length, i ∉ T.pIndices → ∃ m ∈ R.morphisms, MorphismOf f T i m) {w : TimedWord} (hw : w.Legal)
    (hα : ∀ a ∈ w.word, a ∈ alphabet) (fuel n : ℕ) :
    R.contains fuel n w = .error .fuel ∨ ∃ b, R.contains fuel n w = .ok b := by
  obtain ⟨hi, ha⟩ := reached_inv he hal hob h
  refine contains_total hi (recognized_of hi hR) (fun i hi' hP => ?_) fuel n hw (by rw [ha]; exact hα)
  obtain ⟨m, hm, hf⟩ := hcov i hi' hP
  exact ⟨m, hm, fromTable_of hi hf⟩

/-- C47: `handleCEX` on any word.  Let `R` be the language read off the table.  If `R` answers as the system does, the word is
no counterexample and `std::logic_error` is thrown; if `R` answers otherwise, exactly one suffix of the word is added,
which shows that a morphism of the table does not preserve the language of the system.  `abort()` is never called, and
the prefixes of the word are never added. -/
theorem C47_handleCEX (he : EnvOk env f) (hal : alphabet.Nodup) (hob : ∀ a ∈ alphabet, a ≠ unobservable)
    (h : Reached env alphabet s T) {w : TimedWord} (hw : w.Legal) :
    ∃ R T1, (toRecognizable env).run T = .ok (R, T1) ∧
      (∀ e, R.contains env.fuel env.fuel w = .error e → (handleCEX env w).run T = .error e) ∧
      (R.contains env.fuel env.fuel w = .ok (f w) → (handleCEX env w).run T = .error .exception) ∧
      (R.contains env.fuel env.fuel w = .ok (!f w) → ∃ T', (handleCEX env w).run T = .ok ((), T') ∧ Separated f w T T') := by
  have hi := (reached_inv he hal hob h).1
  obtain ⟨R, T1, h1, _, _, _, h5⟩ := handleCEX_ok he hi hw
  refine ⟨R, T1, h1, fun e hc => ?_, fun hc => ?_, fun hc => ?_⟩
  · rw [hc] at h5; exact h5
  · rw [hc] at h5; simpa using h5
  · rw [hc] at h5
    simp only at h5
    rw [if_neg (by simp)] at h5
    obtain ⟨T', a, _, b⟩ := h5
    exact ⟨T', a, b⟩

/-- C47: if `handleCEX` returns, the word was a counterexample, and a suffix of it was added that separates. -/
theorem C47_progress (he : EnvOk env f) (hal : alphabet.Nodup) (hob : ∀ a ∈ alphabet, a ≠ unobservable)
    (h : Reached env alphabet s T) {w : TimedWord} (hw : w.Legal) (hr : (handleCEX env w).run T = .ok ((), T')) :
    Separated f w T T' ∧ ∃ R T1, (toRecognizable env).run T = .ok (R, T1) ∧
      R.contains env.fuel env.fuel w = .ok (!f w) := by
  have hi := (reached_inv he hal hob h).1
  obtain ⟨R, T1, h1, _, _, _, h5⟩ := handleCEX_ok he hi hw
  cases hc : R.contains env.fuel env.fuel w with
  | error e => rw [hc] at h5; simp only at h5; rw [hr] at h5; simp at h5
  | ok b =>
    rw [hc] at h5
    simp only at h5
    by_cases hb : b = f w
    · rw [if_pos hb, hr] at h5; simp at h5
    · rw [if_neg hb] at h5
      obtain ⟨T'', a, _, hs⟩ := h5
      rw [hr] at a
      simp only [Except.ok.injEq, Prod.mk.injEq, true_and] at a
      subst a
      refine ⟨hs, R, T1, h1, ?_⟩
      rw [hc]
      revert hb; cases b <;> cases f w <;> simp

/-- C47: the reduction of any word by the language of a table that the loop of the learner has made ready ends: from some
number of iterations on, the bound given to the model is never what stops it. -/
theorem C47_terminates (he : EnvOk env f) (hal : alphabet.Nodup) (hob : ∀ a ∈ alphabet, a ≠ unobservable)
    {T0 : ObsTable σ} (h : Reached env alphabet s T0) (hreg : T0.Regular) {k : ℕ} (hk : (refine env k).run T0 = .ok ((), T))
    (hr : (toRecognizable env).run T = .ok (R, T')) {w : TimedWord} (hw : w.Legal) :
    ∃ N, ∀ fuel ≥ N, ∀ n ≥ N, R.contains fuel n w ≠ .error .fuel := by
  have hi := (reached_inv he hal hob h).1
  obtain ⟨g1, _, _, _, g5⟩ := (refine_ok (E := fun _ => True) he trivial trivial k hi hreg).ok hk
  obtain ⟨h1, _, h3, _⟩ := (toRecognizable_ok (E := fun _ => True) he g1).ok hr
  exact h3.halts_all h1 (timeClosed_of he g1 g5 hr) hw

/-- C47: `handleCEX` ends on every word, if the table has been made ready by the loop of the learner: from some number of
iterations on, the bound given to the model is never what stops it.  The word is then no counterexample for the language of
the table and an exception is thrown, or a suffix of it is added, or (`undefined`) a prefix of it has no morphism. -/
theorem C47_handleCEX_terminates (he : EnvOk env f) (hal : alphabet.Nodup) (hob : ∀ a ∈ alphabet, a ≠ unobservable)
    {T0 : ObsTable σ} (h : Reached env alphabet s T0) (hreg : T0.Regular) {k : ℕ} (hk : (refine env k).run T0 = .ok ((), T))
    {w : TimedWord} (hw : w.Legal) : ∃ N, ∀ n ≥ N, match (handleCEX { env with fuel := n } w).run T with
      | .ok (_, T') => Separated f w T T'
      | .error e => e = .exception ∨ e = .undefined := by
  have hi := (reached_inv he hal hob h).1
  obtain ⟨g1, _, _, _, g5⟩ := (refine_ok (E := fun _ => True) he trivial trivial k hi hreg).ok hk
  have env_ok : ∀ n, EnvOk { env with fuel := n } f := fun n =>
    ⟨he.answers, he.inv, ⟨he.lawful.orderP, he.lawful.orderRel, he.lawful.orderRow⟩⟩
  have same : ∀ n, toRecognizable { env with fuel := n } = toRecognizable env := fun n => by
    have h2 : ∀ is, findMorphisms { env with fuel := n } is = findMorphisms env is := fun is => by
      induction is with
      | nil => rfl
      | cons i is ih => unfold findMorphisms; rw [ih]
    unfold toRecognizable
    simp only [h2]
  obtain ⟨R, T1, h1, _, _, h4, _⟩ := handleCEX_ok he g1 hw
  obtain ⟨N, hN⟩ := C47_terminates he hal hob h hreg hk h1 hw
  have i1 := ((toRecognizable_ok (E := fun _ => True) he g1).ok h1).1
  have hun : ∀ fuel n (w : TimedWord) e, R.contains fuel n w = .error e → e = .fuel ∨ e = .undefined := by
    intro fuel n
    induction n with
    | zero => intro w e he; left; simpa [RecognizableLanguage.contains] using he.symm
    | succ n ih =>
      intro w e he
      rw [RecognizableLanguage.contains] at he
      split at he
      · simp at he
      · rename_i hin
        rw [RecognizableLanguage.maps, if_neg hin] at he
        cases hs : R.split fuel w with
        | error e' =>
          rw [hs] at he
          have : e' = .fuel := by
            unfold RecognizableLanguage.split at hs
            split at hs
            · simpa using hs.symm
            · split at hs
              · simp at hs
              · split at hs <;> simp at hs
          simp only [Except.error.injEq] at he
          left; rw [← he, this]
        | ok o =>
          rw [hs] at he
          cases o with
          | none => right; simpa using he.symm
          | some t =>
            dsimp only at he
            cases ha : t.apply with
            | none => rw [ha] at he; right; simpa using he.symm
            | some w' => rw [ha] at he; exact ih w' e he
  refine ⟨N, fun n hn => ?_⟩
  obtain ⟨R', T2, k1, _, _, _, k5⟩ := handleCEX_ok (env_ok n) g1 hw
  rw [same n, h1] at k1
  simp only [Except.ok.injEq, Prod.mk.injEq] at k1
  obtain ⟨rfl, rfl⟩ := k1
  have hne := hN n hn n hn
  dsimp only at k5
  cases hcn : R.contains n n w with
  | error e =>
    rw [hcn] at k5
    rw [k5]
    rcases hun n n w e hcn with rfl | rfl
    · exact absurd hcn hne
    · exact Or.inr rfl
  | ok b =>
    rw [hcn] at k5
    dsimp only at k5
    split at k5
    · rw [k5]; exact Or.inl rfl
    · obtain ⟨T', a, _, b⟩ := k5
      rw [a]; exact b

/-- In the example: a counterexample that is handled, and words that are none. -/
example : okB (ObsTable.create (simEnv obA 20) [actA] (Runner.start obA)) (fun T =>
    okB ((refine (simEnv obA 20) 20).run T) fun p =>
      okB ((handleCEX (simEnv obA 20) ⟨[actA], [3 / 2, 0]⟩).run p.2) fun q =>
        q.2.pIndices.length == 2 && q.2.suffixes.length == 2) = true := by decide +kernel

/-- The failure of a result. -/
def failB {α : Type} : Except Fail α → Fail → Bool
  | .ok _, _ => false
  | .error e, e' => e == e'

example : okB (ObsTable.create (simEnv obA 20) [actA] (Runner.start obA)) (fun T =>
    okB ((refine (simEnv obA 20) 20).run T) fun p =>
      failB ((handleCEX (simEnv obA 20) ⟨[actA], [1, 0]⟩).run p.2) .exception &&
        failB ((handleCEX (simEnv obA 20) ⟨[actA], [1 / 2, 0]⟩).run p.2) .exception) = true := by decide +kernel

private theorem okB_run {α : Type} {m : Except Fail α} {p : α → Bool} (h : okB m p = true) : ∃ a, m = .ok a ∧ p a = true := by
  cases m with
  | error e => simp [okB] at h
  | ok a => exact ⟨a, rfl, h⟩

/-- The hypotheses of `C47_handleCEX_terminates` are met by the table of the system `obA` and every word. -/
example (f : TimedWord → Bool) (hf : ∀ w, f w = true ↔ obA.Accepts w) :
    ∃ T0 T, Reached (simEnv obA 20) [actA] (Runner.start obA) T0 ∧ (refine (simEnv obA 20) 20).run T0 = .ok ((), T) ∧
      ∀ w : TimedWord, w.Legal →
      ∃ N, ∀ n ≥ N, match (handleCEX (simEnv obA n) w).run T with
        | .ok (_, T') => Separated f w T T'
        | .error e => e = .exception ∨ e = .undefined := by
  have he := obA_ok f hf 20
  have hal : [actA].Nodup := by simp
  have hob : ∀ a ∈ [actA], a ≠ unobservable := by
    intro a ha
    rw [List.mem_singleton] at ha
    subst ha
    decide +kernel
  have run : okB (ObsTable.create (simEnv obA 20) [actA] (Runner.start obA)) (fun T =>
      okB ((refine (simEnv obA 20) 20).run T) fun _ => true) = true := by decide +kernel
  obtain ⟨T0, h0, h1⟩ := okB_run run
  obtain ⟨⟨⟨⟩, T⟩, h2, _⟩ := okB_run h1
  have hr := C46_create_regular he hal hob h0
  refine ⟨T0, T, .create h0, h2, fun w hw => ?_⟩
  obtain ⟨N, hN⟩ := C47_handleCEX_terminates he hal hob (.create h0) hr h2 hw
  refine ⟨N, fun n hn => ?_⟩
  have e : simEnv obA n = ⟨(simEnv obA 20).ask, (simEnv obA 20).near, (simEnv obA 20).nearColumn, (simEnv obA 20).orderP,
      (simEnv obA 20).orderRel, (simEnv obA 20).orderRow, n⟩ := rfl
  have := hN n hn
  rw [← e] at this
  cases hc : (handleCEX (simEnv obA n) w).run T with
  | ok q => rw [hc] at this; exact this
  | error x => rw [hc] at this; exact this

end LearnTA.Props
