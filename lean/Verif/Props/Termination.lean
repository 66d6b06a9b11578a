import Verif.Lemmas.Forgetful
import Verif.Props.Counterexample

/-!
# C82: the operations of the observation table return
-/

namespace LearnTA.Props
open ObsTable
variable {σ : Type} {env : Env σ} {f : TimedWord → Bool} {alphabet : List Action} {s : σ} {T : ObsTable σ} {K : ℕ}

/-- C82: the language of an automaton without unobservable transitions whose resets assign integers forgets waits that are longer
than the constants in its guards. -/
theorem C82_forgetful (A : TA) (hw : A.WF) (he : A.EpsFree) (hI : A.IntResets) (hK : A.GuardsUpTo K)
    (hf : ∀ w, w.Legal → (f w = true ↔ A.Accepts w)) : Forgetful f K :=
  TA.forgetful hw.closed hw.resets he hI hK hf

/-- C82: for such a language the constructor returns: the recursion that moves time successors to `P` is at most `2 K + 3` deep. -/
theorem C82_create_returns (he : EnvOk env f) (hF : Forgetful f K) (hal : alphabet.Nodup)
    (hob : ∀ a ∈ alphabet, a ≠ unobservable) (s : σ) (hfuel : 2 * K + 3 ≤ env.fuel) :
    ∃ T, ObsTable.create env alphabet s = .ok T := by
  rw [create_eq]
  have h := create_ok (E := fun _ => False) he (.inr (enough_of hF .init (by
    simp only [ForwardRegional.init, ElementaryLanguage.empty, List.length_nil]; omega))) hal hob s
  cases hr : (do moveToP env env.fuel 0; refreshTable env : TableM σ Unit).run (start alphabet s) with
  | error e => exact (h.error hr).elim
  | ok p => exact ⟨p.2, rfl⟩

/-- C82: and so do `close`, `exteriorConsistent` and `timeSaturate` on every table that can be reached: the recursion is at most
`(n + 1) (2 K + 1) + 2` deep, where `n` is the length of the longest prefix in the table. -/
theorem C82_operations_return (he : EnvOk env f) (hF : Forgetful f K) (hal : alphabet.Nodup)
    (hob : ∀ a ∈ alphabet, a ≠ unobservable) (h : Reached env alphabet s T)
    (hfuel : ∀ p ∈ T.prefixes, (p.word.length + 1) * (2 * K + 1) + 2 ≤ env.fuel) :
    (∃ b T', (close env).run T = .ok (b, T')) ∧ (∃ b T', (exteriorConsistent env).run T = .ok (b, T')) ∧
      ∃ b T', (timeSaturate env).run T = .ok (b, T') := by
  have hi := (reached_inv he hal hob h).1
  have hen : ∀ p ∈ T.prefixes, Enough f env.fuel p := fun p hp =>
    enough_of hF (hi.closed.region p hp).1 (by have := hfuel p hp; omega)
  have key : ∀ (m : TableM σ Bool) Q, Ok (fun _ => False) m T Q → ∃ b T', m.run T = .ok (b, T') := by
    intro m Q hm
    cases hr : m.run T with
    | error e => exact (hm.error hr).elim
    | ok p => exact ⟨p.1, p.2, rfl⟩
  exact ⟨key _ _ (close_ok he (.inr hen) hi), key _ _ (exterior_ok he (.inr hen) hi), key _ _ (timeSaturate_ok he (.inr hen) hi)⟩

/-- C82: one round of the loop of the learner does not fail otherwise than by `abort()`. -/
theorem C82_round_returns (he : EnvOk env f) (hF : Forgetful f K) (hal : alphabet.Nodup)
    (hob : ∀ a ∈ alphabet, a ≠ unobservable) (h : Reached env alphabet s T) (hreg : T.Regular)
    (hfuel : ∀ p ∈ T.prefixes, (p.word.length + 1) * (2 * K + 1) + 2 ≤ env.fuel) (e : Fail)
    (hr : (refineStep env).run T = .error e) : e = .abort := by
  have hi := (reached_inv he hal hob h).1
  have hen : ∀ p ∈ T.prefixes, Enough f env.fuel p := fun p hp =>
    enough_of hF (hi.closed.region p hp).1 (by have := hfuel p hp; omega)
  exact (refineStep_ok (E := fun e => e = .abort) he (.inr hen) rfl hi hreg).error hr

theorem progress_size {T T' : ObsTable σ} (h : Inv f T) (hp : Progress f T T') :
    T.pIndices.length + T.suffixes.length < T'.pIndices.length + T'.suffixes.length := by
  rcases hp with hm | ⟨t, ht, x, hx, hm⟩
  · obtain ⟨i, h1, h2, _⟩ := hm.more
    have : (i :: T.pIndices).length ≤ T'.pIndices.length := by
      refine (List.subperm_of_subset (List.nodup_cons.2 ⟨h2, h.closed.inside.1⟩) fun k hk => ?_).length_le
      rcases List.mem_cons.1 hk with rfl | hk
      · exact h1
      · exact hm.grew.inside k hk
    rw [hm.suffixes]
    simp only [List.length_cons] at this
    omega
  · rw [hm.same.2, hm.suffixes]; simp

theorem refine_succ (n : ℕ) (T : ObsTable σ) : (ObsTable.refine env (n + 1)).run T =
    match (refineStep env).run T with
    | .ok (true, T') => .ok ((), T')
    | .ok (false, T') => (ObsTable.refine env n).run T'
    | .error e => .error e := by
  rw [ObsTable.refine, StateT.run_bind]
  cases hr : (refineStep env).run T with
  | error e => rfl
  | ok p => obtain ⟨b, T1⟩ := p; cases b <;> rfl

/-- C82: every round of the loop of the learner but the last one adds to `P` or to the suffixes.  So if the loop ends, then it does so
after at most as many rounds as it has added prefixes of `P` and suffixes, and one more. -/
theorem C82_rounds (he : EnvOk env f) (hal : alphabet.Nodup) (hob : ∀ a ∈ alphabet, a ≠ unobservable)
    (h : Reached env alphabet s T) (hreg : T.Regular) {n : ℕ} {T' : ObsTable σ} (hr : (ObsTable.refine env n).run T = .ok ((), T')) (m : ℕ)
    (hm : T'.pIndices.length + T'.suffixes.length < T.pIndices.length + T.suffixes.length + m) :
    (ObsTable.refine env m).run T = .ok ((), T') := by
  have hi := (reached_inv he hal hob h).1
  clear h
  have size : ∀ (n : ℕ) (T T' : ObsTable σ), Inv f T → T.Regular → (ObsTable.refine env n).run T = .ok ((), T') →
      T.pIndices.length + T.suffixes.length ≤ T'.pIndices.length + T'.suffixes.length := by
    intro n
    induction n with
    | zero => intro T T' _ _ hr; cases hr
    | succ n ih =>
      intro T T' hi hreg hr
      have hs := refineStep_ok (E := fun _ => True) he (.inl trivial) trivial hi hreg
      rw [refine_succ] at hr
      cases hc : (refineStep env).run T with
      | error e => rw [hc] at hr; cases hr
      | ok p =>
        obtain ⟨b, T1⟩ := p
        obtain ⟨h1, h2, h3, h4, h5⟩ := hs.ok hc
        rw [hc] at hr
        cases b with
        | true =>
          simp only [Except.ok.injEq, Prod.mk.injEq, true_and] at hr
          subst hr
          rw [(h4 rfl).2.2.1, (h4 rfl).2.2.2]
        | false =>
          have := ih T1 T' h1 h3 hr
          have := progress_size hi (h5 rfl)
          omega
  induction n generalizing T m with
  | zero => cases hr
  | succ n ih =>
    have hs := refineStep_ok (E := fun _ => True) he (.inl trivial) trivial hi hreg
    have hsz := size _ _ _ hi hreg hr
    obtain ⟨m, rfl⟩ : ∃ k, m = k + 1 := ⟨m - 1, by omega⟩
    rw [refine_succ] at hr ⊢
    cases hc : (refineStep env).run T with
    | error e => rw [hc] at hr; cases hr
    | ok p =>
      obtain ⟨b, T1⟩ := p
      obtain ⟨h1, h2, h3, h4, h5⟩ := hs.ok hc
      rw [hc] at hr
      cases b with
      | true => exact hr
      | false =>
        have := progress_size hi (h5 rfl)
        exact ih h3 hr m (by omega) h1

/-! ### The example automaton: the constants are at most 1 -/

theorem obA_guards : obA.GuardsUpTo 1 := by
  have : ∀ p ∈ obA.states, ∀ a, ∀ t ∈ (obA.loc p).next a, ∀ c ∈ t.guard, c.c = 1 := by decide +kernel
  intro p hp a t ht c hc
  have h := this p hp a t ht c hc
  rw [h]; decide

theorem obA_wf : obA.WF := wf_of_check (by decide +kernel)

theorem obA_epsFree : obA.EpsFree := by unfold TA.EpsFree; decide +kernel

theorem obA_forgetful (hf : ∀ w, f w = true ↔ obA.Accepts w) : Forgetful f 1 :=
  C82_forgetful obA obA_wf obA_epsFree obA_intResets obA_guards fun w _ => hf w

/-- The assumptions of the three theorems hold of the automaton `obA`, and the table it gives has prefixes with words. -/
example (hf : ∀ w, f w = true ↔ obA.Accepts w) :
    EnvOk (simEnv obA 20) f ∧ Forgetful f 1 ∧ ∃ T, ObsTable.create (simEnv obA 20) [actA] (Runner.start obA) = .ok T ∧
      Reached (simEnv obA 20) [actA] (Runner.start obA) T ∧ T.Regular ∧ T.prefixes.length = 3 ∧
      ∀ p ∈ T.prefixes, (p.word.length + 1) * (2 * 1 + 1) + 2 ≤ (simEnv obA 20).fuel := by
  have he := obA_ok f hf 20
  have hob : ∀ a ∈ [actA], a ≠ unobservable := by decide +kernel
  obtain ⟨T, hT⟩ := C82_create_returns he (obA_forgetful hf) (List.nodup_singleton actA) hob (Runner.start obA) (by decide)
  have hc : okB (ObsTable.create (simEnv obA 20) [actA] (Runner.start obA)) (fun T => T.prefixes.length == 3 &&
      T.prefixes.all fun p => decide (p.word.length ≤ 1)) = true := by decide +kernel
  rw [hT] at hc
  simp only [okB, Bool.and_eq_true, beq_iff_eq, List.all_eq_true, decide_eq_true_eq] at hc
  refine ⟨he, obA_forgetful hf, T, hT, .create hT, C46_create_regular he (List.nodup_singleton actA) hob hT, hc.1, fun p hp => ?_⟩
  have := hc.2 p hp
  show _ ≤ 20
  omega

end LearnTA.Props
