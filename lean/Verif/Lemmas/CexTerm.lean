import Verif.Lemmas.Counterexample
import Verif.Lemmas.CexSample
import Verif.Lemmas.ObservationTable7
import Mathlib.Algebra.Order.Archimedean.Basic

/-!
# Termination of the analysis of counterexamples
-/

namespace LearnTA
open TimedCondition Zone RecognizableLanguage

namespace Ok
variable {σ α : Type} {E : Fail → Prop} {T : ObsTable σ}

theorem and {m : TableM σ α} {Q Q' : α → ObsTable σ → Prop} (h : Ok E m T Q) (h' : Ok E m T Q') :
    Ok E m T fun a T' => Q a T' ∧ Q' a T' := by
  unfold Ok at *
  cases hm : m T with
  | error e => rw [hm] at h; exact h
  | ok p => rw [hm] at h h'; exact ⟨h, h'⟩

theorem lift_any {o : Option α} {Q : α → ObsTable σ → Prop} (h : ∀ a, o = some a → Q a T) :
    Ok (fun _ => True) (ObsTable.lift o) T Q := by
  cases o with
  | none => exact Ok.throw trivial
  | some a => exact Ok.lift rfl (h a rfl)

end Ok

namespace ObsTable
variable {σ : Type} {env : Env σ} {f : TimedWord → Bool} {T : ObsTable σ}

/-- Nothing is recorded for the row `i` but the empty renaming into `p`. -/
def OnlyInto (T : ObsTable σ) (i p : ℕ) : Prop := ∀ j r, T.getRelation i j = some r → j = p ∧ r = []

theorem OnlyInto.erase {i p : ℕ} (h : T.OnlyInto i p) (j : ℕ) : (T.eraseRelation i j).OnlyInto i p := by
  intro k r hk
  by_cases e : k = j
  · subst e
    unfold eraseRelation at hk
    rw [getRelation_put, if_pos rfl] at hk
    have := List.mem_filter.1 (lookup_mem hk)
    simp at this
  · rw [getRelation_erase i j i k (Or.inr e)] at hk
    exact h k r hk

theorem findMorphism_only {i p : ℕ} (h : T.OnlyInto i p) (heq : T.rowsEquivalent i p [] = some true) (js : List ℕ)
    (hn : js.Nodup) (hj : ∀ j ∈ js, ∃ r, T.getRelation i j = some r) :
    Ok (fun _ => True) (findMorphism i js) T fun _ T' => T'.OnlyInto i p := by
  cases js with
  | nil => exact Ok.pure h
  | cons j js =>
    obtain ⟨r, hr⟩ := hj j (by simp)
    obtain ⟨rfl, rfl⟩ := h j r hr
    have hjs : js = [] := by
      cases js with
      | nil => rfl
      | cons k ks =>
        obtain ⟨r', hr'⟩ := hj k (by simp)
        obtain ⟨rfl, _⟩ := h k r' hr'
        simp at hn
    subst hjs
    unfold findMorphism
    refine Ok.bind (Ok.get ?_)
    have fin : Ok (fun _ => True) (do
        modify fun T => T.eraseRelation i j
        findMorphism i [] : TableM σ (Option SingleMorphism)) T fun _ T' => T'.OnlyInto i j :=
      Ok.bind (Ok.modify (Ok.pure (h.erase j)))
    have step : ∀ (m : TableM σ (Option RenamingRelation)), Ok (fun _ => True) m T (fun _ T' => T' = T) →
        Ok (fun _ => True) (do
          let r ← m
          if r.isSome then
            let T ← get
            let p ← lift T.prefixes[i]?
            let q ← lift T.prefixes[j]?
            let r ← lift (T.getRelation i j)
            pure (some ⟨p.toElementaryLanguage, q.toElementaryLanguage, r⟩)
          else do
            modify fun T => T.eraseRelation i j
            findMorphism i []) T fun _ T' => T'.OnlyInto i j := by
      intro m hm
      refine Ok.bind (hm.mono ?_)
      rintro o T' rfl
      split
      · refine Ok.bind (Ok.get ?_)
        refine Ok.bind (Ok.lift_any fun p hp => ?_)
        refine Ok.bind (Ok.lift_any fun q hq => ?_)
        refine Ok.bind (Ok.lift_any fun r hr => ?_)
        exact Ok.pure h
      · exact fin
    by_cases hP : T.inP j = true
    · rw [if_pos hP]
      refine step _ ?_
      unfold equivalentWithMemo
      refine Ok.bind (Ok.get ?_)
      split
      · exact Ok.pure rfl
      · rw [hr]
        refine Ok.bind (Ok.lift heq ?_)
        exact Ok.pure rfl
    · rw [if_neg hP]
      exact step _ (Ok.pure rfl)

theorem findMorphisms_only (he : EnvOk env f) {i p : ℕ} (is : List ℕ) (h : Inv f T) (ho : T.OnlyInto i p)
    (heq : T.rowsEquivalent i p [] = some true) (hi : ∀ k ∈ is, k < T.prefixes.length) :
    Ok (fun _ => True) (findMorphisms env is) T fun _ T' => T'.OnlyInto i p := by
  induction is generalizing T with
  | nil => exact Ok.pure ho
  | cons k is ih =>
    have hk := hi k (by simp)
    unfold findMorphisms
    refine Ok.bind (Ok.get ?_)
    have step : ∀ (m : TableM σ (Option SingleMorphism)),
        Ok (fun _ => True) m T (fun _ T' => RowStep f k T T' ∧ T'.OnlyInto i p) →
        Ok (fun _ => True) (do
          let o ← m
          let rest ← findMorphisms env is
          pure (o.toList ++ rest)) T fun _ T' => T'.OnlyInto i p := by
      intro m hm
      refine Ok.bind (hm.mono ?_)
      rintro o T1 ⟨g1, g2⟩
      refine Ok.bind ((ih g1.inv g2 (by rw [g1.step.rowsEquivalent]; exact heq) fun k hk => by
        rw [g1.step.prefixes]; exact hi k (by simp [hk])).mono ?_)
      intro _ T2 h2
      exact Ok.pure h2
    by_cases hP : T.inP k = true
    · rw [if_pos hP]
      exact step _ (Ok.pure ⟨.refl h k, ho⟩)
    · rw [if_neg hP]
      refine step _ ?_
      have hP' : k ∉ T.pIndices := fun e => hP (inP_iff.2 e)
      have h1 := findMorphism_ok (E := fun _ => True) h hk hP' _ (orderRow_lt he h k)
      by_cases e : k = i
      · subst e
        obtain ⟨o1, o2⟩ := orderRow_ok he h k
        exact (h1.and (findMorphism_only ho heq _ o1 o2)).mono fun _ _ hx => ⟨hx.1.1, hx.2⟩
      · refine h1.mono fun _ T' hx => ⟨hx.1, fun j r hr => ho j r ?_⟩
        rw [hx.1.rel i j (fun x => e x.symm)] at hr; exact hr

theorem toRecognizable_only (he : EnvOk env f) {i p : ℕ} (h : Inv f T) (ho : T.OnlyInto i p)
    (heq : T.rowsEquivalent i p [] = some true) :
    Ok (fun _ => True) (toRecognizable env) T fun _ T' => T'.OnlyInto i p := by
  unfold toRecognizable
  refine Ok.bind (Ok.get ?_)
  refine Ok.bind (Ok.lift_any fun P _ => ?_)
  refine Ok.bind (Ok.lift_any fun M _ => ?_)
  obtain ⟨_, o2, _⟩ := he.lawful.orderRel T
  refine Ok.bind ((findMorphisms_only he _ h ho heq ?_).mono fun _ T' hT' => Ok.pure hT')
  intro i hi
  obtain ⟨l, hl⟩ := Option.isSome_iff_exists.1 (o2 i hi)
  exact (h.rel i l hl).1

/-- The time successors of prefixes of `P` are in `P` or have no relation but the empty renaming into the prefix. -/
def TimeClosed (T : ObsTable σ) : Prop :=
  ∀ p ∈ T.pIndices, ∃ s, T.continuousSuccessors p = some s ∧ (s ∈ T.pIndices ∨ T.OnlyInto s p)

theorem timeClosed_of (he : EnvOk env f) (h : Inv f T) (hs : ∀ p ∈ T.pIndices, Settled f T p) {R : RecognizableLanguage}
    {T' : ObsTable σ} (hr : (toRecognizable env).run T = .ok (R, T')) : T'.TimeClosed := by
  have hstep := ((toRecognizable_ok (E := fun _ => True) he h).ok hr).2.1
  intro p hp
  rw [hstep.pIndices] at hp
  obtain ⟨s, h1, h2⟩ := hs p hp
  refine ⟨s, by rw [hstep.cont]; exact h1, ?_⟩
  rcases h2 with h2 | ⟨⟨h2, _⟩, h3⟩
  · exact Or.inl (by rw [hstep.pIndices]; exact h2)
  · refine Or.inr ((toRecognizable_only he h ?_ h3).ok hr)
    intro j r hjr
    unfold getRelation at hjr
    rw [h2] at hjr
    simp only [Option.bind_some] at hjr
    have := lookup_mem hjr
    simpa using this

/-- A word is in one prefix only. -/
theorem Inv.same_index (h : Inv f T) {i k : ℕ} {P Q : ForwardRegional} (hP : T.prefixes[i]? = some P)
    (hQ : T.prefixes[k]? = some Q) {w : TimedWord} (h1 : P.toElementaryLanguage.Mem w) (h2 : Q.toElementaryLanguage.Mem w) :
    i = k := by
  obtain ⟨n1, v1, o1, _⟩ := (h.preOk (List.mem_of_getElem? hP)).reach.of
  obtain ⟨n2, v2, o2, _⟩ := (h.preOk (List.mem_of_getElem? hQ)).reach.of
  obtain ⟨w1, l1, o1'⟩ := (o1.mem_iff _).1 h1
  obtain ⟨w2, l2, o2'⟩ := (o2.mem_iff _).1 h2
  have : n1 = n2 := by omega
  subst this
  exact h.closed.distinct i k P Q hP hQ (o1'.beq o2' (w1.symm.trans w2))

end ObsTable

namespace RecognizableLanguage

/-- `contains` ends for the word: more iterations than some number are never needed. -/
def Halts (R : RecognizableLanguage) (w : TimedWord) : Prop :=
  ∃ N, ∀ fuel ≥ N, ∀ n ≥ N, R.contains fuel n w ≠ .error .fuel

theorem halts_step {R : RecognizableLanguage} {w : TimedWord} (hw : w.Legal)
    (h : R.inPrefixes w = false → ∀ fuel t w', R.split fuel w = .ok (some t) → t.apply = some w' → R.Halts w') :
    R.Halts w := by
  by_cases hin : R.inPrefixes w = true
  · refine ⟨1, fun fuel _ n hn => ?_⟩
    obtain ⟨k, rfl⟩ : ∃ k, n = k + 1 := ⟨n - 1, by omega⟩
    unfold contains
    rw [if_pos hin]; simp
  · have h := h (by simpa using hin)
    obtain ⟨N0, l, h1, _⟩ := Props.C56_prefixes_chain w hw.wf hw.nonneg
    have hsplit : ∀ fuel, N0 < fuel → R.split fuel w = R.split (N0 + 1) w := by
      intro fuel hf
      unfold split
      rw [h1 fuel hf, h1 (N0 + 1) (by omega)]
    have hunf : ∀ fuel, N0 < fuel → ∀ n, R.contains fuel (n + 1) w = match R.split (N0 + 1) w with
        | .error e => .error e
        | .ok none => .error .undefined
        | .ok (some t) =>
          match t.apply with
          | none => .error .undefined
          | some w' => R.contains fuel n w' := by
      intro fuel hf n
      rw [contains, if_neg hin, maps, if_neg hin, hsplit fuel hf]
      cases R.split (N0 + 1) w with
      | error e => rfl
      | ok o =>
        cases o with
        | none => rfl
        | some t =>
          dsimp only
          cases t.apply <;> rfl
    cases hs : R.split (N0 + 1) w with
    | error e =>
      exfalso
      unfold split at hs
      rw [h1 (N0 + 1) (by omega)] at hs
      simp only at hs
      split at hs
      · simp at hs
      · split at hs <;> simp at hs
    | ok o =>
      rw [hs] at hunf
      cases o with
      | none =>
        refine ⟨N0 + 1, fun fuel hf n hn => ?_⟩
        obtain ⟨k, rfl⟩ : ∃ k, n = k + 1 := ⟨n - 1, by omega⟩
        rw [hunf fuel (by omega)]; simp
      | some t =>
        cases ha : t.apply with
        | none =>
          refine ⟨N0 + 1, fun fuel hf n hn => ?_⟩
          obtain ⟨k, rfl⟩ : ∃ k, n = k + 1 := ⟨n - 1, by omega⟩
          rw [hunf fuel (by omega)]; simp only [ha]; simp
        | some w' =>
          obtain ⟨N1, hN⟩ := h _ t w' hs ha
          refine ⟨N0 + N1 + 1, fun fuel hf n hn => ?_⟩
          obtain ⟨k, rfl⟩ : ∃ k, n = k + 1 := ⟨n - 1, by omega⟩
          rw [hunf fuel (by omega)]; simp only [ha]
          exact hN fuel (by omega) k (by omega)

/-- The last delay if the one of the word is too long. -/
def shortDelay (e : ElementaryLanguage) (w : TimedWord) : ℚ :=
  if Zone.secondOf ((fixDelays e w).upper e.word.length e.word.length) then
    ElementaryLanguage.first ((fixDelays e w).upper e.word.length e.word.length)
  else ((ElementaryLanguage.mk e.word (fixDelays e w)).sample).durations.getLastD 0

theorem lastDelay_cases (e : ElementaryLanguage) (w : TimedWord) :
    lastDelay e w = w.durations.getD e.word.length 0 ∨ lastDelay e w = shortDelay e w := by
  unfold lastDelay shortDelay
  dsimp only
  split
  · exact Or.inl rfl
  · exact Or.inr rfl

theorem shortDelay_congr {e : ElementaryLanguage} {w w' : TimedWord}
    (h : ∀ i < e.word.length, w.durations.getD i 0 = w'.durations.getD i 0) : shortDelay e w = shortDelay e w' := by
  have : fixDelays e w = fixDelays e w' := by
    unfold fixDelays
    refine List.foldl_ext _ _ _ fun c i hi => ?_
    rw [h i (List.mem_range.1 hi)]
  unfold shortDelay
  rw [this]

end RecognizableLanguage

theorem append_delay (w : List Action) (l : List ℚ) (t κ : ℚ) :
    TimedWord.append ⟨w, l ++ [t]⟩ ⟨[], [κ]⟩ = ⟨w, l ++ [t + κ]⟩ := by
  simp [TimedWord.append, TimedWord.addBack, List.getLastD_eq_getLast?]

theorem split_last {w : TimedWord} (hw : w.WF) : ∃ l t, w.durations = l ++ [t] ∧ l.length = w.word.length := by
  have h1 : w.durations.length = w.word.length + 1 := hw
  have hne : w.durations ≠ [] := by intro h; simp [h] at h1
  refine ⟨w.durations.dropLast, w.durations.getLast hne, (List.dropLast_append_getLast _).symm, ?_⟩
  rw [List.length_dropLast]; omega

/-- After an action, no time has passed. -/
theorem ForwardRegional.Reach.action_last {q : ForwardRegional} (hq : q.Reach) {a : Action} {w : TimedWord} {l : List ℚ} {d : ℚ}
    (hw : w.durations = l ++ [d]) (hm : (q.successorAction a).toElementaryLanguage.Mem w) : d = 0 := by
  obtain ⟨k1, v1, hqo, _⟩ := hq.of
  have hso := hqo.successorAction a
  obtain ⟨m1, m2, m3⟩ := (hso.mem_iff _).1 hm
  rw [hw] at m2 m3
  have hk : k1 = l.length := by simpa using m2.symm
  subst hk
  have := hso.zero m3 (i := l.length) (by omega) (by simp)
  rwa [ElementaryLanguage.accV_append _ _ (by omega), accV_ge _ (by omega), zero_add] at this

namespace ObsTable
variable {σ : Type} {env : Env σ} {f : TimedWord → Bool} {T : ObsTable σ}

/-- A step by a time successor. -/
structure TimeStep (T : ObsTable σ) (m : SingleMorphism) (i p : ℕ) (P Q : ForwardRegional) : Prop where
  outside : i ∉ T.pIndices
  inside : p ∈ T.pIndices
  left : T.prefixes[i]? = some P
  right : T.prefixes[p]? = some Q
  succ : P = Q.successor
  eq : m = ⟨P.toElementaryLanguage, Q.toElementaryLanguage, []⟩

theorem Recognized.shape {R : RecognizableLanguage} (hR : Recognized f T R) (h : Inv f T) (hc : T.TimeClosed) {c s : TimedWord}
    {j : ℕ} {q : ForwardRegional} (hj : j ∈ T.pIndices) (hq : T.prefixes[j]? = some q) (hm : q.toElementaryLanguage.Mem c)
    (hs : s.Legal) {t : SplitTriple} (ht : SplitOk R (c.append s) t) :
    ∃ x : TimedWord, x.Legal ∧ s = x.append t.suf ∧ t.pre = c.append x ∧
      (x.word = [] → ∃ κ i p P Q, x = ⟨[], [κ]⟩ ∧ 0 < κ ∧ T.TimeStep t.morphism i p P Q) := by
  have hcl : c.Legal := (h.preOk (List.mem_of_getElem? hq)).legal hm
  obtain ⟨i, j', P, Q', c1, c2, c3, c4, c5, c6, c7, _⟩ := hR.from_table ht.morphism
  have b1 := ht.inDomain
  rw [c5] at b1
  have hpl : t.pre.Legal := (h.preOk (List.mem_of_getElem? c3)).legal b1
  rcases beginnings hcl hs hpl ht.suffix ht.whole.symm with ⟨x, hx, e1, e2⟩ | ⟨n, r, k1, k2, k3, e⟩
  · refine ⟨x, hx, e2, e1, fun hxw => ?_⟩
    obtain ⟨xw, xd⟩ := x
    simp only at hxw
    subst hxw
    obtain ⟨κ, rfl⟩ : ∃ κ, xd = [κ] := by
      have : xd.length = 0 + 1 := hx.wf
      exact List.length_eq_one_iff.1 (by omega)
    have hκ0 : 0 ≤ κ := hx.nonneg κ (by simp)
    have hκ : 0 < κ := by
      rcases eq_or_lt_of_le hκ0 with rfl | h0
      · rw [append_empty hcl.wf] at e1
        rw [e1] at b1
        exact absurd (h.same_index c3 hq b1 hm ▸ hj) c1
      · exact h0
    obtain ⟨cw, cd⟩ := c
    obtain ⟨l, d, hcd, hl⟩ := split_last hcl.wf
    simp only at hcd hl
    subst hcd
    rw [append_delay] at e1
    rw [e1] at b1
    have hd0 : 0 ≤ d := hcl.nonneg d (by simp)
    have hpos : 0 < i := by
      rcases Nat.eq_zero_or_pos i with rfl | hpos
      · exact absurd h.closed.root.2 c1
      · exact hpos
    obtain ⟨k, hk, hki, hpar⟩ := h.closed.parent i hpos (List.getElem?_eq_some_iff.1 c3).1
    obtain ⟨Q, hQ⟩ : ∃ Q, T.prefixes[k]? = some Q := ⟨_, List.getElem?_eq_getElem (h.closed.inside.2 k hk)⟩
    rcases hpar with hs' | ⟨a, ha, hs'⟩
    · obtain ⟨i', hi', hip⟩ := h.closed.time k hk Q hQ
      rw [hs'] at hi'
      simp only [Option.some.injEq] at hi'
      subst hi'
      rw [c3] at hip
      simp only [Option.some.injEq] at hip
      obtain ⟨i', hi', hcl'⟩ := hc k hk
      rw [hs'] at hi'
      simp only [Option.some.injEq] at hi'
      subst hi'
      obtain ⟨rfl, hrel⟩ := (hcl'.resolve_left c1) _ _ c7
      rw [hQ] at c4
      simp only [Option.some.injEq] at c4
      subst c4
      refine ⟨κ, i, j', P, Q, rfl, hκ, c1, c2, c3, hQ, hip, ?_⟩
      cases hmm : t.morphism with
      | mk a b c =>
        rw [hmm] at c5 c6 hrel
        simp only at c5 c6 hrel
        rw [c5, c6, hrel]
    · exfalso
      obtain ⟨i', hi', hip⟩ := h.closed.action k hk Q hQ a ha
      rw [hs'] at hi'
      simp only [Option.some.injEq] at hi'
      subst hi'
      rw [c3] at hip
      simp only [Option.some.injEq] at hip
      subst hip
      have := (h.preOk (List.mem_of_getElem? hQ)).reach.action_last rfl b1
      linarith
  · exfalso
    obtain ⟨k, hk, q', hq', hmem⟩ := inside_cut h j hj hq hcl hm k1 k2 k3
    rw [← e] at hmem
    exact c1 (h.same_index c3 hq' b1 hmem ▸ hk)

/-- Two steps by time successors in a row are by the same one. -/
theorem TimeStep.again (h : Inv f T) {m m' : SingleMorphism} {i p i' p' : ℕ} {P Q P' Q' : ForwardRegional}
    (h1 : T.TimeStep m i p P Q) (h2 : T.TimeStep m' i' p' P' Q') {c : TimedWord} (hc : Q.toElementaryLanguage.Mem c)
    {κ : ℚ} (hκ : 0 < κ) (hm : P'.toElementaryLanguage.Mem (c.append ⟨[], [κ]⟩)) : m' = m := by
  have hcl : c.Legal := (h.preOk (List.mem_of_getElem? h1.right)).legal hc
  have key : ∀ {u : TimedWord}, P.toElementaryLanguage.Mem u → P'.toElementaryLanguage.Mem u → m' = m := by
    intro u a1 a2
    have e := h.same_index h1.left h2.left a1 a2
    subst e
    have hP : P = P' := by have := h2.left; rw [h1.left] at this; simpa using this
    subst hP
    have hs : Q.successor = Q'.successor := h1.succ.symm.trans h2.succ
    have hreach := (h.preOk (List.mem_of_getElem? h1.right)).reach
    have hreach' := (h.preOk (List.mem_of_getElem? h2.right)).reach
    have hb : Q.beq Q' = true := ForwardRegional.successor_inj hreach hreach' (by
      rw [← hs]; exact (ForwardRegional.Reach.time hreach).beq_refl)
    have e := h.closed.distinct p p' Q Q' h1.right h2.right hb
    subst e
    have hQ : Q = Q' := by have := h2.right; rw [h1.right] at this; simpa using this
    subst hQ
    rw [h1.eq, h2.eq]
  obtain ⟨cw, cd⟩ := c
  obtain ⟨l, d, hcd, hl⟩ := split_last hcl.wf
  simp only at hcd hl
  subst hcd
  rw [append_delay] at hm
  have hd0 : 0 ≤ d := hcl.nonneg d (by simp)
  obtain ⟨k, v, hQo, _⟩ := (h.preOk (List.mem_of_getElem? h1.right)).reach.of
  obtain ⟨m1, m2, m3⟩ := (hQo.mem_iff _).1 hc
  have hk : k = l.length + 1 := by simpa using m2.symm
  subst hk
  simp only at m1 m3
  obtain ⟨δ, hδ, hso, hbet⟩ := m3.successor
  have shift : ∀ e : ℚ, ∀ i < l.length + 1, accV (l ++ [d]) i + e = accV (l ++ [d + e]) i := by
    intro e i hi
    rw [accV_last l (d + e) d (by omega)]; ring
  have memS : ∀ e : ℚ, Q.successor.Of (l.length + 1) (fun i => accV (l ++ [d]) i + e) →
      P.toElementaryLanguage.Mem ⟨cw, l ++ [d + e]⟩ := by
    intro e he
    rw [h1.succ]
    have he' := he.congr (shift e)
    exact (he'.mem_iff _).2 ⟨m1, by simp, he'⟩
  by_cases hle : κ ≤ δ
  · rcases hbet κ hκ.le hle with hL | hL
    · exfalso
      have hL' := hL.congr (shift κ)
      have : Q.toElementaryLanguage.Mem ⟨cw, l ++ [d + κ]⟩ := (hL'.mem_iff _).2 ⟨m1, by simp, hL'⟩
      exact h2.outside (h.same_index h2.left h1.right hm this ▸ h1.inside)
    · exact key (memS κ hL) hm
  · push Not at hle
    have hleg : (⟨cw, l ++ [d + κ]⟩ : TimedWord).Legal := (h.preOk (List.mem_of_getElem? h2.left)).legal hm
    obtain ⟨j, hj, q, hq, hmem⟩ := prefix_cut h i' (n := l.length) (t := d + δ) h2.left hleg hm (by simp) (by linarith)
      (by simp [List.getD_eq_getElem?_getD]; exact hle.le)
    have hcut : cut ⟨cw, l ++ [d + κ]⟩ l.length (d + δ) = ⟨cw, l ++ [d + δ]⟩ := by
      simp only [cut, TimedWord.mk.injEq]
      exact ⟨by rw [hl]; simp, by simp⟩
    rw [hcut] at hmem
    have hP := memS δ hso
    have e := h.same_index h1.left hq hP hmem
    rcases hj with hj | rfl
    · exact absurd (e ▸ hj) h1.outside
    · rw [h2.left] at hq
      simp only [Option.some.injEq] at hq
      subst hq
      exact key hP hmem

/-- The analysis of a word ends. -/
theorem Recognized.halts {R : RecognizableLanguage} (hR : Recognized f T R) (h : Inv f T) (hc : T.TimeClosed) (k : ℕ) :
    ∀ {c s : TimedWord} {j : ℕ} {q : ForwardRegional}, j ∈ T.pIndices → T.prefixes[j]? = some q →
      q.toElementaryLanguage.Mem c → s.Legal → s.word.length = k → R.Halts (c.append s) := by
  have hreg : ∀ m ∈ R.morphisms, OfRegion m := fun m hm => by
    obtain ⟨i, hi⟩ := hR.from_table hm
    exact hi.ofRegion h
  induction k using Nat.strong_induction_on with
  | _ k ih =>
    -- it is enough to consider steps by time successors
    have one : ∀ {c s : TimedWord} {j : ℕ} {q : ForwardRegional}, j ∈ T.pIndices → T.prefixes[j]? = some q →
        q.toElementaryLanguage.Mem c → s.Legal → s.word.length = k →
        (∀ (t : SplitTriple) κ i p P Q c', SplitOk R (c.append s) t → s = TimedWord.append ⟨[], [κ]⟩ t.suf →
          t.pre = c.append ⟨[], [κ]⟩ → 0 < κ → T.TimeStep t.morphism i p P Q → t.morphism.maps t.pre = some c' →
          Q.toElementaryLanguage.Mem c' → R.Halts (c'.append t.suf)) → R.Halts (c.append s) := by
      intro c s j q hj hq hm hs hk hstep
      have hcl : c.Legal := (h.preOk (List.mem_of_getElem? hq)).legal hm
      refine halts_step (append_legal hcl hs) fun hout fuel t w' hsp hap => ?_
      have ht := split_ok hreg (append_legal hcl hs) hsp
      obtain ⟨x, hx, e1, e2, hx'⟩ := hR.shape h hc hj hq hm hs ht
      obtain ⟨c', g1, g2, g3⟩ := SingleMorphism.maps_ok (hreg _ ht.morphism).total ht.inDomain
      have hw' : w' = c'.append t.suf := by
        unfold SplitTriple.apply at hap
        rw [g1] at hap
        simpa using hap.symm
      subst hw'
      by_cases hxw : x.word = []
      · obtain ⟨κ, i, p, P, Q, rfl, hκ, hts⟩ := hx' hxw
        refine hstep t κ i p P Q c' ht e1 e2 hκ hts g1 ?_
        rw [hts.eq] at g2; exact g2
      · obtain ⟨i, j', P, Q', c1, c2, c3, c4, c5, c6, _⟩ := hR.from_table ht.morphism
        rw [c6] at g2
        refine ih t.suf.word.length ?_ c2 c4 g2 ht.suffix rfl
        rw [← hk, e1]
        have := List.length_pos_of_ne_nil hxw
        show _ < (x.word ++ t.suf.word).length
        rw [List.length_append]; omega
    -- steps in a row by a time successor
    have inner : ∀ {m : SingleMorphism} {i p : ℕ} {P Q : ForwardRegional} {u c : TimedWord}, OfRegion m → T.TimeStep m i p P Q →
        m.domain.Mem u → m.maps u = some c → Q.toElementaryLanguage.Mem c → ∀ (M : ℕ) (s : TimedWord), s.Legal →
        s.word.length = k → s.durations.headD 0 ≤ M * (if 0 < shortDelay m.domain c - c.durations.getLastD 0 then
          shortDelay m.domain c - c.durations.getLastD 0 else 1) → R.Halts (c.append s) := by
      intro m i p P Q u c hmr hts hu hmu hcQ M
      set δ := shortDelay m.domain c - c.durations.getLastD 0 with hδ
      set δ' := (if 0 < δ then δ else 1) with hδ'
      have hδ'0 : 0 < δ' := by rw [hδ']; split <;> [assumption; norm_num]
      have hcl : c.Legal := (h.preOk (List.mem_of_getElem? hts.right)).legal hcQ
      have hPl : m.domain.word.length = c.word.length := by
        have h1 : c.word = Q.word := hcQ.1
        rw [hts.eq, h1]
        show P.word.length = _
        rw [hts.succ]; rfl
      induction M with
      | zero =>
        intro s hs hk hle
        refine one hts.inside hts.right hcQ hs hk fun t κ i' p' P' Q' c' ht e1 e2 hκ hts' _ _ => ?_
        exfalso
        have hh : s.durations.headD 0 = κ + t.suf.durations.headD 0 := by
          rw [e1]; simp [TimedWord.append, TimedWord.addBack]
        have h0 : 0 ≤ t.suf.durations.headD 0 := by
          cases hd : t.suf.durations with
          | nil => simp
          | cons a l => exact ht.suffix.nonneg a (by rw [hd]; simp)
        simp only [Nat.cast_zero, zero_mul] at hle
        linarith
      | succ M ihM =>
        intro s hs hk hle
        refine one hts.inside hts.right hcQ hs hk fun t κ i' p' P' Q' c' ht e1 e2 hκ hts' hma hc'Q => ?_
        have hdom := ht.inDomain
        have hmm : t.morphism = m := by
          refine hts.again h hts' hcQ hκ ?_
          rw [← e2]
          rw [hts'.eq] at hdom
          exact hdom
        have hconst : c' = c := by
          rw [hmm] at hma hdom
          have hr : m.rel = [] := by rw [hts.eq]
          have := SingleMorphism.maps_const hmr.total hr hdom hu
          rw [hma, hmu] at this
          simpa using this
        subst hconst
        have hh : s.durations.headD 0 = κ + t.suf.durations.headD 0 := by
          rw [e1]; simp [TimedWord.append, TimedWord.addBack]
        have hkk : t.suf.word.length = k := by
          rw [← hk, e1]; simp [TimedWord.append]
        refine ihM t.suf ht.suffix hkk ?_
        have hM0 : 0 ≤ (M : ℚ) * δ' := mul_nonneg (Nat.cast_nonneg M) hδ'0.le
        push_cast at hle
        rcases ht.shape with hsh | hsh
        · rw [hsh]; simpa using hM0
        · obtain ⟨cw, cd⟩ := c'
          obtain ⟨l, d, hcd, hl⟩ := split_last hcl.wf
          simp only at hcd hl hPl
          subst hcd
          have hlast : (l ++ [d]).getLastD 0 = d := by simp [List.getLastD_eq_getLast?]
          rw [e2, append_delay] at hsh
          simp only [List.getLastD_eq_getLast?, List.getLast?_concat, Option.getD_some] at hsh
          rw [hmm] at hsh
          rcases lastDelay_cases m.domain (TimedWord.append ⟨cw, l ++ [d]⟩ s) with e | e
          · -- all of the delay
            rw [e, hPl] at hsh
            have : (TimedWord.append ⟨cw, l ++ [d]⟩ s).durations.getD cw.length 0 = d + s.durations.headD 0 := by
              simp only [TimedWord.append, TimedWord.addBack, List.dropLast_concat, hlast]
              rw [← hl, List.getD_eq_getElem?_getD]
              simp
            rw [this] at hsh
            have : t.suf.durations.headD 0 = 0 := by linarith
            rw [this]; exact hM0
          · have hsd : shortDelay m.domain (TimedWord.append ⟨cw, l ++ [d]⟩ s) = shortDelay m.domain ⟨cw, l ++ [d]⟩ := by
              refine shortDelay_congr fun i hi => ?_
              rw [hPl, ← hl] at hi
              simp only [TimedWord.append, TimedWord.addBack, List.dropLast_concat, List.getD_eq_getElem?_getD]
              rw [List.append_assoc, List.getElem?_append_left hi, List.getElem?_append_left hi]
            rw [e, hsd] at hsh
            have hδκ : δ = κ := by rw [hδ]; simp only [hlast]; linarith
            have : δ' = κ := by rw [hδ', if_pos (by rw [hδκ]; exact hκ)]; exact hδκ
            rw [this] at hle ⊢
            linarith
    intro c s j q hj hq hm hs hk
    refine one hj hq hm hs hk fun t κ i p P Q c' ht e1 e2 hκ hts hma hcQ => ?_
    have hkk : t.suf.word.length = k := by
      rw [← hk, e1]; simp [TimedWord.append]
    have hin := inner (hreg _ ht.morphism) hts ht.inDomain hma hcQ
    set δ' := (if 0 < shortDelay t.morphism.domain c' - c'.durations.getLastD 0 then
          shortDelay t.morphism.domain c' - c'.durations.getLastD 0 else 1) with hδ'
    have hδ'0 : 0 < δ' := by rw [hδ']; split <;> [assumption; norm_num]
    obtain ⟨M, hM⟩ := exists_nat_ge (t.suf.durations.headD 0 / δ')
    exact hin M t.suf ht.suffix hkk (by rwa [div_le_iff₀ hδ'0] at hM)

/-- The analysis of any word ends. -/
theorem Recognized.halts_all {R : RecognizableLanguage} (hR : Recognized f T R) (h : Inv f T) (hc : T.TimeClosed)
    {w : TimedWord} (hw : w.Legal) : R.Halts w := by
  have hm : ForwardRegional.init.toElementaryLanguage.Mem ⟨[], [0]⟩ := by
    obtain ⟨u, hu⟩ := (ForwardRegional.Reach.init).exists_mem
    have e := (ForwardRegional.init_of.mem_iff _).1 hu
    obtain ⟨l, d, hd, hl⟩ := split_last (w := u) (by
      show u.durations.length = u.word.length + 1
      rw [e.1, e.2.1]; rfl)
    obtain ⟨uw, ud⟩ := u
    have hw0 : uw = [] := e.1
    subst hw0
    simp only at hd hl
    have hl0 : l = [] := List.eq_nil_of_length_eq_zero hl
    subst hl0
    subst hd
    have hd0 : d = 0 := by
      have := ForwardRegional.init_of.zero e.2.2 (i := 0) (by omega) rfl
      rwa [show accV ([] ++ [d]) 0 = d by
        rw [ElementaryLanguage.accV_append _ _ (by simp), accV_ge _ (by simp), zero_add]] at this
    subst hd0
    exact hu
  have := hR.halts h hc w.word.length h.closed.root.2 h.closed.root.1 hm hw rfl
  have e : TimedWord.append ⟨[], [0]⟩ w = w := by
    obtain ⟨ww, wd⟩ := w
    have h1 : wd.length = ww.length + 1 := hw.wf
    cases wd with
    | nil => simp at h1
    | cons a l => simp [TimedWord.append, TimedWord.addBack]
  rwa [e] at this

end ObsTable
end LearnTA
