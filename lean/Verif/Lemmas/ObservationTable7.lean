import Verif.Lemmas.ObservationTable6

/-!
# The loop that makes the table ready
-/

namespace LearnTA
open TimedCondition Zone

/-- A prefix with a closed upper bound on a clock fixes the clock. -/
theorem ForwardRegional.Reach.fixed_of_equality {L : ForwardRegional} (h : L.Reach)
    (he : L.cond.hasEqualityN = true) : ∃ x ≤ L.word.length, L.toElementaryLanguage.Fixed x := by
  obtain ⟨hw, h2, h3, _⟩ := Props.C25_reachable h
  have hw : L.word.length + 1 = L.cond.size := hw
  unfold hasEqualityN at he
  rw [List.any_eq_true] at he
  obtain ⟨x, hx, hs⟩ := he
  rw [List.mem_range] at hx
  have hz : L.cond.size + 1 = L.cond.zone.dim := by have := h3.1; unfold TimedCondition.size; omega
  have key : ∀ w, L.toElementaryLanguage.Mem w → L.cond.zone.val (x + 1) 0 = .fin (w.clocks x) true := by
    intro w hm
    have hm := ((holds_iff_mem _ h3.1 h3.diagNN _).1 hm.2).2
    have e := (h2.isRegion h3.1 hm) (x + 1) (by omega) 0 (by omega) (by omega)
    simp only [ext_succ, ext_zero, sub_zero] at e
    rw [e] at hs ⊢
    show Bound.reg (accV w.durations x) = .fin (accV w.durations x) true
    unfold Bound.reg at hs ⊢
    split
    · rfl
    · rename_i hf; rw [if_neg hf] at hs; simp [secondOf] at hs
  refine ⟨x, by omega, fun w w' hm hm' => ?_⟩
  have e1 := key w hm
  rw [key w' hm'] at e1
  simp only [Bound.fin.injEq, and_true] at e1
  exact e1.symm

namespace ObsTable
variable {σ : Type} {env : Env σ} {f : TimedWord → Bool} {E : Fail → Prop} {T : ObsTable σ}

theorem MergesInto.of_rel {T T' : ObsTable σ} (h : RelStep T T') {a b : ℕ} (hr : T'.getRelation a b = T.getRelation a b)
    (hm : T.MergesInto f a b) : T'.MergesInto f a b := by
  obtain ⟨p, q, r, h1, h2, h3, h4⟩ := hm
  exact ⟨p, q, r, by rw [h.prefixes]; exact h1, by rw [h.prefixes]; exact h2, by rw [hr]; exact h3, by rw [h.sufs]; exact h4⟩

/-- A successor after an action is not a time successor. -/
theorem Inv.disc_ne_time (h : Inv f T) {i p k : ℕ} {a : Action} (hi : i ∈ T.pIndices) (hp : p ∈ T.pIndices)
    (ha : a ∈ T.alphabet) (h1 : T.discreteSuccessors i a = some k) (h2 : T.continuousSuccessors p = some k) : False := by
  have e1 := List.getElem?_eq_getElem (h.closed.inside.2 i hi)
  have e2 := List.getElem?_eq_getElem (h.closed.inside.2 p hp)
  obtain ⟨j, k1, k2⟩ := h.closed.action i hi _ e1 a ha
  obtain ⟨j', k1', k2'⟩ := h.closed.time p hp _ e2
  rw [h1] at k1; rw [h2] at k1'
  simp only [Option.some.injEq] at k1 k1'
  subst k1; subst k1'
  rw [k2] at k2'
  simp only [Option.some.injEq] at k2'
  have ra := (h.closed.region _ (List.mem_of_getElem? e2)).1
  have rb := (h.closed.region _ (List.mem_of_getElem? e1)).1
  refine ForwardRegional.successor_ne_action ra rb (a := a) ?_
  rw [k2']
  exact (ForwardRegional.Reach.time ra).beq_refl

/-- A step of the loop has changed the table. -/
def Progress (f : TimedWord → Bool) (T T' : ObsTable σ) : Prop := MorePI f T T' ∨ NewSuffixI f T T'

theorem Progress.inv {T T' : ObsTable σ} (h : Progress f T T') : Inv f T' := by
  rcases h with h | ⟨_, _, _, _, h⟩ <;> exact h.inv

theorem Progress.grew {T T' : ObsTable σ} (h : Progress f T T') : Grew T T' := by
  rcases h with h | ⟨_, _, _, _, h⟩ <;> exact h.grew

theorem Progress.regular {T T' : ObsTable σ} (h : Progress f T T') (hi : Inv f T) (hr : T.Regular) : T'.Regular := by
  rcases h with h | h
  · intro s hs; rw [h.suffixes] at hs; exact hr s hs
  · exact h.regular hi hr

theorem MorePI.before {T T1 T' : ObsTable σ} (h : MorePI f T1 T') (hg : Grew T T1) (hp : T1.prefixes = T.prefixes)
    (hP : T1.pIndices = T.pIndices) (hs : T1.suffixes = T.suffixes) : MorePI f T T' :=
  ⟨h.inv, hg.trans h.grew, h.suffixes.trans hs, by rw [← hp, ← hP]; exact h.more⟩

theorem RelStep.work {T T' : ObsTable σ} (h : RelStep T T') : ∃ cr d o cc,
    T' = { T with closedRelation := cr, distinguishedPrefix := d, oracle := o, columnCache := cc } := by
  obtain ⟨⟨a, b, rfl⟩, _⟩ := h
  exact ⟨a, b, T.oracle, T.columnCache, rfl⟩

/-- The table is ready after a successful step. -/
theorem refineStep_ok (he : EnvOk env f) (hE : E .fuel ∨ ∀ p ∈ T.prefixes, Enough f env.fuel p) (hA : E .abort) (h : Inv f T) (hr : T.Regular) :
    Ok E (refineStep env) T fun b T' => Inv f T' ∧ Grew T T' ∧ T'.Regular ∧
      (b = true → (Ready f T' ∧ ∀ i ∈ T'.pIndices, Settled f T' i) ∧ T'.prefixes = T.prefixes ∧ T'.pIndices = T.pIndices ∧ T'.suffixes = T.suffixes) ∧
      (b = false → Progress f T T') := by
  have no : ∀ {T' : ObsTable σ}, Progress f T T' → Inv f T' ∧ Grew T T' ∧ T'.Regular ∧
      (false = true → (Ready f T' ∧ ∀ i ∈ T'.pIndices, Settled f T' i) ∧ T'.prefixes = T.prefixes ∧ T'.pIndices = T.pIndices ∧ T'.suffixes = T.suffixes) ∧
      (false = false → Progress f T T') :=
    fun hp => ⟨hp.inv, hp.grew, hp.regular h hr, by simp, fun _ => hp⟩
  unfold refineStep
  refine Ok.bind ((close_ok he hE h).mono ?_)
  rintro b T1 ⟨c1, c2⟩
  cases b with
  | false => exact Ok.pure (no (Or.inl (c2 rfl)))
  | true =>
    obtain ⟨i1, s1, cov⟩ := c1 rfl
    have r1 : T1.Regular := by intro s hs; rw [s1.suffixes] at hs; exact hr s hs
    simp only [if_true]
    refine Ok.bind ((consistent_ok he hA i1 r1).mono ?_)
    rintro b T2 ⟨d1, d2⟩
    cases b with
    | false =>
      refine Ok.pure (no (Or.inr ?_))
      obtain ⟨t, ht, s, hs, m⟩ := d1 rfl
      rw [s1.suffixes] at ht
      rw [s1.alphabet] at hs
      exact ⟨t, ht, s, hs, m.inv, s1.grew.trans m.grew, by rw [m.suffixes, s1.suffixes],
        by rw [m.same.1, s1.prefixes], by rw [m.same.2, s1.pIndices]⟩
    | true =>
      obtain ⟨w2, pc⟩ := d2 rfl
      have g2 : Grew T T2 := s1.grew.trans w2.grew
      have ep : T2.prefixes = T.prefixes := w2.prefixes.trans s1.prefixes
      have eP : T2.pIndices = T.pIndices := w2.pIndices.trans s1.pIndices
      have es : T2.suffixes = T.suffixes := w2.suffixes.trans s1.suffixes
      simp only [if_true]
      refine Ok.bind ((exterior_ok he (by rw [ep]; exact hE) w2.inv).mono ?_)
      rintro b T3 ⟨x1, x2⟩
      cases b with
      | false => exact Ok.pure (no (Or.inl ((x2 rfl).before g2 ep eP es)))
      | true =>
        obtain ⟨rfl, ext⟩ := x1 rfl
        simp only [if_true]
        refine (timeSaturate_ok he (by rw [ep]; exact hE) w2.inv).mono ?_
        rintro b T4 ⟨t1, t2⟩
        cases b with
        | false => exact no (Or.inl ((t2 rfl).before g2 ep eP es))
        | true =>
          obtain ⟨i4, s4, sat, rel⟩ := t1 rfl
          refine ⟨i4, g2.trans s4.grew, ?_, fun _ => ⟨⟨⟨?_, ?_, ?_, fun i hi => (sat i hi).saturated⟩, sat⟩, s4.prefixes.trans ep, s4.pIndices.trans eP,
            s4.suffixes.trans es⟩, by simp⟩
          · intro s hs; rw [s4.suffixes, es] at hs; exact hr s hs
          · intro i hi
            rw [s4.prefixes, w2.prefixes] at hi
            by_cases hm : ∀ p ∈ T3.pIndices, T3.continuousSuccessors p = some i → i ∈ T3.pIndices
            · rcases cov i hi with hc | ⟨j, hj, hc⟩
              · exact Or.inl (by rw [s4.pIndices, w2.pIndices]; exact hc)
              · exact Or.inr ⟨j, by rw [s4.pIndices, w2.pIndices]; exact hj, (w2.keep _ _ hc).of_rel s4 (getRelation_congr (rel i hm) j)⟩
            · push Not at hm
              obtain ⟨p, hp, hpi, hn⟩ := hm
              rw [← s4.pIndices] at hp hn
              obtain ⟨s, e1, e2⟩ := sat p hp
              rw [s4.cont, hpi] at e1
              simp only [Option.some.injEq] at e1
              subst e1
              rcases e2 with e2 | e2
              · exact absurd e2 hn
              · exact Or.inr ⟨p, hp, e2.1.2⟩
          · intro i hi j hj hij
            rw [s4.pIndices] at hi hj
            have hi1 := hi; have hj1 := hj
            rw [w2.pIndices] at hi1 hj1
            rcases pc i hi1 j hj1 hij with ha | ⟨m1, m2, _⟩
            · exact Or.inl (ha.imp (s4.dist _) (s4.dist _))
            · refine Or.inr ⟨m1.of_rel s4 (getRelation_congr (rel i fun _ _ _ => hi) j), fun a ha => ?_⟩
              rw [s4.alphabet] at ha
              obtain ⟨k, l, e1, e2, e3⟩ := m2 a ha
              refine ⟨k, l, by rw [s4.disc]; exact e1, by rw [s4.disc]; exact e2, e3.of_rel s4 (getRelation_congr (rel k fun p hp hpk => ?_) l)⟩
              exact (w2.inv.disc_ne_time hi hp ha e1 hpk).elim
          · intro i hi s L hs hL
            rw [s4.pIndices] at hi
            rw [s4.cont] at hs
            rw [s4.prefixes] at hL
            rcases ext i hi s L hs hL with hx | hx
            · exact Or.inl (by rw [s4.pIndices]; exact hx)
            · exact Or.inr ((w2.inv.closed.region L (List.mem_of_getElem? hL)).1.fixed_of_equality hx)

/-- The table is ready after the loop. -/
theorem refine_ok (he : EnvOk env f) (hE : E .fuel) (hA : E .abort) (n : ℕ) (h : Inv f T) (hr : T.Regular) :
    Ok E (refine env n) T fun _ T' => Inv f T' ∧ Grew T T' ∧ T'.Regular ∧ Ready f T' ∧ ∀ i ∈ T'.pIndices, Settled f T' i := by
  induction n generalizing T with
  | zero => exact Ok.throw hE
  | succ n ih =>
    unfold refine
    refine Ok.bind ((refineStep_ok he (.inl hE) hA h hr).mono ?_)
    rintro b T1 ⟨h1, h2, h3, h4, h5⟩
    cases b with
    | true => exact Ok.pure ⟨h1, h2, h3, (h4 rfl).1⟩
    | false => exact (ih h1 h3).mono fun _ T2 ⟨k1, k2, k3, k4⟩ => ⟨k1, h2.trans k2, k3, k4⟩

end ObsTable
end LearnTA
