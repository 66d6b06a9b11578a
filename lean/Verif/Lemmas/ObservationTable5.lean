import Verif.Lemmas.ObservationTable4

/-!
# Consistency of the table
-/

namespace LearnTA
open TimedCondition

namespace BackwardRegional

theorem Regular.good {s : BackwardRegional} (h : s.Regular) : s.Good := h s .refl

theorem Before.trans {s t u : BackwardRegional} (h : s.Before t) (h' : t.Before u) : s.Before u := by
  induction h' with
  | refl => exact h
  | action a ha _ ih => exact .action a ha ih
  | time _ ih => exact .time ih

theorem Regular.before {s t : BackwardRegional} (h : s.Regular) (ht : s.Before t) : t.Regular :=
  fun u hu => h u (ht.trans hu)

theorem Reach.before {s t : BackwardRegional} (h : s.Reach) (ht : s.Before t) : t.Reach := by
  induction ht with
  | refl => exact h
  | action a _ _ ih => exact .action a ih
  | time _ ih => exact .time ih

theorem Before.observable {s t : BackwardRegional} (h : s.Before t) (hs : ∀ a ∈ s.word, a ≠ unobservable) :
    ∀ a ∈ t.word, a ≠ unobservable := by
  induction h with
  | refl => exact hs
  | action a ha _ ih =>
    intro b hb
    simp only [predecessorAction, List.mem_cons] at hb
    rcases hb with rfl | hb
    · exact ha
    · exact ih b hb
  | time _ ih => exact ih

theorem Reach.integral {L : BackwardRegional} (h : L.Reach) : L.cond.Integral := by
  induction h with
  | init => exact empty_integral
  | @action L a h ih =>
    obtain ⟨n, v, ho, _⟩ := Props.backward_of h
    exact extendZero_integral ih (by rw [ho.dim]; have := ho.pos; omega)
  | @time L h ih =>
    obtain ⟨n, v, ho, _⟩ := Props.backward_of h
    exact predecessor_integral ih (by rw [ho.dim]; have := ho.pos; omega) _

theorem reach_mono {L : BackwardRegional} (h : L.Reach) :
    ∃ n v, L.Of n v ∧ v 0 ≤ 0 ∧ ∀ i, i + 1 < n → v (i + 1) ≤ v i := by
  induction h with
  | init => exact ⟨1, _, init_of, le_refl _, by simp⟩
  | action a _ ih =>
    obtain ⟨n, v, h1, h2, h3⟩ := ih
    refine ⟨n + 1, _, h1.predecessorAction a, by simp, ?_⟩
    intro i hi
    cases i with
    | zero => simpa using h2
    | succ i => simpa using h3 i (by omega)
  | time _ ih =>
    obtain ⟨n, v, h1, h2, h3⟩ := ih
    obtain ⟨δ, g1, g2, _⟩ := h1.predecessor
    exact ⟨n, _, g2, by linarith, fun i hi => by have := h3 i hi; linarith⟩

theorem negT_step (d : List ℚ) {i : ℕ} (hi : i + 1 < d.length) : negT d i - negT d (i + 1) = d[i + 1] := by
  unfold negT T
  simp only [List.drop_zero, Nat.sub_zero]
  rw [List.take_add_one (i := i + 1), List.sum_append, List.getElem?_eq_getElem hi]
  simp

/-- The region of a suffix with delays that are not negative. -/
structure Fine (L : BackwardRegional) : Prop where
  region : ∃ n v, L.Of n v ∧ v 0 ≤ 0 ∧ ∀ i, i + 1 < n → v (i + 1) ≤ v i
  integral : L.cond.Integral

theorem Reach.fine {L : BackwardRegional} (h : L.Reach) : L.Fine := ⟨reach_mono h, h.integral⟩

theorem Fine.action {L : BackwardRegional} (h : L.Fine) (a : Action) : (L.predecessorAction a).Fine := by
  obtain ⟨⟨n, v, h1, h2, h3⟩, hi⟩ := h
  refine ⟨⟨n + 1, _, h1.predecessorAction a, by simp, ?_⟩,
    extendZero_integral hi (by rw [h1.dim]; have := h1.pos; omega)⟩
  intro i hi
  cases i with
  | zero => simpa using h2
  | succ i => simpa using h3 i (by omega)

theorem Fine.time {L : BackwardRegional} (h : L.Fine) : L.predecessor.Fine := by
  obtain ⟨⟨n, v, h1, h2, h3⟩, hi⟩ := h
  obtain ⟨δ, g1, g2, _⟩ := h1.predecessor
  exact ⟨⟨n, _, g2, by linarith, fun i hi => by have := h3 i hi; linarith⟩,
    predecessor_integral hi (by rw [h1.dim]; have := h1.pos; omega) _⟩

theorem Fine.before {s t : BackwardRegional} (h : s.Fine) (ht : s.Before t) : t.Fine := by
  induction ht with
  | refl => exact h
  | action a _ _ ih => exact ih.action a
  | time _ ih => exact ih.time

theorem Fine.nonneg {L : BackwardRegional} (h : L.Fine) : L.toElementaryLanguage.Nonneg := by
  intro w hw d hd
  obtain ⟨n, v, h1, hm0, hm⟩ := h.region
  obtain ⟨_, g2, g3⟩ := (h1.mem_iff w).1 hw
  have hsat := g3.region.sat g3.diag
  have hdim := h1.dim
  obtain ⟨i, hi, rfl⟩ := List.getElem_of_mem hd
  have key : ∀ a < L.cond.zone.dim, ∀ b < L.cond.zone.dim, a ≠ b → W n v a - W n v b ≤ 0 →
      W n (negT w.durations) a - W n (negT w.durations) b ≤ 0 := by
    intro a ha b hb hab hle
    have e1 := h1.region a ha b hb hab
    have e2 := hsat a ha b hb
    rw [e1] at e2
    have : Bound.reg (W n v a - W n v b) ≤ .fin 0 true := Bound.reg_le ⟨0, by simp⟩ (by simpa using hle)
    simpa using e2.mono this
  cases i with
  | zero =>
    have := key ((0 + 2) % (n + 1)) (by rw [hdim]; exact Nat.mod_lt _ (by omega)) 1 (by rw [hdim]; omega)
      (by rw [end_eq (by omega)]; split <;> omega)
      (by rw [W_end (by omega)]; simpa [W] using hm0)
    rw [W_end (by omega)] at this
    have e : negT w.durations 0 = -w.durations[0] := by
      unfold negT T
      simp only [List.drop_zero, Nat.sub_zero]
      rw [List.take_add_one, List.getElem?_eq_getElem hi]; simp
    rw [e] at this
    simp only [W] at this
    linarith
  | succ i =>
    have hne : (i + 1 + 2) % (n + 1) ≠ (i + 2) % (n + 1) := fun e => by
      have := end_inj (by omega) (by omega) e; omega
    have := key ((i + 1 + 2) % (n + 1)) (by rw [hdim]; exact Nat.mod_lt _ (by omega)) ((i + 2) % (n + 1))
      (by rw [hdim]; exact Nat.mod_lt _ (by omega)) hne
      (by rw [W_end (by omega), W_end (by omega)]; have := hm i (by omega); linarith)
    rw [W_end (by omega), W_end (by omega)] at this
    have e := negT_step w.durations hi
    linarith

theorem Fine.good {L : BackwardRegional} (h : L.Fine) (ho : ∀ a ∈ L.word, a ≠ unobservable) : L.Good := by
  obtain ⟨n, v, hof, _⟩ := h.region
  refine ⟨⟨?_, hof.canonical, bounded_of_isRegion hof.region, h.integral, ho⟩, h.nonneg, .of_isRegion hof.region⟩
  show L.word.length + 1 = L.cond.size
  rw [hof.csize]; exact hof.word

theorem Fine.regular {L : BackwardRegional} (h : L.Fine) (ho : ∀ a ∈ L.word, a ≠ unobservable) : L.Regular :=
  fun _ ht => (h.before ht).good (ht.observable ho)

theorem Reach.nonneg {L : BackwardRegional} (h : L.Reach) : L.toElementaryLanguage.Nonneg := h.fine.nonneg

theorem Reach.good {L : BackwardRegional} (h : L.Reach) (ho : ∀ a ∈ L.word, a ≠ unobservable) : L.Good := h.fine.good ho

theorem Reach.regular {L : BackwardRegional} (h : L.Reach) (ho : ∀ a ∈ L.word, a ≠ unobservable) : L.Regular :=
  h.fine.regular ho

end BackwardRegional

namespace ObsTable
variable {σ : Type} {env : Env σ} {f : TimedWord → Bool} {E : Fail → Prop} {T : ObsTable σ}

/-- Only caches change. -/
def Cached (f : TimedWord → Bool) (T T' : ObsTable σ) : Prop :=
  ∃ o cc, SymOracle.Inv f TimedWord.Legal o ∧ T' = { T with oracle := o, columnCache := cc }

theorem Cached.refl (h : Inv f T) : Cached f T T := ⟨_, _, h.oracle, rfl⟩

theorem Cached.trans {T T' T'' : ObsTable σ} (h : Cached f T T') (h' : Cached f T' T'') : Cached f T T'' := by
  obtain ⟨a, b, h1, rfl⟩ := h
  obtain ⟨c, d, h2, rfl⟩ := h'
  exact ⟨c, d, h2, rfl⟩

theorem Cached.inv {T T' : ObsTable σ} (h : Cached f T T') (hi : Inv f T) : Inv f T' := by
  obtain ⟨o, cc, h1, rfl⟩ := h
  exact ⟨⟨hi.alpha, hi.suf0, hi.sufs, h1, hi.rel, hi.dist⟩, ⟨hi.closed.region, hi.closed.root, hi.closed.inside,
    hi.closed.distinct, hi.closed.time, hi.closed.action, hi.closed.parent, hi.closed.only⟩, ⟨hi.rows.len, hi.rows.len', hi.rows.ok⟩⟩

theorem remainsEquivalent_ok (he : EnvOk env f) (h : Inv f T) {i j : ℕ} (hi : i < T.prefixes.length)
    (hj : j < T.prefixes.length) {s : BackwardRegional} (hs : s.Good) (r : RenamingRelation) :
    Ok E (remainsEquivalent env i j s r) T fun _ T' => Cached f T T' := by
  obtain ⟨p, row, cat, h1, h2, h3, h4, h5⟩ := h.get hi
  obtain ⟨q, row', cat', g1, g2, g3, g4, g5⟩ := h.get hj
  unfold remainsEquivalent
  refine Ok.bind (Ok.get ?_)
  refine Ok.bind (Ok.lift h1 ?_)
  refine Ok.bind (Ok.lift h2 ?_)
  refine Ok.bind (Ok.lift h3 ?_)
  refine Ok.bind ((query_ok he h.oracle h4 hs).mono ?_)
  rintro cell T1 ⟨_, o, ho, rfl⟩
  refine Ok.bind (Ok.lift g1 ?_)
  refine Ok.bind (Ok.lift g2 ?_)
  refine Ok.bind (Ok.lift g3 ?_)
  refine Ok.bind ((query_ok he ho g4 hs).mono ?_)
  rintro cell' T2 ⟨_, o', ho', rfl⟩
  exact Ok.pure ⟨o', T.columnCache, ho', rfl⟩

theorem searchExtended_ok (he : EnvOk env f) (h : Inv f T) {i j : ℕ} (hi : i < T.prefixes.length)
    (hj : j < T.prefixes.length) {s : BackwardRegional} (hs : s.Good) :
    Ok E (searchExtended env i j s) T fun _ T' => Cached f T T' := by
  obtain ⟨p, row, cat, h1, h2, h3, h4, h5⟩ := h.get hi
  obtain ⟨q, row', cat', g1, g2, g3, g4, g5⟩ := h.get hj
  unfold searchExtended
  refine Ok.bind (Ok.get ?_)
  refine Ok.bind (Ok.lift h1 ?_)
  refine Ok.bind (Ok.lift h2 ?_)
  refine Ok.bind (Ok.lift h3 ?_)
  refine Ok.bind ((query_ok he h.oracle h4 hs).mono ?_)
  rintro cell T1 ⟨_, o, ho, rfl⟩
  refine Ok.bind (Ok.lift g1 ?_)
  refine Ok.bind (Ok.lift g2 ?_)
  refine Ok.bind (Ok.lift g3 ?_)
  refine Ok.bind ((query_ok he ho g4 hs).mono ?_)
  rintro cell' T2 ⟨_, o', ho', rfl⟩
  obtain ⟨found, k1, _⟩ := Equivalence.find_spec (ss := (T.suffixes ++ [s]).map (·.toElementaryLanguage))
    (lrow := row ++ [cell]) (rrow := row' ++ [cell'])
    h4.queryable.proper h4.simple h4.reach.nonneg g4.queryable.proper g4.simple g4.reach.nonneg
    (by simp [h5.length])
  refine Ok.bind (Ok.lift (a := found) ?_ (Ok.pure ⟨o', T.columnCache, ho', rfl⟩))
  have e1 : cat ++ [(p.toElementaryLanguage.append s.toElementaryLanguage).cond] =
      ((T.suffixes ++ [s]).map (·.toElementaryLanguage)).map fun s => p.cond.append s.cond := by
    rw [h5.cat]; simp [ElementaryLanguage.append]
  have e2 : cat' ++ [(q.toElementaryLanguage.append s.toElementaryLanguage).cond] =
      ((T.suffixes ++ [s]).map (·.toElementaryLanguage)).map fun s => q.cond.append s.cond := by
    rw [g5.cat]; simp [ElementaryLanguage.append]
  rw [e1, e2]
  exact k1

theorem cached_store {T T' : ObsTable σ} (h : Cached f T T') (key : ℕ × ℕ × BackwardRegional) (b : Bool) :
    Cached f T (T'.storeColumn key b) := by
  obtain ⟨o, cc, h1, rfl⟩ := h
  exact ⟨o, _, h1, rfl⟩

theorem equivalentColumn_ok (he : EnvOk env f) (h : Inv f T) {i j : ℕ} (hi : i < T.prefixes.length)
    (hj : j < T.prefixes.length) {s : BackwardRegional} (hs : s.Good) :
    Ok E (equivalentColumn env i j s) T fun _ T' => Cached f T T' := by
  unfold equivalentColumn
  refine Ok.bind (Ok.get ?_)
  dsimp only
  generalize Option.filter _ _ = c
  cases c with
  | some c => exact Ok.pure (.refl h)
  | none =>
    have step : ∀ (m : TableM σ Bool), Ok E m T (fun _ T' => Cached f T T') →
        Ok E (do
          let known ← m
          if known then do
            modify fun T => T.storeColumn (i, j, s) true
            pure true
          else do
            let b ← searchExtended env i j s
            modify fun T => T.storeColumn (i, j, s) b
            pure b) T fun _ T' => Cached f T T' := by
      intro m hm
      refine Ok.bind (hm.mono ?_)
      intro known T1 h1
      have hl : T1.prefixes = T.prefixes := by obtain ⟨_, _, _, rfl⟩ := h1; rfl
      split
      · exact Ok.bind (Ok.modify (Ok.pure (cached_store h1 _ _)))
      · refine Ok.bind ((searchExtended_ok he (h1.inv h) (by rw [hl]; exact hi) (by rw [hl]; exact hj) hs).mono ?_)
        intro b T2 h2
        exact Ok.bind (Ok.modify (Ok.pure (cached_store (h1.trans h2) _ _)))
    cases hr : T.getRelation i j with
    | none => exact step _ (Ok.pure (.refl h))
    | some r => exact step _ (remainsEquivalent_ok he h hi hj hs r)

theorem findDistinguishing_ok (he : EnvOk env f) (h : Inv f T) {i j : ℕ} (hi : i < T.prefixes.length)
    (hj : j < T.prefixes.length) (ss : List BackwardRegional) (hs : ∀ s ∈ ss, s.Good) :
    Ok E (findDistinguishing env i j ss) T fun o T' => Cached f T T' ∧ ∀ s, o = some s → s ∈ ss := by
  induction ss generalizing T with
  | nil => exact Ok.pure ⟨.refl h, by simp⟩
  | cons s ss ih =>
    unfold findDistinguishing
    refine Ok.bind ((equivalentColumn_ok he h hi hj (hs s (by simp))).mono ?_)
    intro b T1 h1
    have hl : T1.prefixes = T.prefixes := by obtain ⟨_, _, _, rfl⟩ := h1; rfl
    split
    · refine (ih (h1.inv h) (by rw [hl]; exact hi) (by rw [hl]; exact hj) fun x hx => hs x (by simp [hx])).mono ?_
      rintro o T2 ⟨h2, h3⟩
      exact ⟨h1.trans h2, fun x hx => by simp [h3 x hx]⟩
    · refine Ok.pure ⟨h1, fun x hx => ?_⟩
      simp only [Option.some.injEq] at hx
      simp [hx]

/-- A column has been added. -/
structure MoreS (f : TimedWord → Bool) (T T' : ObsTable σ) (s : BackwardRegional) : Prop where
  inv : Inv f T'
  grew : Grew T T'
  suffixes : T'.suffixes = T.suffixes ++ [s]
  same : T'.prefixes = T.prefixes ∧ T'.pIndices = T.pIndices

theorem addSuffix_ok (he : EnvOk env f) (h : Inv f T) {s : BackwardRegional} (hs : s.Good) :
    Ok E (addSuffix env s) T fun _ T' => MoreS f T T' s := by
  unfold addSuffix
  refine Ok.bind (Ok.modify ?_)
  refine (refresh_ok he ?_ ?_ ?_).mono ?_
  · refine ⟨h.alpha, ?_, ?_, h.oracle, h.rel, h.dist⟩
    · show (T.suffixes ++ [s])[0]? = _
      have := h.suf0
      rw [List.getElem?_append_left (List.getElem?_eq_some_iff.1 this).1]; exact this
    · intro x hx
      rcases List.mem_append.1 hx with hx | hx
      · exact h.sufs x hx
      · rw [List.mem_singleton.1 hx]; exact hs
  · exact ⟨h.closed.region, h.closed.root, h.closed.inside, h.closed.distinct, h.closed.time, h.closed.action,
      h.closed.parent, h.closed.only⟩
  · intro i p hp
    refine ⟨T.suffixes.length, ?_⟩
    show RowOk f ((T.suffixes ++ [s]).take T.suffixes.length) p _ _
    rw [List.take_left]
    exact h.rows.ok i p hp
  · rintro _ T' ⟨h1, o, t, c, rfl⟩
    refine ⟨h1, ?_, rfl, rfl, rfl⟩
    exact ⟨List.prefix_refl _, List.prefix_append _ _, rfl, fun _ h => h, fun _ _ => rfl, fun _ _ _ _ => rfl⟩

/-- Only relations, distinguished pairs and caches change; merged prefixes stay merged. -/
structure Work (f : TimedWord → Bool) (T T' : ObsTable σ) : Prop where
  inv : Inv f T'
  eq : ∃ cr d o cc, T' = { T with closedRelation := cr, distinguishedPrefix := d, oracle := o, columnCache := cc }
  dist : ∀ x ∈ T.distinguishedPrefix, x ∈ T'.distinguishedPrefix
  keep : ∀ a b, T.MergesInto f a b → T'.MergesInto f a b

theorem Work.refl (h : Inv f T) : Work f T T := ⟨h, ⟨_, _, _, _, rfl⟩, fun _ h => h, fun _ _ h => h⟩

theorem Work.trans {T T' T'' : ObsTable σ} (h : Work f T T') (h' : Work f T' T'') : Work f T T'' := by
  obtain ⟨i1, ⟨a, b, c, d, rfl⟩, h1, k1⟩ := h
  obtain ⟨i2, ⟨a', b', c', d', rfl⟩, h2, k2⟩ := h'
  exact ⟨i2, ⟨a', b', c', d', rfl⟩, fun x hx => h2 _ (h1 x hx), fun a b hab => k2 a b (k1 a b hab)⟩

theorem Compared.work {i j : ℕ} {T T' : ObsTable σ} {o : Option RenamingRelation} (h : Compared f i j T o T') :
    Work f T T' := by
  obtain ⟨⟨a, b, rfl⟩, h1⟩ := h.step
  exact ⟨h.inv, ⟨a, b, T.oracle, T.columnCache, rfl⟩, h1, h.keep⟩

theorem Cached.work {T T' : ObsTable σ} (h : Cached f T T') (hi : Inv f T) : Work f T T' := by
  have := h.inv hi
  obtain ⟨o, cc, h1, rfl⟩ := h
  refine ⟨this, ⟨T.closedRelation, T.distinguishedPrefix, o, cc, rfl⟩, fun _ h => h, fun a b hab => ?_⟩
  obtain ⟨p, q, r, h1, h2, h3, h4⟩ := hab
  exact ⟨p, q, r, h1, h2, h3, h4⟩

theorem Work.prefixes {T T' : ObsTable σ} (h : Work f T T') : T'.prefixes = T.prefixes := by
  obtain ⟨_, ⟨a, b, c, d, rfl⟩, _, _⟩ := h; rfl
theorem Work.pIndices {T T' : ObsTable σ} (h : Work f T T') : T'.pIndices = T.pIndices := by
  obtain ⟨_, ⟨a, b, c, d, rfl⟩, _, _⟩ := h; rfl
theorem Work.suffixes {T T' : ObsTable σ} (h : Work f T T') : T'.suffixes = T.suffixes := by
  obtain ⟨_, ⟨a, b, c, d, rfl⟩, _, _⟩ := h; rfl
theorem Work.alphabet {T T' : ObsTable σ} (h : Work f T T') : T'.alphabet = T.alphabet := by
  obtain ⟨_, ⟨a, b, c, d, rfl⟩, _, _⟩ := h; rfl
theorem Work.cont {T T' : ObsTable σ} (h : Work f T T') : T'.continuousSuccessors = T.continuousSuccessors := by
  obtain ⟨_, ⟨a, b, c, d, rfl⟩, _, _⟩ := h; rfl
theorem Work.disc {T T' : ObsTable σ} (h : Work f T T') : T'.discreteSuccessors = T.discreteSuccessors := by
  obtain ⟨_, ⟨a, b, c, d, rfl⟩, _, _⟩ := h; rfl
theorem Work.grew {T T' : ObsTable σ} (h : Work f T T') : Grew T T' := by
  obtain ⟨_, ⟨a, b, c, d, rfl⟩, _, _⟩ := h
  exact ⟨List.prefix_refl _, List.prefix_refl _, rfl, fun _ h => h, fun _ _ => rfl, fun _ _ _ _ => rfl⟩
theorem Work.sufs {T T' : ObsTable σ} (h : Work f T T') : T'.sufs = T.sufs := by
  unfold ObsTable.sufs; rw [h.suffixes]

/-- A suffix made of an old one has been added. -/
def NewSuffixI (f : TimedWord → Bool) (T T' : ObsTable σ) : Prop :=
  ∃ t ∈ T.suffixes, ∃ s, (s = t.predecessor ∨ ∃ a ∈ T.alphabet, s = t.predecessorAction a) ∧ MoreS f T T' s

theorem Work.newSuffix {T T' T'' : ObsTable σ} (h : Work f T T') (h' : NewSuffixI f T' T'') : NewSuffixI f T T'' := by
  obtain ⟨t, ht, s, hs, m⟩ := h'
  rw [h.suffixes] at ht
  rw [h.alphabet] at hs
  exact ⟨t, ht, s, hs, m.inv, h.grew.trans m.grew, by rw [m.suffixes, h.suffixes],
    by rw [m.same.1, h.prefixes], by rw [m.same.2, h.pIndices]⟩

theorem Work.regular {T T' : ObsTable σ} (h : Work f T T') (hr : T.Regular) : T'.Regular := by
  intro s hs; rw [h.suffixes] at hs; exact hr s hs

theorem NewSuffixI.regular {T T' : ObsTable σ} (h : NewSuffixI f T T') (hi : Inv f T) (hr : T.Regular) : T'.Regular := by
  obtain ⟨t, ht, s, hs, m⟩ := h
  intro x hx
  rw [m.suffixes] at hx
  rcases List.mem_append.1 hx with hx | hx
  · exact hr x hx
  · rw [List.mem_singleton.1 hx]
    rcases hs with rfl | ⟨a, ha, rfl⟩
    · exact (hr t ht).before (.time .refl)
    · exact (hr t ht).before (.action a (hi.alpha.2 a ha) .refl)

theorem resolveDiscrete_ok (he : EnvOk env f) (hE : E .abort) (h : Inv f T) (hr : T.Regular) {i j : ℕ}
    (hi : i < T.prefixes.length) (hj : j < T.prefixes.length) {a : Action} (ha : a ∈ T.alphabet) :
    Ok E (resolveDiscrete env i j a) T fun _ T' => NewSuffixI f T T' := by
  have hg : ∀ s ∈ T.suffixes.map fun s => s.predecessorAction a, s.Good := by
    intro s hs
    obtain ⟨t, ht, rfl⟩ := List.mem_map.1 hs
    exact (hr t ht) _ (.action a (h.alpha.2 a ha) .refl)
  unfold resolveDiscrete
  refine Ok.bind (Ok.get ?_)
  refine Ok.bind ((findDistinguishing_ok he h hi hj _ hg).mono ?_)
  rintro o T1 ⟨h1, h2⟩
  cases o with
  | none => exact Ok.throw hE
  | some s =>
    have hs := h2 s rfl
    refine (addSuffix_ok he (h1.inv h) (hg s hs)).mono ?_
    intro _ T2 m
    obtain ⟨t, ht, rfl⟩ := List.mem_map.1 hs
    have hw := h1.work h
    refine hw.newSuffix ⟨t, by rw [hw.suffixes]; exact ht, _, Or.inr ⟨a, by rw [hw.alphabet]; exact ha, rfl⟩, m⟩

theorem resolveContinuous_ok (he : EnvOk env f) (h : Inv f T) (hr : T.Regular) {i j : ℕ}
    (hi : i < T.prefixes.length) (hj : j < T.prefixes.length) :
    Ok E (resolveContinuous env i j) T fun b T' => (b = true → NewSuffixI f T T') ∧ (b = false → Work f T T') := by
  have hg : ∀ s ∈ T.suffixes.map fun s => s.predecessor, s.Good := by
    intro s hs
    obtain ⟨t, ht, rfl⟩ := List.mem_map.1 hs
    exact (hr t ht) _ (.time .refl)
  unfold resolveContinuous
  refine Ok.bind (Ok.get ?_)
  refine Ok.bind ((findDistinguishing_ok he h hi hj _ hg).mono ?_)
  rintro o T1 ⟨h1, h2⟩
  have hw := h1.work h
  cases o with
  | none => exact Ok.pure ⟨by simp, fun _ => hw⟩
  | some s =>
    have hs := h2 s rfl
    refine Ok.bind ((addSuffix_ok he (h1.inv h) (hg s hs)).mono ?_)
    intro _ T2 m
    obtain ⟨t, ht, rfl⟩ := List.mem_map.1 hs
    exact Ok.pure ⟨fun _ => hw.newSuffix ⟨t, by rw [hw.suffixes]; exact ht, _, Or.inl rfl, m⟩, by simp⟩

theorem Work.apart {T T' : ObsTable σ} (h : Work f T T') {i j : ℕ} (ha : T.Apart i j) : T'.Apart i j :=
  ha.imp (h.dist _) (h.dist _)

theorem checkDiscrete_ok (he : EnvOk env f) (hE : E .abort) (h : Inv f T) (hr : T.Regular) {i j : ℕ}
    (hi : i ∈ T.pIndices) (hj : j ∈ T.pIndices) (as : List Action) (ha : ∀ a ∈ as, a ∈ T.alphabet) :
    Ok E (checkDiscrete env i j as) T fun b T' => (b = true → NewSuffixI f T T') ∧
      (b = false → Work f T T' ∧ ∀ a ∈ as, SameAfter f T' i j a) := by
  have hil := h.closed.inside.2 i hi
  have hjl := h.closed.inside.2 j hj
  unfold checkDiscrete
  refine (Ok.anyM (fun T' => Work f T T') (fun T' => NewSuffixI f T T') (fun a T' => SameAfter f T' i j a)
    ?_ (.refl h)).mono ?_
  · intro a ham T1 hw
    have haa := ha a ham
    obtain ⟨k, k1, k2⟩ := h.closed.action i hi _ (List.getElem?_eq_getElem hil) a haa
    obtain ⟨l, l1, l2⟩ := h.closed.action j hj _ (List.getElem?_eq_getElem hjl) a haa
    have kl := (List.getElem?_eq_some_iff.1 k2).1
    have ll := (List.getElem?_eq_some_iff.1 l2).1
    refine Ok.bind (Ok.get ?_)
    refine Ok.bind (Ok.lift (by rw [hw.disc]; exact k1) ?_)
    refine Ok.bind (Ok.lift (by rw [hw.disc]; exact l1) ?_)
    refine Ok.bind ((memo_ok hw.inv (by rw [hw.prefixes]; exact kl) (by rw [hw.prefixes]; exact ll)).mono ?_)
    intro o T2 hc
    have hw2 := hw.trans hc.work
    split
    · rename_i ho
      obtain ⟨r, hro⟩ := Option.isSome_iff_exists.1 ho
      refine Ok.pure ⟨by simp, fun _ => ⟨hw2, ⟨k, l, by rw [hw2.disc]; exact k1, by rw [hw2.disc]; exact l1,
        (hc.yes r hro).1⟩, ?_⟩⟩
      rintro a' ⟨k', l', e1, e2, e3⟩
      exact ⟨k', l', by rw [hc.step.disc]; exact e1, by rw [hc.step.disc]; exact e2, hc.keep _ _ e3⟩
    · refine Ok.bind ((resolveDiscrete_ok he hE hw2.inv (hw2.regular hr) (by rw [hw2.prefixes]; exact hil)
        (by rw [hw2.prefixes]; exact hjl) (by rw [hw2.alphabet]; exact haa)).mono ?_)
      intro _ T3 hns
      exact Ok.pure ⟨fun _ => hw2.newSuffix hns, by simp⟩
  · rintro b T' ⟨h1, h2⟩
    exact ⟨h1, fun hb => ⟨(h2 hb).1, (h2 hb).2.1⟩⟩

theorem Work.sameAfter {T T' : ObsTable σ} (h : Work f T T') {i j : ℕ} {a : Action} (hs : SameAfter f T i j a) :
    SameAfter f T' i j a := by
  obtain ⟨k, l, e1, e2, e3⟩ := hs
  exact ⟨k, l, by rw [h.disc]; exact e1, by rw [h.disc]; exact e2, h.keep _ _ e3⟩

theorem Work.pair {T T' : ObsTable σ} (h : Work f T T') {i j : ℕ} (hs : PairConsistent f T i j) :
    PairConsistent f T' i j := by
  rcases hs with hs | ⟨h1, h2, k, l, h3, h4, h5⟩
  · exact Or.inl (h.apart hs)
  · refine Or.inr ⟨h.keep _ _ h1, fun a ha => h.sameAfter (h2 a (by rw [← h.alphabet]; exact ha)), k, l,
      by rw [h.cont]; exact h3, by rw [h.cont]; exact h4, h5.imp (h.keep _ _) h.apart⟩

theorem checkPair_ok (he : EnvOk env f) (hE : E .abort) (h : Inv f T) (hr : T.Regular) {i j : ℕ}
    (hi : i ∈ T.pIndices) (hj : j ∈ T.pIndices) :
    Ok E (checkPair env i j) T fun b T' => (b = true → NewSuffixI f T T') ∧
      (b = false → Work f T T' ∧ (j < i → PairConsistent f T' i j)) := by
  have hil := h.closed.inside.2 i hi
  have hjl := h.closed.inside.2 j hj
  unfold checkPair
  split
  · exact Ok.pure ⟨by simp, fun _ => ⟨.refl h, by omega⟩⟩
  · refine Ok.bind (Ok.get ?_)
    refine Ok.bind ((memo_ok h hil hjl).mono ?_)
    intro o T1 hc
    have hw := hc.work
    split
    · rename_i ho
      exact Ok.pure ⟨by simp, fun _ => ⟨hw, fun _ => Or.inl (hc.no (by simpa using ho))⟩⟩
    · rename_i ho
      obtain ⟨r, hro⟩ := Option.ne_none_iff_exists'.1 (by simpa using ho)
      have hm := (hc.yes r hro).1
      refine Ok.bind ((checkDiscrete_ok he hE hw.inv (hw.regular hr) (by rw [hw.pIndices]; exact hi)
        (by rw [hw.pIndices]; exact hj) T.alphabet (fun a ha => by rw [hw.alphabet]; exact ha)).mono ?_)
      rintro b T2 ⟨g1, g2⟩
      split
      · rename_i hb
        exact Ok.pure ⟨fun _ => hw.newSuffix (g1 hb), by simp⟩
      · rename_i hb
        obtain ⟨m1, m2⟩ := g2 (by simpa using hb)
        have hw2 := hw.trans m1
        obtain ⟨k, k1, k2⟩ := h.closed.time i hi _ (List.getElem?_eq_getElem hil)
        obtain ⟨l, l1, l2⟩ := h.closed.time j hj _ (List.getElem?_eq_getElem hjl)
        have kl := (List.getElem?_eq_some_iff.1 k2).1
        have ll := (List.getElem?_eq_some_iff.1 l2).1
        refine Ok.bind (Ok.lift k1 ?_)
        refine Ok.bind (Ok.lift l1 ?_)
        refine Ok.bind ((memo_ok hw2.inv (by rw [hw2.prefixes]; exact kl) (by rw [hw2.prefixes]; exact ll)).mono ?_)
        intro o T3 hc3
        have hw3 := hw2.trans hc3.work
        have fin : ∀ T', Work f T3 T' → (T'.MergesInto f k l ∨ T'.Apart k l) → PairConsistent f T' i j := by
          intro T' hw' hkl
          have m13 := m1.trans (hc3.work.trans hw')
          have m3 := hc3.work.trans hw'
          refine Or.inr ⟨m13.keep _ _ hm, fun a ha => m3.sameAfter (m2 a ?_), k, l, ?_, ?_, hkl⟩
          · rw [hw'.alphabet, hw3.alphabet] at ha; exact ha
          · rw [hw'.cont, hw3.cont]; exact k1
          · rw [hw'.cont, hw3.cont]; exact l1
        split
        · rename_i ho3
          obtain ⟨r3, hr3⟩ := Option.isSome_iff_exists.1 ho3
          exact Ok.pure ⟨by simp, fun _ => ⟨hw3, fun _ => fin T3 (.refl hw3.inv) (Or.inl (hc3.yes r3 hr3).1)⟩⟩
        · rename_i ho3
          have hap := hc3.no (by simpa using ho3)
          refine (resolveContinuous_ok he hw3.inv (hw3.regular hr) (by rw [hw3.prefixes]; exact hil)
            (by rw [hw3.prefixes]; exact hjl)).mono ?_
          rintro b T4 ⟨n1, n2⟩
          refine ⟨fun hb => hw3.newSuffix (n1 hb), fun hb => ⟨hw3.trans (n2 hb), fun _ => ?_⟩⟩
          exact fin T4 (n2 hb) (Or.inr ((n2 hb).apart hap))

theorem consistent_ok (he : EnvOk env f) (hE : E .abort) (h : Inv f T) (hr : T.Regular) :
    Ok E (consistent env) T fun b T' => (b = false → NewSuffixI f T T') ∧
      (b = true → Work f T T' ∧ ∀ i ∈ T.pIndices, ∀ j ∈ T.pIndices, j < i → PairConsistent f T' i j) := by
  unfold consistent
  refine Ok.bind (Ok.get ?_)
  have hm : ∀ i, i ∈ env.orderP T ↔ i ∈ T.pIndices := fun i => orderP_mem he
  refine Ok.bind ((Ok.anyM (fun T' => Work f T T') (fun T' => NewSuffixI f T T')
    (fun i T' => ∀ j ∈ T.pIndices, j < i → PairConsistent f T' i j) ?_ (.refl h)).mono ?_)
  · intro i hi T1 hw
    refine (Ok.anyM (fun T' => Work f T1 T') (fun T' => NewSuffixI f T1 T')
      (fun j T' => j < i → PairConsistent f T' i j) ?_ (.refl hw.inv)).mono ?_
    · intro j hj T2 hw2
      have hw02 := hw.trans hw2
      refine (checkPair_ok he hE hw2.inv (hw02.regular hr) (by rw [hw02.pIndices]; exact (hm i).1 hi)
        (by rw [hw02.pIndices]; exact (hm j).1 hj)).mono ?_
      rintro b T3 ⟨g1, g2⟩
      exact ⟨fun hb => hw2.newSuffix (g1 hb), fun hb => ⟨hw2.trans (g2 hb).1, (g2 hb).2,
        fun a' ha' hlt => (g2 hb).1.pair (ha' hlt)⟩⟩
    · rintro b T2 ⟨g1, g2⟩
      refine ⟨fun hb => hw.newSuffix (g1 hb), fun hb => ?_⟩
      obtain ⟨k1, k2, k3⟩ := g2 hb
      exact ⟨hw.trans k1, fun j hj hlt => k2 j ((hm j).2 hj) hlt,
        fun a' ha' j hj hlt => k1.pair (ha' j hj hlt)⟩
  · rintro b T' ⟨g1, g2⟩
    refine Ok.pure ⟨fun hb => g1 (by simpa using hb), fun hb => ?_⟩
    obtain ⟨k1, k2, _⟩ := g2 (by simpa using hb)
    exact ⟨k1, fun i hi => k2 i ((hm i).2 hi)⟩

end ObsTable
end LearnTA
