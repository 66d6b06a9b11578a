import Verif.Lemmas.ObservationTable5
import Verif.Lemmas.CacheFrame

/-!
# The column cache, and when `consistent` aborts
-/

namespace LearnTA

theorem Ok.both {σ α : Type} {E E' : Fail → Prop} {m : TableM σ α} {T : ObsTable σ} {Q Q' : α → ObsTable σ → Prop}
    (h : Ok E m T Q) (h' : Ok E' m T Q') : Ok E m T fun a T' => Q a T' ∧ Q' a T' := by
  unfold Ok at h h' ⊢
  cases hm : m T with
  | error e => rw [hm] at h; exact h
  | ok p => rw [hm] at h h'; exact ⟨h, h'⟩

namespace ObsTable
variable {σ : Type} {env : Env σ} {f : TimedWord → Bool} {E : Fail → Prop} {T : ObsTable σ}

/-- The entries of the column cache are right for the number of suffixes they were made for. -/
def CacheOk (f : TimedWord → Bool) (T : ObsTable σ) : Prop :=
  ∀ k n b, (k, (n, b)) ∈ T.columnCache → k.2.2.Good ∧ n ≤ T.suffixes.length ∧
    (n = T.suffixes.length → b = true → Extendable f T k.1 k.2.1 k.2.2)

theorem Extendable.mono {T T' : ObsTable σ} {i j : ℕ} {s : BackwardRegional} (h : Extendable f T i j s)
    (hp : T.prefixes <+: T'.prefixes) (hs : T'.suffixes = T.suffixes) : Extendable f T' i j s := by
  obtain ⟨p, q, r, h1, h2, h3⟩ := h
  obtain ⟨l, hl⟩ := hp
  refine ⟨p, q, r, ?_, ?_, ?_⟩
  · rw [← hl, List.getElem?_append_left (List.getElem?_eq_some_iff.1 h1).1]; exact h1
  · rw [← hl, List.getElem?_append_left (List.getElem?_eq_some_iff.1 h2).1]; exact h2
  · unfold ObsTable.sufs at h3 ⊢; rw [hs]; exact h3

theorem CacheOk.frame {T T' : ObsTable σ} (h : CacheOk f T) (hf : Frame T T') : CacheOk f T' := by
  intro k n b hm
  rw [hf.cache] at hm
  obtain ⟨h1, h2, h3⟩ := h k n b hm
  refine ⟨h1, h2.trans hf.suffixes.length_le, fun e hb => ?_⟩
  have hl : T.suffixes.length = T'.suffixes.length := le_antisymm hf.suffixes.length_le (by omega)
  exact (h3 (by omega) hb).mono hf.prefixes (hf.suffixes.eq_of_length hl).symm

theorem rowOk_single {p : ForwardRegional} {s : BackwardRegional} {cell : TimedConditionSet}
    (h1 : IsCell f (p.toElementaryLanguage.append s.toElementaryLanguage) cell)
    (h2 : SymOracle.Whole (p.toElementaryLanguage.append s.toElementaryLanguage) f cell) :
    RowOk f [s] p [cell] [(p.toElementaryLanguage.append s.toElementaryLanguage).cond] := by
  refine ⟨.cons h2 .nil, ⟨rfl, fun i hi => ?_⟩, rfl⟩
  have : i = 0 := by simpa using hi
  subst this
  exact h1

theorem remainsEquivalent_ext (he : EnvOk env f) (h : Inv f T) {i j : ℕ} (hi : i < T.prefixes.length)
    (hj : j < T.prefixes.length) {s : BackwardRegional} (hs : s.Good) {r : RenamingRelation} (hr : T.getRelation i j = some r) :
    Ok E (remainsEquivalent env i j s r) T fun b T' => (∃ o, SymOracle.Inv f TimedWord.Legal o ∧ T' = { T with oracle := o }) ∧
      (b = true → Extendable f T i j s) := by
  obtain ⟨p, row, cat, h1, h2, h3, h4, h5⟩ := h.get hi
  obtain ⟨q, row', cat', g1, g2, g3, g4, g5⟩ := h.get hj
  unfold remainsEquivalent
  refine Ok.bind (Ok.get ?_)
  refine Ok.bind (Ok.lift h1 ?_)
  refine Ok.bind (Ok.lift h2 ?_)
  refine Ok.bind (Ok.lift h3 ?_)
  refine Ok.bind ((query_ok he h.oracle h4 hs).mono ?_)
  rintro cell T1 ⟨⟨c1, c2⟩, o, ho, rfl⟩
  refine Ok.bind (Ok.lift g1 ?_)
  refine Ok.bind (Ok.lift g2 ?_)
  refine Ok.bind (Ok.lift g3 ?_)
  refine Ok.bind ((query_ok he ho g4 hs).mono ?_)
  rintro cell' T2 ⟨⟨d1, d2⟩, o', ho', rfl⟩
  have hst : Static p q r := by
    obtain ⟨p', q', e1, e2, hrec⟩ := h.static hr
    rw [h1] at e1; rw [g1] at e2
    obtain rfl := Option.some.inj e1
    obtain rfl := Option.some.inj e2
    exact hrec.toStatic
  refine Ok.pure ⟨⟨o', ho', rfl⟩, fun hb => ⟨p, q, r, h1, g1, ?_⟩⟩
  have := merges_of h4 g4 (ss := T.suffixes ++ [s]) (by
    intro t ht
    rcases List.mem_append.1 ht with ht | ht
    · exact h.sufs t ht
    · rw [List.mem_singleton.1 ht]; exact hs) (h5.append (rowOk_single c1 c2)) (g5.append (rowOk_single d1 d2))
    hst hb
  rw [List.map_append] at this
  exact this

theorem searchExtended_ext (he : EnvOk env f) (h : Inv f T) {i j : ℕ} (hi : i < T.prefixes.length)
    (hj : j < T.prefixes.length) {s : BackwardRegional} (hs : s.Good) :
    Ok E (searchExtended env i j s) T fun b T' => (∃ o, SymOracle.Inv f TimedWord.Legal o ∧ T' = { T with oracle := o }) ∧
      (b = true → Extendable f T i j s) := by
  obtain ⟨p, row, cat, h1, h2, h3, h4, h5⟩ := h.get hi
  obtain ⟨q, row', cat', g1, g2, g3, g4, g5⟩ := h.get hj
  unfold searchExtended
  refine Ok.bind (Ok.get ?_)
  refine Ok.bind (Ok.lift h1 ?_)
  refine Ok.bind (Ok.lift h2 ?_)
  refine Ok.bind (Ok.lift h3 ?_)
  refine Ok.bind ((query_ok he h.oracle h4 hs).mono ?_)
  rintro cell T1 ⟨⟨c1, c2⟩, o, ho, rfl⟩
  refine Ok.bind (Ok.lift g1 ?_)
  refine Ok.bind (Ok.lift g2 ?_)
  refine Ok.bind (Ok.lift g3 ?_)
  refine Ok.bind ((query_ok he ho g4 hs).mono ?_)
  rintro cell' T2 ⟨⟨d1, d2⟩, o', ho', rfl⟩
  obtain ⟨found, k1, k2⟩ := Equivalence.find_spec (ss := (T.suffixes ++ [s]).map (·.toElementaryLanguage))
    (lrow := row ++ [cell]) (rrow := row' ++ [cell'])
    h4.queryable.proper h4.simple h4.reach.nonneg g4.queryable.proper g4.simple g4.reach.nonneg
    (by simp [h5.length])
  have e1 : cat ++ [(p.toElementaryLanguage.append s.toElementaryLanguage).cond] =
      ((T.suffixes ++ [s]).map (·.toElementaryLanguage)).map fun s => p.cond.append s.cond := by
    rw [h5.cat]; simp [ElementaryLanguage.append]
  have e2 : cat' ++ [(q.toElementaryLanguage.append s.toElementaryLanguage).cond] =
      ((T.suffixes ++ [s]).map (·.toElementaryLanguage)).map fun s => q.cond.append s.cond := by
    rw [g5.cat]; simp [ElementaryLanguage.append]
  refine Ok.bind (Ok.lift (a := found) (by rw [e1, e2]; exact k1) (Ok.pure ⟨⟨o', ho', rfl⟩, fun hb => ?_⟩))
  obtain ⟨r, rfl⟩ := Option.isSome_iff_exists.1 hb
  obtain ⟨a1, a2, a3, a4⟩ := k2 r rfl
  refine ⟨p, q, r, h1, g1, ?_⟩
  have := merges_of h4 g4 (ss := T.suffixes ++ [s]) (by
    intro t ht
    rcases List.mem_append.1 ht with ht | ht
    · exact h.sufs t ht
    · rw [List.mem_singleton.1 ht]; exact hs) (h5.append (rowOk_single c1 c2)) (g5.append (rowOk_single d1 d2))
    (r := r) ⟨a1, a2, a4⟩ (by rw [e1, e2]; exact a3)
  rw [List.map_append] at this
  exact this

theorem CacheOk.store {T : ObsTable σ} (h : CacheOk f T) {i j : ℕ} {s : BackwardRegional} (hs : s.Good) {b : Bool}
    (hb : b = true → Extendable f T i j s) : CacheOk f (T.storeColumn (i, j, s) b) := by
  intro k n b' hm
  rcases List.mem_cons.1 hm with e | hm
  · simp only [Prod.mk.injEq] at e
    obtain ⟨rfl, rfl, rfl⟩ := e
    exact ⟨hs, le_refl _, fun _ hb' => hb hb'⟩
  · exact h k n b' hm

theorem beq_language {s t : BackwardRegional} (h : s.beq t = true) :
    s.toElementaryLanguage.beq t.toElementaryLanguage = true := by
  unfold BackwardRegional.beq at h
  rw [Bool.and_eq_true] at h
  exact h.1

theorem Extendable.congr {i j : ℕ} {s t : BackwardRegional} (h : Extendable f T i j s) (hs : s.Good) (ht : t.Good)
    (hb : s.beq t = true) : Extendable f T i j t := by
  obtain ⟨p, q, r, h1, h2, h3⟩ := h
  refine ⟨p, q, r, h1, h2, fun w w' hw hw' hr e he u hu => ?_, h3.reset⟩
  rcases List.mem_append.1 he with he | he
  · exact h3.agree w w' hw hw' hr e (List.mem_append_left _ he) u hu
  · rw [List.mem_singleton.1 he] at hu
    exact h3.agree w w' hw hw' hr _ (List.mem_append_right _ (List.mem_singleton.2 rfl)) u
      (((SymOracle.beq_fine hs.queryable ht.queryable (beq_language hb)).2 u).2 hu)

theorem equivalentColumn_ext (he : EnvOk env f) (h : Inv f T) (hc : CacheOk f T) {i j : ℕ} (hi : i < T.prefixes.length)
    (hj : j < T.prefixes.length) {s : BackwardRegional} (hs : s.Good) :
    Ok E (equivalentColumn env i j s) T fun b T' => CacheOk f T' ∧ (b = true → Extendable f T i j s) := by
  unfold equivalentColumn
  refine Ok.bind (Ok.get ?_)
  dsimp only
  cases hf : Option.filter (fun p : (ℕ × ℕ × BackwardRegional) × ℕ × Bool => p.2.1 == T.suffixes.length)
      (T.columnCache.find? fun p => env.nearColumn T (i, j, s) p.1 && keyEq p.1 (i, j, s)) with
  | some c =>
    dsimp only
    refine Ok.pure ⟨hc, fun hb => ?_⟩
    rw [Option.filter_eq_some_iff] at hf
    obtain ⟨h1, h2⟩ := hf
    have h3 := List.mem_of_find?_eq_some h1
    have h4 := List.find?_some h1
    obtain ⟨⟨a, b, t⟩, n, b'⟩ := c
    obtain ⟨k1, _, k3⟩ := hc _ _ _ h3
    simp only [keyEq, Bool.and_eq_true, beq_iff_eq] at h4 h2
    obtain ⟨_, ⟨rfl, rfl⟩, h5⟩ := h4
    exact (k3 h2 hb).congr k1 hs h5
  | none =>
    dsimp only
    have step : ∀ (m : TableM σ Bool), Ok E m T (fun b T' => (∃ o, SymOracle.Inv f TimedWord.Legal o ∧
          T' = { T with oracle := o }) ∧ (b = true → Extendable f T i j s)) →
        Ok E (do
          let known ← m
          if known then do
            modify fun T => T.storeColumn (i, j, s) true
            pure true
          else do
            let b ← searchExtended env i j s
            modify fun T => T.storeColumn (i, j, s) b
            pure b) T fun b T' => CacheOk f T' ∧ (b = true → Extendable f T i j s) := by
      intro m hm
      refine Ok.bind (hm.mono ?_)
      rintro known T1 ⟨⟨o, ho, rfl⟩, hk⟩
      have hc1 : CacheOk f { T with oracle := o } := hc
      have hi1 : Inv f { T with oracle := o } := (show Cached f T { T with oracle := o } from ⟨o, _, ho, rfl⟩).inv h
      split
      · rename_i hb
        exact Ok.bind (Ok.modify (Ok.pure ⟨hc1.store hs fun _ => hk hb, fun _ => hk hb⟩))
      · refine Ok.bind ((searchExtended_ext he hi1 hi hj hs).mono ?_)
        rintro b T2 ⟨⟨o2, _, rfl⟩, hb⟩
        have hc2 : CacheOk f { T with oracle := o2 } := hc
        exact Ok.bind (Ok.modify (Ok.pure ⟨hc2.store hs hb, hb⟩))
    cases hr : T.getRelation i j with
    | none => exact step _ (Ok.pure ⟨⟨T.oracle, h.oracle, rfl⟩, by simp⟩)
    | some r => exact step _ (remainsEquivalent_ext he h hi hj hs hr)

theorem Cached.same {T T' : ObsTable σ} (h : Cached f T T') : T'.prefixes = T.prefixes ∧ T'.suffixes = T.suffixes := by
  obtain ⟨_, _, _, rfl⟩ := h; exact ⟨rfl, rfl⟩

theorem Extendable.back {T T' : ObsTable σ} {i j : ℕ} {s : BackwardRegional} (h : Extendable f T' i j s)
    (hp : T'.prefixes = T.prefixes) (hs : T'.suffixes = T.suffixes) : Extendable f T i j s :=
  h.mono (hp ▸ List.prefix_refl _) hs.symm

theorem findDistinguishing_ext (he : EnvOk env f) (h : Inv f T) (hc : CacheOk f T) {i j : ℕ} (hi : i < T.prefixes.length)
    (hj : j < T.prefixes.length) (ss : List BackwardRegional) (hs : ∀ s ∈ ss, s.Good) :
    Ok E (findDistinguishing env i j ss) T fun o T' => CacheOk f T' ∧ (o = none → ∀ s ∈ ss, Extendable f T i j s) := by
  induction ss generalizing T with
  | nil => exact Ok.pure ⟨hc, by simp⟩
  | cons s ss ih =>
    unfold findDistinguishing
    refine Ok.bind (((equivalentColumn_ok he h hi hj (hs s (by simp))).both (E' := E)
      (equivalentColumn_ext he h hc hi hj (hs s (by simp)))).mono ?_)
    rintro b T1 ⟨h1, h2, h3⟩
    obtain ⟨hl, hl'⟩ := h1.same
    split
    · rename_i hb
      refine (ih (h1.inv h) h2 (by rw [hl]; exact hi) (by rw [hl]; exact hj) fun x hx => hs x (by simp [hx])).mono ?_
      rintro o T2 ⟨k1, k2⟩
      refine ⟨k1, fun e x hx => ?_⟩
      rcases List.mem_cons.1 hx with rfl | hx
      · exact h3 hb
      · exact (k2 e x hx).back hl hl'
    · exact Ok.pure ⟨h2, by simp⟩

theorem KeepsC.cacheOk {α : Type} {m : TableM σ α} (hk : KeepsC m) (hc : CacheOk f T) {E' : Fail → Prop}
    {Q : α → ObsTable σ → Prop} (h : Ok E' m T Q) : Ok E' m T fun a T' => CacheOk f T' ∧ Q a T' :=
  (h.both (hk T)).mono fun _ _ ⟨h1, h2⟩ => ⟨hc.frame h2, h1⟩

theorem resolveDiscrete_ext (he : EnvOk env f) (h : Inv f T) (hc : CacheOk f T) (hr : T.Regular) {i j : ℕ}
    (hi : i < T.prefixes.length) (hj : j < T.prefixes.length) {a : Action} (ha : a ∈ T.alphabet)
    (hE : (∀ t ∈ T.suffixes, Extendable f T i j (t.predecessorAction a)) → E .abort) :
    Ok E (resolveDiscrete env i j a) T fun _ T' => CacheOk f T' := by
  have hg : ∀ s ∈ T.suffixes.map fun s => s.predecessorAction a, s.Good := by
    intro s hs
    obtain ⟨t, ht, rfl⟩ := List.mem_map.1 hs
    exact (hr t ht) _ (.action a (h.alpha.2 a ha) .refl)
  unfold resolveDiscrete
  refine Ok.bind (Ok.get ?_)
  refine Ok.bind (((findDistinguishing_ok he h hi hj _ hg).both (E' := E) (findDistinguishing_ext he h hc hi hj _ hg)).mono ?_)
  rintro o T1 ⟨⟨h1, h2⟩, h3, h4⟩
  cases o with
  | none => exact Ok.throw (hE fun t ht => h4 rfl _ (List.mem_map.2 ⟨t, ht, rfl⟩))
  | some s =>
    exact ((addSuffix_keepsC s).cacheOk h3 (addSuffix_ok he (h1.inv h) (hg s (h2 s rfl)))).mono fun _ _ h => h.1

theorem resolveContinuous_ext (he : EnvOk env f) (h : Inv f T) (hc : CacheOk f T) (hr : T.Regular) {i j : ℕ}
    (hi : i < T.prefixes.length) (hj : j < T.prefixes.length) :
    Ok E (resolveContinuous env i j) T fun b T' => CacheOk f T' ∧
      (b = false → ∀ t ∈ T.suffixes, Extendable f T i j t.predecessor) := by
  have hg : ∀ s ∈ T.suffixes.map fun s => s.predecessor, s.Good := by
    intro s hs
    obtain ⟨t, ht, rfl⟩ := List.mem_map.1 hs
    exact (hr t ht) _ (.time .refl)
  unfold resolveContinuous
  refine Ok.bind (Ok.get ?_)
  refine Ok.bind (((findDistinguishing_ok he h hi hj _ hg).both (E' := E) (findDistinguishing_ext he h hc hi hj _ hg)).mono ?_)
  rintro o T1 ⟨⟨h1, h2⟩, h3, h4⟩
  cases o with
  | none => exact Ok.pure ⟨h3, fun _ t ht => h4 rfl _ (List.mem_map.2 ⟨t, ht, rfl⟩)⟩
  | some s =>
    refine Ok.bind (((addSuffix_keepsC s).cacheOk h3 (addSuffix_ok he (h1.inv h) (hg s (h2 s rfl)))).mono ?_)
    rintro _ T2 ⟨k, _⟩
    exact Ok.pure ⟨k, by simp⟩

/-- What `consistent` has found out about the time successors of `i` and `j`. -/
def PairTime (f : TimedWord → Bool) (T : ObsTable σ) (i j : ℕ) : Prop :=
  T.Apart i j ∨ ∃ k l, T.continuousSuccessors i = some k ∧ T.continuousSuccessors j = some l ∧
    (T.MergesInto f k l ∨ ∀ t ∈ T.suffixes, Extendable f T i j t.predecessor)

theorem Work.extendable {T T' : ObsTable σ} (h : Work f T T') {i j : ℕ} {s : BackwardRegional} (hs : Extendable f T i j s) :
    Extendable f T' i j s := hs.mono (h.prefixes ▸ List.prefix_refl _) h.suffixes

theorem Work.pairTime {T T' : ObsTable σ} (h : Work f T T') {i j : ℕ} (hs : PairTime f T i j) : PairTime f T' i j := by
  rcases hs with hs | ⟨k, l, h1, h2, h3⟩
  · exact Or.inl (h.apart hs)
  · refine Or.inr ⟨k, l, by rw [h.cont]; exact h1, by rw [h.cont]; exact h2, h3.imp (h.keep _ _) fun h' t ht => ?_⟩
    exact h.extendable (h' t (by rw [← h.suffixes]; exact ht))

theorem Compared.cacheOk {T T' : ObsTable σ} {i j : ℕ} {o : Option RenamingRelation} (h : Compared f i j T o T')
    (hc : CacheOk f T) : CacheOk f T' := by
  obtain ⟨⟨a, b, rfl⟩, _⟩ := h.step
  exact hc

/-- The action `a` shows an inconsistency of `i` and `j` that no suffix resolves. -/
def Stuck (f : TimedWord → Bool) (T : ObsTable σ) (i j : ℕ) (a : Action) : Prop :=
  ∀ t ∈ T.suffixes, Extendable f T i j (t.predecessorAction a)

theorem Work.stuck {T T' : ObsTable σ} (h : Work f T T') {i j : ℕ} {a : Action} (hs : Stuck f T' i j a) : Stuck f T i j a := by
  intro t ht
  exact (hs t (by rw [h.suffixes]; exact ht)).back h.prefixes h.suffixes

theorem checkDiscrete_ext (he : EnvOk env f) (h : Inv f T) (hc : CacheOk f T) (hr : T.Regular) {i j : ℕ}
    (hi : i ∈ T.pIndices) (hj : j ∈ T.pIndices) (as : List Action) (ha : ∀ a ∈ as, a ∈ T.alphabet)
    (hE : ∀ a ∈ T.alphabet, Stuck f T i j a → E .abort) :
    Ok E (checkDiscrete env i j as) T fun _ T' => CacheOk f T' := by
  have hil := h.closed.inside.2 i hi
  have hjl := h.closed.inside.2 j hj
  unfold checkDiscrete
  refine (Ok.anyM (fun T' => Work f T T' ∧ CacheOk f T') (fun T' => CacheOk f T') (fun a T' => True)
    ?_ ⟨.refl h, hc⟩).mono ?_
  · rintro a ham T1 ⟨hw, hc1⟩
    have haa := ha a ham
    obtain ⟨k, k1, k2⟩ := h.closed.action i hi _ (List.getElem?_eq_getElem hil) a haa
    obtain ⟨l, l1, l2⟩ := h.closed.action j hj _ (List.getElem?_eq_getElem hjl) a haa
    have kl := (List.getElem?_eq_some_iff.1 k2).1
    have ll := (List.getElem?_eq_some_iff.1 l2).1
    refine Ok.bind (Ok.get ?_)
    refine Ok.bind (Ok.lift (by rw [hw.disc]; exact k1) ?_)
    refine Ok.bind (Ok.lift (by rw [hw.disc]; exact l1) ?_)
    refine Ok.bind ((memo_ok hw.inv (by rw [hw.prefixes]; exact kl) (by rw [hw.prefixes]; exact ll)).mono ?_)
    intro o T2 hcm
    have hw2 := hw.trans hcm.work
    split
    · exact Ok.pure ⟨by simp, fun _ => ⟨⟨hw2, hcm.cacheOk hc1⟩, trivial, fun _ _ => trivial⟩⟩
    · refine Ok.bind ((resolveDiscrete_ext he hw2.inv (hcm.cacheOk hc1) (hw2.regular hr) (by rw [hw2.prefixes]; exact hil)
        (by rw [hw2.prefixes]; exact hjl) (by rw [hw2.alphabet]; exact haa)
        (fun hst => hE a haa (hw2.stuck hst))).mono ?_)
      intro _ T3 h3
      exact Ok.pure ⟨fun _ => h3, by simp⟩
  · rintro b T' ⟨h1, h2⟩
    cases b with
    | true => exact h1 rfl
    | false => exact (h2 rfl).1.2

theorem checkPair_ext (he : EnvOk env f) (h : Inv f T) (hc : CacheOk f T) (hr : T.Regular) {i j : ℕ}
    (hi : i ∈ T.pIndices) (hj : j ∈ T.pIndices) (hE : j < i → ∀ a ∈ T.alphabet, Stuck f T i j a → E .abort) :
    Ok E (checkPair env i j) T fun b T' => CacheOk f T' ∧ (b = false → j < i → PairTime f T' i j) := by
  have hil := h.closed.inside.2 i hi
  have hjl := h.closed.inside.2 j hj
  unfold checkPair
  split
  · exact Ok.pure ⟨hc, by omega⟩
  · rename_i hle
    refine Ok.bind (Ok.get ?_)
    refine Ok.bind ((memo_ok h hil hjl).mono ?_)
    intro o T1 hcm
    have hw := hcm.work
    have hc1 := hcm.cacheOk hc
    split
    · rename_i ho
      exact Ok.pure ⟨hc1, fun _ _ => Or.inl (hcm.no (by simpa using ho))⟩
    · refine Ok.bind (((checkDiscrete_ext (E := E) he hw.inv hc1 (hw.regular hr) (by rw [hw.pIndices]; exact hi)
        (by rw [hw.pIndices]; exact hj) T.alphabet (fun a ha => by rw [hw.alphabet]; exact ha)
        (fun a ha hst => hE (by omega) a (by rw [hw.alphabet] at ha; exact ha) (hw.stuck hst))).both
          (checkDiscrete_ok (E := fun _ => True) he trivial hw.inv (hw.regular hr) (by rw [hw.pIndices]; exact hi)
        (by rw [hw.pIndices]; exact hj) T.alphabet (fun a ha => by rw [hw.alphabet]; exact ha))).mono ?_)
      rintro b T2 ⟨hc2, g1, g2⟩
      split
      · exact Ok.pure ⟨hc2, by simp⟩
      · rename_i hb
        obtain ⟨m1, m2⟩ := g2 (by simpa using hb)
        have hw2 := hw.trans m1
        obtain ⟨k, k1, k2⟩ := h.closed.time i hi _ (List.getElem?_eq_getElem hil)
        obtain ⟨l, l1, l2⟩ := h.closed.time j hj _ (List.getElem?_eq_getElem hjl)
        have kl := (List.getElem?_eq_some_iff.1 k2).1
        have ll := (List.getElem?_eq_some_iff.1 l2).1
        refine Ok.bind (Ok.lift k1 ?_)
        refine Ok.bind (Ok.lift l1 ?_)
        refine Ok.bind ((memo_ok hw2.inv (by rw [hw2.prefixes]; exact kl) (by rw [hw2.prefixes]; exact ll)).mono ?_)
        intro o T3 hc3
        have hw3 := hw2.trans hc3.work
        split
        · rename_i ho3
          obtain ⟨r3, hr3⟩ := Option.isSome_iff_exists.1 ho3
          exact Ok.pure ⟨hc3.cacheOk hc2, fun _ _ => Or.inr ⟨k, l, by rw [hw3.cont]; exact k1, by rw [hw3.cont]; exact l1,
            Or.inl (hc3.yes r3 hr3).1⟩⟩
        · refine ((resolveContinuous_ext (E := E) he hw3.inv (hc3.cacheOk hc2) (hw3.regular hr)
            (by rw [hw3.prefixes]; exact hil) (by rw [hw3.prefixes]; exact hjl)).both
              (resolveContinuous_ok (E := E) he hw3.inv (hw3.regular hr)
            (by rw [hw3.prefixes]; exact hil) (by rw [hw3.prefixes]; exact hjl))).mono ?_
          rintro b T4 ⟨⟨n1, n2⟩, _, n3⟩
          refine ⟨n1, fun hb _ => (n3 hb).pairTime (Or.inr ⟨k, l, by rw [hw3.cont]; exact k1, by rw [hw3.cont]; exact l1,
            Or.inr (n2 hb)⟩)⟩

theorem consistent_ext (he : EnvOk env f) (h : Inv f T) (hc : CacheOk f T) (hr : T.Regular)
    (hE : ∀ i ∈ T.pIndices, ∀ j ∈ T.pIndices, j < i → ∀ a ∈ T.alphabet, Stuck f T i j a → E .abort) :
    Ok E (consistent env) T fun b T' => CacheOk f T' ∧
      (b = true → ∀ i ∈ T.pIndices, ∀ j ∈ T.pIndices, j < i → PairTime f T' i j) := by
  unfold consistent
  refine Ok.bind (Ok.get ?_)
  have hm : ∀ i, i ∈ env.orderP T ↔ i ∈ T.pIndices := fun i => orderP_mem he
  refine Ok.bind ((Ok.anyM (fun T' => Work f T T' ∧ CacheOk f T') (fun T' => CacheOk f T')
    (fun i T' => ∀ j ∈ T.pIndices, j < i → PairTime f T' i j) ?_ ⟨.refl h, hc⟩).mono ?_)
  · rintro i hi T1 ⟨hw, hc1⟩
    refine (Ok.anyM (fun T' => Work f T1 T' ∧ CacheOk f T') (fun T' => CacheOk f T')
      (fun j T' => j < i → PairTime f T' i j) ?_ ⟨.refl hw.inv, hc1⟩).mono ?_
    · rintro j hj T2 ⟨hw12, hc2⟩
      have hw2 := hw.trans hw12
      refine ((checkPair_ext he hw2.inv hc2 (hw2.regular hr) (by rw [hw2.pIndices]; exact (hm i).1 hi)
        (by rw [hw2.pIndices]; exact (hm j).1 hj)
        (fun hlt a ha hst => hE i ((hm i).1 hi) j ((hm j).1 hj) hlt a (by rw [hw2.alphabet] at ha; exact ha)
          (hw2.stuck hst))).both (checkPair_ok (E := fun _ => True) he trivial hw2.inv (hw2.regular hr)
            (by rw [hw2.pIndices]; exact (hm i).1 hi) (by rw [hw2.pIndices]; exact (hm j).1 hj))).mono ?_
      rintro b T3 ⟨⟨g0, g⟩, g1, g2⟩
      exact ⟨fun _ => g0, fun hb => ⟨⟨hw12.trans (g2 hb).1, g0⟩, g hb, fun a' ha' hlt => (g2 hb).1.pairTime (ha' hlt)⟩⟩
    · rintro b T2 ⟨g1, g2⟩
      refine ⟨g1, fun hb => ?_⟩
      obtain ⟨k1, k2, _⟩ := g2 hb
      exact ⟨⟨hw.trans k1.1, k1.2⟩, fun j hj hlt => k2 j ((hm j).2 hj) hlt,
        fun a' ha' j hj hlt => k1.1.pairTime (ha' j hj hlt)⟩
  · rintro b T' ⟨g1, g2⟩
    refine Ok.pure ⟨?_, fun hb => ?_⟩
    · cases b with
      | true => exact g1 rfl
      | false => exact (g2 rfl).1.2
    · exact fun i hi => (g2 (by simpa using hb)).2.1 i ((hm i).2 hi)

end ObsTable
end LearnTA
