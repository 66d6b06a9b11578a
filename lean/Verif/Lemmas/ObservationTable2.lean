import Verif.Lemmas.ObservationTable

/-!
# The operations on the observation table
-/

namespace LearnTA
open TimedCondition
namespace ObsTable
variable {σ : Type} {env : Env σ} {f : TimedWord → Bool} {E : Fail → Prop} {T : ObsTable σ}

/-! ### Access -/

theorem Inv.preOk (h : Inv f T) {p : ForwardRegional} (hp : p ∈ T.prefixes) : PreOk p :=
  ⟨(h.closed.region p hp).1, fun a ha => h.alpha.2 a ((h.closed.region p hp).2 a ha)⟩

theorem Inv.get (h : Inv f T) {i : ℕ} (hi : i < T.prefixes.length) : ∃ p row cat, T.prefixes[i]? = some p ∧
    T.table[i]? = some row ∧ T.concatenations[i]? = some cat ∧ PreOk p ∧ RowOk f T.suffixes p row cat := by
  have hp : T.prefixes[i]? = some T.prefixes[i] := List.getElem?_eq_getElem hi
  have h1 := h.rows.ok i _ hp
  have l1 := h.rows.len
  have l2 := h.rows.len'
  refine ⟨_, T.table.getD i [], T.concatenations.getD i [], hp, ?_, ?_, h.preOk (List.getElem_mem hi), h1⟩
  · rw [List.getD_eq_getElem?_getD, List.getElem?_eq_getElem (by omega)]; rfl
  · rw [List.getD_eq_getElem?_getD, List.getElem?_eq_getElem (by omega)]; rfl

theorem merges_of {p q : ForwardRegional} (hp : PreOk p) (hq : PreOk q) {ss : List BackwardRegional}
    (hs : ∀ s ∈ ss, s.Good) {row row' : List TimedConditionSet} {cat cat' : List TimedCondition}
    (h : RowOk f ss p row cat) (h' : RowOk f ss q row' cat') {r : RenamingRelation} (hr : Static p q r)
    (he : Equivalence.equivalenceCat p.toElementaryLanguage row cat q.toElementaryLanguage row' cat'
      (ss.map (·.toElementaryLanguage)) r = true) :
    Merges f p.toElementaryLanguage q.toElementaryLanguage (ss.map (·.toElementaryLanguage)) r := by
  have hss : ∀ s ∈ ss.map (·.toElementaryLanguage), s.Proper := by
    intro s hsm
    obtain ⟨t, ht, rfl⟩ := List.mem_map.1 hsm
    exact (hs t ht).queryable.proper
  have hP := hp.queryable.proper
  have hQ := hq.queryable.proper
  rw [h.cat, h'.cat] at he
  obtain ⟨h1, h2⟩ := Equivalence.equivalence_sound hP hQ hss h.row h'.row hr.inRange he
  refine ⟨?_, ?_⟩
  · intro w w' hw hw' hrel s hsm u hu
    refine h2 s hsm _ _ ?_
    rw [Equivalence.comparable_iff hP hQ (hss s hsm)]
    exact Equivalence.pair_of_append hP hQ (hss s hsm) ((Equivalence.inRange_iff hP hQ).1 hr.inRange) hw hw' hu hrel
  · obtain ⟨U, g1, g2⟩ := Equivalence.reset_related hP hp.simple hQ hq.simple hr.inRange hr.unique hr.total h1
    refine ⟨U, g1, fun w hw => ?_⟩
    obtain ⟨w', k1, k2, k3⟩ := g2 w hw
    have hwf : q.word.length + 1 = q.cond.size := hQ.wf
    exact ⟨w', k1, k2, fun x hx => k3 x (by omega)⟩

theorem _root_.LearnTA.Merges.init {e e' : ElementaryLanguage} {ss : List BackwardRegional} {r : RenamingRelation}
    (h : Merges f e e' (ss.map (·.toElementaryLanguage)) r) (h0 : ss[0]? = some .init) :
    Merges f e e' [BackwardRegional.init.toElementaryLanguage] r := by
  refine ⟨fun w w' hw hw' hr s hs u hu => ?_, h.reset⟩
  simp only [List.mem_singleton] at hs
  subst hs
  exact h.agree w w' hw hw' hr _ (List.mem_map.2 ⟨_, List.mem_of_getElem? h0, rfl⟩) u hu

/-! ### Refreshing -/

/-- The rows are correct as far as they go. -/
def Partial (f : TimedWord → Bool) (T : ObsTable σ) : Prop :=
  ∀ i p, T.prefixes[i]? = some p → ∃ k, RowOk f (T.suffixes.take k) p (T.table.getD i []) (T.concatenations.getD i [])

theorem refresh_ok (he : EnvOk env f) (h : Core f T) (hc : T.PrefixClosed) (hp : Partial f T) :
    Ok E (refreshTable env) T fun _ T' => Inv f T' ∧
      ∃ o t c, T' = { T with oracle := o, table := t, concatenations := c } := by
  unfold refreshTable
  refine Ok.bind (Ok.get ?_)
  refine Ok.bind ((fillRows_ok he T.suffixes h.sufs T.prefixes (fun p hm => ⟨(hc.region p hm).1, fun a ha =>
    h.alpha.2 a ((hc.region p hm).2 a ha)⟩) T.table T.concatenations hp h.oracle).mono ?_)
  rintro r T1 ⟨⟨h1, h2, h3⟩, o, h4, rfl⟩
  refine Ok.modify ⟨⟨⟨h.alpha, h.suf0, h.sufs, h4, h.rel, h.dist⟩, ?_, ⟨h1, h2, h3⟩⟩, o, r.1, r.2, rfl⟩
  exact ⟨hc.region, hc.root, hc.inside, hc.distinct, hc.time, hc.action, hc.parent, hc.only⟩

theorem Inv.partial (h : Inv f T) : Partial f T := by
  intro i p hp
  exact ⟨T.suffixes.length, by rw [List.take_length]; exact h.rows.ok i p hp⟩

theorem refresh_inv (he : EnvOk env f) (h : Inv f T) :
    Ok E (refreshTable env) T fun _ T' => Inv f T' ∧
      ∃ o t c, T' = { T with oracle := o, table := t, concatenations := c } :=
  refresh_ok he h.toCore h.closed h.partial

/-! ### Relations -/

/-- Only relations and distinguished pairs change. -/
structure RelStep (T T' : ObsTable σ) : Prop where
  eq : ∃ cr d, T' = { T with closedRelation := cr, distinguishedPrefix := d }
  dist : ∀ x ∈ T.distinguishedPrefix, x ∈ T'.distinguishedPrefix

theorem RelStep.refl (T : ObsTable σ) : RelStep T T := ⟨⟨_, _, rfl⟩, fun _ h => h⟩

theorem RelStep.trans {T T' T'' : ObsTable σ} (h : RelStep T T') (h' : RelStep T' T'') : RelStep T T'' := by
  obtain ⟨⟨a, b, rfl⟩, h1⟩ := h
  obtain ⟨⟨c, d, rfl⟩, h2⟩ := h'
  exact ⟨⟨c, d, rfl⟩, fun x hx => h2 _ (h1 x hx)⟩

theorem RelStep.prefixes {T T' : ObsTable σ} (h : RelStep T T') : T'.prefixes = T.prefixes := by
  obtain ⟨⟨a, b, rfl⟩, _⟩ := h; rfl
theorem RelStep.pIndices {T T' : ObsTable σ} (h : RelStep T T') : T'.pIndices = T.pIndices := by
  obtain ⟨⟨a, b, rfl⟩, _⟩ := h; rfl
theorem RelStep.cont {T T' : ObsTable σ} (h : RelStep T T') : T'.continuousSuccessors = T.continuousSuccessors := by
  obtain ⟨⟨a, b, rfl⟩, _⟩ := h; rfl
theorem RelStep.disc {T T' : ObsTable σ} (h : RelStep T T') : T'.discreteSuccessors = T.discreteSuccessors := by
  obtain ⟨⟨a, b, rfl⟩, _⟩ := h; rfl
theorem RelStep.alphabet {T T' : ObsTable σ} (h : RelStep T T') : T'.alphabet = T.alphabet := by
  obtain ⟨⟨a, b, rfl⟩, _⟩ := h; rfl
theorem RelStep.suffixes {T T' : ObsTable σ} (h : RelStep T T') : T'.suffixes = T.suffixes := by
  obtain ⟨⟨a, b, rfl⟩, _⟩ := h; rfl
theorem RelStep.inP {T T' : ObsTable σ} (h : RelStep T T') (i : ℕ) : T'.inP i = T.inP i := by
  unfold ObsTable.inP; rw [h.pIndices]
theorem RelStep.isMatch {T T' : ObsTable σ} (h : RelStep T T') (i : ℕ) : T'.isMatch i = T.isMatch i := by
  obtain ⟨⟨a, b, rfl⟩, _⟩ := h; rfl

theorem inP_iff {i : ℕ} : T.inP i = true ↔ i ∈ T.pIndices := by simp [inP]

theorem lookup_cons' {β : Type} (a : ℕ) (b : β) (l : List (ℕ × β)) (j : ℕ) :
    ((a, b) :: l).lookup j = if j = a then some b else l.lookup j := by
  rw [List.lookup_cons]
  by_cases e : j = a
  · subst e; simp
  · have : (j == a) = false := by simpa using e
    rw [this, if_neg e]

theorem setKey_lookup {β : Type} (k : ℕ) (v : β) (l : List (ℕ × β)) (j : ℕ) :
    (setKey k v l).lookup j = if j = k then some v else l.lookup j := by
  induction l with
  | nil => simp only [setKey, lookup_cons', List.lookup_nil]
  | cons p l ih =>
    obtain ⟨a, b⟩ := p
    unfold setKey
    by_cases hk : a = k
    · subst hk
      simp only [if_true, lookup_cons']
      split <;> simp_all
    · simp only [hk, if_false, lookup_cons', ih]
      by_cases h : j = a
      · subst h; simp [hk]
      · simp [h]

theorem mem_setKey {β : Type} {k : ℕ} {v : β} {l : List (ℕ × β)} {x : ℕ × β} (h : x ∈ setKey k v l) :
    x = (k, v) ∨ x ∈ l := by
  induction l with
  | nil => simpa [setKey] using h
  | cons p l ih =>
    unfold setKey at h
    split at h
    · rcases List.mem_cons.1 h with h | h
      · exact Or.inl h
      · exact Or.inr (by simp [h])
    · rcases List.mem_cons.1 h with h | h
      · exact Or.inr (by simp [h])
      · rcases ih h with h | h
        · exact Or.inl h
        · exact Or.inr (by simp [h])

theorem setKey_nodup {β : Type} {k : ℕ} {v : β} {l : List (ℕ × β)} (h : (l.map (·.1)).Nodup) :
    ((setKey k v l).map (·.1)).Nodup := by
  induction l with
  | nil => simp [setKey]
  | cons p l ih =>
    obtain ⟨h1, h2⟩ := List.nodup_cons.1 h
    unfold setKey
    split
    · rename_i hk
      rw [List.map_cons, List.nodup_cons]
      exact ⟨by rw [← hk]; exact h1, h2⟩
    · rename_i hk
      rw [List.map_cons, List.nodup_cons]
      refine ⟨?_, ih h2⟩
      intro hm
      obtain ⟨x, hx, e⟩ := List.mem_map.1 hm
      rcases mem_setKey hx with rfl | hx
      · exact hk e.symm
      · exact h1 (List.mem_map.2 ⟨x, hx, e⟩)

theorem lookup_mem {β : Type} {l : List (ℕ × β)} {j : ℕ} {r : β} (h : l.lookup j = some r) : (j, r) ∈ l := by
  induction l with
  | nil => simp at h
  | cons p l ih =>
    obtain ⟨a, b⟩ := p
    rw [List.lookup_cons] at h
    by_cases e : j = a
    · subst e; simp at h; simp [h]
    · have : (j == a) = false := by simpa using e
      rw [this] at h; exact List.mem_cons_of_mem _ (ih h)

theorem lookup_of_mem {β : Type} {l : List (ℕ × β)} {j : ℕ} (h : j ∈ l.map (·.1)) : ∃ r, l.lookup j = some r := by
  induction l with
  | nil => simp at h
  | cons p l ih =>
    obtain ⟨a, b⟩ := p
    rw [List.lookup_cons]
    by_cases e : j = a
    · subst e; exact ⟨b, by simp⟩
    · have : (j == a) = false := by simpa using e
      rw [this]
      simp only [List.map_cons, List.mem_cons] at h
      exact ih (h.resolve_left e)

theorem lookup_filter {β : Type} (l : List (ℕ × β)) (j k : ℕ) (h : j ≠ k) :
    (l.filter fun p => !(p.1 == k)).lookup j = l.lookup j := by
  induction l with
  | nil => rfl
  | cons p l ih =>
    obtain ⟨a, b⟩ := p
    rw [List.filter_cons]
    by_cases e : a = k
    · subst e
      simp only [beq_self_eq_true, Bool.not_true, Bool.false_eq_true, if_false, List.lookup_cons, ih]
      have : (j == a) = false := by simpa using h
      rw [this]
    · have : (a == k) = false := by simpa using e
      simp only [this, Bool.not_false, if_true, List.lookup_cons, ih]

theorem getRelation_put (i : ℕ) (l : List (ℕ × RenamingRelation)) (a b : ℕ) :
    (T.putRelations i l).getRelation a b = if a = i then l.lookup b else T.getRelation a b := by
  unfold putRelations getRelation
  simp only [Function.update_apply]
  split <;> simp

theorem put_rows (i : ℕ) (l : List (ℕ × RenamingRelation)) {a : ℕ} (h : a ≠ i) :
    (T.putRelations i l).closedRelation a = T.closedRelation a := by
  unfold putRelations
  simp only [Function.update_apply, if_neg h]

theorem getRelation_set (i j : ℕ) (r : RenamingRelation) (a b : ℕ) :
    (T.setRelation i j r).getRelation a b = if a = i ∧ b = j then some r else T.getRelation a b := by
  unfold setRelation
  rw [getRelation_put]
  by_cases h : a = i
  · subst h
    simp only [if_true, setKey_lookup, true_and]
    by_cases h' : b = j
    · simp [h']
    · simp only [h', if_false]
      unfold getRelation
      cases T.closedRelation a <;> simp
  · simp [h]

theorem getRelation_erase (i j : ℕ) (a b : ℕ) (h : a ≠ i ∨ b ≠ j) :
    (T.eraseRelation i j).getRelation a b = T.getRelation a b := by
  unfold eraseRelation
  rw [getRelation_put]
  by_cases ha : a = i
  · subst ha
    have hb : b ≠ j := by tauto
    rw [if_pos rfl, lookup_filter _ _ _ hb]
    unfold getRelation
    cases T.closedRelation a <;> simp
  · simp [ha]

theorem Core.static (h : Core f T) {i j : ℕ} {r : RenamingRelation} (hr : T.getRelation i j = some r) :
    ∃ p q, T.prefixes[i]? = some p ∧ T.prefixes[j]? = some q ∧ Recorded f p q r := by
  unfold getRelation at hr
  cases hl : T.closedRelation i with
  | none => rw [hl] at hr; simp at hr
  | some l =>
    rw [hl] at hr
    exact (h.rel i l hl).2.2 j r (lookup_mem hr)

theorem Inv.put (h : Inv f T) {i : ℕ} (hi : i < T.prefixes.length) {l : List (ℕ × RenamingRelation)}
    (hl : (l.map (·.1)).Nodup)
    (hr : ∀ j r, (j, r) ∈ l → ∃ p q, T.prefixes[i]? = some p ∧ T.prefixes[j]? = some q ∧ Recorded f p q r) :
    Inv f (T.putRelations i l) := by
  refine ⟨⟨h.alpha, h.suf0, h.sufs, h.oracle, ?_, h.dist⟩, ⟨h.closed.region, h.closed.root, h.closed.inside, h.closed.distinct,
    h.closed.time, h.closed.action, h.closed.parent, h.closed.only⟩, ⟨h.rows.len, h.rows.len', h.rows.ok⟩⟩
  intro k l' hk
  simp only [putRelations, Function.update_apply] at hk
  split at hk
  · rename_i e
    subst e
    simp only [Option.some.injEq] at hk
    subst hk
    exact ⟨hi, hl, hr⟩
  · exact h.rel k l' hk

theorem Inv.rel_getD (h : Inv f T) (i : ℕ) : (((T.closedRelation i).getD []).map (·.1)).Nodup ∧
    ∀ j r, (j, r) ∈ (T.closedRelation i).getD [] →
      ∃ p q, T.prefixes[i]? = some p ∧ T.prefixes[j]? = some q ∧ Recorded f p q r := by
  cases hl : T.closedRelation i with
  | none => simp
  | some l => exact (h.rel i l hl).2

theorem Inv.set (h : Inv f T) {i j : ℕ} {r : RenamingRelation} {p q : ForwardRegional} (hp : T.prefixes[i]? = some p)
    (hq : T.prefixes[j]? = some q) (hr : Recorded f p q r) : Inv f (T.setRelation i j r) := by
  have hi : i < T.prefixes.length := (List.getElem?_eq_some_iff.1 hp).1
  obtain ⟨h1, h2⟩ := h.rel_getD i
  refine h.put hi (setKey_nodup h1) ?_
  intro k r' hk
  rcases mem_setKey hk with e | hk
  · simp only [Prod.mk.injEq] at e
    obtain ⟨rfl, rfl⟩ := e
    exact ⟨p, q, hp, hq, hr⟩
  · exact h2 k r' hk

theorem Inv.erase (h : Inv f T) {i : ℕ} (hi : i < T.prefixes.length) (j : ℕ) : Inv f (T.eraseRelation i j) := by
  obtain ⟨h1, h2⟩ := h.rel_getD i
  refine h.put hi ?_ fun k r hk => h2 k r (List.mem_of_mem_filter hk)
  exact h1.sublist (List.Sublist.map _ List.filter_sublist)

theorem put_step (i : ℕ) (l : List (ℕ × RenamingRelation)) : RelStep T (T.putRelations i l) :=
  ⟨⟨_, T.distinguishedPrefix, rfl⟩, fun _ h => h⟩

theorem Inv.setDist (h : Inv f T) (d : List (ℕ × ℕ)) (hd : ∀ x ∈ d, x.1 < T.prefixes.length ∧ x.2 < T.prefixes.length) :
    Inv f { T with distinguishedPrefix := d } :=
  ⟨⟨h.alpha, h.suf0, h.sufs, h.oracle, h.rel, hd⟩, ⟨h.closed.region, h.closed.root, h.closed.inside, h.closed.distinct,
    h.closed.time, h.closed.action, h.closed.parent, h.closed.only⟩, ⟨h.rows.len, h.rows.len', h.rows.ok⟩⟩

theorem RelStep.sufs {T T' : ObsTable σ} (h : RelStep T T') : T'.sufs = T.sufs := by
  unfold ObsTable.sufs; rw [h.suffixes]

theorem MergesInto.step {T T' : ObsTable σ} (h : RelStep T T') {i j : ℕ} (hm : T.MergesInto f i j)
    (he : T'.getRelation i j = T.getRelation i j) : T'.MergesInto f i j := by
  obtain ⟨p, q, r, h1, h2, h3, h4⟩ := hm
  exact ⟨p, q, r, by rw [h.prefixes]; exact h1, by rw [h.prefixes]; exact h2, by rw [he]; exact h3,
    by rw [h.sufs]; exact h4⟩

/-- The comparison of rows. -/
theorem rowsEquivalent_ok (h : Inv f T) {i j : ℕ} (hi : i < T.prefixes.length) (hj : j < T.prefixes.length)
    (r : RenamingRelation) : ∃ b, T.rowsEquivalent i j r = some b ∧
      (b = true → ∀ p q, T.prefixes[i]? = some p → T.prefixes[j]? = some q → Static p q r →
        Merges f p.toElementaryLanguage q.toElementaryLanguage T.sufs r) := by
  obtain ⟨p, row, cat, h1, h2, h3, h4, h5⟩ := h.get hi
  obtain ⟨q, row', cat', g1, g2, g3, g4, g5⟩ := h.get hj
  unfold rowsEquivalent
  rw [h1, h2, h3, g1, g2, g3]
  refine ⟨_, rfl, ?_⟩
  intro hb p' q' hp' hq' hs
  simp only [Option.some.injEq] at hp' hq'
  subst hp'; subst hq'
  exact merges_of h4 g4 h.sufs h5 g5 hs hb

/-- What is known of the table after a comparison of `i` and `j` with the answer `o`. -/
structure Compared (f : TimedWord → Bool) (i j : ℕ) (T : ObsTable σ) (o : Option RenamingRelation)
    (T' : ObsTable σ) : Prop where
  inv : Inv f T'
  step : RelStep T T'
  rel : ∀ a b, a ≠ i ∨ b ≠ j → T'.getRelation a b = T.getRelation a b
  rows : ∀ a, a ≠ i → T'.closedRelation a = T.closedRelation a
  keep : ∀ a b, T.MergesInto f a b → T'.MergesInto f a b
  yes : ∀ r, o = some r → T'.MergesInto f i j ∧ T'.getRelation i j = some r
  no : o = none → (i, j) ∈ T'.distinguishedPrefix ∨ (j, i) ∈ T'.distinguishedPrefix
  equal : ∀ r, o = some r → T'.rowsEquivalent i j r = some true
  why : o = none → T.Apart i j ∨ ∀ p q row row' cat cat', T.prefixes[i]? = some p → T.prefixes[j]? = some q →
    T.table[i]? = some row → T.table[j]? = some row' → T.concatenations[i]? = some cat → T.concatenations[j]? = some cat' →
    Equivalence.findDeterministicCat p.toElementaryLanguage row cat q.toElementaryLanguage row' cat'
      (T.suffixes.map (·.toElementaryLanguage)) = some none

theorem RelStep.rowsEquivalent {T T' : ObsTable σ} (h : RelStep T T') (i j : ℕ) (r : RenamingRelation) :
    T'.rowsEquivalent i j r = T.rowsEquivalent i j r := by
  obtain ⟨⟨a, b, rfl⟩, _⟩ := h; rfl

theorem equivalent_ok (h : Inv f T) {i j : ℕ} (hi : i < T.prefixes.length) (hj : j < T.prefixes.length) :
    Ok E (equivalent i j) T fun o T' => Compared f i j T o T' := by
  obtain ⟨p, row, cat, h1, h2, h3, h4, h5⟩ := h.get hi
  obtain ⟨q, row', cat', g1, g2, g3, g4, g5⟩ := h.get hj
  have hf := Equivalence.find_spec (ss := T.suffixes.map (·.toElementaryLanguage)) (lrow := row) (rrow := row')
    h4.queryable.proper h4.simple h4.reach.nonneg
    g4.queryable.proper g4.simple g4.reach.nonneg h5.row.1
  obtain ⟨o, k1, k2⟩ := hf
  unfold equivalent
  refine Ok.bind (Ok.get ?_)
  refine Ok.bind (Ok.lift h1 ?_)
  refine Ok.bind (Ok.lift g1 ?_)
  refine Ok.bind (Ok.lift h2 ?_)
  refine Ok.bind (Ok.lift g2 ?_)
  refine Ok.bind (Ok.lift h3 ?_)
  refine Ok.bind (Ok.lift g3 ?_)
  refine Ok.bind (Ok.lift (a := o) ?_ ?_)
  · rw [h5.cat, g5.cat]; exact k1
  cases o with
  | some r =>
    obtain ⟨a1, a2, a3, a4⟩ := k2 r rfl
    have hs : Static p q r := ⟨a1, a2, a4⟩
    refine Ok.bind (Ok.modify (Ok.pure ?_))
    have hmm := merges_of h4 g4 h.sufs h5 g5 hs (by rw [h5.cat, g5.cat]; exact a3)
    have hm : (T.setRelation i j r).MergesInto f i j :=
      ⟨p, q, r, h1, g1, by rw [getRelation_set]; simp, hmm⟩
    refine ⟨h.set h1 g1 ⟨hs, hmm.init h.suf0⟩, put_step _ _, ?_, fun a ha => put_rows _ _ ha, ?_, ?_, by simp, ?_, by simp⟩
    · intro a b hab
      rw [getRelation_set, if_neg (by tauto)]
    · intro a b hab
      by_cases e : a = i ∧ b = j
      · obtain ⟨rfl, rfl⟩ := e; exact hm
      · have := getRelation_set (T := T) i j r a b
        rw [if_neg e] at this
        exact hab.step (put_step _ _) this
    · intro r' e
      simp only [Option.some.injEq] at e
      subst e
      exact ⟨hm, by rw [getRelation_set]; simp⟩
    · intro r' e
      simp only [Option.some.injEq] at e
      subst e
      have hst : RelStep T (T.setRelation i j r) := put_step _ _
      rw [hst.rowsEquivalent]
      unfold rowsEquivalent
      rw [h1, h2, h3, g1, g2, g3, h5.cat, g5.cat]
      exact congrArg some a3
  | none =>
    refine Ok.bind (Ok.modify (Ok.pure ?_))
    have hst : RelStep T { T with distinguishedPrefix := (i, j) :: T.distinguishedPrefix } :=
      ⟨⟨_, _, rfl⟩, fun x hx => List.mem_cons_of_mem _ hx⟩
    refine ⟨h.setDist _ (List.forall_mem_cons.2 ⟨⟨hi, hj⟩, h.dist⟩), hst, fun _ _ _ => rfl, fun _ _ => rfl, fun a b hab => hab.step hst rfl, by simp, fun _ => Or.inl (by simp), by simp,
      fun _ => Or.inr fun p' q' r1 r2 c1 c2 e1 e2 e3 e4 e5 e6 => ?_⟩
    rw [h1] at e1; rw [g1] at e2; rw [h2] at e3; rw [g2] at e4; rw [h3] at e5; rw [g3] at e6
    simp only [Option.some.injEq] at e1 e2 e3 e4 e5 e6
    subst e1; subst e2; subst e3; subst e4; subst e5; subst e6
    rw [h5.cat, g5.cat]; exact k1

theorem memo_ok (h : Inv f T) {i j : ℕ} (hi : i < T.prefixes.length) (hj : j < T.prefixes.length) :
    Ok E (equivalentWithMemo i j) T fun o T' => Compared f i j T o T' := by
  unfold equivalentWithMemo
  refine Ok.bind (Ok.get ?_)
  split
  · rename_i hd
    refine Ok.pure ⟨h, .refl T, fun _ _ _ => rfl, fun _ _ => rfl, fun _ _ h => h, by simp, fun _ => ?_, by simp, fun _ => Or.inl ?_⟩
    · simpa using hd
    · unfold Apart; simpa using hd
  · cases hr : T.getRelation i j with
    | none => exact equivalent_ok h hi hj
    | some r =>
      obtain ⟨b, h1, h2⟩ := rowsEquivalent_ok h hi hj r
      refine Ok.bind (Ok.lift h1 ?_)
      cases b with
      | false => exact equivalent_ok h hi hj
      | true =>
        refine Ok.pure ⟨h, .refl T, fun _ _ _ => rfl, fun _ _ => rfl, fun _ _ h => h, ?_, by simp, by rintro _ ⟨⟩; exact h1, by simp⟩
        intro r' e
        simp only [Option.some.injEq] at e
        subst e
        obtain ⟨p, q, k1, k2, k3⟩ := h.static hr
        exact ⟨⟨p, q, r, k1, k2, hr, h2 rfl p q k1 k2 k3.toStatic⟩, hr⟩

end ObsTable
end LearnTA
