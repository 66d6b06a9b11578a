import Verif.Lemmas.ObservationTable2
import Verif.Lemmas.LongWait

/-!
# Moving a prefix to `P`
-/

namespace LearnTA
open TimedCondition
namespace ObsTable
variable {σ : Type} {env : Env σ} {f : TimedWord → Bool} {E : Fail → Prop} {T : ObsTable σ}

theorem Grew.refl (T : ObsTable σ) : Grew T T :=
  ⟨List.prefix_refl _, List.prefix_refl _, rfl, fun _ h => h, fun _ _ => rfl, fun _ _ _ _ => rfl⟩

theorem Grew.trans {T T' T'' : ObsTable σ} (h : Grew T T') (h' : Grew T' T'') : Grew T T'' :=
  ⟨h.prefixes.trans h'.prefixes, h.suffixes.trans h'.suffixes, h'.alphabet.trans h.alphabet,
    fun i hi => h'.inside i (h.inside i hi),
    fun i hi => (h'.time i (h.inside i hi)).trans (h.time i hi),
    fun i hi a ha => (h'.action i (h.inside i hi) a (by rw [h.alphabet]; exact ha)).trans (h.action i hi a ha)⟩

theorem RelStep.grew {T T' : ObsTable σ} (h : RelStep T T') : Grew T T' := by
  obtain ⟨⟨a, b, rfl⟩, _⟩ := h
  exact ⟨List.prefix_refl _, List.prefix_refl _, rfl, fun _ h => h, fun _ _ => rfl, fun _ _ _ _ => rfl⟩

theorem grew_fill (T : ObsTable σ) (o : SymOracle σ) (t : List (List TimedConditionSet)) (c : List (List TimedCondition)) :
    Grew T { T with oracle := o, table := t, concatenations := c } :=
  ⟨List.prefix_refl _, List.prefix_refl _, rfl, fun _ h => h, fun _ _ => rfl, fun _ _ _ _ => rfl⟩

theorem Grew.length {T T' : ObsTable σ} (h : Grew T T') : T.prefixes.length ≤ T'.prefixes.length := h.prefixes.length_le

theorem Grew.get {T T' : ObsTable σ} (h : Grew T T') {i : ℕ} {p : ForwardRegional} (hp : T.prefixes[i]? = some p) :
    T'.prefixes[i]? = some p := by
  obtain ⟨l, hl⟩ := h.prefixes
  rw [← hl, List.getElem?_append_left (List.getElem?_eq_some_iff.1 hp).1]; exact hp

/-- The table after the successors of `p`, the prefix `index`, have been added. -/
def extended (T : ObsTable σ) (index : ℕ) (p : ForwardRegional) : ObsTable σ :=
  { T with
    pIndices := index :: T.pIndices
    prefixes := T.prefixes ++ T.alphabet.map (fun c => p.successorAction c) ++ [p.successor]
    discreteSuccessors := fun i c =>
      if i = index ∧ c ∈ T.alphabet then some (T.prefixes.length + T.alphabet.idxOf c) else T.discreteSuccessors i c
    continuousSuccessors := Function.update T.continuousSuccessors index (some (T.prefixes.length + T.alphabet.length)) }

theorem extended_get {index : ℕ} {p : ForwardRegional} {j : ℕ} {q : ForwardRegional}
    (h : (extended T index p).prefixes[j]? = some q) :
    T.prefixes[j]? = some q ∨ (∃ a, T.alphabet[j - T.prefixes.length]? = some a ∧ q = p.successorAction a ∧
      T.prefixes.length ≤ j ∧ j < T.prefixes.length + T.alphabet.length) ∨
      (j = T.prefixes.length + T.alphabet.length ∧ q = p.successor) := by
  have e : (extended T index p).prefixes = T.prefixes ++ T.alphabet.map (fun c => p.successorAction c) ++ [p.successor] := rfl
  rw [e, List.append_assoc] at h
  by_cases h1 : j < T.prefixes.length
  · rw [List.getElem?_append_left h1] at h; exact Or.inl h
  · rw [List.getElem?_append_right (by omega)] at h
    by_cases h2 : j - T.prefixes.length < T.alphabet.length
    · rw [List.getElem?_append_left (by simpa using h2), List.getElem?_map, Option.map_eq_some_iff] at h
      obtain ⟨a, ha, rfl⟩ := h
      exact Or.inr (Or.inl ⟨a, ha, rfl, by omega, by omega⟩)
    · rw [List.getElem?_append_right (by simpa using h2), List.length_map] at h
      have h3 := (List.getElem?_eq_some_iff.1 h).1
      simp only [List.length_singleton, Nat.lt_one_iff] at h3
      rw [h3] at h
      simp only [List.getElem?_cons_zero, Option.some.injEq] at h
      exact Or.inr (Or.inr ⟨by omega, h.symm⟩)

theorem extended_length (index : ℕ) (p : ForwardRegional) :
    (extended T index p).prefixes.length = T.prefixes.length + T.alphabet.length + 1 := by
  simp [extended]; omega

theorem extended_old {index : ℕ} {p : ForwardRegional} {j : ℕ} (h : j < T.prefixes.length) :
    (extended T index p).prefixes[j]? = T.prefixes[j]? := by
  simp only [extended]
  rw [List.append_assoc, List.getElem?_append_left h]

theorem extended_action {index : ℕ} {p : ForwardRegional} {a : Action} (ha : a ∈ T.alphabet) :
    (extended T index p).prefixes[T.prefixes.length + T.alphabet.idxOf a]? = some (p.successorAction a) := by
  have hi := List.idxOf_lt_length_iff.2 ha
  simp only [extended]
  rw [List.append_assoc, List.getElem?_append_right (by omega), Nat.add_sub_cancel_left,
    List.getElem?_append_left (by simpa using hi), List.getElem?_map, List.getElem?_eq_getElem hi, List.getElem_idxOf]
  rfl

theorem extended_time {index : ℕ} {p : ForwardRegional} :
    (extended T index p).prefixes[T.prefixes.length + T.alphabet.length]? = some p.successor := by
  simp only [extended]
  rw [List.getElem?_append_right (by simp)]
  simp

theorem extended_grew {index : ℕ} {p : ForwardRegional} (hi : index ∉ T.pIndices) : Grew T (extended T index p) := by
  refine ⟨⟨_, (List.append_assoc _ _ _).symm⟩, List.prefix_refl _, rfl, fun i h => by simp [extended, h], ?_, ?_⟩
  · intro i h
    have : i ≠ index := fun e => hi (e ▸ h)
    simp [extended, this]
  · intro i h a _
    have : i ≠ index := fun e => hi (e ▸ h)
    simp [extended, this]

/-- `PrefixClosed` without the root in `P`, as when the table is made. -/
structure Tree (T : ObsTable σ) : Prop where
  region : ∀ p ∈ T.prefixes, p.Reach ∧ ∀ a ∈ p.word, a ∈ T.alphabet
  root : T.prefixes[0]? = some .init
  inside : T.pIndices.Nodup ∧ ∀ i ∈ T.pIndices, i < T.prefixes.length
  distinct : ∀ (i j : ℕ) p q, T.prefixes[i]? = some p → T.prefixes[j]? = some q → p.beq q = true → i = j
  time : ∀ i ∈ T.pIndices, ∀ p, T.prefixes[i]? = some p →
    ∃ j, T.continuousSuccessors i = some j ∧ T.prefixes[j]? = some p.successor
  action : ∀ i ∈ T.pIndices, ∀ p, T.prefixes[i]? = some p → ∀ a ∈ T.alphabet,
    ∃ j, T.discreteSuccessors i a = some j ∧ T.prefixes[j]? = some (p.successorAction a)
  parent : ∀ j, 0 < j → j < T.prefixes.length → ∃ i ∈ T.pIndices, i < j ∧
    (T.continuousSuccessors i = some j ∨ ∃ a ∈ T.alphabet, T.discreteSuccessors i a = some j)
  only : ∀ i ∉ T.pIndices, T.continuousSuccessors i = none ∧ ∀ a, T.discreteSuccessors i a = none

theorem PrefixClosed.tree (h : T.PrefixClosed) : Tree T :=
  ⟨h.region, h.root.1, h.inside, h.distinct, h.time, h.action, h.parent, h.only⟩

theorem extended_closed (hal : T.alphabet.Nodup) (hc : Tree T) {index : ℕ} {p : ForwardRegional}
    (hp : T.prefixes[index]? = some p) (hi : index ∉ T.pIndices) (h0 : 0 ∈ index :: T.pIndices) :
    (extended T index p).PrefixClosed := by
  have hpm : p ∈ T.prefixes := List.mem_of_getElem? hp
  obtain ⟨hpr, hpa⟩ := hc.region p hpm
  have hidx := (List.getElem?_eq_some_iff.1 hp).1
  have hg : Grew T (extended T index p) := extended_grew hi
  -- the old prefixes are no successors of `p`
  have old_ne : ∀ (j : ℕ) (q s : ForwardRegional), T.prefixes[j]? = some q → (s = p.successor ∨ ∃ a, s = p.successorAction a) → q.beq s ≠ true := by
    intro j q s hq hs hb
    have hqr := (hc.region q (List.mem_of_getElem? hq)).1
    have hsr : s.Reach := by
      rcases hs with rfl | ⟨a, rfl⟩
      · exact .time hpr
      · exact .action a hpr
    by_cases hj : j = 0
    · subst hj
      have := hc.root
      rw [hq] at this
      simp only [Option.some.injEq] at this
      subst this
      have hb := ForwardRegional.Reach.beq_symm hqr hsr hb
      rcases hs with rfl | ⟨a, rfl⟩
      · exact ForwardRegional.init_ne_successor hpr hb
      · exact ForwardRegional.init_ne_action hb
    · have hjl := (List.getElem?_eq_some_iff.1 hq).1
      obtain ⟨i, hiP, _, hpar⟩ := hc.parent j (by omega) hjl
      have hil := hc.inside.2 i hiP
      have hpi : T.prefixes[i]? = some T.prefixes[i] := List.getElem?_eq_getElem hil
      have hir := (hc.region _ (List.getElem_mem hil)).1
      have key : T.prefixes[i].beq p = true → False := by
        intro e
        have := hc.distinct i index _ _ hpi hp e
        exact hi (this ▸ hiP)
      rcases hpar with hpar | ⟨a, ha, hpar⟩
      · obtain ⟨j', k1, k2⟩ := hc.time i hiP _ hpi
        rw [hpar] at k1
        simp only [Option.some.injEq] at k1
        subst k1
        rw [hq] at k2
        simp only [Option.some.injEq] at k2
        subst k2
        rcases hs with rfl | ⟨b, rfl⟩
        · exact key (ForwardRegional.successor_inj hir hpr hb)
        · exact ForwardRegional.successor_ne_action hir hpr hb
      · obtain ⟨j', k1, k2⟩ := hc.action i hiP _ hpi a ha
        rw [hpar] at k1
        simp only [Option.some.injEq] at k1
        subst k1
        rw [hq] at k2
        simp only [Option.some.injEq] at k2
        subst k2
        rcases hs with rfl | ⟨b, rfl⟩
        · exact ForwardRegional.successor_ne_action hpr hir (ForwardRegional.Reach.beq_symm hqr hsr hb)
        · exact key (ForwardRegional.successorAction_inj hir hpr hb).1
  -- the new ones
  have new_ne : ∀ a, (p.successor.beq (p.successorAction a) ≠ true) ∧ ((p.successorAction a).beq p.successor ≠ true) := by
    intro a
    refine ⟨ForwardRegional.successor_ne_action hpr hpr, fun hb => ?_⟩
    exact ForwardRegional.successor_ne_action hpr hpr
      (ForwardRegional.Reach.beq_symm (.action a hpr) (.time hpr) hb)
  constructor
  · intro q hq
    obtain ⟨j, hj⟩ := List.getElem?_of_mem hq
    rcases extended_get hj with h1 | ⟨a, h1, rfl, _, _⟩ | ⟨_, rfl⟩
    · exact hc.region q (List.mem_of_getElem? h1)
    · refine ⟨.action a hpr, ?_⟩
      intro b hb
      rcases List.mem_append.1 (show b ∈ p.word ++ [a] from hb) with hb | hb
      · exact hpa b hb
      · rw [List.mem_singleton.1 hb]; exact List.mem_of_getElem? h1
    · exact ⟨.time hpr, hpa⟩
  · exact ⟨hg.get hc.root, h0⟩
  · refine ⟨List.nodup_cons.2 ⟨hi, hc.inside.1⟩, fun i hm => ?_⟩
    have := hg.length
    rcases List.mem_cons.1 hm with rfl | hm
    · omega
    · have := hc.inside.2 i hm; omega
  · intro i j q s hq hs hb
    have rq : q.Reach ∧ s.Reach := by
      constructor
      · rcases extended_get hq with h1 | ⟨a, h1, rfl, _, _⟩ | ⟨_, rfl⟩
        exacts [(hc.region q (List.mem_of_getElem? h1)).1, .action a hpr, .time hpr]
      · rcases extended_get hs with h1 | ⟨a, h1, rfl, _, _⟩ | ⟨_, rfl⟩
        exacts [(hc.region s (List.mem_of_getElem? h1)).1, .action a hpr, .time hpr]
    have hb' := ForwardRegional.Reach.beq_symm rq.1 rq.2 hb
    rcases extended_get hq with h1 | ⟨a, h1, rfl, l1, l2⟩ | ⟨e1, rfl⟩
    · rcases extended_get hs with g1 | ⟨b, g1, rfl, m1, m2⟩ | ⟨e2, rfl⟩
      · exact hc.distinct i j q s h1 g1 hb
      · exact absurd hb (old_ne i q _ h1 (Or.inr ⟨b, rfl⟩))
      · exact absurd hb (old_ne i q _ h1 (Or.inl rfl))
    · rcases extended_get hs with g1 | ⟨b, g1, rfl, m1, m2⟩ | ⟨e2, rfl⟩
      · exact absurd hb' (old_ne j s _ g1 (Or.inr ⟨a, rfl⟩))
      · have e := (ForwardRegional.successorAction_inj hpr hpr hb).2
        subst e
        have := (List.nodup_iff_getElem?_ne_getElem?.1 hal)
        by_contra hne
        rcases Nat.lt_or_gt_of_ne hne with hlt | hlt
        · exact this (i - T.prefixes.length) (j - T.prefixes.length) (by omega) (by omega) (by rw [h1, g1])
        · exact this (j - T.prefixes.length) (i - T.prefixes.length) (by omega) (by omega) (by rw [h1, g1])
      · exact absurd hb (new_ne a).2
    · rcases extended_get hs with g1 | ⟨b, g1, rfl, m1, m2⟩ | ⟨e2, rfl⟩
      · exact absurd hb' (old_ne j s _ g1 (Or.inl rfl))
      · exact absurd hb (new_ne b).1
      · omega
  · intro i hm q hq
    rcases List.mem_cons.1 hm with rfl | hm
    · rw [hg.get hp] at hq
      simp only [Option.some.injEq] at hq
      subst hq
      exact ⟨_, by simp [extended], extended_time⟩
    · have hil := hc.inside.2 i hm
      rw [extended_old hil] at hq
      obtain ⟨j, k1, k2⟩ := hc.time i hm q hq
      exact ⟨j, by rw [hg.time i hm]; exact k1, hg.get k2⟩
  · intro i hm q hq a ha
    rcases List.mem_cons.1 hm with rfl | hm
    · rw [hg.get hp] at hq
      simp only [Option.some.injEq] at hq
      subst hq
      have ha : a ∈ T.alphabet := ha
      exact ⟨T.prefixes.length + T.alphabet.idxOf a, by simp [extended, ha], extended_action ha⟩
    · have hil := hc.inside.2 i hm
      rw [extended_old hil] at hq
      obtain ⟨j, k1, k2⟩ := hc.action i hm q hq a ha
      exact ⟨j, by rw [hg.action i hm a ha]; exact k1, hg.get k2⟩
  · intro j hj0 hj
    rw [extended_length] at hj
    by_cases h1 : j < T.prefixes.length
    · obtain ⟨i, hm, hlt, hpar⟩ := hc.parent j hj0 h1
      refine ⟨i, hg.inside i hm, hlt, ?_⟩
      rw [hg.time i hm]
      rcases hpar with hpar | ⟨a, ha, hpar⟩
      · exact Or.inl hpar
      · exact Or.inr ⟨a, ha, by rw [hg.action i hm a ha]; exact hpar⟩
    · refine ⟨index, by simp [extended], by omega, ?_⟩
      by_cases h2 : j < T.prefixes.length + T.alphabet.length
      · right
        have hlt : j - T.prefixes.length < T.alphabet.length := by omega
        refine ⟨T.alphabet[j - T.prefixes.length], List.getElem_mem hlt, ?_⟩
        simp only [extended, true_and, List.getElem_mem, if_true, Option.some.injEq]
        rw [hal.idxOf_getElem]
        omega
      · left
        simp only [extended, Function.update_self, Option.some.injEq]
        omega
  · intro i hm
    have h1 : i ≠ index := fun e => hm (e ▸ List.mem_cons_self)
    have h2 := hc.only i fun e => hm (List.mem_cons_of_mem _ e)
    simp [extended, h1, h2]

theorem extended_core (h : Inv f T) {index : ℕ} {p : ForwardRegional} (hi : index ∉ T.pIndices) :
    Core f (extended T index p) := by
  have hg : Grew T (extended T index p) := extended_grew hi
  refine ⟨h.alpha, h.suf0, h.sufs, h.oracle, ?_, fun x hx =>
    ⟨lt_of_lt_of_le (h.dist x hx).1 hg.length, lt_of_lt_of_le (h.dist x hx).2 hg.length⟩⟩
  intro i l hl
  obtain ⟨h1, h2, h3⟩ := h.rel i l hl
  refine ⟨lt_of_lt_of_le h1 hg.length, h2, fun j r hm => ?_⟩
  obtain ⟨p', q, g1, g2, g3⟩ := h3 j r hm
  exact ⟨p', q, hg.get g1, hg.get g2, g3⟩

theorem extended_partial (h : Inv f T) {index : ℕ} {p : ForwardRegional} : Partial f (extended T index p) := by
  intro j q hq
  by_cases hj : j < T.prefixes.length
  · rw [extended_old hj] at hq
    exact h.partial j q hq
  · refine ⟨0, ?_⟩
    have e1 : (extended T index p).table.getD j [] = [] := by
      show T.table.getD j [] = []
      rw [List.getD_eq_getElem?_getD, List.getElem?_eq_none (by rw [h.rows.len]; omega)]; rfl
    have e2 : (extended T index p).concatenations.getD j [] = [] := by
      show T.concatenations.getD j [] = []
      rw [List.getD_eq_getElem?_getD, List.getElem?_eq_none (by rw [h.rows.len']; omega)]; rfl
    rw [e1, e2]
    exact RowOk.nil q

/-- What is known after prefixes from the list have been moved to `P`. -/
structure Moved (f : TimedWord → Bool) (new : List ℕ) (T T' : ObsTable σ) : Prop where
  inv : Inv f T'
  grew : Grew T T'
  suffixes : T'.suffixes = T.suffixes
  moved : ∀ i ∈ new, i ∈ T'.pIndices
  only : ∀ k ∈ T'.pIndices, k ∈ T.pIndices ∨ k ∈ new ∨ T.prefixes.length ≤ k

theorem move_succ (he : EnvOk env f) (n : ℕ)
    (ih : ∀ (T : ObsTable σ) (index : ℕ), Inv f T → index < T.prefixes.length → index ∉ T.pIndices →
      (E .fuel ∨ ∀ p, T.prefixes[index]? = some p → Enough f n p) →
      Ok E (moveToP env n index) T fun _ T' => Moved f [index] T T') {index : ℕ} {p : ForwardRegional}
    (hE : E .fuel ∨ Enough f (n + 1) p) (hp : T.prefixes[index]? = some p) (hn : index ∉ T.pIndices) (hb : ∀ x ∈ T.pIndices, x < T.prefixes.length)
    (hco : Core f (extended T index p)) (hc : (extended T index p).PrefixClosed)
    (hpa : Partial f (extended T index p)) (hdist : ¬ T.Apart (T.prefixes.length + T.alphabet.length) index) :
    Ok E (moveToP env (n + 1) index) T fun _ T' => Moved f [index] T T' := by
  have hi := (List.getElem?_eq_some_iff.1 hp).1
  unfold moveToP
  refine Ok.bind (Ok.get ?_)
  have hnb : T.inP index = false := by
    rw [Bool.eq_false_iff, Ne, inP_iff]; exact hn
  simp only [hnb, Bool.false_eq_true, if_false]
  refine Ok.bind (Ok.lift hp ?_)
  refine Ok.bind (Ok.modify ?_)
  show Ok E _ (extended T index p) _
  refine Ok.bind ((refresh_ok he hco hc hpa).mono ?_)
  rintro _ T1 ⟨h1, o, t, c, rfl⟩
  have hg1 : Grew T { extended T index p with oracle := o, table := t, concatenations := c } :=
    (extended_grew hn).trans (grew_fill _ _ _ _)
  have hlen : ({ extended T index p with oracle := o, table := t, concatenations := c } : ObsTable σ).prefixes.length =
    T.prefixes.length + T.alphabet.length + 1 := extended_length index p
  have hP1 : ({ extended T index p with oracle := o, table := t, concatenations := c } : ObsTable σ).pIndices =
    index :: T.pIndices := rfl
  have hsuf1 : ({ extended T index p with oracle := o, table := t, concatenations := c } : ObsTable σ).suffixes =
    T.suffixes := rfl
  have hpi : ({ extended T index p with oracle := o, table := t, concatenations := c } : ObsTable σ).prefixes[index]? = some p :=
    hg1.get hp
  have hpj : ({ extended T index p with oracle := o, table := t, concatenations := c } : ObsTable σ).prefixes[
      T.prefixes.length + T.alphabet.length]? = some p.successor := by
    simp [extended]
  have hap : ¬ ({ extended T index p with oracle := o, table := t, concatenations := c } : ObsTable σ).Apart
    (T.prefixes.length + T.alphabet.length) index := hdist
  generalize ({ extended T index p with oracle := o, table := t, concatenations := c } : ObsTable σ) = T1 at *
  refine Ok.bind ((memo_ok h1 (by omega) (by omega)).mono ?_)
  intro r T2 hm
  have hg2 : Grew T T2 := hg1.trans hm.step.grew
  have hP2 : T2.pIndices = index :: T.pIndices := hm.step.pIndices.trans hP1
  have hs2 : T2.suffixes = T.suffixes := by
    rw [hm.step.suffixes]
    exact hsuf1
  split
  · rename_i hnone
    refine (ih _ _ hm.inv (by rw [hm.step.prefixes]; omega) ?_ ?_).mono ?_
    rotate_left
    · refine hE.imp id fun hen q hq => ?_
      rw [hm.step.prefixes, hpj] at hq
      simp only [Option.some.injEq] at hq
      subst hq
      rw [Option.isNone_iff_eq_none] at hnone
      subst hnone
      exact hen.next h1 hpi hpj hap hm
    rotate_right
    · rw [hP2]
      intro hx
      rcases List.mem_cons.1 hx with hx | hx
      · omega
      · have := hb _ hx; omega
    · intro _ T3 h3
      refine ⟨h3.inv, hg2.trans h3.grew, h3.suffixes.trans hs2, ?_, ?_⟩
      · intro i hi'
        refine h3.grew.inside i ?_
        rw [hP2]; simp only [List.mem_singleton] at hi'; simp [hi']
      · intro k hk
        rcases h3.only k hk with hk | hk | hk
        · rw [hP2] at hk
          rcases List.mem_cons.1 hk with rfl | hk
          · simp
          · exact Or.inl hk
        · simp only [List.mem_singleton] at hk
          exact Or.inr (Or.inr (by omega))
        · rw [hm.step.prefixes] at hk
          exact Or.inr (Or.inr (by omega))
  · refine Ok.pure ⟨hm.inv, hg2, hs2, ?_, ?_⟩
    · intro i hi'; rw [hP2]; simp only [List.mem_singleton] at hi'; simp [hi']
    · intro k hk
      rw [hP2] at hk
      rcases List.mem_cons.1 hk with rfl | hk
      · simp
      · exact Or.inl hk

theorem moveToP_ok (he : EnvOk env f) (n : ℕ) (h : Inv f T) {index : ℕ}
    (hi : index < T.prefixes.length) (hn : index ∉ T.pIndices)
    (hE : E .fuel ∨ ∀ p, T.prefixes[index]? = some p → Enough f n p) :
    Ok E (moveToP env n index) T fun _ T' => Moved f [index] T T' := by
  induction n generalizing T index with
  | zero =>
    refine Ok.throw (hE.elim id fun hen => ?_)
    obtain ⟨_, _, m, hm, _⟩ := hen _ (List.getElem?_eq_getElem hi)
    omega
  | succ n ih =>
    have hp : T.prefixes[index]? = some T.prefixes[index] := List.getElem?_eq_getElem hi
    exact move_succ he n (fun T index h hi hn hE => ih h hi hn hE) (hE.imp id fun hen => hen _ hp) hp hn h.closed.inside.2
      (extended_core h hn)
      (extended_closed h.alpha.1 h.closed.tree hp hn (List.mem_cons_of_mem _ h.closed.root.2)) (extended_partial h)
      (fun ha => by rcases ha with ha | ha <;> have := h.dist _ ha <;> omega)

/-- The table before the first move. -/
def start (alphabet : List Action) (s : σ) : ObsTable σ :=
  { oracle := .start s, alphabet := alphabet, prefixes := [.init], suffixes := [.init], concatenations := [],
    pIndices := [], closedRelation := fun _ => none, table := [], continuousSuccessors := fun _ => none,
    discreteSuccessors := fun _ _ => none, distinguishedPrefix := [], columnCache := [] }

theorem init_good : BackwardRegional.init.Good := by
  have h : ForwardRegional.Reach .init := .init
  exact ⟨h.queryable (by intro a ha; simp [ForwardRegional.init, ElementaryLanguage.empty] at ha), h.nonneg, (Props.C25_reachable h).2.1⟩

theorem create_ok (he : EnvOk env f) (hE : E .fuel ∨ Enough f env.fuel .init) {alphabet : List Action} (hal : alphabet.Nodup)
    (hob : ∀ a ∈ alphabet, a ≠ unobservable) (s : σ) :
    Ok E (do moveToP env env.fuel 0; refreshTable env : TableM σ Unit) (start alphabet s) fun _ T =>
      Inv f T ∧ T.alphabet = alphabet ∧ T.suffixes = [.init] := by
  cases hf : env.fuel with
  | zero =>
    refine Ok.bind (Ok.throw (hE.elim id fun hen => ?_))
    obtain ⟨_, _, m, hm, _⟩ := hen
    omega
  | succ n =>
    have hp : (start alphabet s).prefixes[0]? = some ForwardRegional.init := rfl
    have hn : 0 ∉ (start alphabet s).pIndices := by simp [start]
    have ht : Tree (start alphabet s) := by
      refine ⟨?_, rfl, ⟨by simp [start], by simp [start]⟩, ?_, by simp [start], by simp [start], ?_, by simp [start]⟩
      · intro p hm
        simp only [start, List.mem_singleton] at hm
        subst hm
        exact ⟨.init, by intro a ha; simp [ForwardRegional.init, ElementaryLanguage.empty] at ha⟩
      · intro i j p q h1 h2 _
        have := (List.getElem?_eq_some_iff.1 h1).1
        have := (List.getElem?_eq_some_iff.1 h2).1
        simp [start] at *
        omega
      · intro j h1 h2
        simp [start] at h2
        omega
    have hsuf : ∀ x ∈ (start alphabet s).suffixes, x.Good := by
      intro x hx
      simp only [start, List.mem_singleton] at hx
      subst hx; exact init_good
    refine Ok.bind ((move_succ he n (fun T index h hi hn hE => moveToP_ok he n h hi hn hE) (by rw [← hf]; exact hE) hp hn (by simp [start]) ?_
      (extended_closed hal ht hp hn (by simp)) ?_ (by simp [Apart, start])).mono ?_)
    · refine ⟨⟨hal, hob⟩, rfl, hsuf, ⟨?_, ?_⟩, ?_, by simp [extended, start]⟩
      · intro u b _ h
        simp [extended, start, SymOracle.start, MemCache.start] at h
      · intro p h
        simp [extended, start, SymOracle.start] at h
      · intro i l h
        simp [extended, start] at h
    · intro i p _
      exact ⟨0, RowOk.nil p⟩
    · intro _ T1 h1
      refine (refresh_inv he h1.inv).mono ?_
      rintro _ T2 ⟨h2, o, t, c, rfl⟩
      exact ⟨h2, h1.grew.alphabet, h1.suffixes⟩

theorem create_eq (alphabet : List Action) (s : σ) : create env alphabet s =
    ((do moveToP env env.fuel 0; refreshTable env : TableM σ Unit).run (start alphabet s)).map (·.2) := rfl

end ObsTable
end LearnTA
