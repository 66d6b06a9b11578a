import Verif.Lemmas.Juxtaposed

/-!
# Lemmas on the equivalence of prefixes
-/

namespace LearnTA
open Bound

/-- If each element of a list has a partner in a list of the same length and no two share one, then
each element of the second list is a partner. -/
theorem all_hit {α β : Type*} (R : α → β → Prop) (s : List α) (t : List β)
    (h : ∀ a ∈ s, ∃ b ∈ t, R a b) (hlen : s.length = t.length)
    (hp : s.Pairwise fun a a' => ∀ b, ¬ (R a b ∧ R a' b)) : ∀ b ∈ t, ∃ a ∈ s, R a b := by
  induction s generalizing t with
  | nil =>
    intro b hb
    have : t = [] := List.length_eq_zero_iff.1 hlen.symm
    simp [this] at hb
  | cons a s ih =>
    obtain ⟨b, hb, hab⟩ := h a (by simp)
    obtain ⟨l1, l2, rfl⟩ := List.append_of_mem hb
    rw [List.pairwise_cons] at hp
    have := ih (l1 ++ l2) (by
      intro a' ha'
      obtain ⟨b', hb', hab'⟩ := h a' (by simp [ha'])
      refine ⟨b', ?_, hab'⟩
      have hne : b' ≠ b := by rintro rfl; exact hp.1 a' ha' b' ⟨hab, hab'⟩
      simpa [hne] using hb') (by simp at hlen ⊢; omega) hp.2
    intro c hc
    by_cases hcb : c = b
    · exact ⟨a, by simp, hcb ▸ hab⟩
    · obtain ⟨a', ha', hac⟩ := this c (by simpa [hcb] using hc)
      exact ⟨a', by simp [ha'], hac⟩

namespace Zone

theorem sat_of_strictEqual {z z' : Zone} (hdim : z.dim = z'.dim) (hd : z'.DiagNN)
    (h : z.strictEqual z' = true) {w : ℕ → ℚ} (hw : z.Sat w) : z'.Sat w := by
  unfold strictEqual at h
  simp only [List.all_eq_true, List.mem_range, decide_eq_true_eq] at h
  intro i hi j hj
  by_cases e : i = j
  · subst e; simpa [sat_self_zero] using hd i hi
  · rcases h i (hdim ▸ hi) j (hdim ▸ hj) with h' | h'
    · exact absurd h' e
    · rw [← h']; exact hw i (hdim ▸ hi) j (hdim ▸ hj)

theorem strictEqual_symm {z z' : Zone} (hdim : z.dim = z'.dim) (h : z.strictEqual z' = true) :
    z'.strictEqual z = true := by
  unfold strictEqual at h ⊢
  simp only [List.all_eq_true, List.mem_range, decide_eq_true_eq] at h ⊢
  intro i hi j hj
  rcases h i (hdim ▸ hi) j (hdim ▸ hj) with h' | h'
  · exact Or.inl h'
  · exact Or.inr h'.symm

theorem strictEqual_of_same_mem {z z' : Zone} (hdim : z.dim = z'.dim) (hc : z.Closed) (hc' : z'.Closed)
    (hd : z.DiagNN) (hd' : z'.DiagNN) (h : ∀ v, z.Mem v ↔ z'.Mem v) : z.strictEqual z' = true := by
  unfold strictEqual
  simp only [List.all_eq_true, List.mem_range, decide_eq_true_eq]
  intro i hi j hj
  by_cases e : i = j
  · exact Or.inl e
  · refine Or.inr (le_antisymm ?_ ?_)
    · exact bound_le_of_incl z' z hdim.symm hc hd (fun v hv => (h v).1 hv) (hdim ▸ hi) (hdim ▸ hj) e
    · exact bound_le_of_incl z z' hdim hc' hd' (fun v hv => (h v).2 hv) hi hj e

end Zone

namespace JuxtaposedZoneSet
open Zone JuxtaposedZone

/-- What `addRenaming` leaves. -/
theorem mem_addRenaming {s : JuxtaposedZoneSet} {r : RenamingRelation} {j : JuxtaposedZone} :
    j ∈ s.addRenaming r ↔ ∃ j0 ∈ s, j = j0.addRenaming r ∧ j.zone.isSatisfiableNoCanonize = true := by
  unfold addRenaming
  rw [List.mem_filter, List.mem_map]
  constructor
  · rintro ⟨⟨j0, h0, rfl⟩, hs⟩; exact ⟨j0, h0, rfl, hs⟩
  · rintro ⟨j0, h0, rfl, hs⟩; exact ⟨⟨j0, h0, rfl⟩, hs⟩

/-- All zones are over the same variables, and in range for the renaming. -/
structure Ok (n l : ℕ) (r : RenamingRelation) (s : JuxtaposedZoneSet) : Prop where
  dim : ∀ j ∈ s, j.zone.dim = n
  left : ∀ j ∈ s, j.leftSize = l
  range : ∀ p ∈ r, p.1 + 1 < n ∧ p.2 + l + 1 < n
  can : ∀ j ∈ s, j.Canonized

theorem Ok.inRange {n l : ℕ} {r : RenamingRelation} {s : JuxtaposedZoneSet} (h : Ok n l r s)
    {j : JuxtaposedZone} (hj : j ∈ s) : j.InRange r := by
  intro p hp
  rw [h.dim j hj, h.left j hj]
  exact h.range p hp

theorem Ok.add {n l : ℕ} {r : RenamingRelation} {s : JuxtaposedZoneSet} (h : Ok n l r s) :
    ∀ j ∈ s.addRenaming r, j.zone.dim = n ∧ j.zone.Closed ∧ j.zone.DiagNN ∧ ∃ v, j.zone.Mem v := by
  intro j hj
  obtain ⟨j0, h0, rfl, hs⟩ := mem_addRenaming.1 hj
  have hc := addRenaming_satisfiable_closed j0 r (h.inRange h0) (h.can j0 h0) hs
  exact ⟨by rw [addRenaming_dim, h.dim j0 h0], hc.1, hc.2,
    (addRenaming_satisfiable j0 r (h.inRange h0) (h.can j0 h0)).1 hs⟩

/-- The valuations left by `addRenaming`. -/
theorem Ok.holds {n l : ℕ} {r : RenamingRelation} {s : JuxtaposedZoneSet} (h : Ok n l r s) (v : Valuation) :
    (∃ j ∈ s.addRenaming r, j.zone.Mem v) ↔
      (∃ j ∈ s, j.zone.Mem v) ∧ ∀ p ∈ r, v p.1 = v (l + p.2) := by
  constructor
  · rintro ⟨j, hj, hv⟩
    obtain ⟨j0, h0, rfl, hs⟩ := mem_addRenaming.1 hj
    rw [addRenaming_mem j0 r (h.inRange h0), h.left j0 h0] at hv
    exact ⟨⟨j0, h0, hv.1⟩, hv.2⟩
  · rintro ⟨⟨j0, h0, hv⟩, hr⟩
    have hm : (j0.addRenaming r).zone.Mem v :=
      (addRenaming_mem j0 r (h.inRange h0) v).2 ⟨hv, by rwa [h.left j0 h0]⟩
    refine ⟨_, mem_addRenaming.2 ⟨j0, h0, rfl, ?_⟩, hm⟩
    exact (addRenaming_satisfiable j0 r (h.inRange h0) (h.can j0 h0)).2 ⟨v, hm⟩

/-- Equal sets have the same valuations, if the zones of the first one exclude each other. -/
theorem beq_sound {n l : ℕ} {r : RenamingRelation} {s t : JuxtaposedZoneSet} (hs : Ok n l r s)
    (ht : Ok n l r t) (hp : s.Pairwise fun a b => ∀ v, ¬ (a.zone.Mem v ∧ b.zone.Mem v))
    (h : (s.addRenaming r).beq (t.addRenaming r) = true) (v : Valuation) :
    (∃ j ∈ s.addRenaming r, j.zone.Mem v) ↔ ∃ j ∈ t.addRenaming r, j.zone.Mem v := by
  unfold beq at h
  simp only [Bool.and_eq_true, beq_iff_eq, List.all_eq_true, List.any_eq_true] at h
  obtain ⟨hlen, hall⟩ := h
  have hS := hs.add
  have hT := ht.add
  have same : ∀ a ∈ s.addRenaming r, ∀ b ∈ t.addRenaming r, a.zone.strictEqual b.zone = true →
      ∀ u, a.zone.Mem u ↔ b.zone.Mem u := by
    intro a ha b hb he u
    have hdim : a.zone.dim = b.zone.dim := (hS a ha).1.trans (hT b hb).1.symm
    exact ⟨sat_of_strictEqual hdim (hT b hb).2.2.1 he,
      sat_of_strictEqual hdim.symm (hS a ha).2.2.1 (strictEqual_symm hdim he)⟩
  constructor
  · rintro ⟨a, ha, hv⟩
    obtain ⟨b, hb, he⟩ := hall a ha
    exact ⟨b, hb, (same a ha b hb he v).1 hv⟩
  · rintro ⟨b, hb, hv⟩
    -- pairwise disjoint after adding the renaming, too
    have hp' : (s.addRenaming r).Pairwise fun a b => ∀ v, ¬ (a.zone.Mem v ∧ b.zone.Mem v) := by
      unfold addRenaming
      apply List.Pairwise.filter
      rw [List.pairwise_map]
      refine hp.imp_of_mem ?_
      intro a b ha hb hab u hu
      exact hab u ⟨((addRenaming_mem a r (hs.inRange ha) u).1 hu.1).1,
        ((addRenaming_mem b r (hs.inRange hb) u).1 hu.2).1⟩
    obtain ⟨a, ha, hR⟩ := all_hit (fun a b => b ∈ t.addRenaming r ∧ ∀ u, a.zone.Mem u ↔ b.zone.Mem u) _ _
      (by
        intro a ha
        obtain ⟨b, hb, he⟩ := hall a ha
        exact ⟨b, hb, hb, same a ha b hb he⟩) hlen
      (by
        refine hp'.imp_of_mem ?_
        rintro a a' ha ha' hd b ⟨⟨_, h1⟩, ⟨_, h2⟩⟩
        obtain ⟨u, hu⟩ := (hS a ha).2.2.2
        exact hd u ⟨hu, (h2 u).2 ((h1 u).1 hu)⟩) b hb
    exact ⟨a, ha, (hR.2 v).2 hv⟩

end JuxtaposedZoneSet

namespace Equivalence
open Zone JuxtaposedZone TimedCondition JuxtaposedZoneSet

/-- The delays of the concatenation of two words are glued. -/
theorem append_durations (w s : TimedWord) : (w.append s).durations = glue w.durations s.durations := rfl

theorem append_proper {a b : ElementaryLanguage} (ha : a.Proper) (hb : b.Proper) : (a.append b).Proper := by
  refine ⟨?_, append_canonical _ _ ha.canonical hb.canonical⟩
  have h1 : a.word.length + 1 = a.cond.size := ha.wf
  have h2 : b.word.length + 1 = b.cond.size := hb.wf
  show (a.word ++ b.word).length + 1 = (a.cond.append b.cond).size
  have e : (a.cond.append b.cond).size = a.cond.size + b.cond.size - 1 := by
    conv_lhs => rw [TimedCondition.size, append_dim]
  rw [e, List.length_append]; omega

theorem append_mem {a b : ElementaryLanguage} (ha : a.Proper) (hb : b.Proper) {w s : TimedWord}
    (hw : a.Mem w) (hs : b.Mem s) : (a.append b).Mem (w.append s) := by
  refine ⟨?_, ?_⟩
  · show w.word ++ s.word = a.word ++ b.word
    rw [hw.1, hs.1]
  · exact (append_holds _ _ ha.canonical hb.canonical _).2 ⟨_, _, hw.2, hs.2, rfl⟩

theorem size_append {a b : ElementaryLanguage} (ha : a.Proper) (hb : b.Proper) :
    (a.append b).cond.size = a.cond.size + b.word.length := by
  have h2 : b.word.length + 1 = b.cond.size := hb.wf
  have h1 := ha.canonical.1
  show (a.cond.append b.cond).size = _
  have e : (a.cond.append b.cond).size = a.cond.size + b.cond.size - 1 := by
    conv_lhs => rw [TimedCondition.size, append_dim]
  rw [e]; omega

theorem dim_eq {c : TimedCondition} (h : c.Canonical) : c.zone.dim = c.size + 1 := by
  have := h.1; unfold TimedCondition.size; omega

/-- The renaming is about existing clocks. -/
def InRange (left right : ElementaryLanguage) (r : RenamingRelation) : Prop :=
  ∀ p ∈ r, p.1 < left.cond.size ∧ p.2 < right.cond.size

/-- Two words with `n` and `n'` delays before a common part of `L` delays, together. -/
def joint (m : ℕ) (d d' : List ℚ) : Valuation := fun i => if i < m then accV d i else accV d' (i - m)

/-- The common part agrees. -/
def SameTail (n n' L : ℕ) (d d' : List ℚ) : Prop := ∀ k < L, accV d (n + k) = accV d' (n' + k)

theorem mem_left_iff {c : TimedCondition} (hc : c.Canonical) {m : ℕ} (hm : c.size = m) (d d' : List ℚ)
    (hd : d.length = m) : c.zone.Mem (joint m d d') ↔ c.Holds d := by
  rw [holds_iff_mem _ hc.1 hc.diagNN, and_iff_right (by omega)]
  have hdim := dim_eq hc
  constructor
  · intro h
    refine h.congr fun i hi => ?_
    cases i with
    | zero => rfl
    | succ i => simp only [ext_succ, joint]; rw [if_pos (by omega)]
  · intro h
    refine h.congr fun i hi => ?_
    cases i with
    | zero => rfl
    | succ i => simp only [ext_succ, joint]; rw [if_pos (by omega)]

theorem mem_right_iff {c : TimedCondition} (hc : c.Canonical) {n n' L : ℕ} (hm : c.size = n' + L)
    (d d' : List ℚ) (hd' : d'.length = n' + L) (ht : SameTail n n' L d d') :
    c.zone.Mem (rightView (n + L) (n' + L) L (joint (n + L) d d')) ↔ c.Holds d' := by
  rw [holds_iff_mem _ hc.1 hc.diagNN, and_iff_right (by omega)]
  have hdim := dim_eq hc
  have key : ∀ i < n' + L, rightView (n + L) (n' + L) L (joint (n + L) d d') i = accV d' i := by
    intro i hi
    unfold rightView joint
    by_cases h : i < n' + L - L
    · rw [if_pos h, if_neg (by omega), Nat.add_sub_cancel_left]
    · rw [if_neg h, if_pos (by omega)]
      have := ht (i - n') (by omega)
      have e1 : n + L - L + (i - (n' + L - L)) = n + (i - n') := by omega
      have e2 : n' + (i - n') = i := by omega
      rw [e1, this, e2]
  constructor
  · intro h
    refine h.congr fun i hi => ?_
    cases i with
    | zero => rfl
    | succ i => simp only [ext_succ]; exact key i (by omega)
  · intro h
    refine h.congr fun i hi => ?_
    cases i with
    | zero => rfl
    | succ i => simp only [ext_succ]; exact (key i (by omega)).symm

section Cell
variable {f : TimedWord → Bool} {left right s : ElementaryLanguage} {r : RenamingRelation}
  {lm rm : TimedConditionSet}

theorem ok_left (hl : left.Proper) (hr : right.Proper) (hs : s.Proper) (hR : InRange left right r)
    (hlm : IsCell f (left.append s) lm) :
    JuxtaposedZoneSet.Ok (left.cond.size + right.cond.size + s.word.length + 1)
      (left.cond.size + s.word.length) r
      (JuxtaposedZoneSet.makeRight lm (right.append s).cond s.word.length) := by
  have e1 := size_append hl hs
  have e2 := size_append hr hs
  have e3 := dim_eq (append_proper hr hs).canonical
  have hdim : ∀ c ∈ lm, c.zone.dim = left.cond.size + s.word.length + 1 := fun c hc => by
    rw [dim_eq (hlm.canonical c hc).1, (hlm.canonical c hc).2, e1]
  refine ⟨?_, ?_, ?_, ?_⟩
  · intro j hj
    obtain ⟨c, hc, rfl⟩ := List.mem_map.1 hj
    rw [makeCommon_dim, hdim c hc, e3, e2]; omega
  · intro j hj
    obtain ⟨c, hc, rfl⟩ := List.mem_map.1 hj
    simp only [makeCommon, hdim c hc]; omega
  · intro p hp
    have := hR p hp
    omega
  · intro j hj
    obtain ⟨c, hc, rfl⟩ := List.mem_map.1 hj
    exact makeCommon_canonized _ _ _

theorem ok_right (hl : left.Proper) (hr : right.Proper) (hs : s.Proper) (hR : InRange left right r)
    (hrm : IsCell f (right.append s) rm) :
    JuxtaposedZoneSet.Ok (left.cond.size + right.cond.size + s.word.length + 1)
      (left.cond.size + s.word.length) r
      (JuxtaposedZoneSet.makeLeft (left.append s).cond rm s.word.length) := by
  have e1 := size_append hl hs
  have e2 := size_append hr hs
  have e3 := dim_eq (append_proper hl hs).canonical
  have hdim : ∀ c ∈ rm, c.zone.dim = right.cond.size + s.word.length + 1 := fun c hc => by
    rw [dim_eq (hrm.canonical c hc).1, (hrm.canonical c hc).2, e2]
  refine ⟨?_, ?_, ?_, ?_⟩
  · intro j hj
    obtain ⟨c, hc, rfl⟩ := List.mem_map.1 hj
    rw [makeCommon_dim, hdim c hc, e3, e1]; omega
  · intro j hj
    obtain ⟨c, hc, rfl⟩ := List.mem_map.1 hj
    simp only [makeCommon, e3, e1]; omega
  · intro p hp
    have := hR p hp
    omega
  · intro j hj
    obtain ⟨c, hc, rfl⟩ := List.mem_map.1 hj
    exact makeCommon_canonized _ _ _

theorem left_mem (hl : left.Proper) (hr : right.Proper) (hs : s.Proper)
    (hlm : IsCell f (left.append s) lm) (v : Valuation) :
    (∃ j ∈ JuxtaposedZoneSet.makeRight lm (right.append s).cond s.word.length, j.zone.Mem v) ↔
      (∃ c ∈ lm, c.zone.Mem v) ∧ (right.append s).cond.zone.Mem
        (rightView (left.cond.size + s.word.length) (right.cond.size + s.word.length) s.word.length v) := by
  have e1 := size_append hl hs
  have e2 := size_append hr hs
  have hcan := (append_proper hr hs).canonical
  have e3 := dim_eq hcan
  have hdim : ∀ c ∈ lm, c.zone.dim = left.cond.size + s.word.length + 1 := fun c hc => by
    rw [dim_eq (hlm.canonical c hc).1, (hlm.canonical c hc).2, e1]
  have hmk : ∀ c ∈ lm, ((JuxtaposedZone.makeCommon c.zone (right.append s).cond.zone s.word.length).zone.Mem v ↔
      c.zone.Mem v ∧ (right.append s).cond.zone.Mem
        (rightView (left.cond.size + s.word.length) (right.cond.size + s.word.length) s.word.length v)) := by
    intro c hc
    rw [makeCommon_mem _ _ _ (by rw [hdim c hc]; omega) (by rw [e3, e2]; omega)
      (hcan.diagNN 0 (by rw [e3]; omega)), hdim c hc, e3, e2]
    simp only [Nat.add_sub_cancel]
  constructor
  · rintro ⟨j, hj, hv⟩
    obtain ⟨c, hc, rfl⟩ := List.mem_map.1 hj
    have := (hmk c hc).1 hv
    exact ⟨⟨c, hc, this.1⟩, this.2⟩
  · rintro ⟨⟨c, hc, hv⟩, h2⟩
    exact ⟨_, List.mem_map.2 ⟨c, hc, rfl⟩, (hmk c hc).2 ⟨hv, h2⟩⟩

theorem right_mem (hl : left.Proper) (hr : right.Proper) (hs : s.Proper)
    (hrm : IsCell f (right.append s) rm) (v : Valuation) :
    (∃ j ∈ JuxtaposedZoneSet.makeLeft (left.append s).cond rm s.word.length, j.zone.Mem v) ↔
      (left.append s).cond.zone.Mem v ∧ ∃ c ∈ rm, c.zone.Mem
        (rightView (left.cond.size + s.word.length) (right.cond.size + s.word.length) s.word.length v) := by
  have e1 := size_append hl hs
  have e2 := size_append hr hs
  have hcan := (append_proper hl hs).canonical
  have e3 := dim_eq hcan
  have hdim : ∀ c ∈ rm, c.zone.dim = right.cond.size + s.word.length + 1 := fun c hc => by
    rw [dim_eq (hrm.canonical c hc).1, (hrm.canonical c hc).2, e2]
  have hmk : ∀ c ∈ rm, ((JuxtaposedZone.makeCommon (left.append s).cond.zone c.zone s.word.length).zone.Mem v ↔
      (left.append s).cond.zone.Mem v ∧ c.zone.Mem
        (rightView (left.cond.size + s.word.length) (right.cond.size + s.word.length) s.word.length v)) := by
    intro c hc
    rw [makeCommon_mem _ _ _ (by rw [e3, e1]; omega) (by rw [hdim c hc]; omega)
      ((hrm.canonical c hc).1.diagNN 0 (by rw [hdim c hc]; omega)), hdim c hc, e3, e1]
    simp only [Nat.add_sub_cancel]
  constructor
  · rintro ⟨j, hj, hv⟩
    obtain ⟨c, hc, rfl⟩ := List.mem_map.1 hj
    have := (hmk c hc).1 hv
    exact ⟨this.1, ⟨c, hc, this.2⟩⟩
  · rintro ⟨h2, ⟨c, hc, hv⟩⟩
    exact ⟨_, List.mem_map.2 ⟨c, hc, rfl⟩, (hmk c hc).2 ⟨h2, hv⟩⟩

theorem left_pairwise (hl : left.Proper) (hr : right.Proper) (hs : s.Proper)
    (hlm : IsCell f (left.append s) lm) :
    (JuxtaposedZoneSet.makeRight lm (right.append s).cond s.word.length).Pairwise
      fun a b => ∀ v, ¬ (a.zone.Mem v ∧ b.zone.Mem v) := by
  have e1 := size_append hl hs
  have e2 := size_append hr hs
  have hcan := (append_proper hr hs).canonical
  have e3 := dim_eq hcan
  have hdim : ∀ c ∈ lm, c.zone.dim = left.cond.size + s.word.length + 1 := fun c hc => by
    rw [dim_eq (hlm.canonical c hc).1, (hlm.canonical c hc).2, e1]
  have hmk : ∀ c ∈ lm, ∀ v, (JuxtaposedZone.makeCommon c.zone (right.append s).cond.zone s.word.length).zone.Mem v →
      c.zone.Mem v := by
    intro c hc v h
    rw [makeCommon_mem _ _ _ (by rw [hdim c hc]; omega) (by rw [e3, e2]; omega)
      (hcan.diagNN 0 (by rw [e3]; omega))] at h
    exact h.1
  unfold JuxtaposedZoneSet.makeRight
  rw [List.pairwise_map]
  refine hlm.apart.imp_of_mem ?_
  intro a b ha hb hab v hv
  have h1 := hmk a ha v hv.1
  have h2 := hmk b hb v hv.2
  have ca := (hlm.canonical a ha).1
  have cb := (hlm.canonical b hb).1
  have sab : a.size = b.size := (hlm.canonical a ha).2.trans (hlm.canonical b hb).2.symm
  refine hab (delays v a.size) ⟨?_, ?_⟩
  · rw [holds_iff_mem _ ca.1 ca.diagNN]; exact ⟨by simp, mem_delays h1⟩
  · rw [holds_iff_mem _ cb.1 cb.diagNN, sab]; exact ⟨by simp, mem_delays h2⟩

/-- Words with the same end and related clocks. -/
structure Pair (left right s : ElementaryLanguage) (r : RenamingRelation) (x y : TimedWord) : Prop where
  inLeft : (left.append s).Mem x
  inRight : (right.append s).Mem y
  tail : SameTail left.cond.size right.cond.size s.word.length x.durations y.durations
  rel : r.Relates x y

theorem Pair.lengths (hl : left.Proper) (hr : right.Proper) (hs : s.Proper) {x y : TimedWord}
    (h : Pair left right s r x y) : x.durations.length = left.cond.size + s.word.length ∧
      y.durations.length = right.cond.size + s.word.length := by
  have e1 := size_append hl hs
  have e2 := size_append hr hs
  exact ⟨h.inLeft.2.1.trans e1, h.inRight.2.1.trans e2⟩

theorem sameCell_sound (hl : left.Proper) (hr : right.Proper) (hs : s.Proper) (hR : InRange left right r)
    (hlm : IsCell f (left.append s) lm) (hrm : IsCell f (right.append s) rm)
    (h : sameCell r lm (left.append s).cond rm (right.append s).cond s = true)
    {x y : TimedWord} (hxy : Pair left right s r x y) : f x = f y := by
  have e1 := size_append hl hs
  have e2 := size_append hr hs
  obtain ⟨l1, l2⟩ := hxy.lengths hl hr hs
  have okl := ok_left (r := r) hl hr hs hR hlm
  have okr := ok_right (r := r) hl hr hs hR hrm
  set v := joint (left.cond.size + s.word.length) x.durations y.durations with hv
  have := beq_sound okl okr (left_pairwise hl hr hs hlm) h v
  rw [okl.holds, okr.holds, left_mem hl hr hs hlm, right_mem hl hr hs hrm] at this
  have hrel : ∀ p ∈ r, v p.1 = v (left.cond.size + s.word.length + p.2) := by
    intro p hp
    have h1 := hR p hp
    simp only [hv, joint]
    rw [if_pos (by omega), if_neg (by omega), Nat.add_sub_cancel_left]
    exact hxy.rel p hp
  have hx : (left.append s).cond.zone.Mem v :=
    (mem_left_iff (append_proper hl hs).canonical e1 _ _ l1).2 hxy.inLeft.2
  have hy : (right.append s).cond.zone.Mem (rightView (left.cond.size + s.word.length)
      (right.cond.size + s.word.length) s.word.length v) :=
    (mem_right_iff (append_proper hr hs).canonical e2 _ _ l2 hxy.tail).2 hxy.inRight.2
  have hlx : (∃ c ∈ lm, c.zone.Mem v) ↔ f x = true := by
    have := hlm.exact x hxy.inLeft.1
    rw [and_iff_right hxy.inLeft] at this
    rw [← this]
    constructor
    · rintro ⟨c, hc, hm⟩
      exact ⟨c, hc, (mem_left_iff (hlm.canonical c hc).1 ((hlm.canonical c hc).2.trans e1) _ _ l1).1 hm⟩
    · rintro ⟨c, hc, hm⟩
      exact ⟨c, hc, (mem_left_iff (hlm.canonical c hc).1 ((hlm.canonical c hc).2.trans e1) _ _ l1).2 hm⟩
  have hry : (∃ c ∈ rm, c.zone.Mem (rightView (left.cond.size + s.word.length)
      (right.cond.size + s.word.length) s.word.length v)) ↔ f y = true := by
    have := hrm.exact y hxy.inRight.1
    rw [and_iff_right hxy.inRight] at this
    rw [← this]
    constructor
    · rintro ⟨c, hc, hm⟩
      exact ⟨c, hc, (mem_right_iff (hrm.canonical c hc).1 ((hrm.canonical c hc).2.trans e2) _ _ l2
        hxy.tail).1 hm⟩
    · rintro ⟨c, hc, hm⟩
      exact ⟨c, hc, (mem_right_iff (hrm.canonical c hc).1 ((hrm.canonical c hc).2.trans e2) _ _ l2
        hxy.tail).2 hm⟩
  rw [hlx, hry] at this
  have h2 : f x = true ↔ f y = true :=
    ⟨fun h => (this.1 ⟨⟨h, hy⟩, hrel⟩).1.2, fun h => (this.2 ⟨⟨hx, h⟩, hrel⟩).1.1⟩
  exact Bool.eq_iff_iff.2 h2

/-- Two related prefixes with the same suffix are such words. -/
theorem pair_of_append (hl : left.Proper) (hr : right.Proper) (hs : s.Proper) (hR : InRange left right r)
    {w w' u : TimedWord} (hw : left.Mem w) (hw' : right.Mem w') (hu : s.Mem u) (hrel : r.Relates w w') :
    Pair left right s r (w.append u) (w'.append u) := by
  have n1 : w.durations.length = left.cond.size := hw.2.1
  have n2 : w'.durations.length = right.cond.size := hw'.2.1
  have n3 : u.durations.length = s.word.length + 1 := hu.2.1.trans hs.wf.symm
  have p1 : 1 ≤ left.cond.size := by have := hl.canonical.1; unfold TimedCondition.size; omega
  have p2 : 1 ≤ right.cond.size := by have := hr.canonical.1; unfold TimedCondition.size; omega
  refine ⟨append_mem hl hs hw hu, append_mem hr hs hw' hu, ?_, ?_⟩
  · intro k hk
    rw [append_durations, append_durations]
    have a1 := accV_glue_right (d1 := w.durations) (d2 := u.durations) (by omega) (by omega)
      (k := k + 1) (by omega)
    have a2 := accV_glue_right (d1 := w'.durations) (d2 := u.durations) (by omega) (by omega)
      (k := k + 1) (by omega)
    have t1 : w.durations.length + (k + 1) - 1 = left.cond.size + k := by omega
    have t2 : w'.durations.length + (k + 1) - 1 = right.cond.size + k := by omega
    rw [t1] at a1; rw [t2] at a2
    rw [a1, a2]
  · intro p hp
    have h1 := hR p hp
    have := hrel p hp
    show accV (glue w.durations u.durations) p.1 = accV (glue w'.durations u.durations) p.2
    rw [accV_glue_left (by omega) (by omega), accV_glue_left (by omega) (by omega)]
    have : accV w.durations p.1 = accV w'.durations p.2 := this
    rw [this]

end Cell

/-- The first check of `equivalence`: some words of the two prefixes are related. -/
theorem satisfiable_iff {left right : ElementaryLanguage} {r : RenamingRelation} (hl : left.Proper)
    (hr : right.Proper) (hR : InRange left right r) :
    ((JuxtaposedZone.make left.cond.zone right.cond.zone).addRenaming r).zone.isSatisfiableNoCanonize = true ↔
      ∃ w w', left.Mem w ∧ right.Mem w' ∧ r.Relates w w' := by
  have d1 := dim_eq hl.canonical
  have d2 := dim_eq hr.canonical
  have hrange : (JuxtaposedZone.make left.cond.zone right.cond.zone).InRange r := by
    intro p hp
    have h1 := hR p hp
    rw [make_dim, d1, d2]
    simp only [JuxtaposedZone.make, d1]
    omega
  rw [addRenaming_satisfiable _ _ hrange (make_canonized _ _)]
  have hmem : ∀ v, ((JuxtaposedZone.make left.cond.zone right.cond.zone).addRenaming r).zone.Mem v ↔
      (left.cond.zone.Mem v ∧ right.cond.zone.Mem (fun k => v (left.cond.size + k))) ∧
        ∀ p ∈ r, v p.1 = v (left.cond.size + p.2) := by
    intro v
    rw [addRenaming_mem _ _ hrange, make_mem _ _ (by omega) (hr.canonical.diagNN 0 (by omega))]
    rfl
  constructor
  · rintro ⟨v, hv⟩
    obtain ⟨⟨h1, h2⟩, h3⟩ := (hmem v).1 hv
    refine ⟨⟨left.word, delays v left.cond.size⟩,
      ⟨right.word, delays (fun k => v (left.cond.size + k)) right.cond.size⟩, ⟨rfl, ?_⟩, ⟨rfl, ?_⟩, ?_⟩
    · rw [holds_iff_mem _ hl.canonical.1 hl.canonical.diagNN]
      exact ⟨by simp, mem_delays h1⟩
    · rw [holds_iff_mem _ hr.canonical.1 hr.canonical.diagNN]
      exact ⟨by simp, mem_delays h2⟩
    · intro p hp
      have := hR p hp
      show accV _ _ = accV _ _
      rw [accV_delays _ _ this.1, accV_delays _ _ this.2]
      exact h3 p hp
  · rintro ⟨w, w', hw, hw', hrel⟩
    have n1 : w.durations.length = left.cond.size := hw.2.1
    have n2 : w'.durations.length = right.cond.size := hw'.2.1
    refine ⟨joint left.cond.size w.durations w'.durations, (hmem _).2 ⟨⟨?_, ?_⟩, ?_⟩⟩
    · exact (mem_left_iff hl.canonical rfl _ _ n1).2 hw.2
    · have := ((holds_iff_mem _ hr.canonical.1 hr.canonical.diagNN _).1 hw'.2).2
      have e : (fun k => joint left.cond.size w.durations w'.durations (left.cond.size + k)) =
          accV w'.durations := by
        funext k; simp [joint]
      rw [e]; exact this
    · intro p hp
      have h1 := hR p hp
      simp only [joint]
      rw [if_pos h1.1, if_neg (by omega), Nat.add_sub_cancel_left]
      exact hrel p hp

end Equivalence
end LearnTA
