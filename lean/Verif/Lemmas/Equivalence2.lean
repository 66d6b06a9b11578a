import Verif.Lemmas.Equivalence

/-!
# Soundness and completeness of `equivalence`
-/

namespace LearnTA
open Bound

namespace Equivalence
open Zone JuxtaposedZone TimedCondition JuxtaposedZoneSet

theorem eq_of_sums {a b : List ℚ} (hl : a.length = b.length)
    (h : ∀ k < a.length, (a.drop k).sum = (b.drop k).sum) : a = b := by
  induction a generalizing b with
  | nil => exact (List.length_eq_zero_iff.1 hl.symm).symm
  | cons x a ih =>
    cases b with
    | nil => simp at hl
    | cons y b =>
      have h1 : a = b := ih (by simpa using hl) (fun k hk => by simpa using h (k + 1) (by simpa using hk))
      have h0 := h 0 (by simp)
      simp only [List.drop_zero, List.sum_cons, h1, add_left_inj] at h0
      rw [h0, h1]

theorem sameTail_iff {n n' L : ℕ} {d d' : List ℚ} (h : d.length = n + L) (h' : d'.length = n' + L) :
    SameTail n n' L d d' ↔ d.drop n = d'.drop n' := by
  constructor
  · intro ht
    apply eq_of_sums (by simp; omega)
    intro k hk
    rw [List.drop_drop, List.drop_drop]
    exact ht k (by simp at hk; omega)
  · intro he k hk
    show (d.drop (n + k)).sum = (d'.drop (n' + k)).sum
    rw [← List.drop_drop, ← List.drop_drop, he]

theorem inRange_iff {left right : ElementaryLanguage} {r : RenamingRelation} (hl : left.Proper) (hr : right.Proper) :
    r.InRange left right ↔ InRange left right r := by
  have h1 : left.word.length + 1 = left.cond.size := hl.wf
  have h2 : right.word.length + 1 = right.cond.size := hr.wf
  unfold RenamingRelation.InRange InRange
  refine forall₂_congr fun p _ => ?_
  omega

theorem comparable_iff {left right s : ElementaryLanguage} {r : RenamingRelation} {x y : TimedWord}
    (hl : left.Proper) (hr : right.Proper) (hs : s.Proper) :
    Comparable left right s r x y ↔ Pair left right s r x y := by
  have h1 : left.word.length + 1 = left.cond.size := hl.wf
  have h2 : right.word.length + 1 = right.cond.size := hr.wf
  have e1 := size_append hl hs
  have e2 := size_append hr hs
  constructor
  · intro h
    refine ⟨h.inLeft, h.inRight, ?_, h.rel⟩
    rw [sameTail_iff (h.inLeft.2.1.trans e1) (h.inRight.2.1.trans e2), ← h1, ← h2]; exact h.tail
  · intro h
    refine ⟨h.inLeft, h.inRight, ?_, h.rel⟩
    have := h.tail
    rw [sameTail_iff (h.inLeft.2.1.trans e1) (h.inRight.2.1.trans e2), ← h1, ← h2] at this
    exact this

section Cell
variable {f : TimedWord → Bool} {left right s : ElementaryLanguage} {r : RenamingRelation}
  {lm rm : TimedConditionSet}

/-- If `f` agrees on all comparable words, the juxtapositions have the same valuations. -/
theorem same_valuations (hl : left.Proper) (hr : right.Proper) (hs : s.Proper) (hR : InRange left right r)
    (hlm : IsCell f (left.append s) lm) (hrm : IsCell f (right.append s) rm)
    (h : ∀ x y, Pair left right s r x y → f x = f y) (v : Valuation) :
    (∃ j ∈ (JuxtaposedZoneSet.makeRight lm (right.append s).cond s.word.length).addRenaming r, j.zone.Mem v) ↔
      ∃ j ∈ (JuxtaposedZoneSet.makeLeft (left.append s).cond rm s.word.length).addRenaming r, j.zone.Mem v := by
  have e1 := size_append hl hs
  have e2 := size_append hr hs
  have okl := ok_left (r := r) hl hr hs hR hlm
  have okr := ok_right (r := r) hl hr hs hR hrm
  have cl := (append_proper hl hs).canonical
  have cr := (append_proper hr hs).canonical
  rw [okl.holds, okr.holds, left_mem hl hr hs hlm, right_mem hl hr hs hrm]
  set n := left.cond.size with hn
  set n' := right.cond.size with hn'
  set L := s.word.length with hL
  set x : TimedWord := ⟨(left.append s).word, delays v (n + L)⟩ with hx
  set y : TimedWord := ⟨(right.append s).word, delays (rightView (n + L) (n' + L) L v) (n' + L)⟩ with hy
  have ax : ∀ c : TimedCondition, c.Canonical → c.size = n + L → (c.zone.Mem v ↔ c.Holds x.durations) := by
    intro c hc hsz
    rw [holds_iff_mem _ hc.1 hc.diagNN, hx]
    have hdim := dim_eq hc
    constructor
    · intro hv; exact ⟨by simp [hsz], by rw [← hsz]; exact mem_delays hv⟩
    · rintro ⟨_, hv⟩
      refine hv.congr fun i hi => ?_
      cases i with
      | zero => rfl
      | succ i => simp only [ext_succ]; rw [accV_delays _ _ (by omega)]
  have ay : ∀ c : TimedCondition, c.Canonical → c.size = n' + L →
      (c.zone.Mem (rightView (n + L) (n' + L) L v) ↔ c.Holds y.durations) := by
    intro c hc hsz
    rw [holds_iff_mem _ hc.1 hc.diagNN, hy]
    have hdim := dim_eq hc
    constructor
    · intro hv; exact ⟨by simp [hsz], by have := mem_delays hv; rwa [hsz] at this⟩
    · rintro ⟨_, hv⟩
      refine hv.congr fun i hi => ?_
      cases i with
      | zero => rfl
      | succ i => simp only [ext_succ]; rw [accV_delays _ _ (by omega)]
  have bx : ∀ c ∈ lm, (c.zone.Mem v ↔ c.Holds x.durations) := fun c hc =>
    ax c (hlm.canonical c hc).1 ((hlm.canonical c hc).2.trans e1)
  have bY : ∀ c ∈ rm, (c.zone.Mem (rightView (n + L) (n' + L) L v) ↔ c.Holds y.durations) := fun c hc =>
    ay c (hrm.canonical c hc).1 ((hrm.canonical c hc).2.trans e2)
  have hlx : (∃ c ∈ lm, c.zone.Mem v) ↔ (left.append s).Mem x ∧ f x = true := by
    rw [← hlm.exact x rfl]
    exact ⟨fun ⟨c, hc, h⟩ => ⟨c, hc, (bx c hc).1 h⟩, fun ⟨c, hc, h⟩ => ⟨c, hc, (bx c hc).2 h⟩⟩
  have hry : (∃ c ∈ rm, c.zone.Mem (rightView (n + L) (n' + L) L v)) ↔ (right.append s).Mem y ∧ f y = true := by
    rw [← hrm.exact y rfl]
    exact ⟨fun ⟨c, hc, h⟩ => ⟨c, hc, (bY c hc).1 h⟩, fun ⟨c, hc, h⟩ => ⟨c, hc, (bY c hc).2 h⟩⟩
  have mx : (left.append s).cond.zone.Mem v ↔ (left.append s).Mem x := by
    rw [ax _ cl e1]; exact ⟨fun h => ⟨rfl, h⟩, fun h => h.2⟩
  have my : (right.append s).cond.zone.Mem (rightView (n + L) (n' + L) L v) ↔ (right.append s).Mem y := by
    rw [ay _ cr e2]; exact ⟨fun h => ⟨rfl, h⟩, fun h => h.2⟩
  rw [hlx, hry, mx, my]
  have key : (left.append s).Mem x → (right.append s).Mem y → (∀ p ∈ r, v p.1 = v (n + L + p.2)) → f x = f y := by
    intro h1 h2 h3
    refine h x y ⟨h1, h2, ?_, ?_⟩
    · intro k hk
      rw [hx, hy, accV_delays _ _ (by omega), accV_delays _ _ (by omega)]
      unfold rightView
      rw [if_neg (by omega)]
      congr 1; omega
    · intro p hp
      have hp' := hR p hp
      show accV _ _ = accV _ _
      rw [hx, hy, accV_delays _ _ (by omega), accV_delays _ _ (by omega), h3 p hp]
      unfold rightView
      rw [if_pos (by omega)]
  constructor
  · rintro ⟨⟨⟨h1, h2⟩, h3⟩, h4⟩
    exact ⟨⟨h1, h3, (key h1 h3 h4) ▸ h2⟩, h4⟩
  · rintro ⟨⟨h1, h2, h3⟩, h4⟩
    exact ⟨⟨⟨h1, (key h1 h2 h4).symm ▸ h3⟩, h2⟩, h4⟩

theorem length_addRenaming (s : JuxtaposedZoneSet) (r : RenamingRelation) :
    (s.addRenaming r).length ≤ s.length := by
  unfold JuxtaposedZoneSet.addRenaming
  exact (List.length_filter_le _ _).trans (by simp)

theorem sameCell_complete (hl : left.Proper) (hr : right.Proper) (hs : s.Proper) (hR : InRange left right r)
    (hlm : IsCell f (left.append s) lm) (hrm : IsCell f (right.append s) rm)
    (n1 : lm.length ≤ 1) (n2 : rm.length ≤ 1)
    (h : ∀ x y, Pair left right s r x y → f x = f y) :
    sameCell r lm (left.append s).cond rm (right.append s).cond s = true := by
  have okl := ok_left (r := r) hl hr hs hR hlm
  have okr := ok_right (r := r) hl hr hs hR hrm
  have key := same_valuations hl hr hs hR hlm hrm h
  unfold sameCell JuxtaposedZoneSet.beq
  have m1 : ((JuxtaposedZoneSet.makeRight lm (right.append s).cond s.word.length).addRenaming r).length ≤ 1 :=
    (length_addRenaming _ _).trans (by simpa [JuxtaposedZoneSet.makeRight] using n1)
  have m2 : ((JuxtaposedZoneSet.makeLeft (left.append s).cond rm s.word.length).addRenaming r).length ≤ 1 :=
    (length_addRenaming _ _).trans (by simpa [JuxtaposedZoneSet.makeLeft] using n2)
  have hA := okl.add
  have hB := okr.add
  generalize (JuxtaposedZoneSet.makeRight lm (right.append s).cond s.word.length).addRenaming r = A at *
  generalize (JuxtaposedZoneSet.makeLeft (left.append s).cond rm s.word.length).addRenaming r = B at *
  match A, B, m1, m2 with
  | [], [], _, _ => simp
  | [a], [], _, _ =>
    obtain ⟨_, _, _, v, hv⟩ := hA a (by simp)
    simpa using (key v).1 ⟨a, by simp, hv⟩
  | [], [b], _, _ =>
    obtain ⟨_, _, _, v, hv⟩ := hB b (by simp)
    simpa using (key v).2 ⟨b, by simp, hv⟩
  | [a], [b], _, _ =>
    obtain ⟨d1, c1, g1, _⟩ := hA a (by simp)
    obtain ⟨d2, c2, g2, _⟩ := hB b (by simp)
    have := strictEqual_of_same_mem (d1.trans d2.symm) c1 c2 g1 g2 (by simpa using key)
    simp [this]

end Cell

/-- `IsRow` cells. -/
theorem row_cell {f : TimedWord → Bool} {e : ElementaryLanguage} {ss : List ElementaryLanguage}
    {row : List TimedConditionSet} (h : IsRow f e ss row) {i : ℕ} (hi : i < ss.length) :
    IsCell f (e.append (ss.getD i .empty)) (row.getD i []) := h.2 i hi

theorem getD_map {α β : Type*} (g : α → β) (l : List α) (i : ℕ) (a : α) (b : β) (hi : i < l.length) :
    (l.map g).getD i b = g (l.getD i a) := by
  simp [List.getD_eq_getElem?_getD, hi]

theorem getD_mem' {α : Type*} (l : List α) (i : ℕ) (a : α) (hi : i < l.length) : l.getD i a ∈ l := by
  simp [List.getD_eq_getElem?_getD, hi]

variable {f : TimedWord → Bool} {left right : ElementaryLanguage} {r : RenamingRelation}
  {ss : List ElementaryLanguage} {lrow rrow : List TimedConditionSet}

/-- What `equivalence` decides. -/
theorem equivalence_iff (hl : left.Proper) (hr : right.Proper) (hs : ∀ s ∈ ss, s.Proper)
    (hL : IsRow f left ss lrow) : equivalence left lrow right rrow ss r = true ↔
      ((JuxtaposedZone.make left.cond.zone right.cond.zone).addRenaming r).zone.isSatisfiableNoCanonize = true ∧
      ∀ i < ss.length, sameCell r (lrow.getD i []) (left.append (ss.getD i .empty)).cond (rrow.getD i [])
        (right.append (ss.getD i .empty)).cond (ss.getD i .empty) = true := by
  unfold equivalence equivalenceCat
  simp only [Bool.and_eq_true, List.all_eq_true, List.mem_range]
  rw [hL.1]
  refine and_congr_right fun _ => forall₂_congr fun i hi => ?_
  rw [getD_map (fun s => (left.append s).cond) _ _ .empty _ hi, getD_map (fun s => (right.append s).cond) _ _ .empty _ hi]

theorem equivalence_sound (hl : left.Proper) (hr : right.Proper) (hs : ∀ s ∈ ss, s.Proper)
    (hL : IsRow f left ss lrow) (hR : IsRow f right ss rrow) (hr' : r.InRange left right)
    (h : equivalence left lrow right rrow ss r = true) :
    (∃ w w', left.Mem w ∧ right.Mem w' ∧ r.Relates w w') ∧
      ∀ s ∈ ss, ∀ x y, Comparable left right s r x y → f x = f y := by
  rw [equivalence_iff hl hr hs hL] at h
  rw [inRange_iff hl hr] at hr'
  refine ⟨(satisfiable_iff hl hr hr').1 h.1, ?_⟩
  intro s hsm x y hxy
  obtain ⟨i, hi, rfl⟩ := List.getElem_of_mem hsm
  have hh := h.2 i hi
  have c1 := hL.2 i hi
  have c2 := hR.2 i hi
  have e : ss.getD i .empty = ss[i] := by simp [List.getD_eq_getElem?_getD, hi]
  rw [e] at hh c1 c2
  exact sameCell_sound hl hr (hs _ hsm) hr' c1 c2 hh ((comparable_iff hl hr (hs _ hsm)).1 hxy)

theorem equivalence_complete (hl : left.Proper) (hr : right.Proper) (hs : ∀ s ∈ ss, s.Proper)
    (hL : IsRow f left ss lrow) (hR : IsRow f right ss rrow) (hr' : r.InRange left right)
    (n1 : ∀ c ∈ lrow, c.length ≤ 1) (n2 : ∀ c ∈ rrow, c.length ≤ 1)
    (h1 : ∃ w w', left.Mem w ∧ right.Mem w' ∧ r.Relates w w')
    (h2 : ∀ s ∈ ss, ∀ x y, Comparable left right s r x y → f x = f y) :
    equivalence left lrow right rrow ss r = true := by
  rw [equivalence_iff hl hr hs hL]
  rw [inRange_iff hl hr] at hr'
  refine ⟨(satisfiable_iff hl hr hr').2 h1, ?_⟩
  intro i hi
  have hm := getD_mem' ss i .empty hi
  refine sameCell_complete hl hr (hs _ hm) hr' (hL.2 i hi) (hR.2 i hi) ?_ ?_ ?_
  · exact n1 _ (getD_mem' _ _ _ (by rw [hL.1]; exact hi))
  · exact n2 _ (getD_mem' _ _ _ (by rw [hR.1]; exact hi))
  · intro x y hxy
    exact h2 _ hm x y ((comparable_iff hl hr (hs _ hm)).2 hxy)

/-- The juxtapositions that `findDeterministicEquivalentRenaming` prepares. -/
theorem equivalenceJux_eq (hl : left.Proper) (hr : right.Proper)
    (hr' : r.InRange left right) (hL : lrow.length = ss.length) :
    equivalenceJux (JuxtaposedZone.make left.cond.zone right.cond.zone)
      ((List.range lrow.length).map fun i => JuxtaposedZoneSet.makeRight (lrow.getD i [])
        ((ss.map fun s => (right.append s).cond).getD i .empty) (ss.getD i .empty).word.length)
      ((List.range lrow.length).map fun i => JuxtaposedZoneSet.makeLeft
        ((ss.map fun s => (left.append s).cond).getD i .empty) (rrow.getD i []) (ss.getD i .empty).word.length) r =
    equivalence left lrow right rrow ss r := by
  rw [inRange_iff hl hr] at hr'
  have d1 := dim_eq hl.canonical
  have d2 := dim_eq hr.canonical
  have hrange : (JuxtaposedZone.make left.cond.zone right.cond.zone).InRange r := by
    intro p hp
    have h1 := hr' p hp
    rw [make_dim, d1, d2]
    simp only [JuxtaposedZone.make, d1]
    omega
  have hsat : ((JuxtaposedZone.make left.cond.zone right.cond.zone).addRenaming r).zone.isSatisfiable =
      ((JuxtaposedZone.make left.cond.zone right.cond.zone).addRenaming r).zone.isSatisfiableNoCanonize := by
    rw [Bool.eq_iff_iff, addRenaming_satisfiable _ _ hrange (make_canonized _ _), isSatisfiable_iff]
  unfold equivalenceJux equivalence equivalenceCat
  rw [hsat]
  congr 1
  simp only [List.length_map, List.length_range, BEq.rfl, Bool.true_and]
  rw [Bool.eq_iff_iff]
  simp only [List.all_eq_true]
  rw [List.zip_map']
  simp only [List.mem_map, List.mem_range, forall_exists_index, and_imp, forall_apply_eq_imp_iff₂]
  rfl

end Equivalence
end LearnTA
