import Verif.Lemmas.Equivalence2
import Verif.Lemmas.Queryable
import Verif.Props.Symbolic

/-!
# Properties of juxtaposed zones and of the equivalence of prefixes (C45, C62)
-/

namespace LearnTA.Props

open LearnTA TimedCondition JuxtaposedZone

/-! ## C45 -/

/-- C45: the juxtaposition of two zones holds for exactly the valuations whose first part is in the left
zone and whose second part is in the right zone. -/
theorem C45_product (left right : Zone) (hl : 1 ≤ left.dim) (h0 : 0 ≤ right.val 0 0) (v : Valuation) :
    (make left right).zone.Mem v ↔ left.Mem v ∧ right.Mem (fun k => v (left.dim - 1 + k)) :=
  make_mem left right hl h0 v

/-- C45: with `L` common variables, the right zone is asked of the variables after those of the left zone
followed by the last `L` variables of the left zone. -/
theorem C45_product_common (left right : Zone) (L : ℕ) (hl : L + 1 ≤ left.dim) (hr : L + 1 ≤ right.dim)
    (h0 : 0 ≤ right.val 0 0) (v : Valuation) :
    (makeCommon left right L).zone.Mem v ↔
      left.Mem v ∧ right.Mem (rightView (left.dim - 1) (right.dim - 1) L v) :=
  makeCommon_mem left right L hl hr h0 v

theorem inRange_of {left right : Zone} {r : List (ℕ × ℕ)} (hl : 1 ≤ left.dim)
    (hr : ∀ p ∈ r, p.1 + 1 < left.dim ∧ p.2 + 1 < right.dim) : (make left right).InRange r := by
  intro p hp
  have := hr p hp
  rw [make_dim]
  simp only [make]
  omega

/-- C45: adding a renaming keeps exactly the valuations that satisfy its equalities. -/
theorem C45_renaming_exact (left right : Zone) (hl : 1 ≤ left.dim) (h0 : 0 ≤ right.val 0 0) (r : List (ℕ × ℕ))
    (hr : ∀ p ∈ r, p.1 + 1 < left.dim ∧ p.2 + 1 < right.dim) (v : Valuation) :
    ((make left right).addRenaming r).zone.Mem v ↔
      left.Mem v ∧ right.Mem (fun k => v (left.dim - 1 + k)) ∧ ∀ p ∈ r, v p.1 = v (left.dim - 1 + p.2) := by
  rw [addRenaming_mem _ _ (inRange_of hl hr), make_mem left right hl h0, and_assoc]
  rfl

/-- C45: adding a renaming to a juxtaposition with common variables. -/
theorem C45_renaming_exact_common (left right : Zone) (L : ℕ) (hl : L + 1 ≤ left.dim) (hr : L + 1 ≤ right.dim)
    (h0 : 0 ≤ right.val 0 0) (r : List (ℕ × ℕ))
    (hr' : ∀ p ∈ r, p.1 + 1 < left.dim ∧ p.2 + L + 1 < right.dim) (v : Valuation) :
    ((makeCommon left right L).addRenaming r).zone.Mem v ↔
      left.Mem v ∧ right.Mem (rightView (left.dim - 1) (right.dim - 1) L v) ∧
        ∀ p ∈ r, v p.1 = rightView (left.dim - 1) (right.dim - 1) L v p.2 := by
  have hin : (makeCommon left right L).InRange r := by
    intro p hp
    have := hr' p hp
    rw [makeCommon_dim]
    simp only [makeCommon]
    omega
  rw [addRenaming_mem _ _ hin, makeCommon_mem left right L hl hr h0, and_assoc]
  refine and_congr_right fun _ => and_congr_right fun _ => forall₂_congr fun p hp => ?_
  have := hr' p hp
  unfold rightView
  rw [if_pos (by omega)]
  rfl

/-- C45: although only the modified rows are closed again, the matrix after adding renamings, one after
the other, is canonical, and the check without canonisation tells whether a valuation exists. -/
theorem C45_renaming_canonical (left right : Zone) (hl : 1 ≤ left.dim) (rs : List (List (ℕ × ℕ)))
    (hr : ∀ r ∈ rs, ∀ p ∈ r, p.1 + 1 < left.dim ∧ p.2 + 1 < right.dim) :
    let j := rs.foldl addRenaming (make left right)
    (j.zone.isSatisfiableNoCanonize = true ↔ ∃ v, j.zone.Mem v) ∧
      ((∃ v, j.zone.Mem v) → ∀ a < j.zone.dim, ∀ b < j.zone.dim, ∀ c < j.zone.dim,
        j.zone.val a b ≤ j.zone.val a c + j.zone.val c b) := by
  intro j
  have key : ∀ (rs : List (List (ℕ × ℕ))) (j : JuxtaposedZone), (∀ r ∈ rs, j.InRange r) → j.Canonized →
      (j.zone.isSatisfiableNoCanonize = true ↔ ∃ v, j.zone.Mem v) →
      (rs.foldl addRenaming j).Canonized ∧
        ((rs.foldl addRenaming j).zone.isSatisfiableNoCanonize = true ↔ ∃ v, (rs.foldl addRenaming j).zone.Mem v) := by
    intro rs
    induction rs with
    | nil => intro j _ h1 h2; exact ⟨h1, h2⟩
    | cons r rs ih =>
      intro j h h1 h2
      refine ih (j.addRenaming r) ?_ (addRenaming_canonized j r (h r (by simp)) h1)
        (addRenaming_satisfiable j r (h r (by simp)) h1)
      intro r' hr' p hp
      rw [addRenaming_dim]
      exact h r' (by simp [hr']) p hp
  have h0 : (make left right).zone.isSatisfiableNoCanonize = true ↔ ∃ v, (make left right).zone.Mem v := by
    have := addRenaming_satisfiable (make left right) [] (by intro p hp; simp at hp) (make_canonized _ _)
    simpa [addRenaming] using this
  obtain ⟨k1, k2⟩ := key rs (make left right) (fun r h => inRange_of hl (hr r h)) (make_canonized _ _) h0
  refine ⟨k2, fun hv => ?_⟩
  exact k1 (k2.2 hv)

/-- C45: `makeRenaming` of a satisfiable juxtaposition lists exactly the equalities between a left and a
right clock that hold for all its valuations. -/
theorem C45_implied_equalities (left right : Zone) (hl : 1 ≤ left.dim)
    (r : List (ℕ × ℕ)) (hr : ∀ p ∈ r, p.1 + 1 < left.dim ∧ p.2 + 1 < right.dim)
    (hne : ∃ v, ((make left right).addRenaming r).zone.Mem v) (p : ℕ × ℕ) :
    p ∈ ((make left right).addRenaming r).makeRenaming ↔ p.1 + 1 < left.dim ∧ p.2 + 1 < right.dim ∧
      ∀ v, ((make left right).addRenaming r).zone.Mem v → v p.1 = v (left.dim - 1 + p.2) := by
  have hin := inRange_of hl hr
  have hs := (addRenaming_satisfiable _ _ hin (make_canonized left right)).2 hne
  have hc := (addRenaming_satisfiable_closed _ _ hin (make_canonized left right) hs).1
  obtain ⟨u, hu⟩ := hne
  rw [mem_makeRenaming]
  have hd : ((make left right).addRenaming r).zone.dim = left.dim - 1 + (right.dim - 1) + 1 := by
    rw [addRenaming_dim, make_dim]
  have hL : ((make left right).addRenaming r).leftSize = left.dim - 1 := rfl
  have hR : ((make left right).addRenaming r).rightSize = right.dim - 1 := rfl
  rw [hL, hR]
  have e1 : p.1 < left.dim - 1 ↔ p.1 + 1 < left.dim := by omega
  have e2 : p.2 < right.dim - 1 ↔ p.2 + 1 < right.dim := by omega
  rw [e1, e2]
  refine and_congr_right fun h1 => and_congr_right fun h2 => ?_
  rw [eq_iff_entries hc hu (a := p.1) (b := left.dim - 1 + p.2) (by omega) (by omega) (by omega),
    Nat.add_comm (left.dim - 1)]

/-- C45: `getRight` of a satisfiable juxtaposition is the projection to the right clocks: exactly the
right valuations for which a left one exists. -/
theorem C45_getRight_projection (left right : Zone) (hl : 1 ≤ left.dim) (hr1 : 1 ≤ right.dim)
    (h0 : 0 ≤ right.val 0 0) (r : List (ℕ × ℕ))
    (hr : ∀ p ∈ r, p.1 + 1 < left.dim ∧ p.2 + 1 < right.dim)
    (hne : ∃ v, ((make left right).addRenaming r).zone.Mem v) :
    ∃ z, ((make left right).addRenaming r).getRight = some z ∧ z.dim = right.dim ∧
      ∀ u, z.Mem u ↔ right.Mem u ∧ ∃ v, left.Mem v ∧ ∀ p ∈ r, v p.1 = u p.2 := by
  have hin := inRange_of hl hr
  have hs := (addRenaming_satisfiable _ _ hin (make_canonized left right)).2 hne
  have hc := (addRenaming_satisfiable_closed _ _ hin (make_canonized left right) hs).1
  obtain ⟨z, g1, g2, _, g4⟩ := getRight_mem _ (by
    rw [addRenaming_dim, make_dim]; rfl) hc hne
  refine ⟨z, g1, ?_, fun u => ?_⟩
  · rw [g2]
    show right.dim - 1 + 1 = _
    omega
  have hL : ((make left right).addRenaming r).leftSize = left.dim - 1 := rfl
  have hR : ((make left right).addRenaming r).rightSize = right.dim - 1 := rfl
  rw [g4, hL, hR]
  constructor
  · rintro ⟨v, hv, he⟩
    obtain ⟨a1, a2, a3⟩ := (C45_renaming_exact left right hl h0 r hr v).1 hv
    refine ⟨a2.congr fun i hi => ?_, v, a1, fun p hp => ?_⟩
    · cases i with
      | zero => rfl
      | succ i => simp only [Valuation.ext]; exact (he i (by omega)).symm
    · rw [a3 p hp, he p.2 (by have := hr p hp; omega)]
  · rintro ⟨a1, v, a2, a3⟩
    refine ⟨fun i => if i < left.dim - 1 then v i else u (i - (left.dim - 1)), ?_, fun k _ => by simp⟩
    rw [C45_renaming_exact left right hl h0 r hr]
    refine ⟨a2.congr fun i hi => ?_, ?_, fun p hp => ?_⟩
    · cases i with
      | zero => rfl
      | succ i => simp only [Valuation.ext]; rw [if_pos (by omega)]
    · have : (fun k => if left.dim - 1 + k < left.dim - 1 then v (left.dim - 1 + k)
          else u (left.dim - 1 + k - (left.dim - 1))) = u := by
        funext k; simp
      rw [this]; exact a1
    · have := hr p hp
      rw [if_pos (by omega), if_neg (by omega), a3 p hp]
      simp

/-- The juxtaposition of `exCond` with itself, the first clocks equal. -/
def exJux : JuxtaposedZone := (make exCond.zone exCond.zone).addRenaming [(0, 0)]

example : ∀ p ∈ [((0 : ℕ), (0 : ℕ))], p.1 + 1 < exCond.zone.dim ∧ p.2 + 1 < exCond.zone.dim := by decide +kernel
example : 1 ≤ exCond.zone.dim ∧ 0 ≤ exCond.zone.val 0 0 := by decide +kernel

set_option maxRecDepth 100000 in
theorem exJux_nonempty : ∃ v, exJux.zone.Mem v := by
  refine (addRenaming_satisfiable _ _ ?_ (make_canonized _ _)).1 (by decide +kernel)
  exact inRange_of (by decide +kernel) (by decide +kernel)

example : exJux.makeRenaming = [(0, 0)] := by decide +kernel
example : ((make exCond.zone exCond.zone).addRenaming [(0, 0), (0, 1)]).makeRenaming =
    [(0, 0), (0, 1)] := by decide +kernel
/-- An unsatisfiable one: `τ₁` is at most 2, and `τ₀ + τ₁` is fixed to 0. -/
example : ((make (ofAccumulated [3, 1]).zone exCond.zone).addRenaming [(1, 0)]).zone.isSatisfiableNoCanonize =
    false := by decide +kernel
/-- With a common variable. -/
example : (makeCommon exCond.zone exCond.zone 1).zone.dim = 4 ∧
    (makeCommon exCond.zone exCond.zone 1).zone.isSatisfiableNoCanonize = true := by decide +kernel

/-! ## C62 -/

/-- C62: if `equivalence` accepts a renaming for two prefixes and their rows, then some words of the two
prefixes are related by the renaming, and the target language `f` agrees on all pairs of words that the
renaming identifies, for every suffix of the table. -/
theorem C62_equivalence_sound (f : TimedWord → Bool) (left right : ElementaryLanguage) (r : RenamingRelation)
    (suffixes : List ElementaryLanguage) (leftRow rightRow : List TimedConditionSet)
    (hl : left.Proper) (hr : right.Proper) (hs : ∀ s ∈ suffixes, s.Proper)
    (hL : IsRow f left suffixes leftRow) (hR : IsRow f right suffixes rightRow) (hr' : r.InRange left right)
    (h : Equivalence.equivalence left leftRow right rightRow suffixes r = true) :
    (∃ w w', left.Mem w ∧ right.Mem w' ∧ r.Relates w w') ∧
      ∀ s ∈ suffixes, ∀ x y, Comparable left right s r x y → f x = f y :=
  Equivalence.equivalence_sound hl hr hs hL hR hr' h

/-- C62: in particular, `f` agrees on all continuations of related words of the two prefixes by a word of a
suffix. -/
theorem C62_equivalence_continuations (f : TimedWord → Bool) (left right : ElementaryLanguage)
    (r : RenamingRelation) (suffixes : List ElementaryLanguage) (leftRow rightRow : List TimedConditionSet)
    (hl : left.Proper) (hr : right.Proper) (hs : ∀ s ∈ suffixes, s.Proper)
    (hL : IsRow f left suffixes leftRow) (hR : IsRow f right suffixes rightRow) (hr' : r.InRange left right)
    (h : Equivalence.equivalence left leftRow right rightRow suffixes r = true)
    (w w' : TimedWord) (hw : left.Mem w) (hw' : right.Mem w') (hrel : r.Relates w w')
    (s : ElementaryLanguage) (hsm : s ∈ suffixes) (u : TimedWord) (hu : s.Mem u) :
    f (w.append u) = f (w'.append u) := by
  refine (C62_equivalence_sound f left right r suffixes leftRow rightRow hl hr hs hL hR hr' h).2 s hsm _ _ ?_
  rw [Equivalence.comparable_iff hl hr (hs s hsm)]
  exact Equivalence.pair_of_append hl hr (hs s hsm) ((Equivalence.inRange_iff hl hr).1 hr') hw hw' hu hrel

/-- C62: conversely, if the cells of the rows have at most one condition each and `f` agrees on all pairs of
words that the renaming identifies, then `equivalence` accepts it.  (With several conditions per cell the
two sides may be split differently, and the comparison may fail.) -/
theorem C62_equivalence_complete (f : TimedWord → Bool) (left right : ElementaryLanguage) (r : RenamingRelation)
    (suffixes : List ElementaryLanguage) (leftRow rightRow : List TimedConditionSet)
    (hl : left.Proper) (hr : right.Proper) (hs : ∀ s ∈ suffixes, s.Proper)
    (hL : IsRow f left suffixes leftRow) (hR : IsRow f right suffixes rightRow) (hr' : r.InRange left right)
    (n1 : ∀ c ∈ leftRow, c.length ≤ 1) (n2 : ∀ c ∈ rightRow, c.length ≤ 1)
    (h1 : ∃ w w', left.Mem w ∧ right.Mem w' ∧ r.Relates w w')
    (h2 : ∀ s ∈ suffixes, ∀ x y, Comparable left right s r x y → f x = f y) :
    Equivalence.equivalence left leftRow right rightRow suffixes r = true :=
  Equivalence.equivalence_complete hl hr hs hL hR hr' n1 n2 h1 h2

/-- C62: the version with precomputed juxtapositions gives the same answer. -/
theorem C62_precomputed (left right : ElementaryLanguage) (r : RenamingRelation)
    (suffixes : List ElementaryLanguage) (leftRow rightRow : List TimedConditionSet)
    (hl : left.Proper) (hr : right.Proper) (hr' : r.InRange left right)
    (hL : leftRow.length = suffixes.length) :
    Equivalence.equivalenceJux (make left.cond.zone right.cond.zone)
      ((List.range leftRow.length).map fun i => JuxtaposedZoneSet.makeRight (leftRow.getD i [])
        ((suffixes.map fun s => (right.append s).cond).getD i .empty) (suffixes.getD i .empty).word.length)
      ((List.range leftRow.length).map fun i => JuxtaposedZoneSet.makeLeft
        ((suffixes.map fun s => (left.append s).cond).getD i .empty) (rightRow.getD i [])
        (suffixes.getD i .empty).word.length) r =
    Equivalence.equivalence left leftRow right rightRow suffixes r :=
  Equivalence.equivalenceJux_eq hl hr hr' hL

/-- C62 with C41: the answers of symbolic queries are cells. -/
theorem C62_query_cell {σ : Type} (ask : σ → TimedWord → σ × Bool) (f : TimedWord → Bool)
    (near : ElementaryLanguage → Bool) (s : σ) (hf : ∀ s w, (ask s w).2 = f w) (e : ElementaryLanguage)
    (he : e.Queryable) (hr : e.Regional f) :
    ∃ o r, SymOracle.query ask near (.start s) e = some (o, r) ∧ IsCell f e r := by
  obtain ⟨o, r, h1, _, h2, h3, h4, -⟩ := SymOracle.query_spec ask f (fun _ => True) (fun s w _ => hf s w) near
    (.start s) ⟨by simp [SymOracle.start, MemCache.start], by simp [SymOracle.start]⟩ e he (fun _ _ => trivial) hr
  refine ⟨o, r, h1, h2, h3, fun c hc => ⟨(h4 c hc).can, ?_⟩⟩
  have hw : e.word.length + 1 = e.cond.size := he.wf
  have hd := (h4 c hc).dim
  unfold TimedCondition.size
  unfold TimedCondition.size at hw
  omega

/-- C62 with C41 and C25: for a prefix that is a reachable region and suffixes that are regions of words, with
observable actions, the cells asked for are queryable, so the oracle fills the row (`C41_query_exact`), and the
prefix and suffixes are as `C62_equivalence_sound` asks. -/
theorem C62_rows_queryable {L : ForwardRegional} (h : L.Reach) (ho : ∀ a ∈ L.word, a ≠ unobservable)
    (w : TimedWord) (hw : w.WF) (hwo : w.Observable) :
    L.toElementaryLanguage.Proper ∧ (BackwardRegional.fromTimedWord w).toElementaryLanguage.Proper ∧
      (L.toElementaryLanguage.append (BackwardRegional.fromTimedWord w).toElementaryLanguage).Queryable :=
  have h1 := h.queryable ho
  have h2 := ofAccumulated_queryable w hw hwo
  ⟨h1.proper, h2.proper, ElementaryLanguage.append_queryable h1 h2⟩

/-! ### A concrete case -/

/-- `τ₀ ∈ (0,1)` without action. -/
def eqL : ForwardRegional := .successor .init
/-- `τ₀ = 0`, then `a`, then `τ₁ ∈ (0,1)`. -/
def eqR : ForwardRegional := (ForwardRegional.init.successorAction 97).successor
/-- No delay, and the delay 1. -/
def eqS : List ElementaryLanguage :=
  [(BackwardRegional.fromTimedWord ⟨[], [0]⟩).toElementaryLanguage,
    (BackwardRegional.fromTimedWord ⟨[], [1]⟩).toElementaryLanguage]
/-- The words shorter than one time unit. -/
def eqF : TimedWord → Bool := fun w => decide (w.durations.sum < 1)

theorem isCell_all {f : TimedWord → Bool} {e : ElementaryLanguage} (hc : e.cond.Canonical)
    (h : ∀ w, e.Mem w → f w = true) : IsCell f e [e.cond] := by
  refine ⟨fun w hw => ?_, by simp, by simpa using hc⟩
  simp only [TimedConditionSet.Holds, List.mem_singleton, exists_eq_left]
  exact ⟨fun hh => ⟨⟨hw, hh⟩, h w ⟨hw, hh⟩⟩, fun hh => hh.1.2⟩

theorem isCell_none {f : TimedWord → Bool} {e : ElementaryLanguage} (h : ∀ w, e.Mem w → f w = false) :
    IsCell f e [] := by
  refine ⟨fun w hw => ?_, by simp, by simp⟩
  simp only [TimedConditionSet.Holds, List.not_mem_nil, false_and, exists_false, false_iff, not_and]
  intro hm; simp [h w hm]

theorem sum_bounds {e : ElementaryLanguage} {n : ℕ} (hn : e.cond.size = n + 1) {w : TimedWord} (h : e.Mem w) :
    Bound.Sat w.durations.sum (e.cond.upper 0 n) ∧ Bound.Sat (-w.durations.sum) (e.cond.lower 0 n) := by
  obtain ⟨_, h1, h2⟩ := h
  have := h2 0 n (by omega) (by omega)
  have e : T w.durations 0 n = w.durations.sum := by
    unfold T
    rw [List.drop_zero, List.take_of_length_le (by omega)]
  rwa [e] at this

theorem eq_proper : eqL.toElementaryLanguage.Proper ∧ eqR.toElementaryLanguage.Proper ∧ ∀ s ∈ eqS, s.Proper := by
  have hL : eqL.Reach := .time .init
  have hR : eqR.Reach := .time (.action 97 .init)
  refine ⟨⟨(C25_reachable hL).1, (C25_reachable hL).2.2.1⟩, ⟨(C25_reachable hR).1, (C25_reachable hR).2.2.1⟩, ?_⟩
  intro s hs
  simp only [eqS, List.mem_cons, List.not_mem_nil, or_false] at hs
  rcases hs with rfl | rfl
  · exact (ofAccumulated_queryable ⟨[], [0]⟩ rfl (by intro a ha; simp at ha)).proper
  · exact (ofAccumulated_queryable ⟨[], [1]⟩ rfl (by intro a ha; simp at ha)).proper

def eqRow (e : ElementaryLanguage) : List TimedConditionSet := [[(e.append (eqS.getD 0 .empty)).cond], []]

set_option maxRecDepth 100000 in
theorem eq_row (e : ElementaryLanguage) (n : ℕ) (he : e.Proper)
    (h1 : (e.append (eqS.getD 0 .empty)).cond.size = n + 1)
    (h2 : (e.append (eqS.getD 0 .empty)).cond.upper 0 n = .fin 1 false)
    (h3 : (e.append (eqS.getD 1 .empty)).cond.size = n + 1)
    (h4 : (e.append (eqS.getD 1 .empty)).cond.lower 0 n = .fin (-1) false) : IsRow eqF e eqS (eqRow e) := by
  refine ⟨rfl, fun i hi => ?_⟩
  have : i = 0 ∨ i = 1 := by
    have : i < 2 := hi
    omega
  rcases this with rfl | rfl
  · refine isCell_all (Equivalence.append_proper he (eq_proper.2.2 _ (by simp [eqS]))).canonical ?_
    intro w hw
    have := (sum_bounds h1 hw).1
    rw [h2] at this
    simpa [eqF] using this
  · refine isCell_none ?_
    intro w hw
    have := (sum_bounds h3 hw).2
    rw [h4] at this
    simp only [eqF, decide_eq_false_iff_not, not_lt]
    simp at this
    linarith

/-- The hypotheses of `C62_equivalence_sound` for a renaming of the clocks of the two regions. -/
example : IsRow eqF eqL.toElementaryLanguage eqS (eqRow eqL.toElementaryLanguage) ∧
    IsRow eqF eqR.toElementaryLanguage eqS (eqRow eqR.toElementaryLanguage) ∧
    RenamingRelation.InRange [(0, 1)] eqL.toElementaryLanguage eqR.toElementaryLanguage ∧
    Equivalence.equivalence eqL.toElementaryLanguage (eqRow eqL.toElementaryLanguage) eqR.toElementaryLanguage
      (eqRow eqR.toElementaryLanguage) eqS [(0, 1)] = true := by
  refine ⟨eq_row _ 0 eq_proper.1 ?_ ?_ ?_ ?_, eq_row _ 1 eq_proper.2.1 ?_ ?_ ?_ ?_, ?_, ?_⟩
  all_goals (try decide +kernel)
  intro p hp
  simp only [List.mem_singleton] at hp
  subst hp; decide +kernel

/-- A renaming that no words of the two regions satisfy: the second clock of `(a, τ₀ = 0, τ₁ = 0)`. -/
example : Equivalence.equivalence eqL.toElementaryLanguage (eqRow eqL.toElementaryLanguage)
    (ForwardRegional.init.successorAction 97).toElementaryLanguage
    (eqRow (ForwardRegional.init.successorAction 97).toElementaryLanguage) eqS [(0, 1)] = false := by
  decide +kernel

/-- A suffix without action whose delay is in (0,1). -/
def splitS : ElementaryLanguage := (BackwardRegional.fromTimedWord ⟨[], [1 / 2]⟩).toElementaryLanguage
/-- The condition of the region of a word with one delay. -/
def splitC (d : ℚ) : TimedCondition := (BackwardRegional.fromTimedWord ⟨[], [d]⟩).toElementaryLanguage.cond

theorem splitC_holds {c : TimedCondition} (h : c.size = 1) (d : List ℚ) : c.Holds d ↔
    d.length = 1 ∧ Bound.Sat d.sum (c.upper 0 0) ∧ Bound.Sat (-d.sum) (c.lower 0 0) := by
  constructor
  · rintro ⟨h1, h2⟩
    refine ⟨by omega, ?_⟩
    have := h2 0 0 (by omega) (by omega)
    have e : TimedCondition.T d 0 0 = d.sum := by
      unfold TimedCondition.T; rw [List.drop_zero, List.take_of_length_le (by omega)]
    rwa [e] at this
  · rintro ⟨h1, h2⟩
    refine ⟨by omega, ?_⟩
    intro i j hi hj
    have : i = 0 := by omega
    have : j = 0 := by omega
    subst_vars
    have e : TimedCondition.T d 0 0 = d.sum := by
      unfold TimedCondition.T; rw [List.drop_zero, List.take_of_length_le (by omega)]
    rwa [e]

set_option maxRecDepth 100000 in
/-- C62 (limit): with several conditions in a cell the test is not complete.  Both prefixes are the same region and nothing is
told apart, but one cell has been split into three conditions and the other one has not. -/
theorem C62_split_witness :
    let left := eqL.toElementaryLanguage
    let f : TimedWord → Bool := fun _ => true
    let leftRow : List TimedConditionSet := [[splitC (1 / 2), splitC 1, splitC (3 / 2)]]
    let rightRow : List TimedConditionSet := [[(left.append splitS).cond]]
    IsRow f left [splitS] leftRow ∧ IsRow f left [splitS] rightRow ∧
      (∀ x y : TimedWord, f x = f y) ∧ (∃ w, left.Mem w) ∧
      Equivalence.equivalence left leftRow left rightRow [splitS] [] = false := by
  intro left f leftRow rightRow
  have hp : splitS.Proper := (ofAccumulated_queryable ⟨[], [1 / 2]⟩ rfl (by intro a ha; simp at ha)).proper
  have hcan : ∀ d : ℚ, (splitC d).Canonical := fun d =>
    (ofAccumulated_queryable ⟨[], [d]⟩ rfl (by intro a ha; simp at ha)).proper.canonical
  have e0 : (left.append splitS).cond.size = 1 := by decide +kernel
  have e1 : (splitC (1 / 2)).size = 1 := by decide +kernel
  have e2 : (splitC 1).size = 1 := by decide +kernel
  have e3 : (splitC (3 / 2)).size = 1 := by decide +kernel
  have u0 : (left.append splitS).cond.upper 0 0 = .fin 2 false := by decide +kernel
  have l0 : (left.append splitS).cond.lower 0 0 = .fin 0 false := by decide +kernel
  have u1 : (splitC (1 / 2)).upper 0 0 = .fin 1 false := by decide +kernel
  have l1 : (splitC (1 / 2)).lower 0 0 = .fin 0 false := by decide +kernel
  have u2 : (splitC 1).upper 0 0 = .fin 1 true := by decide +kernel
  have l2 : (splitC 1).lower 0 0 = .fin (-1) true := by decide +kernel
  have u3 : (splitC (3 / 2)).upper 0 0 = .fin 2 false := by decide +kernel
  have l3 : (splitC (3 / 2)).lower 0 0 = .fin (-1) false := by decide +kernel
  have h0 : ∀ d, (left.append splitS).cond.Holds d ↔ d.length = 1 ∧ d.sum < 2 ∧ 0 < d.sum := fun d => by
    rw [splitC_holds e0, u0, l0]; simp
  have h1 : ∀ d, (splitC (1 / 2)).Holds d ↔ d.length = 1 ∧ d.sum < 1 ∧ 0 < d.sum := fun d => by
    rw [splitC_holds e1, u1, l1]; simp
  have h2 : ∀ d, (splitC 1).Holds d ↔ d.length = 1 ∧ d.sum ≤ 1 ∧ 1 ≤ d.sum := fun d => by
    rw [splitC_holds e2, u2, l2]; simp
  have h3 : ∀ d, (splitC (3 / 2)).Holds d ↔ d.length = 1 ∧ d.sum < 2 ∧ 1 < d.sum := fun d => by
    rw [splitC_holds e3, u3, l3]; simp
  refine ⟨⟨rfl, ?_⟩, ⟨rfl, ?_⟩, fun _ _ => rfl, ?_, by decide +kernel⟩
  · intro i hi
    have : i = 0 := by simpa using hi
    subst this
    refine ⟨fun w hw => ?_, ?_, ?_⟩
    · have hm : (left.append splitS).Mem w ↔ (left.append splitS).cond.Holds w.durations := ⟨fun h => h.2, fun h => ⟨hw, h⟩⟩
      change (∃ c ∈ [splitC (1 / 2), splitC 1, splitC (3 / 2)], c.Holds w.durations) ↔ (left.append splitS).Mem w ∧ true = true
      rw [hm, h0]
      simp only [List.mem_cons, List.not_mem_nil, or_false, exists_eq_or_imp, exists_eq_left, h1, h2, h3, and_true]
      constructor
      · rintro (⟨a, b, c⟩ | ⟨a, b, c⟩ | ⟨a, b, c⟩) <;> exact ⟨a, by linarith, by linarith⟩
      · rintro ⟨a, b, c⟩
        rcases lt_trichotomy w.durations.sum 1 with h | h | h
        · exact .inl ⟨a, h, c⟩
        · exact .inr (.inl ⟨a, h.le, h.ge⟩)
        · exact .inr (.inr ⟨a, b, h⟩)
    · change [splitC (1 / 2), splitC 1, splitC (3 / 2)].Pairwise _
      simp only [List.pairwise_cons, List.mem_cons, List.not_mem_nil, or_false, forall_eq_or_imp, forall_eq, h1, h2, h3]
      refine ⟨⟨?_, ?_⟩, ?_, by simp⟩ <;> (rintro d ⟨⟨_, a, b⟩, _, c, e⟩; linarith)
    · change ∀ c ∈ [splitC (1 / 2), splitC 1, splitC (3 / 2)], c.Canonical ∧ c.size = (left.append splitS).cond.size
      simp only [List.mem_cons, List.not_mem_nil, or_false, forall_eq_or_imp, forall_eq]
      exact ⟨⟨hcan _, by rw [e0, e1]⟩, ⟨hcan _, by rw [e0, e2]⟩, hcan _, by rw [e0, e3]⟩
  · intro i hi
    have : i = 0 := by simpa using hi
    subst this
    exact isCell_all (Equivalence.append_proper eq_proper.1 hp).canonical fun _ _ => rfl
  · exact (C25_reachable (.time .init : eqL.Reach)).2.2.2.1

end LearnTA.Props
