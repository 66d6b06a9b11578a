import Verif.Lemmas.FindRenaming
import Verif.Props.Renaming
import Verif.Lemmas.CandidateOrder
import Verif.Lemmas.Constrained

/-!
# C74: the general search for a renaming
-/

namespace LearnTA.Props
open LearnTA

section
variable {left right : ElementaryLanguage} {suffixes : List ElementaryLanguage} {leftRow rightRow : List TimedConditionSet}

theorem graph1_range (hl : left.Proper) (hls : left.cond.Simple) (hln : left.Nonneg) (hr : right.Proper) (hrs : right.cond.Simple)
    (hrn : right.Nonneg) :
    (∀ i, ∀ j ∈ (Equivalence.toGraph left.cond right.cond).1.getD i [], j < right.cond.size) ∧
      (∀ j, ∀ i ∈ (Equivalence.toGraph left.cond right.cond).2.getD j [], i < left.cond.size) ∧
      ∀ i, (Equivalence.toGraph left.cond right.cond).1.getD i [] ≠ [] → i < left.cond.size := by
  have h := C63_graph left right hl hls hln hr hrs hrn
  have hlw : left.word.length + 1 = left.cond.size := hl.wf
  have hrw : right.word.length + 1 = right.cond.size := hr.wf
  have h1 : (Equivalence.toGraph left.cond right.cond).1.length = left.cond.size := by simp [Equivalence.toGraph]
  have h3 : ∀ i, (Equivalence.toGraph left.cond right.cond).1.getD i [] ≠ [] → i < left.cond.size := by
    intro i hi
    by_contra hc
    exact hi (List.getD_eq_default _ _ (by omega))
  refine ⟨fun i j hj => ?_, (Equivalence.graph_ok hl hls hln hr hrs hrn).1, h3⟩
  have hi := h3 i (List.ne_nil_of_mem hj)
  have := (((h.2 i (by omega)).2 j).1 hj).1
  omega

/-- What `findRenaming` found or did not find. -/
theorem findRenaming_spec (hl : left.Proper) (hls : left.cond.Simple) (hln : left.Nonneg)
    (hr : right.Proper) (hrs : right.cond.Simple) (hrn : right.Nonneg) (hlen : leftRow.length = suffixes.length) (fuel : ℕ) :
    (∀ r, Equivalence.findRenaming fuel left leftRow right rightRow suffixes = .ok (some r) →
      r.InRange left right ∧ Equivalence.equivalence left leftRow right rightRow suffixes r = true) ∧
    (Equivalence.findRenaming fuel left leftRow right rightRow suffixes = .ok none →
      leftRow.map List.isEmpty = rightRow.map List.isEmpty → ∀ r : RenamingRelation,
        (r.Pairwise fun p q => Equivalence.pairLt p q = true) →
        (∀ p ∈ r, p.1 ∈ Equivalence.constrainedVariables leftRow (suffixes.map fun s => (left.append s).cond) (left.word.length + 1) ∧
          p.2 ∈ (Equivalence.toGraph left.cond right.cond).1.getD p.1 []) →
        Equivalence.equivalence left leftRow right rightRow suffixes r = false) ∧
    ∃ F, ∀ fuel, F ≤ fuel → Equivalence.findRenaming fuel left leftRow right rightRow suffixes ≠ .error .fuel := by
  obtain ⟨g1, g2, g3⟩ := graph1_range hl hls hln hr hrs hrn
  have hlw : left.word.length + 1 = left.cond.size := hl.wf
  have hrw : right.word.length + 1 = right.cond.size := hr.wf
  by_cases he : Equivalence.equivalence left leftRow right rightRow suffixes [] = true
  · have hf : ∀ fuel, Equivalence.findRenaming fuel left leftRow right rightRow suffixes = .ok (some []) := by
      intro fuel; unfold Equivalence.findRenaming; rw [if_pos he]
    refine ⟨fun r h => ?_, fun h => ?_, 0, fun n _ h => ?_⟩
    · rw [hf] at h; cases h
      exact ⟨(by intro p hp; cases hp), he⟩
    · rw [hf] at h; cases h
    · rw [hf] at h; cases h
  by_cases hem : leftRow.map List.isEmpty = rightRow.map List.isEmpty
  swap
  · have hf : ∀ fuel, Equivalence.findRenaming fuel left leftRow right rightRow suffixes = .ok none := by
      intro fuel; unfold Equivalence.findRenaming; rw [if_neg he]; dsimp only; rw [if_pos hem]
    refine ⟨fun r h => ?_, fun _ h => absurd h hem, 0, fun n _ h => ?_⟩ <;> rw [hf] at h <;> cases h
  -- the candidates
  obtain ⟨c1, e1⟩ : ∃ c1, c1 = (Equivalence.constrainedVariables leftRow (suffixes.map fun s => (left.append s).cond)
    (left.word.length + 1)).filter fun v => !((Equivalence.toGraph left.cond right.cond).1.getD v []).isEmpty := ⟨_, rfl⟩
  obtain ⟨c2, e2⟩ : ∃ c2, c2 = (Equivalence.constrainedVariables rightRow (suffixes.map fun s => (right.append s).cond)
    (right.word.length + 1)).filter fun v => !((Equivalence.toGraph left.cond right.cond).2.getD v []).isEmpty := ⟨_, rfl⟩
  obtain ⟨cs, ecs⟩ : ∃ cs, cs = (uniqueBy (fun a b => a == b) ((Equivalence.candidateLoop (Equivalence.toGraph left.cond right.cond).1
    (Equivalence.toGraph left.cond right.cond).2 c1 c2 (c1.length + c2.length) 0 0 [[]]).insertionSort
      fun a b => Equivalence.relLe a b = true)).map fun r => if r.isEmpty then r else
        RenamingRelation.addImplicitConstraints r (JuxtaposedZone.make left.cond.zone right.cond.zone) := ⟨_, rfl⟩
  have hgood := Equivalence.candidateLoop_good (c1 := c1) (c2 := c2) g1 g2 (c1.length + c2.length) 0 0 [[]] (by simp)
    (by intro c hc p hp; rw [List.mem_singleton.1 hc] at hp; cases hp)
  have h0 : [] ∈ cs := by
    rw [ecs]
    refine List.mem_map.2 ⟨[], ?_, rfl⟩
    obtain ⟨y, hy, k⟩ := uniqueBy_cover (fun a b : RenamingRelation => a == b) _ _
      ((List.mem_insertionSort fun a b => Equivalence.relLe a b = true).2 hgood.1)
    rcases k with rfl | k
    · exact hy
    · rw [beq_iff_eq] at k; rw [k] at hy; exact hy
  have hrange : ∀ c ∈ cs, RenamingRelation.InRange c left right := by
    intro c hc p hp
    rw [ecs] at hc
    obtain ⟨d, hd, rfl⟩ := List.mem_map.1 hc
    have hd' := hgood.2 d ((List.mem_insertionSort _).1 ((uniqueBy_sublist _ _).subset hd))
    split at hp
    · have := hd' p hp; omega
    · rcases RenamingRelation.addImplicit_mem hp with h | h
      · have := hd' p h; omega
      · have := Equivalence.mem_makeRenaming_range h
        simp only [JuxtaposedZone.make] at this
        have e1 : left.cond.size = left.cond.zone.dim - 1 := rfl
        have e2 : right.cond.size = right.cond.zone.dim - 1 := rfl
        omega
  have hf : ∀ fuel, Equivalence.findRenaming fuel left leftRow right rightRow suffixes =
      match cs.find? fun r => Equivalence.equivalenceJux (JuxtaposedZone.make left.cond.zone right.cond.zone)
          ((List.range leftRow.length).map fun i => JuxtaposedZoneSet.makeRight (leftRow.getD i [])
            ((suffixes.map fun s => (right.append s).cond).getD i .empty) (suffixes.getD i .empty).word.length)
          ((List.range leftRow.length).map fun i => JuxtaposedZoneSet.makeLeft
            ((suffixes.map fun s => (left.append s).cond).getD i .empty) (rightRow.getD i [])
            (suffixes.getD i .empty).word.length) r with
      | some r => .ok (some r)
      | none => Equivalence.searchLoop (Equivalence.equivalence left leftRow right rightRow suffixes)
          (c1.flatMap fun v1 => ((Equivalence.toGraph left.cond right.cond).1.getD v1 []).map fun v2 => (v1, v2)) fuel cs := by
    intro fuel
    unfold Equivalence.findRenaming
    rw [if_neg he]
    dsimp only
    rw [if_neg (fun h => h hem), ecs, e1, e2]
    rfl
  have hedge : ∀ p : ℕ × ℕ, p ∈ (c1.flatMap fun v1 => ((Equivalence.toGraph left.cond right.cond).1.getD v1 []).map fun v2 => (v1, v2)) ↔
      p.1 ∈ c1 ∧ p.2 ∈ (Equivalence.toGraph left.cond right.cond).1.getD p.1 [] := by
    intro p
    rw [List.mem_flatMap]
    constructor
    · rintro ⟨v1, h1, h2⟩
      obtain ⟨v2, h3, rfl⟩ := List.mem_map.1 h2
      exact ⟨h1, h3⟩
    · rintro ⟨h1, h2⟩
      exact ⟨p.1, h1, List.mem_map.2 ⟨p.2, h2, rfl⟩⟩
  cases hfind : cs.find? fun r => Equivalence.equivalenceJux (JuxtaposedZone.make left.cond.zone right.cond.zone)
          ((List.range leftRow.length).map fun i => JuxtaposedZoneSet.makeRight (leftRow.getD i [])
            ((suffixes.map fun s => (right.append s).cond).getD i .empty) (suffixes.getD i .empty).word.length)
          ((List.range leftRow.length).map fun i => JuxtaposedZoneSet.makeLeft
            ((suffixes.map fun s => (left.append s).cond).getD i .empty) (rightRow.getD i [])
            (suffixes.getD i .empty).word.length) r with
  | some r0 =>
    rw [hfind] at hf
    dsimp only at hf
    refine ⟨fun r h => ?_, fun h => ?_, 0, fun n _ h => ?_⟩
    · rw [hf] at h; cases h
      have hi := hrange r0 (List.mem_of_find?_eq_some hfind)
      refine ⟨hi, ?_⟩
      have := List.find?_some hfind
      rwa [C62_precomputed left right r0 suffixes leftRow rightRow hl hr hi hlen] at this
    · rw [hf] at h; cases h
    · rw [hf] at h; cases h
  | none =>
    rw [hfind] at hf
    dsimp only at hf
    refine ⟨fun r h => ?_, fun h _ r hs hp => ?_, Equivalence.weight (c1.flatMap fun v1 =>
      ((Equivalence.toGraph left.cond right.cond).1.getD v1 []).map fun v2 => (v1, v2)) cs + 1, fun n hn h => ?_⟩
    · rw [hf] at h
      obtain ⟨k1, k2⟩ := Equivalence.searchLoop_some h
      refine ⟨?_, k1⟩
      clear h k1
      induction k2 with
      | init hc => exact hrange _ hc
      | step _ hm hi ih =>
        intro p hp
        rcases (Equivalence.insertEdge_mem hi).1 hp with hp | rfl
        · exact ih p hp
        · obtain ⟨_, k⟩ := (hedge p).1 hm
          have a1 := g1 _ _ k
          have a2 := g3 p.1 (List.ne_nil_of_mem k)
          omega
    · rw [hf] at h
      by_cases hne : r = []
      · subst hne; simpa using he
      · refine Equivalence.searchLoop_complete h h0 r hs (fun p hp' => ?_) hne
        obtain ⟨k1, k2⟩ := hp p hp'
        rw [hedge, e1]
        exact ⟨List.mem_filter.2 ⟨k1, by simpa using List.ne_nil_of_mem k2⟩, k2⟩
    · rw [hf] at h
      exact Equivalence.searchLoop_returns (Nat.lt_of_succ_le hn) h

end

/-- **C74** A renaming that `findEquivalentRenaming` returns is accepted by `equivalence`: it relates clocks of the two
languages, some words of the two languages are related, and the target language agrees on the continuations of related words
by the suffixes. -/
theorem C74_sound (f : TimedWord → Bool) (left right : ElementaryLanguage)
    (suffixes : List ElementaryLanguage) (leftRow rightRow : List TimedConditionSet)
    (hl : left.Proper) (hls : left.cond.Simple) (hln : left.Nonneg)
    (hr : right.Proper) (hrs : right.cond.Simple) (hrn : right.Nonneg) (hs : ∀ s ∈ suffixes, s.Proper)
    (hL : IsRow f left suffixes leftRow) (hR : IsRow f right suffixes rightRow) (fuel : ℕ) (r : RenamingRelation)
    (h : Equivalence.findRenaming fuel left leftRow right rightRow suffixes = .ok (some r)) :
    r.InRange left right ∧ (∃ w w', left.Mem w ∧ right.Mem w' ∧ r.Relates w w') ∧
      ∀ w w', left.Mem w → right.Mem w' → r.Relates w w' → ∀ s ∈ suffixes, ∀ u, s.Mem u →
        f (w.append u) = f (w'.append u) := by
  obtain ⟨h1, h2⟩ := (findRenaming_spec hl hls hln hr hrs hrn hL.1 fuel).1 r h
  exact ⟨h1, (C62_equivalence_sound f left right r suffixes leftRow rightRow hl hr hs hL hR h1 h2).1,
    fun w w' hw hw' hrel s hsm u hu =>
      C62_equivalence_continuations f left right r suffixes leftRow rightRow hl hr hs hL hR h1 h2 w w' hw hw' hrel s hsm u hu⟩

/-- **C74** `findEquivalentRenaming` fails only if there is no renaming of constrained clocks of the left language under which
the target language agrees on all comparable words (cells with at most one condition; the rows agree on which cells are
empty). -/
theorem C74_complete (f : TimedWord → Bool) (left right : ElementaryLanguage)
    (suffixes : List ElementaryLanguage) (leftRow rightRow : List TimedConditionSet)
    (hl : left.Proper) (hls : left.cond.Simple) (hln : left.Nonneg)
    (hr : right.Proper) (hrs : right.cond.Simple) (hrn : right.Nonneg) (hs : ∀ s ∈ suffixes, s.Proper)
    (hL : IsRow f left suffixes leftRow) (hR : IsRow f right suffixes rightRow) (fuel : ℕ)
    (n1 : ∀ c ∈ leftRow, c.length ≤ 1) (n2 : ∀ c ∈ rightRow, c.length ≤ 1)
    (he : leftRow.map List.isEmpty = rightRow.map List.isEmpty)
    (h : Equivalence.findRenaming fuel left leftRow right rightRow suffixes = .ok none) :
    ¬ ∃ r : RenamingRelation, (r.Pairwise fun p q => p.1 < q.1 ∨ p.1 = q.1 ∧ p.2 < q.2) ∧ r.InRange left right ∧
      (∀ p ∈ r, ∃ i < leftRow.length, ∃ c ∈ leftRow.getD i [],
        p.1 ∈ Equivalence.strictlyConstrained c (left.append (suffixes.getD i .empty)).cond (left.word.length + 1)) ∧
      (∃ w w', left.Mem w ∧ right.Mem w' ∧ r.Relates w w') ∧
      ∀ s ∈ suffixes, ∀ x y, Comparable left right s r x y → f x = f y := by
  rintro ⟨r, hsort, hin, hcon, hrel, hagree⟩
  have hacc := C62_equivalence_complete f left right r suffixes leftRow rightRow hl hr hs hL hR hin n1 n2 hrel hagree
  have hg := (C63_graph left right hl hls hln hr hrs hrn).2
  have := (findRenaming_spec hl hls hln hr hrs hrn hL.1 fuel).2.1 h he r
    (hsort.imp fun h => Equivalence.pairLt_iff.2 h) (fun p hp => ⟨?_, ?_⟩)
  · rw [hacc] at this; cases this
  · obtain ⟨i, hi, c, hc, hm⟩ := hcon p hp
    unfold Equivalence.constrainedVariables
    rw [(sortUnique_spec _).2, List.mem_flatMap]
    refine ⟨i, List.mem_range.2 hi, List.mem_flatMap.2 ⟨c, hc, ?_⟩⟩
    have e : (suffixes.map fun s => (left.append s).cond).getD i .empty = (left.append (suffixes.getD i .empty)).cond := by
      have hi' : i < suffixes.length := by rw [← hL.1]; exact hi
      simp [List.getD, hi']
    rw [e]; exact hm
  · obtain ⟨w, w', hw, hw', hrl⟩ := hrel
    have hr' := hin p hp
    exact ((hg p.1 (by omega)).2 p.2).2 ⟨by omega, w, w', hw, hw', hrl p hp⟩

/-- **C74** `findEquivalentRenaming` terminates (it may have undefined behaviour: `std::lower_bound` in a candidate that is not
ascending). -/
theorem C74_terminates (left right : ElementaryLanguage) (suffixes : List ElementaryLanguage)
    (leftRow rightRow : List TimedConditionSet)
    (hl : left.Proper) (hls : left.cond.Simple) (hln : left.Nonneg)
    (hr : right.Proper) (hrs : right.cond.Simple) (hrn : right.Nonneg) (hlen : leftRow.length = suffixes.length) :
    ∃ F, ∀ fuel, F ≤ fuel → Equivalence.findRenaming fuel left leftRow right rightRow suffixes ≠ .error .fuel :=
  (findRenaming_spec hl hls hln hr hrs hrn hlen 0).2.2

set_option maxRecDepth 100000 in
/-- The hypotheses are met for the regions and rows of the example of C63. -/
example : IsRow eqF eqL.toElementaryLanguage rnS (rnRow eqL.toElementaryLanguage) ∧
    IsRow eqF eqR.toElementaryLanguage rnS (rnRow eqR.toElementaryLanguage) ∧
    eqL.toElementaryLanguage.Nonneg ∧ eqL.cond.Simple ∧
    Equivalence.findRenaming 10 eqL.toElementaryLanguage (rnRow eqL.toElementaryLanguage) eqR.toElementaryLanguage
      (rnRow eqR.toElementaryLanguage) rnS = .ok (some [(0, 0), (0, 1)]) := by
  have hL : eqL.Reach := .time .init
  refine ⟨rn_row eq_proper.1 ?_, rn_row eq_proper.2.1 ?_, (C63_regions hL).2.2, (C63_regions hL).2.1, ?_⟩
  · unfold TimedCondition.Canonical; decide +kernel
  · unfold TimedCondition.Canonical; decide +kernel
  · decide +kernel

set_option maxRecDepth 100000 in
/-- A case of `C74_complete`: no clock of `τ₀ ∈ (0,1)` can be renamed to one of `τ₀ = 0`. -/
example : (rnRow eqL.toElementaryLanguage).map List.isEmpty = (rnRow ForwardRegional.init.toElementaryLanguage).map List.isEmpty ∧
    IsRow eqF ForwardRegional.init.toElementaryLanguage rnS (rnRow ForwardRegional.init.toElementaryLanguage) ∧
    Equivalence.findRenaming 10 eqL.toElementaryLanguage (rnRow eqL.toElementaryLanguage) ForwardRegional.init.toElementaryLanguage
      (rnRow ForwardRegional.init.toElementaryLanguage) rnS = .ok none := by
  refine ⟨rfl, rn_row (C63_regions .init).1 ?_, ?_⟩
  · unfold TimedCondition.Canonical; decide +kernel
  · decide +kernel

/-- **C63** The candidates are tried in the lexicographic order of their pairs, each once: of several renamings that justify
merging, the least one is taken, on every platform and with every implementation of `std::sort`. -/
theorem C63_candidates (left right : TimedCondition) (lc rc : List ℕ) (graph : List (List ℕ) × List (List ℕ))
    (cs : List RenamingRelation) (h : Equivalence.generateDeterministicCandidates left right lc rc graph = some cs) :
    cs.Pairwise (List.Lex fun p q : ℕ × ℕ => p.1 < q.1 ∨ p.1 = q.1 ∧ p.2 < q.2) :=
  Equivalence.generateDeterministicCandidates_order left right lc rc graph cs h

set_option maxRecDepth 100000 in
/-- A case of `C63_candidates` with three candidates: any of the two clocks of the left region, or none. -/
example : Equivalence.generateDeterministicCandidates ltL.cond (ForwardRegional.fromTimedWord ⟨[], [1/2]⟩).cond [0, 1] [0]
    (Equivalence.toGraph ltL.cond (ForwardRegional.fromTimedWord ⟨[], [1/2]⟩).cond) = some [[], [(0, 0)], [(1, 0)]] := by
  decide +kernel

/-- **C63**, **C74** Which clocks the search may rename: the clock `i` counts as constrained by a condition `c`, as part of a
condition `o`, exactly if one of the sums of delays that begin at the clock or end before it takes other values in `c` than in
`o`, or if the entry of the diagonal, which says nothing about delays, differs. -/
theorem C63_constrained (c o : TimedCondition) (hc : c.Canonical) (ho : o.Canonical) (hsize : c.size = o.size) (n i : ℕ)
    (hi : i < c.size) :
    i ∈ Equivalence.strictlyConstrained c o n ↔ i < n ∧
      (c.zone.val (i + 1) (i + 1) ≠ o.zone.val (i + 1) (i + 1) ∨
        ∃ a b, a ≤ b ∧ b < c.size ∧ (a = i ∨ b + 1 = i) ∧
          ¬ ∀ q, (∃ d, c.Holds d ∧ TimedCondition.T d a b = q) ↔ ∃ d, o.Holds d ∧ TimedCondition.T d a b = q) :=
  Equivalence.mem_strictlyConstrained hc ho hsize hi

/-- Two delays with sums of at most 1, the second of at most `u`. -/
def csCond (u : ℚ) : TimedCondition :=
  ⟨⟨3, fun i j => if j = 0 ∧ i ≠ 0 then .fin (if i = 2 then u else 1) true
    else if i = 1 ∧ j = 2 then .fin 1 true else .fin 0 true⟩⟩

/-- A case of `C63_constrained`: of two clocks, a bound of the last delay constrains the second one only. -/
example : (csCond (1 / 2)).Canonical ∧ (csCond 1).Canonical ∧ (csCond (1 / 2)).size = (csCond 1).size ∧
    Equivalence.strictlyConstrained (csCond (1 / 2)) (csCond 1) 2 = [1] := by
  refine ⟨?_, ?_, rfl, by decide +kernel⟩
  · unfold TimedCondition.Canonical; decide +kernel
  · unfold TimedCondition.Canonical; decide +kernel

end LearnTA.Props
