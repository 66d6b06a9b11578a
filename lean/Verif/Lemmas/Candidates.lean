import Verif.Lemmas.CandidateGraph
import Verif.Lemmas.RenamingReset

/-!
# Lemmas on the search for a deterministic renaming
-/

namespace LearnTA
open Bound Zone TimedCondition

namespace RenamingRelation

/-! ### `addImplicitConstraints` -/

theorem rightLe_total (p q : ℕ × ℕ) : rightLe p q = true ∨ rightLe q p = true := by
  unfold rightLe
  simp only [Bool.or_eq_true, decide_eq_true_eq, Bool.and_eq_true, beq_iff_eq]
  omega

theorem rightLe_trans {p q s : ℕ × ℕ} (h1 : rightLe p q = true) (h2 : rightLe q s = true) : rightLe p s = true := by
  unfold rightLe at *
  simp only [Bool.or_eq_true, decide_eq_true_eq, Bool.and_eq_true, beq_iff_eq] at *
  omega

theorem pairwise_rightLe (l : List (ℕ × ℕ)) :
    (l.insertionSort fun p q => rightLe p q = true).Pairwise fun p q => p.2 ≤ q.2 := by
  haveI : Std.Total fun p q : ℕ × ℕ => rightLe p q = true := ⟨rightLe_total⟩
  haveI : IsTrans (ℕ × ℕ) fun p q => rightLe p q = true := ⟨fun _ _ _ => rightLe_trans⟩
  refine (List.pairwise_insertionSort (fun p q => rightLe p q = true) l).imp ?_
  intro p q h
  unfold rightLe at h
  simp only [Bool.or_eq_true, decide_eq_true_eq, Bool.and_eq_true, beq_iff_eq] at h
  omega

theorem addImplicit_mem {r : RenamingRelation} {j : JuxtaposedZone} {p : ℕ × ℕ}
    (h : p ∈ r.addImplicitConstraints j) : p ∈ r ∨ p ∈ (j.addRenaming r).makeRenaming := by
  unfold addImplicitConstraints at h
  exact List.mem_append.1 ((List.mem_insertionSort _).1 ((uniqueBy_sublist _ _).subset h))

theorem addImplicit_unique (r : RenamingRelation) (j : JuxtaposedZone) :
    ((r.addImplicitConstraints j).map (·.2)).Nodup := by
  rw [← rightUnique_iff]
  unfold addImplicitConstraints RightUnique
  exact (uniqueBy_key (fun p : ℕ × ℕ => p.2) _ (pairwise_rightLe _)).1.imp fun h => ne_of_lt h

theorem addImplicit_covers (r : RenamingRelation) (j : JuxtaposedZone) {p : ℕ × ℕ}
    (h : p ∈ r ∨ p ∈ (j.addRenaming r).makeRenaming) : ∃ q ∈ r.addImplicitConstraints j, q.2 = p.2 := by
  unfold addImplicitConstraints
  refine (uniqueBy_key (fun p : ℕ × ℕ => p.2) _ (pairwise_rightLe _)).2 p ?_
  rw [List.mem_insertionSort]
  exact List.mem_append.2 h

end RenamingRelation

namespace Equivalence
open RenamingRelation

/-- The right variable is not skipped. -/
def active (right : TimedCondition) (graph : List (List ℕ)) (j : ℕ) : Prop :=
  graph.getD j [] ≠ [] ∧ Zone.secondOf (right.upper j (right.size - 1)) = false

/-- What holds of every candidate made from the right variables below `k`. -/
structure Good (left right : TimedCondition) (k : ℕ) (c : RenamingRelation) : Prop where
  range : ∀ p ∈ c, p.1 < left.size ∧ p.2 < k ∧ Zone.secondOf (right.upper p.2 (right.size - 1)) = false
  sorted : c.Pairwise fun p q => p.2 < q.2

variable {left right : TimedCondition} {lc rc : List ℕ} {graph : List (List ℕ)}

theorem Good.push {k : ℕ} {c : RenamingRelation} (h : Good left right k c) {i : ℕ} (hi : i < left.size)
    (hk : Zone.secondOf (right.upper k (right.size - 1)) = false) : Good left right (k + 1) (c ++ [(i, k)]) := by
  constructor
  · intro p hp
    rcases List.mem_append.1 hp with hp | hp
    · have := h.range p hp; exact ⟨this.1, by omega, this.2.2⟩
    · simp only [List.mem_singleton] at hp; subst hp; exact ⟨hi, by simp, hk⟩
  · rw [List.pairwise_append]
    refine ⟨h.sorted, by simp, ?_⟩
    intro p hp q hq
    simp only [List.mem_singleton] at hq; subst hq
    exact (h.range p hp).2.1

theorem extendCandidate_good {k : ℕ} {c : RenamingRelation} (h : Good left right k c) {edges : List ℕ}
    (he : ∀ i ∈ edges, i < left.size) (hk : Zone.secondOf (right.upper k (right.size - 1)) = false)
    (hne : 0 < k → right.upper (k - 1) (k - 1) = .fin 0 true → c ≠ []) :
    ∃ ds, extendCandidate left right lc rc edges k c = some ds ∧
      ∀ d ∈ ds, Good left right (k + 1) d ∧ d ≠ [] := by
  unfold extendCandidate
  split
  · rename_i h0
    have := hne h0.1 h0.2
    obtain ⟨p, hp⟩ : ∃ p, c.getLast? = some p := by
      cases e : c.getLast? with
      | none => rw [List.getLast?_eq_none_iff] at e; exact absurd e this
      | some p => exact ⟨p, rfl⟩
    rw [hp]
    refine ⟨_, rfl, ?_⟩
    intro d hd
    simp only [List.mem_singleton] at hd
    subst hd
    refine ⟨h.push (h.range p ?_).1 hk, by simp⟩
    exact List.mem_of_getLast? hp
  · refine ⟨_, rfl, ?_⟩
    intro d hd
    rw [List.mem_map] at hd
    obtain ⟨i, hi, rfl⟩ := hd
    exact ⟨h.push (he i (List.mem_filter.1 hi).1) hk, by simp⟩

theorem mapM_some {α β : Type} {g : α → Option β} {P : α → Prop} {Q : β → Prop} (l : List α)
    (hl : ∀ x ∈ l, P x) (h : ∀ x, P x → ∃ y, g x = some y ∧ Q y) : ∃ ys, l.mapM g = some ys ∧ ∀ y ∈ ys, Q y := by
  induction l with
  | nil => exact ⟨[], rfl, by simp⟩
  | cons a l ih =>
    obtain ⟨ys, h1, h2⟩ := ih fun x hx => hl x (by simp [hx])
    obtain ⟨y, g1, g2⟩ := h a (hl a (by simp))
    refine ⟨y :: ys, by simp [List.mapM_cons, g1, h1], ?_⟩
    intro z hz
    rcases List.mem_cons.1 hz with rfl | hz
    · exact g2
    · exact h2 z hz

theorem candidateFold (hg : ∀ j, ∀ i ∈ graph.getD j [], i < left.size)
    (hz : ∀ j, j + 1 < right.size → right.upper j j = .fin 0 true → active right graph (j + 1) →
      active right graph j) (k : ℕ) (hk : k ≤ right.size) :
    ∃ cs, (List.range k).foldlM (candidateStep left right lc rc graph) [[]] = some cs ∧
      ∀ c ∈ cs, Good left right k c ∧ (∀ j, j + 1 = k → active right graph j → c ≠ []) := by
  induction k with
  | zero =>
    refine ⟨[[]], rfl, ?_⟩
    intro c hc
    simp only [List.mem_singleton] at hc
    subst hc
    exact ⟨⟨by simp, by simp⟩, by simp⟩
  | succ k ih =>
    obtain ⟨cs, h1, h2⟩ := ih (by omega)
    have hfold : (List.range (k + 1)).foldlM (candidateStep left right lc rc graph) [[]] =
        candidateStep left right lc rc graph cs k := by
      rw [List.range_succ, List.foldlM_append, h1]
      simp
    rw [hfold]
    unfold candidateStep
    split
    · rename_i hskip
      refine ⟨cs, rfl, ?_⟩
      intro c hc
      obtain ⟨g1, g2⟩ := h2 c hc
      refine ⟨⟨fun p hp => ?_, g1.sorted⟩, ?_⟩
      · have := g1.range p hp; exact ⟨this.1, by omega, this.2.2⟩
      · intro j hj ha
        have : j = k := by omega
        subst this
        simp only [Bool.or_eq_true, List.isEmpty_iff] at hskip
        rcases hskip with h | h
        · exact absurd h ha.1
        · rw [ha.2] at h; simp at h
    · rename_i hskip
      simp only [Bool.or_eq_true, List.isEmpty_iff, not_or, Bool.not_eq_true] at hskip
      have hact : active right graph k := hskip
      obtain ⟨ys, e1, e2⟩ := mapM_some (g := extendCandidate left right lc rc (graph.getD k []) k)
        (Q := fun ds => ∀ d ∈ ds, Good left right (k + 1) d ∧ d ≠ []) cs h2 (by
          rintro c ⟨g1, g2⟩
          refine extendCandidate_good g1 (hg k) hact.2 ?_
          intro h0 hu
          obtain ⟨j, rfl⟩ : ∃ j, k = j + 1 := ⟨k - 1, by omega⟩
          exact g2 j rfl (hz j (by omega) (by simpa using hu) hact))
      rw [e1]
      refine ⟨ys.flatten, rfl, ?_⟩
      intro c hc
      obtain ⟨ds, hds, hc⟩ := List.mem_flatten.1 hc
      have := e2 ds hds c hc
      exact ⟨this.1, fun _ _ _ => this.2⟩

theorem candidates_good {g1 : List (List ℕ)} (hg : ∀ j, ∀ i ∈ graph.getD j [], i < left.size)
    (hz : ∀ j, j + 1 < right.size → right.upper j j = .fin 0 true → active right graph (j + 1) →
      active right graph j) :
    ∃ cs, generateDeterministicCandidates left right lc rc (g1, graph) = some cs ∧
      ∀ c ∈ cs, Good left right right.size c ∧ hasImpreciseClocks c right = false := by
  obtain ⟨cs, h1, h2⟩ := candidateFold (lc := lc) (rc := rc) hg hz right.size le_rfl
  refine ⟨_, by unfold generateDeterministicCandidates; rw [h1]; rfl, ?_⟩
  intro c hc
  have hc := (uniqueBy_sublist _ _).subset hc
  rw [List.mem_insertionSort, List.mem_filter] at hc
  refine ⟨?_, by simpa using hc.2⟩
  rcases List.mem_append.1 hc.1 with h | h
  · exact (h2 c h).1
  · simp only [List.mem_singleton] at h; subst h; exact ⟨by simp, by simp⟩

theorem Good.full {c : RenamingRelation} (h : Good left right right.size c) (hi : hasImpreciseClocks c right = false)
    (hne : c ≠ []) : ∀ x < right.size, right.pointAt x = true ∨ ∃ p ∈ c, p.2 = x := by
  have hc : c.isEmpty = false := by simpa using hne
  have ho : onlyTrivial c right = false := by
    unfold onlyTrivial
    obtain ⟨p, hp⟩ := List.exists_mem_of_ne_nil c hne
    rw [List.all_eq_false]
    refine ⟨p, hp, ?_⟩
    have := (h.range p hp).2.2
    unfold pointAt
    intro hpt
    cases hu : right.upper p.2 (right.size - 1) with
    | inf => rw [hu] at hpt; simp [Bound.isPoint] at hpt
    | fin u us =>
      rw [hu] at this hpt
      simp only [secondOf] at this
      subst this
      cases hl : right.lower p.2 (right.size - 1) <;> rw [hl] at hpt <;> simp [Bound.isPoint] at hpt
  unfold hasImpreciseClocks at hi
  rw [hc, ho] at hi
  have : RenamingRelation.full c right = true := by simpa using hi
  exact (full_iff c right fun p hp => (h.range p hp).2.1).1 this

/-! ### The search -/

theorem mem_of_zone {e : ElementaryLanguage} (he : e.Proper) {v : Valuation} (h : e.cond.zone.Mem v) :
    e.Mem ⟨e.word, delays v e.cond.size⟩ :=
  ⟨rfl, (holds_iff_mem _ he.canonical.1 he.canonical.diagNN _).2 ⟨by simp, mem_delays h⟩⟩

theorem zone_of_mem {e : ElementaryLanguage} (he : e.Proper) {w : TimedWord} (h : e.Mem w) :
    w.durations.length = e.cond.size ∧ e.cond.zone.Mem w.clocks :=
  (holds_iff_mem _ he.canonical.1 he.canonical.diagNN _).1 h.2

theorem clocks_delays {e : ElementaryLanguage} (v : Valuation) {x : ℕ} (hx : x < e.cond.size) :
    TimedWord.clocks ⟨e.word, delays v e.cond.size⟩ x = v x := accV_delays v _ hx

variable {L R : ElementaryLanguage}

theorem upper_antitone (he : L.Proper) (hs : L.cond.Simple) (hn : L.Nonneg) (i : ℕ) (hi : i + 1 < L.cond.size) :
    L.cond.upper (i + 1) (L.cond.size - 1) ≤ L.cond.upper i (L.cond.size - 1) := by
  obtain ⟨v, hv⟩ := he.canonical.nonempty
  have hd := hn _ (mem_of_zone he hv) ((delays v L.cond.size).getD i 0) (by
    simp only [List.getD_eq_getElem?_getD]
    rw [List.getElem?_eq_getElem (by simp; omega)]
    exact List.getElem_mem _)
  have hz : L.cond.size + 1 = L.cond.zone.dim := by
    have := he.canonical.1; unfold TimedCondition.size; omega
  have hge : v (i + 1) ≤ v i := by
    have : (delays v L.cond.size).getD i 0 = v i - v (i + 1) := by
      simp [delays, List.getD_eq_getElem?_getD, show i < L.cond.size by omega, hi]
    rw [this] at hd; linarith
  have hr := hs.isRegion he.canonical.1 hv
  rw [upper_eq, upper_eq, eidx_last, hr _ (by omega) _ (by omega) (by omega), hr _ (by omega) _ (by omega) (by omega)]
  simp only [ext_succ, ext_zero, sub_zero]
  refine reg_le (isInt_reg _) ?_
  have := sat_reg (v i)
  rcases cases_int (v i) with ⟨n, hn⟩ | ⟨n, h1, h2⟩
  · rw [hn, reg_int]; simp; linarith
  · rw [reg_of_between h1 h2]; simp; linarith

theorem upper_same (he : R.Proper) (hs : R.cond.Simple) (i : ℕ) (hi : i + 1 < R.cond.size)
    (h0 : R.cond.upper i i = .fin 0 true) :
    R.cond.upper i (R.cond.size - 1) = R.cond.upper (i + 1) (R.cond.size - 1) := by
  obtain ⟨v, hv⟩ := he.canonical.nonempty
  have hz : R.cond.size + 1 = R.cond.zone.dim := by
    have := he.canonical.1; unfold TimedCondition.size; omega
  have hr := hs.isRegion he.canonical.1 hv
  have e0 : R.cond.eidx i = i + 2 := by unfold eidx; rw [if_neg (by omega)]
  rw [upper_eq, e0, hr _ (by omega) _ (by omega) (by omega)] at h0
  simp only [ext_succ] at h0
  have : v i = v (i + 1) := by
    rcases cases_int (v i - v (i + 1)) with ⟨n, hn⟩ | ⟨n, h1, h2⟩
    · rw [hn, reg_int] at h0
      simp only [Bound.fin.injEq, and_true] at h0
      linarith
    · rw [reg_of_between h1 h2] at h0; simp at h0
  rw [upper_eq, upper_eq, eidx_last, hr _ (by omega) _ (by omega) (by omega), hr _ (by omega) _ (by omega) (by omega)]
  simp only [ext_succ, ext_zero, this]

theorem graph_ok (hl : L.Proper) (hls : L.cond.Simple) (hln : L.Nonneg) (hr : R.Proper) (hrs : R.cond.Simple)
    (hrn : R.Nonneg) :
    (∀ j, ∀ i ∈ (toGraph L.cond R.cond).2.getD j [], i < L.cond.size) ∧
    (∀ j, j + 1 < R.cond.size → R.cond.upper j j = .fin 0 true → active R.cond (toGraph L.cond R.cond).2 (j + 1) →
      active R.cond (toGraph L.cond R.cond).2 j) := by
  have hg := (toGraph_spec (upper_antitone hl hls hln) (upper_antitone hr hrs hrn)).1
  constructor
  · intro j i hi
    by_cases hj : j < R.cond.size
    · exact (((hg j hj).2 i).1 hi).1
    · have : (toGraph L.cond R.cond).2.getD j [] = [] := by
        unfold toGraph
        simp [List.getD_eq_getElem?_getD, hj]
      rw [this] at hi; simp at hi
  · rintro j hj h0 ⟨h1, h2⟩
    have hsame := upper_same hr hrs j hj h0
    refine ⟨?_, by rw [hsame]; exact h2⟩
    obtain ⟨i, hi⟩ := List.exists_mem_of_ne_nil _ h1
    have := ((hg (j + 1) hj).2 i).1 hi
    have : i ∈ (toGraph L.cond R.cond).2.getD j [] := ((hg j (by omega)).2 i).2 ⟨this.1, by rw [this.2, hsame]⟩
    exact List.ne_nil_of_mem this

theorem mem_makeRenaming_range {j : JuxtaposedZone} {r : RenamingRelation} {p : ℕ × ℕ}
    (h : p ∈ (j.addRenaming r).makeRenaming) : p.1 < j.leftSize ∧ p.2 < j.rightSize := by
  rw [JuxtaposedZone.mem_makeRenaming] at h
  exact ⟨h.1, h.2.1⟩

/-- A renaming found is in range, right-unique, accepted by `equivalence`, and empty or full. -/
theorem find_spec (hl : L.Proper) (hls : L.cond.Simple) (hln : L.Nonneg) (hr : R.Proper) (hrs : R.cond.Simple)
    (hrn : R.Nonneg) {ss : List ElementaryLanguage} {lrow rrow : List TimedConditionSet}
    (hlen : lrow.length = ss.length) :
    ∃ o, findDeterministicCat L lrow (ss.map fun s => L.cond.append s.cond) R rrow
        (ss.map fun s => R.cond.append s.cond) ss = some o ∧
      ∀ r, o = some r → r.InRange L R ∧ (r.map (·.2)).Nodup ∧ equivalence L lrow R rrow ss r = true ∧
        (r = [] ∨ ∀ x < R.cond.size, R.cond.pointAt x = true ∨ ∃ p ∈ r, p.2 = x) := by
  obtain ⟨g1, g2⟩ := graph_ok hl hls hln hr hrs hrn
  unfold findDeterministicCat
  split
  · exact ⟨none, rfl, by simp⟩
  split
  · rename_i he
    refine ⟨some [], rfl, ?_⟩
    intro r hr'
    simp only [Option.some.injEq] at hr'
    subst hr'
    exact ⟨by intro p hp; simp at hp, by simp, he, Or.inl rfl⟩
  · obtain ⟨cs, h1, h2⟩ := candidates_good (g1 := (toGraph L.cond R.cond).1)
      (lc := constrainedVariables lrow (ss.map fun s => L.cond.append s.cond) (L.word.length + 1))
      (rc := constrainedVariables rrow (ss.map fun s => R.cond.append s.cond) (R.word.length + 1)) g1 g2
    simp only [Prod.mk.eta] at h1
    simp only [h1, Option.map_some]
    refine ⟨_, rfl, ?_⟩
    intro r hf
    have hm := List.mem_of_find?_eq_some hf
    have hq := List.find?_some hf
    obtain ⟨c, hc, hcr⟩ := List.mem_map.1 hm
    obtain ⟨k1, k2⟩ := h2 c hc
    have hlw : L.word.length + 1 = L.cond.size := hl.wf
    have hrw : R.word.length + 1 = R.cond.size := hr.wf
    have hrange : r.InRange L R ∧ (r.map (·.2)).Nodup ∧
        (r = [] ∨ ∀ x < R.cond.size, R.cond.pointAt x = true ∨ ∃ p ∈ r, p.2 = x) := by
      by_cases hce : c.isEmpty = true
      · rw [if_pos hce] at hcr
        subst hcr
        have : c = [] := by simpa using hce
        subst this
        exact ⟨by intro p hp; simp at hp, by simp, Or.inl rfl⟩
      · rw [if_neg hce] at hcr
        subst hcr
        refine ⟨?_, addImplicit_unique _ _, Or.inr ?_⟩
        · intro p hp
          rcases addImplicit_mem hp with h | h
          · have := k1.range p h; omega
          · have := mem_makeRenaming_range h
            simp only [JuxtaposedZone.make] at this
            have e1 : L.cond.size = L.cond.zone.dim - 1 := rfl
            have e2 : R.cond.size = R.cond.zone.dim - 1 := rfl
            omega
        · intro x hx
          rcases k1.full k2 (by simpa using hce) x hx with h | ⟨p, hp, e⟩
          · exact Or.inl h
          · obtain ⟨q, hq, e'⟩ := addImplicit_covers c _ (Or.inl hp)
            exact Or.inr ⟨q, hq, by rw [e', e]⟩
    refine ⟨hrange.1, hrange.2.1, ?_, hrange.2.2⟩
    have := equivalenceJux_eq (rrow := rrow) hl hr hrange.1 hlen
    rw [← this]
    exact hq

theorem point_value {c : TimedCondition} {x : ℕ} (hx : x < c.size) (h2 : 2 ≤ c.zone.dim)
    (hpt : c.pointAt x = true) {v v' : Valuation} (h : c.zone.Mem v) (h' : c.zone.Mem v') : v x = v' x := by
  have s1 := clock_sat h2 h hx
  have s2 := clock_sat h2 h' hx
  unfold pointAt at hpt
  cases hu' : c.upper x (c.size - 1) with
  | inf => rw [hu'] at hpt; simp [Bound.isPoint] at hpt
  | fin u us =>
    cases hl' : c.lower x (c.size - 1) with
    | inf => rw [hl', hu'] at hpt; simp [Bound.isPoint] at hpt
    | fin l ls =>
      rw [hl', hu'] at hpt s1 s2
      simp [Bound.isPoint] at hpt
      obtain ⟨⟨p1, p2⟩, p3⟩ := hpt
      subst p2; subst p3
      simp at s1 s2
      linarith [s1.1, s1.2, s2.1, s2.2]

/-- Every word of the left region is related to a word of the right region, whose clocks are those after the
updates, if the relation is precise. -/
theorem reset_related (hl : L.Proper) (hls : L.cond.Simple) (hr : R.Proper) (hrs : R.cond.Simple)
    {r : RenamingRelation} (hin : r.InRange L R) (hu : (r.map (·.2)).Nodup)
    (hp : r = [] ∨ ∀ x < R.cond.size, R.cond.pointAt x = true ∨ ∃ p ∈ r, p.2 = x)
    (hex : ∃ w w', L.Mem w ∧ R.Mem w' ∧ r.Relates w w') :
    ∃ U, r.toReset R.cond = some U ∧ ∀ w, L.Mem w → ∃ w', R.Mem w' ∧ r.Relates w w' ∧
      ∀ x < R.cond.size, U.apply w.clocks x = w'.clocks x := by
  rw [inRange_iff hl hr] at hin
  have hin : ∀ p ∈ r, p.1 < L.cond.size ∧ p.2 < R.cond.size := hin
  obtain ⟨U, V, h1, h2, h3⟩ := toReset_apply hr.canonical hrs hu (fun p hp => (hin p hp).2)
  refine ⟨U, h1, ?_⟩
  intro w hw
  obtain ⟨a1, a2, a3, a4⟩ := h3 w.clocks
  have hmem : R.cond.zone.Mem (U.apply w.clocks) := by
    rcases hp with rfl | hfull
    · refine h2.congr fun i hi => ?_
      cases i with
      | zero => rfl
      | succ i =>
        simp only [ext_succ]
        exact (a3 i (by unfold TimedCondition.size; omega) (by simp)).symm
    · obtain ⟨w0, u0, b1, b2, b3⟩ := hex
      have c1 := (zone_of_mem hl b1).2
      have c2 := (zone_of_mem hr b2).2
      refine related_exists hl.canonical hls hr.canonical hrs hin hfull c1 c2 b3 (zone_of_mem hl hw).2 ?_
      intro x hx
      by_cases hpt : R.cond.pointAt x = true
      · left
        refine ⟨hpt, ?_⟩
        rw [a1 x hx hpt]
        exact point_value hx hr.canonical.1 hpt h2 c2
      · right
        rcases hfull x hx with h | ⟨p, hp, e⟩
        · exact absurd h hpt
        · refine ⟨p, hp, e, ?_⟩
          rw [← e]
          exact a2 p hp (by rw [e]; simpa using hpt)
  refine ⟨_, mem_of_zone hr hmem, ?_, fun x hx => (clocks_delays _ hx).symm⟩
  intro p hpr
  show w.clocks p.1 = TimedWord.clocks ⟨R.word, _⟩ p.2
  rw [clocks_delays _ (hin p hpr).2]
  by_cases hpt : R.cond.pointAt p.2 = true
  · rw [a1 p.2 (hin p hpr).2 hpt]
    obtain ⟨w0, u0, b1, b2, b3⟩ := hex
    have c2 := (zone_of_mem hr b2).2
    have c1 := (zone_of_mem hl b1).2
    have c0 := (zone_of_mem hl hw).2
    have e1 := (hrs.pointAt_iff hr.canonical.1 c2 (hin p hpr).2).1 hpt
    have hrel : w0.clocks p.1 = u0.clocks p.2 := b3 p hpr
    have hi1 : L.cond.pointAt p.1 = true := by
      rw [hls.pointAt_iff hl.canonical.1 c1 (hin p hpr).1, hrel]; exact e1
    have q1 := point_value (hin p hpr).1 hl.canonical.1 hi1 c0 c1
    have q2 := point_value (hin p hpr).2 hr.canonical.1 hpt h2 c2
    rw [q1, q2, hrel]
  · exact (a2 p hpr (by simpa using hpt)).symm

end Equivalence
end LearnTA

namespace LearnTA
open Bound Zone TimedCondition

theorem ForwardRegional.Reach.nonneg {L : ForwardRegional} (h : L.Reach) : L.toElementaryLanguage.Nonneg := by
  intro w hw d hd
  obtain ⟨n, v, h1, hm⟩ := h.of
  obtain ⟨_, g2, g3⟩ := (h1.mem_iff w).1 hw
  have hsat := g3.region.sat g3.diag
  have hdim := h1.dim
  obtain ⟨i, hi, rfl⟩ := List.getElem_of_mem hd
  have key : ∀ a < L.cond.zone.dim, ∀ b < L.cond.zone.dim, a ≠ b → v.ext a - v.ext b ≤ 0 →
      (accV w.durations).ext a - (accV w.durations).ext b ≤ 0 := by
    intro a ha b hb hab hle
    have e1 := h1.region a ha b hb hab
    have e2 := hsat a ha b hb
    rw [e1] at e2
    have : reg (v.ext a - v.ext b) ≤ .fin 0 true :=
      reg_le ⟨0, by simp⟩ (by simpa using hle)
    simpa using e2.mono this
  have hstep := accV_step w.durations hi
  have hget : w.durations.getD i 0 = w.durations[i] := by simp [List.getD_eq_getElem?_getD, hi]
  rw [hget] at hstep
  by_cases hlast : i + 1 < n
  · have := key (i + 2) (by omega) (i + 1) (by omega) (by omega) (by
      simp only [ext_succ]
      have := hm.1 i (i + 1) (by omega) hlast
      show v (i + 1) - v i ≤ 0
      linarith)
    simp only [ext_succ] at this
    have : accV w.durations (i + 1) - accV w.durations i ≤ 0 := this
    linarith
  · have hin : i = n - 1 := by omega
    have h0 : accV w.durations (i + 1) = 0 := accV_ge _ (by omega)
    have := key 0 (by omega) (i + 1) (by omega) (by omega) (by
      simp only [ext_succ, ext_zero]
      have := hm.2
      rw [hin]; linarith)
    simp only [ext_succ, ext_zero] at this
    linarith

end LearnTA
