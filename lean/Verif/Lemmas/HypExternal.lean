import Verif.Lemmas.ExternalTrans
import Verif.Lemmas.RegionLine
import Verif.Lemmas.ObservationTable7
import Verif.Lemmas.Recognizable

/-!
# The transitions of a hypothesis out of `P`
-/

namespace LearnTA
open Zone TimedCondition

/-- The word followed by an action without delay. -/
def TimedWord.act (w : TimedWord) (a : Action) : TimedWord := ⟨w.word ++ [a], w.durations ++ [0]⟩

namespace ForwardRegional

theorem Reach.canonical {p : ForwardRegional} (h : p.Reach) : p.cond.Canonical := by
  obtain ⟨n, v, h1, _⟩ := h.of
  exact h1.canonical

theorem Reach.simple {p : ForwardRegional} (h : p.Reach) : p.cond.Simple := (Props.C25_reachable h).2.1

theorem Reach.csize {p : ForwardRegional} (h : p.Reach) : p.cond.size = p.word.length + 1 := by
  obtain ⟨n, v, h1, _⟩ := h.of
  rw [h1.csize, ← h1.word]

theorem Reach.proper {p : ForwardRegional} (h : p.Reach) : p.toElementaryLanguage.Proper :=
  ⟨h.csize.symm, h.canonical⟩

/-- Membership is being a point of the region. -/
theorem Reach.mem_iff {p : ForwardRegional} (h : p.Reach) (w : TimedWord) : p.toElementaryLanguage.Mem w ↔
    w.word = p.word ∧ w.durations.length = p.word.length + 1 ∧ p.Of (p.word.length + 1) w.clocks := by
  obtain ⟨n, v, h1, _⟩ := h.of
  rw [h1.mem_iff, ← h1.word]
  rfl

theorem Reach.of_zone {p : ForwardRegional} (h : p.Reach) {v : Valuation} :
    p.Of (p.word.length + 1) v ↔ p.cond.zone.Mem v := by
  obtain ⟨n, u, h1, _⟩ := h.of
  have e := h1.word
  subst e
  exact ⟨fun h => h.sat, fun h => h1.transfer h⟩

theorem Reach.nonneg_zone {p : ForwardRegional} (h : p.Reach) {v : Valuation} (hv : p.cond.zone.Mem v) :
    ∀ x < p.cond.size, 0 ≤ v x := by
  intro x hx
  have hm := Equivalence.mem_of_zone h.proper hv
  have hn := h.nonneg _ hm
  rw [← Equivalence.clocks_delays (e := p.toElementaryLanguage) v hx]
  exact SingleMorphism.list_sum_nonneg fun d hd => hn d (List.mem_of_mem_drop hd)

theorem act_clocks (w : TimedWord) (a : Action) {n : ℕ} (hn : w.durations.length = n) :
    ∀ x, (w.act a).clocks x = if x < n then w.clocks x else 0 := by
  intro x
  show accV (w.durations ++ [0]) x = _
  split
  · rw [ElementaryLanguage.accV_append _ _ (by omega)]; simp; rfl
  · rename_i hx
    by_cases e : x = n
    · rw [ElementaryLanguage.accV_append _ _ (by omega), accV_ge _ (by omega)]; simp
    · rw [accV_ge _ (by simp; omega)]

theorem Reach.act_mem {p : ForwardRegional} (h : p.Reach) (a : Action) {w : TimedWord}
    (hw : p.toElementaryLanguage.Mem w) : (p.successorAction a).toElementaryLanguage.Mem (w.act a) := by
  obtain ⟨h1, h2, h3⟩ := (h.mem_iff w).1 hw
  have h4 := h3.successorAction a
  rw [h4.mem_iff]
  refine ⟨?_, ?_, h4.congr fun i hi => ?_⟩
  · show w.word ++ [a] = p.word ++ [a]
    rw [h1]
  · simp [TimedWord.act, h2]
  · exact (act_clocks w a h2 i).symm

end ForwardRegional

namespace ObsTable
open ForwardRegional

theorem successorAction_csize {p : ForwardRegional} (h : p.Reach) (a : Action) :
    (p.successorAction a).cond.size = p.cond.size + 1 := by
  have h1 := (ForwardRegional.Reach.action a h).csize
  have h2 : (p.successorAction a).word = p.word ++ [a] := rfl
  rw [h1, h2, h.csize]
  simp

/-- The transition from a prefix of `P` whose successor is merged into another prefix of `P`. -/
theorem external_spec {f : TimedWord → Bool} {p q : ForwardRegional} {a : Action} {r : RenamingRelation}
    {ss : List ElementaryLanguage} (hp : p.Reach) (hq : q.Reach) (hst : Static (p.successorAction a) q r)
    (hm : Merges f (p.successorAction a).toElementaryLanguage q.toElementaryLanguage ss r) (q' : ℕ) :
    ∃ U : Resets, externalTransition q' (r.eraseLeft p.cond.size) p.cond q.cond = some ⟨q', U, p.cond.toGuard⟩ ∧
      U.Fine p.cond.size q.cond.size ∧ (r.eraseLeft p.cond.size).hasImpreciseClocks q.cond = false ∧
      ∀ u, p.toElementaryLanguage.Mem u → ∀ v : Valuation, (∀ x < p.cond.size, v x = u.clocks x) →
        ∃ w, q.toElementaryLanguage.Mem w ∧ r.Relates (u.act a) w ∧ ∀ x < q.cond.size, U.apply v x = w.clocks x := by
  have hps := successorAction_csize hp a
  have hin : ∀ y ∈ r, y.1 < p.cond.size + 1 ∧ y.2 < q.cond.size := by
    intro y hy
    have := hst.inRange y hy
    have h1 := (ForwardRegional.Reach.action a hp).csize
    have h2 := hq.csize
    have h3 : y.1 ≤ (p.successorAction a).word.length ∧ y.2 ≤ q.word.length := this
    omega
  have hrange : ∀ y ∈ r.eraseLeft p.cond.size, y.1 < p.cond.size ∧ y.2 < q.cond.size := by
    intro y hy
    unfold RenamingRelation.eraseLeft at hy
    rw [List.mem_filter] at hy
    have := hin y hy.1
    have h2 : y.1 ≠ p.cond.size := by simpa using hy.2
    omega
  have hsub : ∀ y ∈ r.eraseLeft p.cond.size, y ∈ r := fun y hy => List.mem_of_mem_filter hy
  obtain ⟨U0, _, hU0⟩ := hm.reset
  -- clock `n` is zero
  have hzero : ∀ u, p.toElementaryLanguage.Mem u → (u.act a).clocks p.cond.size = 0 := by
    intro u hu
    rw [act_clocks u a ((hp.mem_iff u).1 hu).2.1, if_neg (by rw [hp.csize]; omega)]
  have hlow : ∀ u, p.toElementaryLanguage.Mem u → ∀ x < p.cond.size, (u.act a).clocks x = u.clocks x := by
    intro u hu x hx
    rw [act_clocks u a ((hp.mem_iff u).1 hu).2.1, if_pos (by rw [← hp.csize]; exact hx)]
  -- clocks of `q` that are related to the new clock are fixed
  have hpoint : ∀ y ∈ r, y.1 = p.cond.size → q.cond.pointAt y.2 = true ∧ ∀ w, q.cond.zone.Mem w → w y.2 = 0 := by
    intro y hy e
    obtain ⟨u, hu⟩ := hp.canonical.nonempty
    have hum := Equivalence.mem_of_zone hp.proper hu
    obtain ⟨w, hw, hrel, _⟩ := hU0 _ (hp.act_mem a hum)
    have h1 : TimedWord.clocks _ y.1 = w.clocks y.2 := hrel y hy
    rw [e, hzero _ hum] at h1
    have hz := (Equivalence.zone_of_mem hq.proper hw).2
    have hpt : q.cond.pointAt y.2 = true := by
      rw [hq.simple.pointAt_iff hq.canonical.1 hz (hin y hy).2, ← h1]; simp
    exact ⟨hpt, fun w' hw' => by rw [Equivalence.point_value (hin y hy).2 hq.canonical.1 hpt hw' hz, ← h1]⟩
  have htotal : r.eraseLeft p.cond.size = [] ∨
      ∀ x < q.cond.size, q.cond.pointAt x = true ∨ ∃ y ∈ r.eraseLeft p.cond.size, y.2 = x := by
    rcases hst.total with e | ht
    · left; rw [e]; rfl
    · right
      intro x hx
      rcases ht x hx with h | ⟨y, hy, e⟩
      · exact Or.inl h
      · by_cases hl : y.1 = p.cond.size
        · left; rw [← e]; exact (hpoint y hy hl).1
        · right
          refine ⟨y, ?_, e⟩
          unfold RenamingRelation.eraseLeft
          rw [List.mem_filter]
          exact ⟨hy, by simpa using hl⟩
  have himp : (r.eraseLeft p.cond.size).hasImpreciseClocks q.cond = false := by
    unfold RenamingRelation.hasImpreciseClocks
    rcases htotal with e | ht
    · rw [e]; rfl
    · rw [(RenamingRelation.full_iff _ _ fun y hy => (hrange y hy).2).2 ht]; simp
  obtain ⟨U, g1, g2, g3⟩ := externalTransition_spec hp.canonical hq.canonical hq.simple
    (fun V hV => hq.nonneg_zone hV) hrange (by
      intro u hu
      have hum := Equivalence.mem_of_zone hp.proper hu
      obtain ⟨w, hw, hrel, _⟩ := hU0 _ (hp.act_mem a hum)
      refine ⟨w.clocks, (Equivalence.zone_of_mem hq.proper hw).2, fun y hy => ?_⟩
      have h1 : TimedWord.clocks _ y.1 = w.clocks y.2 := hrel y (hsub y hy)
      rw [hlow _ hum _ (hrange y hy).1, Equivalence.clocks_delays _ (hrange y hy).1] at h1
      exact h1) htotal q'
  refine ⟨U, g1, g2, himp, ?_⟩
  intro u hu v hv
  obtain ⟨w, hw, hrel, hap⟩ := g3 u.clocks (Equivalence.zone_of_mem hp.proper hu).2 v hv
  refine ⟨_, Equivalence.mem_of_zone hq.proper hw, ?_, fun x hx => ?_⟩
  · intro y hy
    show (u.act a).clocks y.1 = TimedWord.clocks _ y.2
    rw [Equivalence.clocks_delays _ (hin y hy).2]
    by_cases e : y.1 = p.cond.size
    · rw [e, hzero u hu, (hpoint y hy e).2 w hw]
    · have hl : y.1 < p.cond.size := by have := (hin y hy).1; omega
      rw [hlow u hu _ hl]
      refine hrel y ?_
      unfold RenamingRelation.eraseLeft
      rw [List.mem_filter]
      exact ⟨hy, by simpa using e⟩
  · rw [Equivalence.clocks_delays _ hx]; exact hap x hx

end ObsTable
end LearnTA
