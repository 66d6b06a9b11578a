import Verif.Lemmas.SampleComplete
import Verif.Lemmas.Over
import Verif.Props.Reconstruct

/-!
# C68, C44: when the search for a word of a zone automaton misses nothing
-/

namespace LearnTA
namespace Props

/-- For a class of automata whose zones are sampled correctly. -/
theorem sampled_exact {A : TA} (hA : A.WF) (ho : A.UpdatesInOrder) (hm : A.MaxOK)
    (hch : CharActions A) {K : Zone → Prop} {T : Trans → Prop} (hS : SymRun.Sampled A.clockSize K T)
    (hT : ∀ p ∈ A.states, ∀ a, ∀ t ∈ (A.loc p).next a, T t)
    (o : HashOrder) (hasc : o.Ascending A) (quick : Bool) (fuel : ℕ) (za : ZA)
    (h : ta2za A o quick fuel = some za) :
    (∃ w, za.sampleWithMemo.2 = some w) ↔ ∃ w : TimedWord, w.WF ∧ A.Accepts w := by
  constructor
  · rintro ⟨w, hw⟩
    obtain ⟨k1, -, -, k4⟩ := C67_sampled A hA ho o quick fuel za h w hw
    exact ⟨w, k1, k4⟩
  · rintro ⟨w, hw, hacc⟩
    by_contra hn
    have hnone : za.sampleWithMemo.2 = none := by
      cases hs : za.sampleWithMemo.2 with
      | none => rfl
      | some w => exact absurd ⟨w, hs⟩ hn
    have hs' := Ta2za.ta2za_memo A o quick fuel za h
    rw [hs'] at hnone
    have hmemo : za.memo = none := by
      unfold ZA.sampleWithMemo at hs'
      cases hmm : za.memo with
      | none => rfl
      | some u => rw [hmm, hnone] at hs'; cases hs'
    obtain ⟨-, -, -, j, hj, -, h2, -⟩ := C37_words_simulated A hA ho.ordered o quick fuel za h
      (.inr hmemo) w hw hacc
    have := ZA.sample_complete ⟨hA, ho, hm⟩ hS hT o hasc hch quick fuel za h hnone j hj
    rw [this] at h2; cases h2

/-- C68: with at most two clocks, set to integers only, a word is sampled from the zone automaton
if and only if the timed automaton accepts some word, with and without early return. -/
theorem C68_two_clocks (A : TA) (hA : A.WF) (ho : A.UpdatesInOrder) (hI : A.IntegerResets)
    (hm : A.MaxOK) (hch : CharActions A) (hn : A.clockSize ≤ 2) (o : HashOrder)
    (hasc : o.Ascending A) (quick : Bool) (fuel : ℕ) (za : ZA) (h : ta2za A o quick fuel = some za) :
    (∃ w, za.sampleWithMemo.2 = some w) ↔ ∃ w : TimedWord, w.WF ∧ A.Accepts w :=
  sampled_exact hA ho hm hch (SymRun.sampled_int _ hn) hI o hasc quick fuel za h

/-- C68: the same for any number of clocks and any constants they are set to, if no guard is
strict. -/
theorem C68_nonstrict (A : TA) (hA : A.WF) (ho : A.UpdatesInOrder) (hns : A.NonStrict)
    (hm : A.MaxOK) (hch : CharActions A) (o : HashOrder)
    (hasc : o.Ascending A) (quick : Bool) (fuel : ℕ) (za : ZA) (h : ta2za A o quick fuel = some za) :
    (∃ w, za.sampleWithMemo.2 = some w) ↔ ∃ w : TimedWord, w.WF ∧ A.Accepts w :=
  sampled_exact hA ho hm hch (SymRun.sampled_ns _) hns o hasc quick fuel za h

/-- C68: the same for at most one clock, whatever the guards and the constants the clock is set to. -/
theorem C68_one_clock (A : TA) (hA : A.WF) (ho : A.UpdatesInOrder)
    (hm : A.MaxOK) (hch : CharActions A) (hn : A.clockSize ≤ 1) (o : HashOrder)
    (hasc : o.Ascending A) (quick : Bool) (fuel : ℕ) (za : ZA) (h : ta2za A o quick fuel = some za) :
    (∃ w, za.sampleWithMemo.2 = some w) ↔ ∃ w : TimedWord, w.WF ∧ A.Accepts w :=
  sampled_exact hA ho hm hch (SymRun.sampled_one _ hn) (fun _ _ _ _ _ => trivial) o hasc quick fuel za h

/-- An automaton over one letter meets the assumption on the order of the actions. -/
theorem ascending_of_one (o : HashOrder) (A : TA) (b : Action) (h : A.Over [b]) : o.Ascending A := by
  intro p hp
  have hl : ((o.acts (A.loc p)).filter fun a => !((A.loc p).next a).isEmpty).Nodup :=
    ((o.acts_perm _).nodup_iff.2 (List.nodup_finRange _)).filter _
  have hm : ∀ a ∈ (o.acts (A.loc p)).filter fun a => !((A.loc p).next a).isEmpty, a = b := by
    intro a ha
    have := (List.mem_filter.1 ha).2
    simpa using h p hp a fun he => by rw [he] at this; cases this
  generalize ((o.acts (A.loc p)).filter fun a => !((A.loc p).next a).isEmpty) = l at hl hm
  match l with
  | [] => exact .nil
  | [a] => exact List.pairwise_singleton _ _
  | a :: a' :: l =>
    have h1 := hm a (by simp)
    have h2 := hm a' (by simp)
    simp [h1, h2] at hl

/-! ### The complement-based oracle -/

theorem subset_search (Cm H : TA) (alphabet : List Action) (hC : Cm.WF) (hCe : Cm.EpsFree)
    (hH : H.WF) (hHe : H.EpsFree) (hCa : Cm.Over alphabet) (hHa : H.Over alphabet) :
    (ComplementOracle.subsetTA Cm H).Over alphabet ∧
    (Cm.ConstResets → H.ConstResets → Cm.MaxOK → H.MaxOK →
      (ComplementOracle.subsetTA Cm H).MaxOK ∧ (ComplementOracle.subsetTA Cm H).ConstResets) := by
  have hI := C36_product_wf Cm H hC hH
  have hs := C34_simplify_language _ hI ⟨[], [0]⟩
  have he : (Cm.intersection H).simplifyStrong.EpsFree :=
    (TA.simplifyStrong_keeps _ hI).1 (C36_product_epsFree Cm H hCe hHe)
  have heq : ComplementOracle.subsetTA Cm H = (Cm.intersection H).simplifyStrong :=
    TA.addUpperBound_epsFree _ hs.2.2.2.nodup he
  rw [heq]
  obtain ⟨h1, h2, h3⟩ := TA.simplifyStrong_search (alphabet := alphabet) _ hI
  refine ⟨h3 (TA.intersection_over hCa hHa), fun c1 c2 m1 m2 => ?_⟩
  have hc := TA.intersection_constResets c1 c2
  exact ⟨h2 hc (TA.intersection_maxOK hC.clocks m1 m2), h1 hc⟩

theorem superset_search (A H : TA) (alphabet : List Action) (hA : A.WF) (hAe : A.EpsFree)
    (hH : H.WF) (hHe : H.EpsFree) (hu : unobservable ∉ alphabet)
    (hAa : A.Over alphabet) (hHa : H.Over alphabet) :
    (ComplementOracle.supersetTA A H alphabet).Over alphabet ∧
    (A.ConstResets → H.ConstResets → A.MaxOK → H.MaxOK →
      (ComplementOracle.supersetTA A H alphabet).MaxOK) := by
  have hc := TA.complement_wf H alphabet hH hHe
  have hce := TA.complement_epsFree H alphabet hH hHe hu
  obtain ⟨h1, h2⟩ := subset_search A (H.complement alphabet) alphabet hA hAe hc hce hAa
    (TA.complement_over H alphabet hH hHe hHa)
  have hw := (subset_language A (H.complement alphabet) hA hAe hc hce ⟨[], [0]⟩ rfl).2.1
  obtain ⟨-, g2, g3⟩ := TA.simplify_search (alphabet := alphabet) _ hw
  refine ⟨g3 h1, fun c1 c2 m1 m2 => ?_⟩
  obtain ⟨k1, k2⟩ := h2 c1 (TA.complement_constResets H alphabet hH hHe c2) m1
    (TA.complement_maxOK H alphabet hH hHe m2)
  exact g2 k2 k1

/-- C44: the complement-based oracle is exact if the products have at most two clocks, set to integers
only, with large enough maximal constants, and the hash maps are iterated in ascending order: if it
answers, it says "equivalent" if and only if the hypothesis accepts the same words over the alphabet
as the target. -/
theorem C44_exact (target Cm H : TA) (alphabet : List Action)
    (hT : target.WF) (hTe : target.EpsFree) (hTo : target.UpdatesInOrder) (hTi : target.IntegerResets)
    (hTa : target.Over alphabet)
    (hC : Cm.WF) (hCe : Cm.EpsFree) (hCo : Cm.UpdatesInOrder) (hCi : Cm.IntegerResets)
    (hCa : Cm.Over alphabet)
    (hH : H.WF) (hHe : H.EpsFree) (hHo : H.UpdatesInOrder) (hHi : H.IntegerResets)
    (hHa : H.Over alphabet)
    (hdet : H.deterministic = true) (hi : H.init.length ≤ 1) (hu : unobservable ∉ alphabet)
    (hch : ∀ a ∈ alphabet, a.val < 127)
    (hcompl : ∀ w : TimedWord, w.WF → w.Nonneg → (∀ a ∈ w.word, a ∈ alphabet) →
      (Cm.Accepts w ↔ ¬ target.Accepts w))
    (hnC : Cm.clockSize + H.clockSize ≤ 2) (hnT : target.clockSize + H.clockSize ≤ 2)
    (hm1 : (ComplementOracle.subsetTA Cm H).MaxOK)
    (hm2 : (ComplementOracle.supersetTA target H alphabet).MaxOK)
    (o : HashOrder) (ho1 : o.Ascending (ComplementOracle.subsetTA Cm H))
    (ho2 : o.Ascending (ComplementOracle.supersetTA target H alphabet)) (fuel : ℕ)
    (r : Option TimedWord)
    (h : ComplementOracle.findCounterExample target Cm alphabet o fuel H = some r) :
    r = none ↔ ∀ w : TimedWord, w.WF → w.Nonneg → (∀ a ∈ w.word, a ∈ alphabet) →
      (H.Accepts w ↔ target.Accepts w) := by
  have noMiss : ∀ A : TA, A.WF → A.UpdatesInOrder → A.IntegerResets → A.MaxOK → A.Over alphabet →
      A.clockSize ≤ 2 → o.Ascending A → ¬ SampleMisses A o fuel := by
    rintro A h1 h2 h3 h4 h5 h6 h7 ⟨za, hza, ⟨p, hp, hpm⟩, hs⟩
    have := ZA.sample_complete ⟨h1, h2, h4⟩ (SymRun.sampled_int _ h6) h3 o h7
      (fun p hp a ha => hch a (h5 p hp a ha)) true fuel za hza hs p hp
    rw [this] at hpm; cases hpm
  constructor
  · rintro rfl
    rcases C44_equivalent_partial target Cm H alphabet hT hTe hTo.ordered hC hCe hCo.ordered hH hHe
      hHo.ordered hdet hi hu hcompl o fuel h with h | h | h
    · exact h
    · obtain ⟨r1, r2, r3⟩ := subset_reconstruct Cm H hC hCe hH hHe
      have hw := (subset_language Cm H hC hCe hH hHe ⟨[], [0]⟩ rfl).2.1
      exact absurd h (noMiss _ hw (r1 hCo hHo) (r2 hCi hHi) hm1
        (subset_search Cm H alphabet hC hCe hH hHe hCa hHa).1 (r3.trans hnC) ho1)
    · obtain ⟨r1, r2, r3⟩ := superset_reconstruct target H alphabet hT hTe hH hHe hu
      have hw := (superset_language target H alphabet hT hTe hH hHe hu ⟨[], [0]⟩ rfl).2.1
      exact absurd h (noMiss _ hw (r1 hTo hHo) (r2 hTi hHi) hm2
        (superset_search target H alphabet hT hTe hH hHe hu hTa hHa).1 (r3.trans hnT) ho2)
  · intro heq
    cases r with
    | none => rfl
    | some w =>
      obtain ⟨k1, k2, k3, k4⟩ := C67_counterexample target Cm H alphabet hT hTe hTo hTa hC hCe hCo
        hH hHe hHo hHa hdet hi hu hcompl o fuel w h
      have := heq w k1 k2 k3
      tauto

/-- C44: the oracle with the complement the code computes, for a deterministic target and hypothesis
with at most two clocks together, which are set to integers only, and hash maps iterated in
ascending order. -/
theorem C44_two_clocks (target H : TA) (alphabet : List Action)
    (hT : target.WF) (hTe : target.EpsFree) (hTo : target.UpdatesInOrder) (hTc : target.ConstResets)
    (hTa : target.Over alphabet) (hTm : target.MaxOK)
    (hTd : target.deterministic = true) (hT1 : target.init.length = 1)
    (hH : H.WF) (hHe : H.EpsFree) (hHo : H.UpdatesInOrder) (hHc : H.ConstResets)
    (hHa : H.Over alphabet) (hHm : H.MaxOK)
    (hdet : H.deterministic = true) (hi : H.init.length ≤ 1) (hu : unobservable ∉ alphabet)
    (hch : ∀ a ∈ alphabet, a.val < 127) (hn : target.clockSize + H.clockSize ≤ 2)
    (o : HashOrder) (ho : (∀ A, o.Ascending A) ∨ ∃ a, alphabet = [a]) (fuel : ℕ) (r : Option TimedWord)
    (h : ComplementOracle.findCounterExample target (target.complement alphabet) alphabet o fuel H =
      some r) :
    r = none ↔ ∀ w : TimedWord, w.WF → w.Nonneg → (∀ a ∈ w.word, a ∈ alphabet) →
      (H.Accepts w ↔ target.Accepts w) := by
  have c1 := TA.complement_wf target alphabet hT hTe
  have c2 := TA.complement_epsFree target alphabet hT hTe hu
  have c3 := TA.complement_over target alphabet hT hTe hTa
  have s1 := subset_search (target.complement alphabet) H alphabet c1 c2 hH hHe c3 hHa
  have s2 := superset_search target H alphabet hT hTe hH hHe hu hTa hHa
  have hasc : ∀ A : TA, A.Over alphabet → o.Ascending A := by
    intro A hA
    rcases ho with ho | ⟨a, rfl⟩
    · exact ho A
    · exact ascending_of_one o A a hA
  exact C44_exact target _ H alphabet hT hTe hTo hTc.int hTa c1 c2
    (TA.complement_inOrder target alphabet hT hTe hTo)
    (TA.complement_intResets target alphabet hT hTe hTc.int) c3 hH hHe hHo hHc.int hHa hdet hi hu hch
    (fun w hw hnn hwd => C31_complement_language target alphabet hT hTe hTd hu hT1.le w hw hwd hnn)
    (by rw [TA.complement_clocks target alphabet hT hTe]; exact hn) hn
    (s1.2 (TA.complement_constResets target alphabet hT hTe hTc) hHc
      (TA.complement_maxOK target alphabet hT hTe hTm) hHm).1
    (s2.2 hTc hHc hTm hHm) o (hasc _ s1.1) (hasc _ s2.1) fuel r h

/-! ### Witnesses -/

/-- The order of the actions in the examples is ascending. -/
theorem exOrder_ascending (A : TA) : exOrder.Ascending A :=
  fun p _ => by
    have h : allActions.Pairwise (fun a b : Action => a < b) := by
      have key : ∀ n, (List.finRange n).Pairwise (fun a b => a < b) := fun n => List.pairwise_lt_finRange n
      unfold allActions
      exact key 256
    have e : exOrder.acts (A.loc p) = allActions := by simp only [exOrder]
    rw [e]
    exact h.filter _

/-- `twoT` with constants that bound also what its clock 0 is copied to. -/
def twoM : TA := { twoT with maxC := [4, 4] }

set_option maxRecDepth 100000 in
/-- The hypotheses of `C68_two_clocks` are met: two clocks, strict guards, a clock copied before it is
reset, and a word is sampled. -/
example : twoM.WF ∧ twoM.UpdatesInOrder ∧ twoM.IntegerResets ∧ twoM.MaxOK ∧ CharActions twoM ∧
    twoM.clockSize ≤ 2 ∧ exOrder.Ascending twoM ∧
    ComplementOracle.sampleOf exOrder 30 twoM = some (some ⟨[actA, actA], [5 / 2, 1, 0]⟩) := by
  refine ⟨wf_of_check (by decide +kernel), by unfold TA.UpdatesInOrder; decide +kernel,
    twoT_ok.2.2.2.1, ⟨by decide +kernel, ?_⟩, by unfold CharActions; decide +kernel, by decide,
    exOrder_ascending _, by decide +kernel⟩
  have : ∀ p ∈ twoM.states, ∀ a, ∀ t ∈ (twoM.loc p).next a, (∀ c ∈ t.guard, c.c ≤ 4 ∧ c.x < 2) ∧
      ∀ r ∈ t.resets, r.1 < 2 ∧ (r.2 = .const 0 ∨ r.2 = .clock 0) := by decide +kernel
  have hv : ∀ x < 2, twoM.maxC.getD x 0 = 4 := by decide
  intro p hp a t ht
  obtain ⟨h1, h2⟩ := this p hp a t ht
  refine ⟨fun c hc => by rw [hv _ (h1 c hc).2]; exact (h1 c hc).1, fun r hr y hy => ?_⟩
  obtain ⟨h3, h4⟩ := h2 r hr
  rcases h4 with h4 | h4 <;> rw [h4] at hy <;> cases hy
  rw [hv _ h3, hv 0 (by decide)]

/-- An automaton with one clock, and one that differs from it only at the bound. -/
def gapT : TA := ⟨fun p => ⟨decide (p = 1), fun a => if a = actA ∧ p = 0 then
  [⟨1, [(0, .const 0)], [⟨0, .gt, 1⟩, ⟨0, .le, 3⟩]⟩] else []⟩, [0, 1], [0], [3]⟩

def gapH : TA := ⟨fun p => ⟨decide (p = 1), fun a => if a = actA ∧ p = 0 then
  [⟨1, [(0, .const 0)], [⟨0, .gt, 1⟩, ⟨0, .lt, 3⟩]⟩] else []⟩, [0, 1], [0], [3]⟩

/-- A check of the hypotheses of `C44_two_clocks` on one automaton. -/
def OracleReady (alphabet : List Action) (A : TA) : Prop :=
  A.WF ∧ A.EpsFree ∧ A.UpdatesInOrder ∧ A.ConstResets ∧ A.Over alphabet ∧ A.MaxOK ∧
    A.deterministic = true ∧ A.init.length = 1

theorem gap_ready : OracleReady [actA] gapT ∧ OracleReady [actA] gapH := by
  have h0 : ∀ p ∈ gapT.states, ∀ a, ∀ t ∈ (gapT.loc p).next a, ∀ r ∈ t.resets, r.2 = .const 0 := by
    decide +kernel
  have h1 : ∀ p ∈ gapH.states, ∀ a, ∀ t ∈ (gapH.loc p).next a, ∀ r ∈ t.resets, r.2 = .const 0 := by
    decide +kernel
  have c0 : ∀ p ∈ gapT.states, ∀ a, ∀ t ∈ (gapT.loc p).next a, ∀ c ∈ t.guard, c.c ≤ gapT.maxC.getD c.x 0 := by
    decide +kernel
  have c1 : ∀ p ∈ gapH.states, ∀ a, ∀ t ∈ (gapH.loc p).next a, ∀ c ∈ t.guard, c.c ≤ gapH.maxC.getD c.x 0 := by
    decide +kernel
  have k : ∀ {q : Upd}, q = .const 0 → ∃ k : ℤ, q = .const k := fun h => ⟨0, by simpa using h⟩
  have over : ∀ A : TA, (∀ p ∈ A.states, ∀ a, ((A.loc p).next a).isEmpty = true ∨ a = actA) →
      A.Over [actA] := by
    intro A h p hp a hne
    rcases h p hp a with h | h
    · exact absurd (List.isEmpty_iff.1 h) hne
    · simp [h]
  refine ⟨⟨wf_of_check (by decide +kernel), by unfold TA.EpsFree; decide +kernel,
      by unfold TA.UpdatesInOrder; decide +kernel, fun p hp a t ht r hr => k (h0 p hp a t ht r hr),
      over _ (by decide +kernel), ⟨by decide +kernel, fun p hp a t ht => ⟨c0 p hp a t ht, ?_⟩⟩,
      by decide +kernel, rfl⟩,
    ⟨wf_of_check (by decide +kernel), by unfold TA.EpsFree; decide +kernel,
      by unfold TA.UpdatesInOrder; decide +kernel, fun p hp a t ht r hr => k (h1 p hp a t ht r hr),
      over _ (by decide +kernel), ⟨by decide +kernel, fun p hp a t ht => ⟨c1 p hp a t ht, ?_⟩⟩,
      by decide +kernel, rfl⟩⟩
  · intro r hr y hy; rw [h0 p hp a t ht r hr] at hy; cases hy
  · intro r hr y hy; rw [h1 p hp a t ht r hr] at hy; cases hy

set_option maxRecDepth 100000 in
/-- The hypotheses of `C44_two_clocks` are met, with both answers. -/
example : OracleReady [actA] gapT ∧ OracleReady [actA] gapH ∧ unobservable ∉ [actA] ∧
    (∀ a ∈ [actA], a.val < 127) ∧ gapT.clockSize + gapH.clockSize ≤ 2 ∧
    ComplementOracle.findCounterExample gapT (gapT.complement [actA]) [actA] exOrder 30 gapT = some none ∧
    ComplementOracle.findCounterExample gapT (gapT.complement [actA]) [actA] exOrder 30 gapH =
      some (some ⟨[actA], [3, 0]⟩) :=
  ⟨gap_ready.1, gap_ready.2, by decide, by decide, by decide, by decide +kernel, by decide +kernel⟩

/-- A deterministic automaton with one clock and two letters. -/
def ordT : TA where
  loc
    | 0 => ⟨false, fun a => if a = actA then [⟨1, [], [⟨0, .gt, 1⟩]⟩] else
        if a = 98 then [⟨1, [], []⟩] else []⟩
    | 1 => ⟨false, fun a => if a = actA then [⟨2, [], [⟨0, .le, 1⟩]⟩] else []⟩
    | _ => ⟨true, fun _ => []⟩
  states := [0, 1, 2]
  init := [0]
  maxC := [1]

/-- Hash maps iterated in descending order. -/
def revOrder : HashOrder where
  acts _ := allActions.reverse
  acts_perm _ := List.reverse_perm _
  entries m := m
  entries_perm _ := .refl _

/-- What `C44_two_clocks` asks of an automaton, but for the bound of the constants. -/
theorem ordT_ready : OracleReady [actA, 98] ordT := by
  have h0 : ∀ p ∈ ordT.states, ∀ a, ∀ t ∈ (ordT.loc p).next a, t.resets = [] ∧
      ∀ c ∈ t.guard, c.c ≤ ordT.maxC.getD c.x 0 := by decide +kernel
  refine ⟨wf_of_check (by decide +kernel), by unfold TA.EpsFree; decide +kernel,
    by unfold TA.UpdatesInOrder; decide +kernel, fun p hp a t ht r hr => ?_, ?_,
    ⟨by decide +kernel, fun p hp a t ht => ⟨(h0 p hp a t ht).2, fun r hr => ?_⟩⟩, by decide +kernel, rfl⟩
  · rw [(h0 p hp a t ht).1] at hr; cases hr
  · have : ∀ p ∈ ordT.states, ∀ a, ((ordT.loc p).next a).isEmpty = true ∨ a = actA ∨ a = 98 := by
      decide +kernel
    intro p hp a hne
    rcases this p hp a with h | h
    · exact absurd (List.isEmpty_iff.1 h) hne
    · simpa using h
  · rw [(h0 p hp a t ht).1] at hr; cases hr

theorem missH_ready (alphabet : List Action) : OracleReady alphabet missH := by
  obtain ⟨h1, h2, -, h4, h5⟩ := missH_ok
  exact ⟨h1, h2, fun _ _ _ _ ht => (by cases ht), fun _ _ _ _ ht => (by cases ht),
    fun _ _ _ h => absurd rfl h, ⟨fun _ h => (by cases h), fun _ _ _ _ ht => (by cases ht)⟩, h4, h5⟩

set_option maxRecDepth 100000 in
/-- C44: the claim is false of the code even for one clock and no updates, if the hash maps are not
iterated in ascending order: `ta2za` then makes the node for the second letter first, and merges the
successor by the first letter into it, while `sample` tries the first letter first and gives up on
the node when the run over the first letter cannot be continued.  The oracle says that the automaton
that accepts nothing is equivalent to an automaton that accepts a word. -/
theorem C44_order_witness :
    OracleReady [actA, 98] ordT ∧ OracleReady [actA, 98] missH ∧
    ordT.clockSize + missH.clockSize = 1 ∧
    ComplementOracle.findCounterExample ordT (ordT.complement [actA, 98]) [actA, 98] revOrder 30 missH =
      some none ∧
    ComplementOracle.findCounterExample ordT (ordT.complement [actA, 98]) [actA, 98] exOrder 30 missH ≠
      some none ∧
    ordT.Accepts ⟨[98, actA], [0, 1, 0]⟩ ∧ ∀ w, ¬ missH.Accepts w := by
  refine ⟨ordT_ready, missH_ready _, rfl, by decide +kernel, by decide +kernel, ?_, ?_⟩
  · obtain ⟨h1, h2, -, -, -, -, h4, h5⟩ := ordT_ready
    obtain ⟨r, b, e1, e2⟩ := C30_membership_exact ordT h1 h2 h4 (.inl h5) 0 (Runner.start ordT)
      ⟨[98, actA], [0, 1, 0]⟩ rfl
      (by unfold TimedWord.Observable; decide) (by unfold TimedWord.Nonneg; decide +kernel)
    have : (Runner.answerQuery ordT 1 (Runner.start ordT)
      ⟨[98, actA], [0, 1, 0]⟩).map (·.2) = some true := by decide +kernel
    rw [e1] at this
    simp only [Option.map_some, Option.some.injEq] at this
    exact e2.1 this
  · rintro w ⟨q, -, c, -, hm⟩
    cases hm

/-- A deterministic automaton with two clocks and one letter; clock 0 is set to the value of clock 1,
which no guard reads. -/
def renT : TA where
  loc
    | 0 => ⟨false, fun a => if a = actA then [⟨1, [(0, .const 0)], [⟨0, .gt, 5⟩]⟩,
        ⟨1, [(0, .const 0)], [⟨0, .gt, 0⟩, ⟨0, .le, 1⟩]⟩] else []⟩
    | 1 => ⟨false, fun a => if a = actA then [⟨2, [(0, .clock 1)], []⟩] else []⟩
    | 2 => ⟨false, fun a => if a = actA then [⟨3, [], [⟨0, .le, 4⟩]⟩] else []⟩
    | _ => ⟨true, fun _ => []⟩
  states := [0, 1, 2, 3]
  init := [0]
  maxC := [5, 5]

theorem renT_ready : renT.WF ∧ renT.EpsFree ∧ renT.UpdatesInOrder ∧ renT.IntegerResets ∧
    renT.Over [actA] ∧ renT.MaxOK ∧ renT.deterministic = true ∧ renT.init.length = 1 := by
  have h0 : ∀ p ∈ renT.states, ∀ a, ∀ t ∈ (renT.loc p).next a,
      (∀ r ∈ t.resets, r.1 = 0 ∧ (r.2 = .const 0 ∨ r.2 = .clock 1)) ∧
      ∀ c ∈ t.guard, c.c ≤ renT.maxC.getD c.x 0 := by decide +kernel
  refine ⟨wf_of_check (by decide +kernel), by unfold TA.EpsFree; decide +kernel,
    by unfold TA.UpdatesInOrder; decide +kernel, fun p hp a t ht r hr q hq => ?_, ?_,
    ⟨by decide +kernel, fun p hp a t ht => ⟨(h0 p hp a t ht).2, fun r hr y hy => ?_⟩⟩,
    by decide +kernel, rfl⟩
  · rcases ((h0 p hp a t ht).1 r hr).2 with h | h <;> rw [h] at hq <;> cases hq
    exact ⟨0, by simp⟩
  · have : ∀ p ∈ renT.states, ∀ a, ((renT.loc p).next a).isEmpty = true ∨ a = actA := by
      decide +kernel
    intro p hp a hne
    rcases this p hp a with h | h
    · exact absurd (List.isEmpty_iff.1 h) hne
    · simp [h]
  · obtain ⟨e, h⟩ := (h0 p hp a t ht).1 r hr
    rw [e]
    rcases h with h | h <;> rw [h] at hy <;> cases hy
    decide

set_option maxRecDepth 100000 in
/-- C44: the claim is false of the code even for two clocks and one letter, if clocks are copied:
the constants `makeMaxConstants` computes anew when unreachable states are removed do not count what
a clock is compared with after it has been copied, so the zones of different runs are merged.  The
oracle says that the automaton that accepts nothing is equivalent to an automaton that accepts a word. -/
theorem C44_constants_witness :
    (renT.WF ∧ renT.EpsFree ∧ renT.UpdatesInOrder ∧ renT.IntegerResets ∧ renT.Over [actA] ∧
      renT.MaxOK ∧ renT.deterministic = true ∧ renT.init.length = 1) ∧
    OracleReady [actA] missH ∧ renT.clockSize + missH.clockSize = 2 ∧
    (ComplementOracle.supersetTA renT missH [actA]).maxC = [5, 0] ∧
    ComplementOracle.findCounterExample renT (renT.complement [actA]) [actA] exOrder 30 missH =
      some none ∧
    renT.Accepts ⟨[actA, actA, actA], [1, 0, 0, 0]⟩ ∧ ∀ w, ¬ missH.Accepts w := by
  refine ⟨renT_ready, missH_ready _, rfl, by decide +kernel, by decide +kernel, ?_, ?_⟩
  · obtain ⟨h1, h2, -, -, -, -, h4, h5⟩ := renT_ready
    obtain ⟨r, b, e1, e2⟩ := C30_membership_exact renT h1 h2 h4 (.inl h5) 0 (Runner.start renT)
      ⟨[actA, actA, actA], [1, 0, 0, 0]⟩ rfl
      (by unfold TimedWord.Observable; decide) (by unfold TimedWord.Nonneg; decide +kernel)
    have : (Runner.answerQuery renT 1 (Runner.start renT)
      ⟨[actA, actA, actA], [1, 0, 0, 0]⟩).map (·.2) = some true := by decide +kernel
    rw [e1] at this
    simp only [Option.map_some, Option.some.injEq] at this
    exact e2.1 this
  · rintro w ⟨q, -, c, -, hm⟩
    cases hm

/-- The constants are not part of the meaning of an automaton. -/
theorem accepts_maxC (A : TA) (m : List ℤ) (w : TimedWord) (h : A.Accepts w) :
    ({ A with maxC := m } : TA).Accepts w := by
  obtain ⟨q, hq, c, hs, hc⟩ := h
  refine ⟨q, hq, c, ?_, hc⟩
  clear hc hq
  generalize (⟨q, Valuation.zero⟩ : Config) = c0 at hs ⊢
  generalize w.events = es at hs ⊢
  induction hs with
  | nil c => exact .nil c
  | eps t ht hg _ ih => exact .eps t ht hg ih
  | delay d hd _ ih => exact .delay d hd ih
  | split d1 d2 h1 h2 _ ih => exact .split d1 d2 h1 h2 ih
  | act a ha t ht hg _ ih => exact .act a ha t ht hg ih

/-- `renT` without the transition that leads to acceptance, with the constants the code computes. -/
def lateT : TA where
  loc
    | 0 => ⟨false, fun a => if a = actA then [⟨1, [(0, .const 0)], [⟨0, .gt, 5⟩]⟩] else []⟩
    | 1 => ⟨false, fun a => if a = actA then [⟨2, [(0, .clock 1)], []⟩] else []⟩
    | 2 => ⟨false, fun a => if a = actA then [⟨3, [], [⟨0, .le, 4⟩]⟩] else []⟩
    | _ => ⟨true, fun _ => []⟩
  states := [0, 1, 2, 3]
  init := [0]
  maxC := [5, 0]

set_option maxRecDepth 100000 in
/-- C37: the assumption on the constants is needed, and `makeMaxConstants` does not provide it: the
zone automaton of an automaton without words has an accepting state. -/
theorem C37_constants_witness :
    lateT.WF ∧ lateT.UpdatesInOrder ∧ TA.makeMaxConstants lateT.loc lateT.states = lateT.maxC ∧
    (∃ za, ta2za lateT exOrder false 30 = some za ∧ ∃ p ∈ za.states, (za.loc p).isMatch = true) ∧
    ∀ w : TimedWord, w.WF → ¬ lateT.Accepts w := by
  refine ⟨wf_of_check (by decide +kernel), by unfold TA.UpdatesInOrder; decide +kernel,
    by decide +kernel, ?_, fun w hw hacc => ?_⟩
  · have h : ((ta2za lateT exOrder false 30).map fun za =>
        za.states.any fun p => (za.loc p).isMatch) = some true := by decide +kernel
    obtain ⟨za, h1, h2⟩ := Option.map_eq_some_iff.1 h
    rw [List.any_eq_true] at h2
    exact ⟨za, h1, h2⟩
  · have h : ((ta2za { lateT with maxC := [5, 5] } exOrder false 30).map fun za =>
        za.states.any fun p => (za.loc p).isMatch) = some false := by decide +kernel
    obtain ⟨za, h1, h2⟩ := Option.map_eq_some_iff.1 h
    have hw' : ({ lateT with maxC := [5, 5] } : TA).WF := wf_of_check (by decide +kernel)
    have ho : ({ lateT with maxC := [5, 5] } : TA).UpdatesInOrder := by
      unfold TA.UpdatesInOrder; decide +kernel
    obtain ⟨-, -, -, j, hj, -, h3, -⟩ := C37_words_simulated _ hw' ho.ordered exOrder false 30 za h1
      (.inl rfl) w hw (accepts_maxC lateT [5, 5] w hacc)
    rw [List.any_eq_false] at h2
    exact h2 j hj h3

end Props
end LearnTA
