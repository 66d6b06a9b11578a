import Verif.Lemmas.Sampled
import Verif.Lemmas.Reconstruct3
import Verif.Lemmas.InOrder
import Verif.Props.Oracle

/-!
# C67: words sampled from a zone automaton are words of the timed automaton
-/

namespace LearnTA
open Zone

theorem TimedWord.make_nonneg (word : List Action) (ds : List ℚ) (h : ∀ d ∈ ds, 0 ≤ d) :
    (TimedWord.make word ds).Nonneg := by
  have key : ∀ (ps : List (Action × ℚ)) (s : List Action × List ℚ), (∀ p ∈ ps, 0 ≤ p.2) →
      (∀ d ∈ s.2, 0 ≤ d) → ∀ d ∈ (ps.foldl absorbStep s).2, 0 ≤ d := by
    intro ps
    induction ps with
    | nil => intro s _ h; exact h
    | cons p ps ih =>
      intro s hp hs
      refine ih _ (fun q hq => hp q (by simp [hq])) ?_
      have h0 := hp p (by simp)
      unfold absorbStep
      split
      · intro d hd
        simp only [List.mem_append, List.mem_singleton] at hd
        rcases hd with hd | rfl
        · exact hs d hd
        · exact h0
      · intro d hd
        simp only [addBack, List.mem_append, List.mem_singleton] at hd
        rcases hd with hd | rfl
        · exact hs d (List.mem_of_mem_dropLast hd)
        · refine add_nonneg ?_ h0
          cases hl : s.2 with
          | nil => simp
          | cons x l =>
            rw [List.getLastD_cons]
            exact hs _ (by rw [hl]; exact List.getLastD_mem_cons)
  refine key _ _ ?_ ?_
  · rintro ⟨a, d⟩ hp
    exact h d (List.mem_of_mem_tail (List.of_mem_zip hp).2)
  · intro d hd
    simp only [List.mem_singleton] at hd
    subst hd
    cases ds with
    | nil => simp
    | cons x l => exact h x (by simp)

theorem SymRun.Drives.nonneg {ts : List Trans} {ds : List ℚ} {v w : Valuation}
    (h : SymRun.Drives ts ds v w) : ∀ d ∈ ds, 0 ≤ d := by
  induction ts generalizing ds v with
  | nil =>
    cases ds with
    | nil => simp
    | cons _ _ => cases h
  | cons t ts ih =>
    cases ds with
    | nil => cases h
    | cons d ds =>
      intro x hx
      rcases List.mem_cons.1 hx with rfl | hx
      · exact h.1
      · exact ih h.2.2 x hx

namespace Props

/-- The transitions of a path are transitions of the automaton. -/
theorem path_trans {A : TA} {za : ZA} (hcl : za.Closed)
    (hst : ∀ q ∈ za.states, (za.loc q).ta ∈ A.states)
    (hedge : ∀ q ∈ za.states, ∀ a, ∀ e ∈ (za.loc q).next a,
      e.1 ∈ (A.loc (za.loc q).ta).next a ∧ (za.loc e.2).ta = e.1.target)
    {i j : ℕ} {l : List (Action × Trans)} (hi : i ∈ za.states) (hp : za.Path i l j) :
    j ∈ za.states ∧ ∀ p ∈ l, ∃ s ∈ A.states, p.2 ∈ (A.loc s).next p.1 := by
  induction hp with
  | nil p => exact ⟨hi, by simp⟩
  | @cons p l q a t k he hr ih =>
    obtain ⟨h1, h2⟩ := ih (hcl.2 p hi a _ he)
    refine ⟨h1, fun x hx => ?_⟩
    rcases List.mem_cons.1 hx with rfl | hx
    · exact ⟨_, hst p hi, (hedge p hi a _ he).1⟩
    · exact h2 x hx

/-- The word of a path of the zone automaton with delays that drive it is accepted. -/
theorem drives_accepted {A : TA} (hA : A.WF) {o : HashOrder} {quick : Bool} {fuel : ℕ} {za : ZA}
    (h : ta2za A o quick fuel = some za) {i j : ℕ} (hi : i ∈ za.init) {l : List (Action × Trans)}
    (hp : za.Path i l j) (hj : (za.loc j).isMatch = true) {ds : List ℚ} {u : Valuation}
    (hd : SymRun.Drives (l.map Prod.snd) ds Valuation.zero u) (d : ℚ) (h0 : 0 ≤ d) :
    A.Accepts (TimedWord.make (l.map Prod.fst) (ds ++ [d])) := by
  obtain ⟨c1, -, -, c4, -, c6, c7⟩ := C37_shape A hA o quick fuel za h
  have his := c1.1 i hi
  have hlen : (ds ++ [d]).length = l.length + 1 := by
    have := hd.length
    simp only [List.length_map] at this
    simp [this]
  have hrun := TA.mrun_of_drives c1 c7 his hp hd d h0
  have hwf := (C20_make_reading (l.map Prod.fst) (ds ++ [d]) (by simpa using hlen)).1
  rw [TA.accepts_iff_micro A _ hwf]
  refine ⟨(za.loc i).ta, ?_, _, _, hrun, TA.make_obs l _ hlen, ?_⟩
  · rw [← c4]; exact List.mem_map_of_mem hi
  · have hjs := (path_trans c1 (fun q hq => (c6 q hq).1) c7 his hp).1
    rw [← (c6 j hjs).2.2]; exact hj

/-- C67: each word sampled from the zone automaton is accepted by the timed automaton, for any number
of clocks, whatever the guards and the constants the clocks are set to, with and without early
return, if no update reads a clock that itself or an earlier one writes. -/
theorem C67_sampled (A : TA) (hA : A.WF) (ho : A.UpdatesInOrder)
    (o : HashOrder) (quick : Bool) (fuel : ℕ) (za : ZA) (h : ta2za A o quick fuel = some za)
    (w : TimedWord) (hw : za.sampleWithMemo.2 = some w) :
    w.WF ∧ w.Observable ∧ w.Nonneg ∧ A.Accepts w := by
  rw [Ta2za.ta2za_memo A o quick fuel za h] at hw
  obtain ⟨r, ⟨i, hi, q, h1, h2, h3⟩, h4, h5⟩ := ZA.sample_ok w hw
  obtain ⟨c1, -, -, -, c5, c6, c7⟩ := C37_shape A hA o quick fuel za h
  have hed : (r.word.zip r.edges).map Prod.snd = r.edges := List.map_snd_zip (by omega)
  have hwd : (r.word.zip r.edges).map Prod.fst = r.word := List.map_fst_zip (by omega)
  have hall : ∀ t ∈ r.edges, ∃ p ∈ A.states, ∃ a, t ∈ (A.loc p).next a := by
    intro t ht
    rw [← hed] at ht
    obtain ⟨x, hx, rfl⟩ := List.mem_map.1 ht
    obtain ⟨s, hs, h⟩ := (path_trans c1 (fun q hq => (c6 q hq).1) c7 (c1.1 i hi) h3).2 x hx
    exact ⟨s, hs, x.1, h⟩
  have hr := h2.2.2
  rw [c5 i hi] at hr
  obtain ⟨ds, u, rfl, hd⟩ := SymRun.reconstruct_drives' r hr (fun t ht => by
      obtain ⟨p, hp, a, ht⟩ := hall t ht
      exact ⟨Ta2za.transOK hA.clocks hp ht, ho p hp a t ht, hA.resets p hp a t ht⟩) w h5
  have hlen : (ds ++ [0]).length = r.word.length + 1 := by
    have := hd.length
    simp [this, h2.1]
  obtain ⟨k1, k2, -⟩ := C20_make_reading r.word (ds ++ [0]) hlen
  refine ⟨k1, k2, TimedWord.make_nonneg _ _ fun d hd' => ?_, ?_⟩
  · rcases List.mem_append.1 hd' with hd' | hd'
    · exact hd.nonneg d hd'
    · rw [List.mem_singleton.1 hd']
  · have := drives_accepted hA h hi h3 (by rw [← h1]; exact h4) (by rw [hed]; exact hd) 0 (le_refl _)
    rwa [hwd] at this

/-- C17: sampling is right if no bound of the zone is strict, for any number of clocks. -/
theorem C17_nonstrict (z : Zone) (hne : ∃ v, z.Mem v)
    (hnn : ∀ v, z.Mem v → ∀ i, i + 1 < z.dim → 0 ≤ v i)
    (hns : ∀ i j c s, z.val i j = .fin c s → s = true) :
    z.Mem (fun i => z.sample.getD i 0) ∧ z.sample.length = z.dim - 1 :=
  ⟨sample_ns rfl hne hnn (fun _ => Iff.rfl) fun i j c s h => hns i j c s h, sample_length z⟩

/-- C17: sampling is right if the zone has at most two clocks and all its bounds are integers, strict
or not. -/
theorem C17_two_clocks (z : Zone) (hd : z.dim ≤ 3) (hne : ∃ v, z.Mem v)
    (hnn : ∀ v, z.Mem v → ∀ i, i + 1 < z.dim → 0 ≤ v i)
    (hint : ∀ i j c s, z.val i j = .fin c s → ∃ k : ℤ, c = k) :
    z.Mem (fun i => z.sample.getD i 0) ∧ z.sample.length = z.dim - 1 :=
  ⟨sample_two hd hne hnn (.inr ⟨z, rfl, fun _ => Iff.rfl, fun i j c s h => hint i j c s h⟩),
    sample_length z⟩

/-- The hypotheses of `C17_two_clocks` are met by the zone `1 < x0 < 3`, `x0 < x1 ≤ 4`. -/
example :
    let z : Zone := ((((Zone.top 3).tighten 0 1 (.fin (-1) false)).tighten 1 0 (.fin 3 false)).tighten 2 0
      (.fin 4 true)).tighten 1 2 (.fin 0 false)
    z.dim ≤ 3 ∧ z.isSatisfiable = true ∧ z.sample = [3 / 2, 2] := by decide +kernel

/-- C17: for every zone, with any number of clocks and strict bounds: the sample has one value for
each clock and misses no bound, except that a strict bound may be met with equality. -/
theorem C17_up_to_strictness (z : Zone) (hne : ∃ v, z.Mem v)
    (hnn : ∀ v, z.Mem v → ∀ i, i + 1 < z.dim → 0 ≤ v i) :
    z.sample.length = z.dim - 1 ∧ ∀ i < z.dim, ∀ j < z.dim, ∀ c s, z.val i j = .fin c s →
      Valuation.ext (fun k => z.sample.getD k 0) i - Valuation.ext (fun k => z.sample.getD k 0) j ≤ c := by
  obtain ⟨v, hv⟩ := hne
  have hcv := (canonize_mem _ _).2 hv
  have h := sample_mem_relax z ⟨v, hv.relax⟩ (fun u hu i hi => by
    rw [← canonize_mem, canonize_relax] at hu
    exact relax_nonneg (canonize_closed_of_mem hv) ⟨v, hcv⟩ (fun u hu i hi =>
      hnn u ((canonize_mem _ _).1 hu) i (by simpa using hi)) u hu i (by simpa using hi))
  refine ⟨sample_length z, fun i hi j hj c s hb => ?_⟩
  have := h i hi j hj
  rw [relax_val, hb] at this
  simpa using this

/-- A word with an action outside of the alphabet of the automaton is not accepted. -/
theorem accepts_over {A : TA} (hc : A.Closed) {alphabet : List Action}
    (ho : ∀ p ∈ A.states, ∀ a, (A.loc p).next a ≠ [] → a ∈ alphabet) {w : TimedWord} (hw : w.WF)
    (h : A.Accepts w) : ∀ a ∈ w.word, a ∈ alphabet := by
  obtain ⟨q, hq, c, hs, -⟩ := h
  have key : ∀ c es c', A.Steps c es c' → c.loc ∈ A.states → ∀ a, .act a ∈ es → a ∈ alphabet := by
    intro c es c' h
    induction h with
    | nil c => intro _ a h; cases h
    | eps t ht hg _ ih => intro hc' a ha; exact ih (hc.2 _ hc' _ t ht) a ha
    | delay d hd _ ih =>
      intro hc' a ha
      rcases List.mem_cons.1 ha with h | h
      · cases h
      · exact ih hc' a h
    | split d1 d2 h1 h2 _ ih =>
      intro hc' a ha
      rcases List.mem_cons.1 ha with h | h
      · cases h
      · exact ih hc' a (by simp [h])
    | act b hb t ht hg _ ih =>
      intro hc' a ha
      rcases List.mem_cons.1 ha with h | h
      · cases h
        exact ho _ hc' b (List.ne_nil_of_mem ht)
      · exact ih (hc.2 _ hc' _ t ht) a h
  intro a ha
  refine key _ _ _ hs (hc.1 q hq) a ?_
  have he : ∀ (as : List Action) (ds : List ℚ), ds.length = as.length + 1 → ∀ a ∈ as,
      Event.act a ∈ eventsOf as ds := by
    intro as
    induction as with
    | nil => intro _ _ a h; cases h
    | cons b as ih =>
      intro ds hl a ha
      match ds, hl with
      | d :: ds, hl =>
        rw [eventsOf]
        rcases List.mem_cons.1 ha with rfl | ha
        · simp
        · simp [ih ds (by simpa using hl) a ha]
  exact he _ _ hw a ha

theorem subset_reconstruct (Cm H : TA) (hC : Cm.WF) (hCe : Cm.EpsFree) (hH : H.WF) (hHe : H.EpsFree) :
    (Cm.UpdatesInOrder → H.UpdatesInOrder → (ComplementOracle.subsetTA Cm H).UpdatesInOrder) ∧
    (Cm.IntegerResets → H.IntegerResets → (ComplementOracle.subsetTA Cm H).IntegerResets) ∧
    (ComplementOracle.subsetTA Cm H).clockSize ≤ Cm.clockSize + H.clockSize := by
  have hI := C36_product_wf Cm H hC hH
  have hs := C34_simplify_language _ hI ⟨[], [0]⟩
  have he : (Cm.intersection H).simplifyStrong.EpsFree :=
    (TA.simplifyStrong_keeps _ hI).1 (C36_product_epsFree Cm H hCe hHe)
  have heq : ComplementOracle.subsetTA Cm H = (Cm.intersection H).simplifyStrong :=
    TA.addUpperBound_epsFree _ hs.2.2.2.nodup he
  rw [heq]
  obtain ⟨h1, h2, h3⟩ := TA.simplifyStrong_reconstruct _ hI
  refine ⟨fun k1 k2 => h1 (TA.intersection_inOrder hC.clocks k1 k2),
    fun k1 k2 => h2 (TA.intersection_intResets k1 k2), h3.trans (le_of_eq ?_)⟩
  simp [TA.clockSize, TA.intersection]

theorem superset_reconstruct (A H : TA) (alphabet : List Action) (hA : A.WF) (hAe : A.EpsFree)
    (hH : H.WF) (hHe : H.EpsFree) (hu : unobservable ∉ alphabet) :
    (A.UpdatesInOrder → H.UpdatesInOrder →
      (ComplementOracle.supersetTA A H alphabet).UpdatesInOrder) ∧
    (A.IntegerResets → H.IntegerResets →
      (ComplementOracle.supersetTA A H alphabet).IntegerResets) ∧
    (ComplementOracle.supersetTA A H alphabet).clockSize ≤ A.clockSize + H.clockSize := by
  have hc := TA.complement_wf H alphabet hH hHe
  have hce := TA.complement_epsFree H alphabet hH hHe hu
  obtain ⟨h1, h2, h3⟩ := subset_reconstruct A (H.complement alphabet) hA hAe hc hce
  have hw := (subset_language A (H.complement alphabet) hA hAe hc hce ⟨[], [0]⟩ rfl).2.1
  obtain ⟨g1, g2, g3⟩ := TA.simplify_reconstruct _ hw
  refine ⟨fun k1 k2 => g1 (h1 k1 (TA.complement_inOrder H alphabet hH hHe k2)),
    fun k1 k2 => g2 (h2 k1 (TA.complement_intResets H alphabet hH hHe k2)), g3.trans ?_⟩
  rw [TA.complement_clocks H alphabet hH hHe] at h3
  exact h3

/-- C67: the counterexamples of the complement-based oracle are genuine: a word it returns is over the
alphabet and is accepted by exactly one of the target and the hypothesis, if no update of the three
automata reads a clock that itself or an earlier one writes. -/
theorem C67_counterexample (target Cm H : TA) (alphabet : List Action)
    (hT : target.WF) (hTe : target.EpsFree) (hTo : target.UpdatesInOrder)
    (hTa : ∀ p ∈ target.states, ∀ a, (target.loc p).next a ≠ [] → a ∈ alphabet)
    (hC : Cm.WF) (hCe : Cm.EpsFree) (hCo : Cm.UpdatesInOrder)
    (hH : H.WF) (hHe : H.EpsFree) (hHo : H.UpdatesInOrder)
    (hHa : ∀ p ∈ H.states, ∀ a, (H.loc p).next a ≠ [] → a ∈ alphabet)
    (hdet : H.deterministic = true) (hi : H.init.length ≤ 1) (hu : unobservable ∉ alphabet)
    (hcompl : ∀ w : TimedWord, w.WF → w.Nonneg → (∀ a ∈ w.word, a ∈ alphabet) →
      (Cm.Accepts w ↔ ¬ target.Accepts w))
    (o : HashOrder) (fuel : ℕ) (w : TimedWord)
    (h : ComplementOracle.findCounterExample target Cm alphabet o fuel H = some (some w)) :
    w.WF ∧ w.Nonneg ∧ (∀ a ∈ w.word, a ∈ alphabet) ∧ (H.Accepts w ↔ ¬ target.Accepts w) := by
  have sub : ∀ w, ComplementOracle.sampleOf o fuel (ComplementOracle.subsetTA Cm H) = some (some w) →
      w.WF ∧ w.Nonneg ∧ Cm.Accepts w ∧ H.Accepts w := by
    intro w h
    unfold ComplementOracle.sampleOf at h
    obtain ⟨za, hza, hs⟩ := Option.map_eq_some_iff.1 h
    obtain ⟨r1, -, -⟩ := subset_reconstruct Cm H hC hCe hH hHe
    have hw := (subset_language Cm H hC hCe hH hHe ⟨[], [0]⟩ rfl).2.1
    obtain ⟨k1, -, k3, k4⟩ := C67_sampled _ hw (r1 hCo hHo) o true fuel za hza w hs
    exact ⟨k1, k3, (subset_language Cm H hC hCe hH hHe w k1).1.1 k4⟩
  have sup : ∀ w, ComplementOracle.sampleOf o fuel (ComplementOracle.supersetTA target H alphabet) =
      some (some w) → w.WF ∧ w.Nonneg ∧ target.Accepts w ∧ (H.complement alphabet).Accepts w := by
    intro w h
    unfold ComplementOracle.sampleOf at h
    obtain ⟨za, hza, hs⟩ := Option.map_eq_some_iff.1 h
    obtain ⟨r1, -, -⟩ := superset_reconstruct target H alphabet hT hTe hH hHe hu
    have hw := (superset_language target H alphabet hT hTe hH hHe hu ⟨[], [0]⟩ rfl).2.1
    obtain ⟨k1, -, k3, k4⟩ := C67_sampled _ hw (r1 hTo hHo) o true fuel za hza w hs
    exact ⟨k1, k3, (superset_language target H alphabet hT hTe hH hHe hu w k1).1.1 k4⟩
  unfold ComplementOracle.findCounterExample at h
  split at h
  · cases h
  · rename_i w' h1
    simp only [Option.some.injEq] at h
    subst h
    obtain ⟨k1, k2, k3, k4⟩ := sub _ h1
    have hov := accepts_over hH.closed hHa k1 k4
    exact ⟨k1, k2, hov, fun _ => (hcompl _ k1 k2 hov).1 k3, fun _ => k4⟩
  · obtain ⟨k1, k2, k3, k4⟩ := sup _ h
    have hov := accepts_over hT.closed hTa k1 k3
    have := (C31_complement_language H alphabet hH hHe hdet hu hi _ k1 hov k2).1 k4
    exact ⟨k1, k2, hov, fun h => absurd h this, fun h => absurd k3 h⟩

/-- C67 with C31: a deterministic target with the complement the code computes for it. -/
theorem C67_counterexample_computed (target H : TA) (alphabet : List Action)
    (hT : target.WF) (hTe : target.EpsFree) (hTo : target.UpdatesInOrder)
    (hTa : ∀ p ∈ target.states, ∀ a, (target.loc p).next a ≠ [] → a ∈ alphabet)
    (hTd : target.deterministic = true) (hT1 : target.init.length = 1)
    (hH : H.WF) (hHe : H.EpsFree) (hHo : H.UpdatesInOrder)
    (hHa : ∀ p ∈ H.states, ∀ a, (H.loc p).next a ≠ [] → a ∈ alphabet)
    (hdet : H.deterministic = true) (hi : H.init.length ≤ 1) (hu : unobservable ∉ alphabet)
    (o : HashOrder) (fuel : ℕ) (w : TimedWord)
    (h : ComplementOracle.findCounterExample target (target.complement alphabet) alphabet o fuel H =
      some (some w)) :
    w.WF ∧ w.Nonneg ∧ (∀ a ∈ w.word, a ∈ alphabet) ∧ (H.Accepts w ↔ ¬ target.Accepts w) :=
  C67_counterexample target _ H alphabet hT hTe hTo hTa (TA.complement_wf target alphabet hT hTe)
    (TA.complement_epsFree target alphabet hT hTe hu)
    (TA.complement_inOrder target alphabet hT hTe hTo) hH hHe hHo hHa hdet hi hu
    (fun w hw hnn hwd => C31_complement_language target alphabet hT hTe hTd hu hT1.le w hw hwd hnn)
    o fuel w h

/-! ### `validate` -/

theorem validateFrom_iff (ts : List Trans) (ds : List ℚ) (v : Valuation) (hl : ts.length ≤ ds.length)
    (hnn : ∀ d ∈ ds, 0 ≤ d) :
    SymRun.validateFrom ts ds v = true ↔ ∃ u, SymRun.Drives ts (ds.take ts.length) v u := by
  induction ts generalizing ds v with
  | nil => simp [SymRun.validateFrom, SymRun.Drives]
  | cons t ts ih =>
    cases ds with
    | nil => simp at hl
    | cons d ds =>
      simp only [SymRun.validateFrom, List.length_cons, List.take_succ_cons, SymRun.Drives]
      have h0 := hnn d (by simp)
      have hg := Guard.satisfy_iff t.guard (v.shift d)
      split
      · rename_i hs
        rw [ih ds _ (by simpa using hl) (fun x hx => hnn x (by simp [hx]))]
        constructor
        · rintro ⟨u, hu⟩; exact ⟨u, h0, hg.1 hs, hu⟩
        · rintro ⟨u, -, -, hu⟩; exact ⟨u, hu⟩
      · rename_i hs
        constructor
        · intro h; cases h
        · rintro ⟨u, -, h, -⟩; exact absurd (hg.2 h) hs

/-- The delays of a run along a path drive its transitions. -/
theorem drives_of_mrun {A : TA} {za : ZA} (hcl : za.Closed)
    (hedge : ∀ q ∈ za.states, ∀ a, ∀ e ∈ (za.loc q).next a,
      e.1 ∈ (A.loc (za.loc q).ta).next a ∧ (za.loc e.2).ta = e.1.target)
    {i j : ℕ} {l : List (Action × Trans)} (hi : i ∈ za.states) (hp : za.Path i l j)
    {ds : List ℚ} (hl : ds.length = l.length + 1) {v : Valuation} {c : Config}
    (h : A.MRun ⟨(za.loc i).ta, v⟩ (TA.timed l ds) c) :
    ∃ u, SymRun.Drives (l.map Prod.snd) (ds.take l.length) v u := by
  induction hp generalizing ds v with
  | nil p => exact ⟨v, by simp [SymRun.Drives]⟩
  | @cons p l q a t k he hr ih =>
    match ds, hl with
    | d :: ds, hl =>
      obtain ⟨e1, e2⟩ := hedge p hi a _ he
      simp only at e2
      simp only [TA.timed] at h
      cases h with
      | delay _ hd h =>
        have : t.guard.Holds (v.shift d) ∧
            A.MRun ⟨t.target, t.resets.apply (v.shift d)⟩ (TA.timed l ds) c := by
          by_cases ha : a = unobservable
          · rw [if_pos ha] at h
            cases h with
            | eps _ _ hg h => exact ⟨hg, h⟩
          · rw [if_neg ha] at h
            cases h with
            | act _ _ _ _ hg h => exact ⟨hg, h⟩
        obtain ⟨hg, h'⟩ := this
        rw [← e2] at h'
        obtain ⟨u, hu⟩ := ih (hcl.2 p hi a _ he) (by simpa using hl) h'
        exact ⟨u, by simpa [SymRun.Drives] using ⟨hd, hg, hu⟩⟩

/-- C67: `validate`, which builds with assertions call on each reconstructed word, is exact: for a
symbolic run along a path of the zone automaton it answers true on a list of delays if and only if
the timed automaton has a run that takes exactly these transitions with these delays before them. -/
theorem C67_validate (A : TA) (hA : A.WF) (o : HashOrder) (quick : Bool) (fuel : ℕ) (za : ZA)
    (h : ta2za A o quick fuel = some za) (i j : ℕ) (hi : i ∈ za.init) (l : List (Action × Trans))
    (hp : za.Path i l j) (r : SymRun) (hr : r.edges = l.map Prod.snd) (ds : List ℚ)
    (hl : ds.length = l.length + 1) (hnn : ∀ d ∈ ds, 0 ≤ d) :
    r.validate ds = true ↔
      ∃ c, A.MRun ⟨(za.loc i).ta, Valuation.zero⟩ (TA.timed l ds) c := by
  obtain ⟨c1, -, -, -, -, -, c7⟩ := C37_shape A hA o quick fuel za h
  unfold SymRun.validate
  rw [hr, validateFrom_iff _ _ _ (by simp [hl]) hnn, List.length_map]
  constructor
  · rintro ⟨u, hu⟩
    have e : ds = ds.take l.length ++ [ds.getLastD 0] := by
      have h1 : ds ≠ [] := by rintro rfl; simp at hl
      conv_lhs => rw [← List.dropLast_append_getLast h1]
      rw [List.dropLast_eq_take, hl, List.getLastD_eq_getLast?, List.getLast?_eq_getLast_of_ne_nil h1]
      rfl
    have hlast : 0 ≤ ds.getLastD 0 := by
      rw [List.getLastD_eq_getLast?]
      cases hx : ds.getLast? with
      | none => simp
      | some x => exact hnn x (List.mem_of_getLast? hx)
    have := TA.mrun_of_drives c1 c7 (c1.1 i hi) hp hu (ds.getLastD 0) hlast
    rw [← e] at this
    exact ⟨_, this⟩
  · rintro ⟨c, hc⟩
    exact drives_of_mrun c1 c7 (c1.1 i hi) hp hl hc

/-- C67: a word whose delays pass `validate` on a path to an accepting state is accepted, without any
assumption on the updates, guards and clocks: builds with assertions only return genuine words. -/
theorem C67_validated_accepted (A : TA) (hA : A.WF) (o : HashOrder) (quick : Bool) (fuel : ℕ)
    (za : ZA) (h : ta2za A o quick fuel = some za) (i j : ℕ) (hi : i ∈ za.init)
    (l : List (Action × Trans)) (hp : za.Path i l j) (hj : (za.loc j).isMatch = true) (r : SymRun)
    (hr : r.edges = l.map Prod.snd) (ds : List ℚ) (hl : ds.length = l.length + 1)
    (hnn : ∀ d ∈ ds, 0 ≤ d) (hv : r.validate ds = true) :
    A.Accepts (TimedWord.make (l.map Prod.fst) ds) := by
  obtain ⟨c, hc⟩ := (C67_validate A hA o quick fuel za h i j hi l hp r hr ds hl hnn).1 hv
  obtain ⟨c1, -, -, c4, -, c6, c7⟩ := C37_shape A hA o quick fuel za h
  obtain ⟨u, hu⟩ := drives_of_mrun c1 c7 (c1.1 i hi) hp hl hc
  have e : ds = ds.take l.length ++ [ds.getLastD 0] := by
    have h1 : ds ≠ [] := by rintro rfl; simp at hl
    conv_lhs => rw [← List.dropLast_append_getLast h1]
    rw [List.dropLast_eq_take, hl, List.getLastD_eq_getLast?, List.getLast?_eq_getLast_of_ne_nil h1]
    rfl
  have hlast : 0 ≤ ds.getLastD 0 := by
    rw [List.getLastD_eq_getLast?]
    cases hx : ds.getLast? with
    | none => simp
    | some x => exact hnn x (List.mem_of_getLast? hx)
  have := drives_accepted hA h hi hp hj hu _ hlast
  rwa [← e] at this

/-! ### Witnesses -/

/-- A deterministic automaton with two clocks.  The first transition copies clock 0 to clock 1 after
it has set clock 0 to zero (the updates are simultaneous, so clock 1 gets the old value). -/
def copyT : TA where
  loc
    | 0 => ⟨false, fun a => if a = actA then
        [⟨1, [(0, .const 0), (1, .clock 0)], [⟨0, .ge, 1⟩]⟩] else []⟩
    | 1 => ⟨false, fun a => if a = actA then
        [⟨2, [], [⟨1, .le, 5⟩, ⟨1, .ge, 5⟩, ⟨0, .le, 1⟩, ⟨0, .ge, 1⟩]⟩] else []⟩
    | _ => ⟨true, fun _ => []⟩
  states := [0, 1, 2]
  init := [0]
  maxC := [5, 5]

theorem copyT_ok : copyT.WF ∧ copyT.EpsFree ∧ copyT.ResetsOrdered ∧ copyT.deterministic = true ∧
    copyT.init.length = 1 ∧ copyT.IntegerResets := by
  refine ⟨wf_of_check (by decide +kernel), by unfold TA.EpsFree; decide +kernel, ?_, by decide +kernel,
    rfl, ?_⟩
  · intro p hp a t ht
    have h1 : ∀ p ∈ copyT.states, ∀ a, ∀ t ∈ (copyT.loc p).next a, t.resets = [] ∨
        t.resets = [(0, .const 0), (1, .clock 0)] := by decide +kernel
    rcases h1 p hp a t ht with h | h <;> rw [h] <;> simp [Zone.NoReadAfterWrite]
  · have : ∀ p ∈ copyT.states, ∀ a, ∀ t ∈ (copyT.loc p).next a, ∀ r ∈ t.resets,
        r.2 = .const 0 ∨ r.2 = .clock 0 := by decide +kernel
    intro p hp a t ht r hr q hq
    rcases this p hp a t ht r hr with h | h <;> rw [h] at hq <;> cases hq
    exact ⟨0, by simp⟩

set_option maxRecDepth 100000 in
/-- C67: the claim is false of the code in general: for a deterministic target with two clocks and
the complement the code computes, the oracle returns a word as counterexample to the automaton that
accepts nothing, although the target does not accept it either.  The only assumption of
`C67_counterexample_computed` that fails is that no update reads a clock that an earlier one
writes: `Zone::revertResets` loses that clock 1 has been copied from clock 0.  In a build with
assertions the program is aborted in `validate`. -/
theorem C67_spurious_witness :
    (copyT.WF ∧ copyT.EpsFree ∧ copyT.ResetsOrdered ∧ copyT.deterministic = true ∧
      copyT.init.length = 1 ∧ copyT.IntegerResets) ∧ copyT.clockSize + missH.clockSize = 2 ∧
    (missH.WF ∧ missH.EpsFree ∧ missH.ResetsOrdered ∧ missH.deterministic = true ∧
      missH.init.length = 1) ∧
    ComplementOracle.findCounterExample copyT (copyT.complement [actA]) [actA] exOrder 30 missH =
      some (some ⟨[actA, actA], [1, 1, 0]⟩) ∧
    ¬ copyT.Accepts ⟨[actA, actA], [1, 1, 0]⟩ ∧ ∀ w, ¬ missH.Accepts w := by
  refine ⟨copyT_ok, rfl, missH_ok, by decide +kernel, ?_, ?_⟩
  · obtain ⟨h1, h2, -, h4, h5, -⟩ := copyT_ok
    obtain ⟨r, b, e1, e2⟩ := C30_membership_exact copyT h1 h2 h4 (.inl h5) 0 (Runner.start copyT)
      ⟨[actA, actA], [1, 1, 0]⟩ rfl
      (by unfold TimedWord.Observable; decide) (by unfold TimedWord.Nonneg; decide +kernel)
    have : (Runner.answerQuery copyT 1 (Runner.start copyT)
      ⟨[actA, actA], [1, 1, 0]⟩).map (·.2) = some false := by decide +kernel
    rw [e1] at this
    simp only [Option.map_some, Option.some.injEq] at this
    intro h
    have := e2.2 h
    simp_all
  · rintro w ⟨q, -, c, -, hm⟩
    cases hm

/-- A deterministic automaton with two clocks that meets the assumptions: strict guards, a clock
copied before it is reset. -/
def twoT : TA where
  loc
    | 0 => ⟨false, fun a => if a = actA then
        [⟨1, [(1, .clock 0), (0, .const 0)], [⟨0, .gt, 1⟩]⟩] else []⟩
    | 1 => ⟨false, fun a => if a = actA then
        [⟨2, [], [⟨1, .gt, 3⟩, ⟨1, .lt, 4⟩, ⟨0, .ge, 1⟩]⟩] else []⟩
    | _ => ⟨true, fun _ => []⟩
  states := [0, 1, 2]
  init := [0]
  maxC := [1, 4]

theorem twoT_ok : twoT.WF ∧ twoT.EpsFree ∧ twoT.UpdatesInOrder ∧ twoT.IntegerResets ∧
    twoT.deterministic = true ∧ twoT.init.length = 1 ∧
    ∀ p ∈ twoT.states, ∀ a, (twoT.loc p).next a ≠ [] → a ∈ [actA] := by
  refine ⟨wf_of_check (by decide +kernel), by unfold TA.EpsFree; decide +kernel,
    by unfold TA.UpdatesInOrder; decide +kernel, ?_, by decide +kernel, rfl, ?_⟩
  · have : ∀ p ∈ twoT.states, ∀ a, ∀ t ∈ (twoT.loc p).next a, ∀ r ∈ t.resets,
        r.2 = .const 0 ∨ r.2 = .clock 0 := by decide +kernel
    intro p hp a t ht r hr q hq
    rcases this p hp a t ht r hr with h | h <;> rw [h] at hq <;> cases hq
    exact ⟨0, by simp⟩
  · have : ∀ p ∈ twoT.states, ∀ a, ((twoT.loc p).next a).isEmpty = true ∨ a = actA := by
      decide +kernel
    intro p hp a hne
    rcases this p hp a with h | h
    · exact absurd (List.isEmpty_iff.1 h) hne
    · simp [h]

set_option maxRecDepth 100000 in
/-- The hypotheses of `C67_counterexample_computed` are met, and a word is returned. -/
example : missH.UpdatesInOrder ∧
    ComplementOracle.findCounterExample twoT (twoT.complement [actA]) [actA] exOrder 30 missH =
      some (some ⟨[actA, actA], [5 / 2, 1, 0]⟩) := by
  refine ⟨fun p hp a t ht => (by cases ht), by decide +kernel⟩

/-- Three clocks, strict guards; the clocks are set to any number. -/
def threeT : TA where
  loc
    | 0 => ⟨false, fun a => if a = actA then [⟨1, [(1, .const (1 / 3))], [⟨2, .gt, 1⟩]⟩] else []⟩
    | 1 => ⟨false, fun a => if a = actA then [⟨2, [(0, .clock 2), (2, .const 0)], [⟨1, .ge, 1⟩]⟩] else []⟩
    | 2 => ⟨false, fun a => if a = actA then [⟨3, [], [⟨0, .lt, 3⟩, ⟨2, .gt, 0⟩]⟩] else []⟩
    | _ => ⟨true, fun _ => []⟩
  states := [0, 1, 2, 3]
  init := [0]
  maxC := [3, 1, 1]

set_option maxRecDepth 100000 in
/-- The hypotheses of `C67_sampled` are met, and a word is sampled. -/
example : threeT.WF ∧ threeT.UpdatesInOrder ∧
    (ComplementOracle.sampleOf exOrder 30 threeT).map (·.map (·.word)) = some (some [actA, actA, actA]) := by
  refine ⟨wf_of_check (by decide +kernel), by unfold TA.UpdatesInOrder; decide +kernel,
    by decide +kernel⟩

end Props
end LearnTA
