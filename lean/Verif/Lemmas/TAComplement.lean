import Verif.Lemmas.TAComplete

namespace LearnTA
namespace TA

theorem flipAll_eq (A : TA) (hn : A.states.Nodup) : A.flipAll =
    { A with loc := fun p => if p ∈ A.states then
        { A.loc p with isMatch := !(A.loc p).isMatch } else A.loc p } :=
  foldl_setLoc (fun s => { s with isMatch := !s.isMatch }) A.states A hn

theorem flipAll_wf (A : TA) (hw : A.WF) : A.flipAll.WF := by
  rw [flipAll_eq A hw.nodup]
  have hnx : ∀ p a, ((if p ∈ A.states then
      ({ A.loc p with isMatch := !(A.loc p).isMatch } : TAState) else A.loc p)).next a =
      (A.loc p).next a := by intro p a; split <;> rfl
  refine ⟨hw.nodup, ⟨hw.closed.1, ?_⟩, ?_, ?_, ?_⟩ <;> intro p hp a t ht <;>
    simp only [hnx] at ht
  · exact hw.closed.2 p hp a t ht
  · exact hw.clocks p hp a t ht
  · exact hw.resets p hp a t ht
  · exact hw.small p hp a t ht

theorem flipAll_next (A : TA) (hn : A.states.Nodup) (p : ℕ) (a : Action) :
    (A.flipAll.loc p).next a = (A.loc p).next a := by
  rw [flipAll_eq A hn]
  simp only
  split <;> rfl

theorem flipAll_isMatch (A : TA) (hn : A.states.Nodup) {p : ℕ} (hp : p ∈ A.states) :
    (A.flipAll.loc p).isMatch = !(A.loc p).isMatch := by
  rw [flipAll_eq A hn]
  simp [hp]

theorem flipAll_states (A : TA) (hn : A.states.Nodup) : A.flipAll.states = A.states := by
  rw [flipAll_eq A hn]

section
variable (A : TA) (alphabet : List Action)

/-- The sink of the complement. -/
def sink : ℕ := A.deepCopy.fresh

theorem complement_wf (hw : A.WF) (he : A.EpsFree) : (A.complement alphabet).WF :=
  flipAll_wf _ (makeComplete_wf _ alphabet (deepCopy_wf A hw) (deepCopy_epsFree A hw.nodup he))

theorem complement_states (hw : A.WF) (he : A.EpsFree) :
    (A.complement alphabet).states = A.deepCopy.states ++ [A.sink] := by
  unfold complement
  rw [flipAll_states _ (makeComplete_wf _ alphabet (deepCopy_wf A hw)
    (deepCopy_epsFree A hw.nodup he)).nodup, makeComplete_states _ _ (deepCopy_wf A hw).nodup]
  rfl

theorem complement_next (hw : A.WF) (he : A.EpsFree) (p : ℕ) (a : Action) :
    ((A.complement alphabet).loc p).next a = ((A.deepCopy.makeComplete alphabet).loc p).next a :=
  flipAll_next _ (makeComplete_wf _ alphabet (deepCopy_wf A hw)
    (deepCopy_epsFree A hw.nodup he)).nodup p a

theorem complement_epsFree (hw : A.WF) (he : A.EpsFree) (hu : unobservable ∉ alphabet) :
    (A.complement alphabet).EpsFree := by
  intro p hp
  rw [complement_next A alphabet hw he]
  have := makeComplete_epsFree _ alphabet (deepCopy_wf A hw) (deepCopy_epsFree A hw.nodup he) hu
  refine this p ?_
  rw [complement_states A alphabet hw he] at hp
  rw [makeComplete_states _ _ (deepCopy_wf A hw).nodup]; exact hp

theorem complement_confluent (hw : A.WF) (he : A.EpsFree) (hc : A.Confluent) :
    (A.complement alphabet).Confluent := by
  intro p hp a
  rw [complement_next A alphabet hw he]
  have := makeComplete_confluent _ alphabet (deepCopy_wf A hw) (deepCopy_epsFree A hw.nodup he)
    (deepCopy_confluent A hw.nodup hc)
  refine this p ?_ a
  rw [complement_states A alphabet hw he] at hp
  rw [makeComplete_states _ _ (deepCopy_wf A hw).nodup]; exact hp

theorem complement_isMatch_old (hw : A.WF) (he : A.EpsFree) {p : ℕ} (hp : p ∈ A.states) :
    ((A.complement alphabet).loc (A.old2new p)).isMatch = !(A.loc p).isMatch := by
  have hd := deepCopy_wf A hw
  have hde := deepCopy_epsFree A hw.nodup he
  have hp' : A.old2new p ∈ A.deepCopy.states := (mem_deepCopy_states A hw.nodup).2 ⟨p, hp, rfl⟩
  unfold complement
  rw [flipAll_isMatch _ (makeComplete_wf _ alphabet hd hde).nodup,
    (makeComplete_old _ alphabet hd hde hp').1, deepCopy_loc A hp]
  rw [makeComplete_states _ _ hd.nodup]; simp [hp']

theorem complement_isMatch_sink (hw : A.WF) (he : A.EpsFree) :
    ((A.complement alphabet).loc A.sink).isMatch = true := by
  have hd := deepCopy_wf A hw
  have hde := deepCopy_epsFree A hw.nodup he
  unfold complement
  rw [flipAll_isMatch _ (makeComplete_wf _ alphabet hd hde).nodup]
  · have := (makeComplete_sink _ alphabet hd).1
    unfold sink
    rw [this]; rfl
  · rw [makeComplete_states _ _ hd.nodup]; simp [sink]

theorem find_none_iff (ts : List Trans) (v : Valuation) :
    ts.find? (fun t => t.guard.satisfy v) = none ↔ ¬ Enabled ts v := by
  rw [List.find?_eq_none]
  simp only [Enabled, not_exists, not_and, Guard.satisfy_iff]

theorem find_sink {N s : ℕ} {ts extra : List Trans} (h : Fills N s ts extra) {v : Valuation}
    (hv : v.Nonneg) (hno : ¬ Enabled ts v) :
    ∃ g, (ts ++ extra).find? (fun t => t.guard.satisfy v) = some ⟨s, [], g⟩ := by
  rw [List.find?_append, (find_none_iff ts v).2 hno]
  obtain ⟨t, ht, hg⟩ := (h.compl v hv).2 hno
  cases hf : extra.find? (fun t => t.guard.satisfy v) with
  | none => exact absurd ⟨t, ht, hg⟩ ((find_none_iff extra v).1 hf)
  | some u =>
    obtain ⟨h1, h2, -⟩ := h.shape u (List.mem_of_find?_eq_some hf)
    rcases u with ⟨tg, rs, g⟩
    simp only at h1 h2
    subst h1 h2
    exact ⟨g, rfl⟩

theorem complement_find (hw : A.WF) (he : A.EpsFree) {p : ℕ} (hp : p ∈ A.states) {a : Action}
    (ha : a ∈ alphabet) {v : Valuation} (hv : v.Nonneg) :
    match ((A.loc p).next a).find? (fun t => t.guard.satisfy v) with
    | some t => ((A.complement alphabet).loc (A.old2new p)).next a |>.find?
        (fun t => t.guard.satisfy v) |> (· = some { t with target := A.old2new t.target })
    | none => ∃ g, (((A.complement alphabet).loc (A.old2new p)).next a).find?
        (fun t => t.guard.satisfy v) = some ⟨A.sink, [], g⟩ := by
  have hd := deepCopy_wf A hw
  have hde := deepCopy_epsFree A hw.nodup he
  have hp' : A.old2new p ∈ A.deepCopy.states := (mem_deepCopy_states A hw.nodup).2 ⟨p, hp, rfl⟩
  have h2 := (makeComplete_old _ alphabet hd hde hp').2 a
  rw [if_pos ha] at h2
  obtain ⟨extra, e, f⟩ := h2
  rw [complement_next A alphabet hw he, e]
  have hcopy : ((A.deepCopy.loc (A.old2new p)).next a).find? (fun t => t.guard.satisfy v) =
      (((A.loc p).next a).find? (fun t => t.guard.satisfy v)).map
        fun t => { t with target := A.old2new t.target } := by
    rw [deepCopy_loc A hp]
    simp only [List.find?_map]
    rfl
  cases hf : ((A.loc p).next a).find? (fun t => t.guard.satisfy v) with
  | some t =>
    simp only
    rw [List.find?_append, hcopy, hf]
    rfl
  | none =>
    simp only
    rw [hf] at hcopy
    exact find_sink f hv ((find_none_iff _ _).1 hcopy)

theorem complement_find_sink (hw : A.WF) (he : A.EpsFree) {a : Action}
    (ha : a ∈ alphabet) {v : Valuation} (hv : v.Nonneg) :
    ∃ g, (((A.complement alphabet).loc A.sink).next a).find?
        (fun t => t.guard.satisfy v) = some ⟨A.sink, [], g⟩ := by
  have hd := deepCopy_wf A hw
  have h2 := (makeComplete_sink _ alphabet hd).2 a
  rw [if_pos ha] at h2
  rw [complement_next A alphabet hw he]
  exact find_sink h2 hv (by simp [Enabled])

/-- The states of the two runners correspond. -/
def CompRel (r s : Runner) : Prop :=
  s.val.Nonneg ∧ ((∃ p ∈ A.states, r.loc = some p ∧ s.loc = some (A.old2new p) ∧ s.val = r.val) ∨
    (r.loc = none ∧ s.loc = some A.sink))

theorem complement_nonempty (hw : A.WF) (he : A.EpsFree) :
    (A.complement alphabet).states.isEmpty = false := by
  rw [complement_states A alphabet hw he]
  cases A.deepCopy.states <;> rfl

theorem comp_delay (hw : A.WF) (he : A.EpsFree) (hu : unobservable ∉ alphabet) (fuel : ℕ)
    (r s : Runner) (h : A.CompRel r s) (d : ℚ) (hd0 : 0 ≤ d) :
    ∃ r' s' b, Runner.stepDelay A (fuel + 1) r d = some (r', b) ∧
      Runner.stepDelay (A.complement alphabet) (fuel + 1) s d = some (s', !b) ∧
      A.CompRel r' s' := by
  have hce := complement_epsFree A alphabet hw he hu
  obtain ⟨hv, h⟩ := h
  rcases h with ⟨p, hp, h1, h2, h3⟩ | ⟨h1, h2⟩
  · have hp' : A.old2new p ∈ (A.complement alphabet).states := by
      rw [complement_states A alphabet hw he]
      simp [(mem_deepCopy_states A hw.nodup).2 ⟨p, hp, rfl⟩]
    rw [Runner.stepDelay_plain A he fuel r p hp h1, Runner.stepDelay_plain _ hce fuel s _ hp' h2,
      complement_isMatch_old A alphabet hw he hp]
    exact ⟨_, _, _, rfl, rfl, hv.shift hd0, Or.inl ⟨p, hp, h1, h2, by simp only [h3]⟩⟩
  · have hp' : A.sink ∈ (A.complement alphabet).states := by
      rw [complement_states A alphabet hw he]; simp
    rw [Runner.stepDelay_none A fuel r h1, Runner.stepDelay_plain _ hce fuel s _ hp' h2,
      complement_isMatch_sink A alphabet hw he]
    exact ⟨_, _, _, rfl, rfl, hv.shift hd0, Or.inr ⟨h1, h2⟩⟩

theorem comp_act (hw : A.WF) (he : A.EpsFree) {a : Action} (ha : a ∈ alphabet)
    (r s : Runner) (h : A.CompRel r s) :
    A.CompRel (Runner.stepAct A r a).1 (Runner.stepAct (A.complement alphabet) s a).1 := by
  obtain ⟨hv, h⟩ := h
  rcases h with ⟨p, hp, h1, h2, h3⟩ | ⟨h1, h2⟩
  · have hne : A.states.isEmpty = false := by
      cases hs : A.states with
      | nil => rw [hs] at hp; simp at hp
      | cons => rfl
    have hf := complement_find A alphabet hw he hp ha (v := r.val) (by rw [← h3]; exact hv)
    simp only [Runner.stepAct, hne, complement_nonempty A alphabet hw he, Bool.false_eq_true,
      if_false, h1, h2, h3]
    cases hfa : ((A.loc p).next a).find? (fun t => t.guard.satisfy r.val) with
    | none =>
      rw [hfa] at hf
      obtain ⟨g, hg⟩ := hf
      rw [hg]
      exact ⟨by simp only [Resets.apply, List.foldl_nil]; rw [← h3]; exact hv, Or.inr ⟨rfl, rfl⟩⟩
    | some t =>
      rw [hfa] at hf
      simp only at hf
      rw [hf]
      have htm := List.mem_of_find?_eq_some hfa
      refine ⟨Resets.apply_nonneg _ _ (by rw [← h3]; exact hv) (hw.resets p hp a t htm), Or.inl
        ⟨t.target, hw.closed.2 p hp a t htm, rfl, rfl, rfl⟩⟩
  · obtain ⟨g, hg⟩ := complement_find_sink A alphabet hw he ha hv
    rw [Runner.stepAct_none A r h1]
    simp only [Runner.stepAct, complement_nonempty A alphabet hw he, Bool.false_eq_true, if_false,
      h2, hg]
    exact ⟨by simp only [Resets.apply, List.foldl_nil]; exact hv, Or.inr ⟨h1, rfl⟩⟩

theorem comp_runFrom (hw : A.WF) (he : A.EpsFree) (hu : unobservable ∉ alphabet) (fuel : ℕ)
    (as : List Action) (ds : List ℚ) (has : ∀ a ∈ as, a ∈ alphabet) (hds : ∀ d ∈ ds, 0 ≤ d)
    (r s : Runner) (b : Bool) (h : A.CompRel r s) :
    ∃ r' s' b', Runner.runFrom A (fuel + 1) r b as ds = some (r', b') ∧
      Runner.runFrom (A.complement alphabet) (fuel + 1) s (!b) as ds = some (s', !b') := by
  induction as generalizing ds r s b with
  | nil => cases ds <;> exact ⟨r, s, b, rfl, rfl⟩
  | cons a as ih =>
    cases ds with
    | nil => exact ⟨r, s, b, rfl, rfl⟩
    | cons d ds =>
      simp only [Runner.runFrom]
      obtain ⟨r', s', b', e1, e2, hr⟩ := comp_delay A alphabet hw he hu fuel _ _
        (comp_act A alphabet hw he (has a (by simp)) r s h) d (hds d (by simp))
      rw [e1, e2]
      exact ih ds (fun a ha => has a (by simp [ha])) (fun d hd => hds d (by simp [hd])) r' s' b' hr

/-- The runner on the complement gives the opposite answer, for every automaton without silent
transitions (deterministic or not). -/
theorem complement_answerQuery (hw : A.WF) (he : A.EpsFree) (hu : unobservable ∉ alphabet)
    (hi : A.init ≠ []) (fuel : ℕ) (r s : Runner) (w : TimedWord)
    (hwd : ∀ a ∈ w.word, a ∈ alphabet) (hnn : w.Nonneg) :
    ∃ r' s' b, Runner.answerQuery A (fuel + 1) r w = some (r', b) ∧
      Runner.answerQuery (A.complement alphabet) (fuel + 1) s w = some (s', !b) := by
  cases hl : A.init with
  | nil => exact absurd hl hi
  | cons q l =>
    have hq : q ∈ A.states := hw.closed.1 q (by simp [hl])
    have hne : A.states.isEmpty = false := by
      cases hs : A.states with
      | nil => rw [hs] at hq; simp at hq
      | cons => rfl
    have hci : (A.complement alphabet).init = A.init.map A.old2new := by
      have hd := deepCopy_wf A hw
      unfold complement
      rw [flipAll_eq _ (makeComplete_wf _ alphabet hd (deepCopy_epsFree A hw.nodup he)).nodup,
        makeComplete_eq _ _ hd.nodup]
      simp only
      rw [if_neg]
      · rfl
      · simp [deepCopy, hi]
    have hrel : A.CompRel (Runner.pre A r) (Runner.pre (A.complement alphabet) s) := by
      simp only [Runner.pre, hne, complement_nonempty A alphabet hw he, Bool.false_eq_true,
        if_false, hci, hl]
      exact ⟨Valuation.Nonneg.zero, Or.inl ⟨q, hq, rfl, rfl, rfl⟩⟩
    have hd0 : 0 ≤ w.durations.headD 0 := by
      rcases w with ⟨as, _ | ⟨d, ds⟩⟩
      · simp
      · exact hnn d (by simp)
    unfold Runner.answerQuery
    obtain ⟨r', s', b, e1, e2, h'⟩ := comp_delay A alphabet hw he hu fuel _ _ hrel _ hd0
    rw [e1, e2]
    simp only
    obtain ⟨r2, s2, b2, f1, f2⟩ := comp_runFrom A alphabet hw he hu fuel w.word w.durations.tail
      hwd (fun d hd => hnn d (List.mem_of_mem_tail hd)) r' s' b h'
    rw [f1, f2]
    exact ⟨_, _, _, rfl, rfl⟩

/-- A run of the complement that starts in the sink accepts. -/
theorem comp_runFrom_none (as : List Action) (ds : List ℚ) (fuel : ℕ) (r : Runner) (h : r.loc = none) :
    ∃ r', Runner.runFrom A (fuel + 1) r false as ds = some (r', false) := by
  induction as generalizing ds r with
  | nil => cases ds <;> exact ⟨r, rfl⟩
  | cons a as ih =>
    cases ds with
    | nil => exact ⟨r, rfl⟩
    | cons d ds =>
      simp only [Runner.runFrom]
      rw [Runner.stepAct_none A r h, Runner.stepDelay_none A fuel r h]
      exact ih ds r h

/-- Without an initial state: the complement accepts all words over the alphabet. -/
theorem complement_accepts_all (hw : A.WF) (he : A.EpsFree) (hc : A.Confluent)
    (hu : unobservable ∉ alphabet) (hi : A.init = []) (w : TimedWord) (hwf : w.WF)
    (hwd : ∀ a ∈ w.word, a ∈ alphabet) (hnn : w.Nonneg) : (A.complement alphabet).Accepts w := by
  have hobs : w.Observable := fun a ha e => hu (e ▸ hwd a ha)
  have hci : (A.complement alphabet).init = [A.sink] := by
    have hd := deepCopy_wf A hw
    unfold complement
    rw [flipAll_eq _ (makeComplete_wf _ alphabet hd (deepCopy_epsFree A hw.nodup he)).nodup,
      makeComplete_eq _ _ hd.nodup]
    simp only
    rw [if_pos]
    · rfl
    · simp [deepCopy, hi]
  obtain ⟨r2, b2, e2, f2⟩ := Runner.answerQuery_correct (A.complement alphabet)
    (complement_wf A alphabet hw he) (complement_epsFree A alphabet hw he hu)
    (complement_confluent A alphabet hw he hc) _ hci 0 (Runner.start A) w hwf hobs hnn
  refine f2.1 ?_
  let r : Runner := ⟨none, Valuation.zero, 0⟩
  have hrel : A.CompRel r (Runner.pre (A.complement alphabet) (Runner.start A)) := by
    simp only [Runner.pre, complement_nonempty A alphabet hw he, Bool.false_eq_true, if_false, hci]
    exact ⟨Valuation.Nonneg.zero, Or.inr ⟨rfl, rfl⟩⟩
  have hd0 : 0 ≤ w.durations.headD 0 := by
    rcases w with ⟨as, _ | ⟨d, ds⟩⟩
    · simp
    · exact hnn d (by simp)
  obtain ⟨r', s', b, k1, k2, h'⟩ := comp_delay A alphabet hw he hu 0 _ _ hrel _ hd0
  rw [Runner.stepDelay_none A 0 r rfl] at k1
  cases k1
  obtain ⟨r3, s3, b3, g1, g2⟩ := comp_runFrom A alphabet hw he hu 0 w.word w.durations.tail
    hwd (fun d hd => hnn d (List.mem_of_mem_tail hd)) r s' false h'
  obtain ⟨r4, g4⟩ := comp_runFrom_none A w.word w.durations.tail 0 r rfl
  rw [g4] at g1
  cases g1
  unfold Runner.answerQuery at e2
  rw [k2] at e2
  simp only at e2
  rw [g2] at e2
  simp only [Option.map_some, Option.some.injEq, Prod.mk.injEq, Bool.not_false] at e2
  exact e2.2.symm

/-- The complement accepts exactly the other words (standard semantics). -/
theorem complement_accepts (hw : A.WF) (he : A.EpsFree) (hc : A.Confluent)
    (hu : unobservable ∉ alphabet) (hi : A.init.length ≤ 1) (w : TimedWord) (hwf : w.WF)
    (hwd : ∀ a ∈ w.word, a ∈ alphabet) (hnn : w.Nonneg) :
    (A.complement alphabet).Accepts w ↔ ¬ A.Accepts w := by
  cases hil : A.init with
  | nil =>
    refine iff_of_true (complement_accepts_all A alphabet hw he hc hu hil w hwf hwd hnn) ?_
    rintro ⟨q, hq, -⟩
    rw [hil] at hq; cases hq
  | cons q l =>
  have hq : A.init = [q] := by
    rw [hil] at hi ⊢
    cases l with
    | nil => rfl
    | cons => simp at hi
  have hobs : w.Observable := fun a ha e => hu (e ▸ hwd a ha)
  obtain ⟨r1, b1, e1, f1⟩ := Runner.answerQuery_correct A hw he hc q hq 0 (Runner.start A) w hwf
    hobs hnn
  have hci : (A.complement alphabet).init = [A.old2new q] := by
    have hd := deepCopy_wf A hw
    unfold complement
    rw [flipAll_eq _ (makeComplete_wf _ alphabet hd (deepCopy_epsFree A hw.nodup he)).nodup,
      makeComplete_eq _ _ hd.nodup]
    simp only
    rw [if_neg]
    · simp [deepCopy, hq]
    · simp [deepCopy, hq]
  obtain ⟨r2, b2, e2, f2⟩ := Runner.answerQuery_correct (A.complement alphabet)
    (complement_wf A alphabet hw he) (complement_epsFree A alphabet hw he hu)
    (complement_confluent A alphabet hw he hc) _ hci 0 (Runner.start A) w hwf hobs hnn
  obtain ⟨r', s', b, g1, g2⟩ := complement_answerQuery A alphabet hw he hu (by rw [hq]; simp) 0
    (Runner.start A) (Runner.start A) w hwd hnn
  rw [g1] at e1
  rw [g2] at e2
  simp only [Option.some.injEq, Prod.mk.injEq] at e1 e2
  rw [← f1, ← f2, ← e1.2, ← e2.2]
  cases b <;> simp

end
end TA
end LearnTA
