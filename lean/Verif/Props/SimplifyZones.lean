import Verif.Lemmas.SimplifyZones
import Verif.Lemmas.Ta2zaReach
import Verif.Props.ZoneAutomaton

/-!
# Properties of `simplifyWithZones` and of the added upper bounds (C54, C55)
-/

namespace LearnTA.Props

open LearnTA

/-! ## C54 -/

/-- Only the actions `ZoneAutomaton` has room for occur. -/
def CharActions (A : TA) : Prop :=
  ∀ p ∈ A.states, ∀ a, (A.loc p).next a ≠ [] → a.val < 127

theorem abstracts (A : TA) (hA : A.WF) (o : HashOrder) (quick : Bool) (fuel : ℕ) (za : ZA)
    (h : ta2za A o quick fuel = some za) : TA.Abstracts za.removeDeadStates A := by
  obtain ⟨hc, -, -, -, -, h6, h7⟩ := C37_shape A hA o quick fuel za h
  obtain ⟨s1, s2, s3⟩ := C38_states za hc
  refine ⟨(C38_paths za hc).1, fun q hq => ?_, fun q hq a e he => ?_⟩
  · rw [(s3 q).2.1]; exact (h6 q ((s1 q).1 hq).1).1
  · rw [(s3 e.2).2.1]
    exact (h7 q ((s1 q).1 hq).1 a e ((ZA.removeDead_next za hc hq a e).1 he).1).2

/-- C54: simplification by zones keeps the language and well-formedness. -/
theorem C54_language (A : TA) (hA : A.WF) (ho : A.ResetsOrdered) (hch : CharActions A)
    (o : HashOrder) (fuel : ℕ) (B : TA) (h : A.simplifyWithZones o fuel = some B) (w : TimedWord)
    (hw : w.WF) : (B.Accepts w ↔ A.Accepts w) ∧ B.WF := by
  unfold TA.simplifyWithZones at h
  obtain ⟨za, hza, rfl⟩ := Option.map_eq_some_iff.1 h
  have hab := abstracts A hA o false fuel za hza
  have hc := (C37_shape A hA o false fuel za hza).1
  refine ⟨⟨TA.keepLive_accepts_of hA hab w, fun hacc => ?_⟩, TA.keepLive_wf hA hab⟩
  obtain ⟨q, hq, c, ms, h1, h2, h3⟩ := (TA.accepts_iff_micro A w hw).1 hacc
  obtain ⟨i, hi, hiq, j, hj, hp, hjc, -⟩ :=
    C37_runs_simulated A hA ho o false fuel za hza (.inl rfl) q hq ms c h1
  have hjm : (za.loc j).isMatch = true := by
    rw [((C37_shape A hA o false fuel za hza).2.2.2.2.2.1 j hj).2.2, hjc, h3]
  obtain ⟨hi', hp', -⟩ := ((C38_paths za hc).2 (TA.discrete ms) i j).2 ⟨hi, hp, hjm⟩
  have hia : (za.removeDeadStates.loc i).ta = q := by rw [((C38_states za hc).2.2 i).2.1, hiq]
  have his := hab.closed.1 i hi'
  have hact : ∀ (c : Config) (ms : List TA.Micro) (c' : Config), A.MRun c ms c' → c.loc ∈ A.states →
      ∀ x ∈ TA.discrete ms, x.1.val < 127 := by
    intro c ms c' hr
    induction hr with
    | nil c => intro _ x hx; cases hx
    | delay d hd _ ih => exact ih
    | eps t ht hg _ ih =>
      intro hc x hx
      simp only [TA.discrete, List.mem_cons] at hx
      rcases hx with rfl | hx
      · exact hch _ hc _ (List.ne_nil_of_mem ht)
      · exact ih (hA.closed.2 _ hc _ t ht) x hx
    | act a ha t ht hg _ ih =>
      intro hc x hx
      simp only [TA.discrete, List.mem_cons] at hx
      rcases hx with rfl | hx
      · exact hch _ hc _ (List.ne_nil_of_mem ht)
      · exact ih (hA.closed.2 _ hc _ t ht) x hx
  have hq' := hA.closed.1 q hq
  have hrun := TA.keepLive_run hA hab h1 hq' i j his hia hp' (hact _ _ _ h1 hq')
  obtain ⟨k1, k2, k3, k4, k5⟩ := TA.keepLive_eq hA hab
  refine (TA.accepts_iff_micro _ w hw).2 ⟨q, ?_, c, ms, hrun, h2, by rw [k4]; exact h3⟩
  rw [k2]
  exact List.mem_filter.2 ⟨hq, by simpa using ⟨i, his, hia⟩⟩

/-- C54: nothing is invented: the result consists of states and transitions of the given automaton,
with the same acceptance. -/
theorem C54_part (A : TA) (hA : A.WF) (o : HashOrder) (fuel : ℕ) (B : TA)
    (h : A.simplifyWithZones o fuel = some B) :
    B.states.Sublist A.states ∧ (∀ q ∈ B.init, q ∈ A.init) ∧ B.maxC = A.maxC ∧
    (∀ p ∈ B.states, (B.loc p).isMatch = (A.loc p).isMatch ∧
      ∀ a, ((B.loc p).next a).Sublist ((A.loc p).next a)) := by
  unfold TA.simplifyWithZones at h
  obtain ⟨za, hza, rfl⟩ := Option.map_eq_some_iff.1 h
  have hab := abstracts A hA o false fuel za hza
  have hs := TA.keepLive_sub hA hab
  obtain ⟨k1, k2, k3, k4, k5⟩ := TA.keepLive_eq hA hab
  exact ⟨hs.states, hs.init, k3, fun p hp => ⟨k4 p, hs.next p hp⟩⟩

/-- C54: what remains is needed: every remaining state is reached by a run, and from it an accepting
state can be reached in the graph; every remaining transition leads to a remaining state. -/
theorem C54_live (A : TA) (hA : A.WF) (ho : A.ResetsOrdered) (hm : A.MaxOK) (o : HashOrder)
    (fuel : ℕ) (B : TA) (h : A.simplifyWithZones o fuel = some B) (p : ℕ) (hp : p ∈ B.states) :
    (∃ v, A.Reach ⟨p, v⟩) ∧ ∃ q, Relation.ReflTransGen A.Edge p q ∧ (A.loc q).isMatch = true := by
  unfold TA.simplifyWithZones at h
  obtain ⟨za, hza, rfl⟩ := Option.map_eq_some_iff.1 h
  have hab := abstracts A hA o false fuel za hza
  obtain ⟨hc, -, -, -, -, h6, h7⟩ := C37_shape A hA o false fuel za hza
  obtain ⟨s1, s2, s3⟩ := C38_states za hc
  rw [(TA.keepLive_eq hA hab).1] at hp
  obtain ⟨q, hq, hqp⟩ : ∃ q ∈ za.removeDeadStates.states, (za.removeDeadStates.loc q).ta = p := by
    simpa using (List.mem_filter.1 hp).2
  rw [(s3 q).2.1] at hqp
  subst hqp
  obtain ⟨hqs, l, j, hpath, hjm⟩ := (s1 q).1 hq
  refine ⟨?_, ?_⟩
  · obtain ⟨⟨v, hv⟩, h2⟩ := C37_states_realised A hA ho hm o false fuel za hza q hqs
    obtain ⟨v', h3, -⟩ := h2 v (by
      intro i hi j hj
      have := hv i hi j hj
      simp only [Zone.elapse]
      split
      · simp
      · exact this)
    exact ⟨v', h3⟩
  · have key : ∀ p l q, za.Path p l q → p ∈ za.states → (za.loc q).isMatch = true →
        ∃ q, Relation.ReflTransGen A.Edge (za.loc p).ta q ∧ (A.loc q).isMatch = true := by
      intro p l q hpath
      induction hpath with
      | nil p => exact fun hp hm => ⟨_, .refl, by rw [← (h6 p hp).2.2]; exact hm⟩
      | cons a t k hk _ ih =>
        intro hp hm
        obtain ⟨r, hr, hrm⟩ := ih (hc.2 _ hp _ _ hk) hm
        refine ⟨r, .head ?_ hr, hrm⟩
        have := h7 _ hp a _ hk
        exact ⟨a, t, this.1, this.2.symm⟩
    exact key _ _ _ hpath hqs hjm

/-- C54: the result has exactly one initial state or no states at all. -/
theorem C54_startable (A : TA) (hA : A.WF) (hi : A.init.length ≤ 1) (o : HashOrder) (fuel : ℕ) (B : TA)
    (h : A.simplifyWithZones o fuel = some B) : B.Startable := by
  refine TA.simplifyWithZones_startable hA hi (fun za hza => ?_) h
  refine ⟨(C37_shape A hA o false fuel za hza).1, ?_, abstracts A hA o false fuel za hza⟩
  obtain ⟨s, rfl, hI, -⟩ := Ta2za.ta2za_inv A (fun _ _ => True) o false (fun _ _ => trivial)
    (fun _ _ _ _ _ _ _ _ => trivial) fuel _ hza
  intro q hq
  rw [hI.init, List.mem_range] at hq
  rw [hI.initTa q hq]
  exact List.getElem_mem _

/-- C54: for a deterministic automaton without unobservable transitions the answers of the simulated
system stay the same. -/
theorem C54_answers (A : TA) (hA : A.WF) (he : A.EpsFree) (hdet : A.deterministic = true)
    (hi : A.Startable) (ho : A.ResetsOrdered)
    (hch : CharActions A) (o : HashOrder) (n : ℕ) (B : TA) (h : A.simplifyWithZones o n = some B)
    (fuel : ℕ) (r s : Runner) (w : TimedWord) (hwf : w.WF) (hobs : w.Observable) (hnn : w.Nonneg) :
    (Runner.answerQuery B (fuel + 1) s w).map (·.2) =
      (Runner.answerQuery A (fuel + 1) r w).map (·.2) := by
  obtain ⟨hlang, hBw⟩ := C54_language A hA ho hch o n B h w hwf
  have hi1 : A.init.length ≤ 1 := by
    rcases hi with hi | hi
    · exact hi.le
    · have : A.init = [] := List.eq_nil_iff_forall_not_mem.2 fun q hq => by
        have := hA.closed.1 q hq
        rw [hi] at this; cases this
      simp [this]
  have hd := (TA.deterministic_iff A hA.small).1 hdet
  have hsub : TA.Sub B A := by
    have h' := h
    unfold TA.simplifyWithZones at h'
    obtain ⟨za, hza, rfl⟩ := Option.map_eq_some_iff.1 h'
    exact TA.keepLive_sub hA (abstracts A hA o false n za hza)
  obtain ⟨r1, b1, e1, f1⟩ := C30_membership_exact A hA he hdet hi fuel r w hwf hobs hnn
  obtain ⟨r2, b2, e2, f2⟩ := C30_membership_exact B hBw (hsub.epsFree he)
    ((TA.deterministic_iff B hBw.small).2 (hsub.deterministic hd)) (C54_startable A hA hi1 o n B h) fuel s w hwf hobs hnn
  rw [e1, e2]
  simp only [Option.map_some, Option.some.injEq]
  rw [hlang, ← f1] at f2
  cases b1 <;> cases b2 <;> simp_all

/-- The hypotheses are met by the example automaton: the construction ends with a result, and that
one accepts a word of three actions. -/
example : exA.WF ∧ exA.ResetsOrdered ∧ exA.MaxOK ∧ CharActions exA ∧
    ∃ fuel B, exA.simplifyWithZones exOrder fuel = some B ∧ B.Accepts exW := by
  have hch : CharActions exA := by unfold CharActions; decide +kernel
  refine ⟨exA_wf, exA_ordered, exA_max, hch, ?_⟩
  obtain ⟨fuel, za, h⟩ := C53_terminates exA exA_wf exA_max.1 exOrder false
  have hB : exA.simplifyWithZones exOrder fuel = some (exA.keepLive za.removeDeadStates) := by
    simp [TA.simplifyWithZones, h]
  exact ⟨fuel, _, hB, ((C54_language exA exA_wf exA_ordered hch exOrder fuel _ hB exW rfl).1).2
    exW_accepted⟩

/-! ## C55 -/

/-- C55: what the added upper bounds mean.  The new guard holds exactly where the old one holds and
every clock that occurs in the old one once, in a lower bound with constant `c`, is below `c + 1`. -/
theorem C55_guard (g : Guard) (v : Valuation) : (Guard.addUpperBound g).Holds v ↔
    g.Holds v ∧ ∀ i : ℕ, ∀ hi : i < g.length, (g[i].odr = .ge ∨ g[i].odr = .gt) →
      (∀ j : ℕ, ∀ hj : j < g.length, j ≠ i → g[j].x ≠ g[i].x) → v g[i].x < (g[i].c : ℚ) + 1 := by
  have hone : ∀ i : ℕ, ∀ hi : i < g.length,
      ((g.filter fun d => d.x = g[i].x).length = 1 ↔
        ∀ j : ℕ, ∀ hj : j < g.length, j ≠ i → g[j].x ≠ g[i].x) := by
    intro i hi
    have hsplit : g = g.take i ++ g[i] :: g.drop (i + 1) := by
      rw [List.getElem_cons_drop hi, List.take_append_drop]
    have hlen : (g.filter fun d => d.x = g[i].x).length =
        ((g.take i).filter fun d => d.x = g[i].x).length + 1 +
        ((g.drop (i + 1)).filter fun d => d.x = g[i].x).length := by
      have := congrArg (fun l => (l.filter fun d => d.x = g[i].x).length) hsplit
      simp only [List.filter_append, List.filter_cons_of_pos, decide_true, List.length_append,
        List.length_cons] at this
      omega
    rw [hlen]
    constructor
    · intro h j hj hne heq
      have h1 : (g.take i).filter (fun d => d.x = g[i].x) = [] :=
        List.eq_nil_of_length_eq_zero (by omega)
      have h2 : (g.drop (i + 1)).filter (fun d => d.x = g[i].x) = [] :=
        List.eq_nil_of_length_eq_zero (by omega)
      rw [List.filter_eq_nil_iff] at h1 h2
      rcases Nat.lt_or_gt_of_ne hne with hlt | hgt
      · exact h1 g[j] (List.mem_take_iff_getElem.2 ⟨j, by omega, rfl⟩) (by simpa using heq)
      · exact h2 g[j] (List.mem_drop_iff_getElem.2 ⟨j - (i + 1), by omega, by
          congr 1; omega⟩) (by simpa using heq)
    · intro h
      have h1 : (g.take i).filter (fun d => d.x = g[i].x) = [] := by
        rw [List.filter_eq_nil_iff]
        intro d hd
        obtain ⟨j, hj, rfl⟩ := List.mem_take_iff_getElem.1 hd
        simpa using h j (by omega) (by omega)
      have h2 : (g.drop (i + 1)).filter (fun d => d.x = g[i].x) = [] := by
        rw [List.filter_eq_nil_iff]
        intro d hd
        obtain ⟨j, hj, rfl⟩ := List.mem_drop_iff_getElem.1 hd
        simpa using h (i + 1 + j) (by omega) (by omega)
      rw [h1, h2]; rfl
  unfold Guard.Holds Guard.addUpperBound
  simp only [List.forall_mem_append]
  refine and_congr_right fun _ => ?_
  constructor
  · intro h i hi ho hj
    have := h ⟨g[i].x, .lt, g[i].c + 1⟩ (List.mem_filterMap.2 ⟨g[i], List.getElem_mem hi, by
      rw [if_pos]
      exact ⟨(hone i hi).2 hj, by rcases ho with ho | ho <;> simp [Constraint.isUpperBound, ho]⟩⟩)
    simpa [Constraint.Holds] using this
  · intro h c hc
    obtain ⟨d, hd, hdc⟩ := List.mem_filterMap.1 hc
    obtain ⟨i, hi, rfl⟩ := List.mem_iff_getElem.1 hd
    split at hdc
    · rename_i hcond
      simp only [Option.some.injEq] at hdc
      subst hdc
      have := h i hi (by
        have := hcond.2
        cases ho : g[i].odr <;> simp_all [Constraint.isUpperBound]) ((hone i hi).1 hcond.1)
      simpa [Constraint.Holds] using this
    · cases hdc

/-- C55: the automaton with the added bounds accepts nothing new, its states are the same, and it is
unchanged if there are no unobservable transitions. -/
theorem C55_automaton (A : TA) (hA : A.WF) :
    (∀ w, A.addUpperBoundForUnobservableTransitions.Accepts w → A.Accepts w) ∧
    A.addUpperBoundForUnobservableTransitions.states = A.states ∧
    (A.EpsFree → A.addUpperBoundForUnobservableTransitions = A) := by
  refine ⟨fun w hacc => ?_, by rw [TA.addUpperBound_eq A hA.nodup],
    TA.addUpperBound_epsFree A hA.nodup⟩
  rw [TA.addUpperBound_eq A hA.nodup] at hacc
  refine TA.accepts_of_sim (fun c d => c = d ∧ c.loc ∈ A.states) ?_ ?_ ?_ ?_ hacc
  · exact fun q hq => ⟨q, hq, rfl, hA.closed.1 q hq⟩
  · rintro c d q ⟨rfl, hc⟩ _; exact ⟨rfl, hc⟩
  · rintro c d ⟨rfl, hc⟩ a t ht hg
    simp only [if_pos hc, TA.boundEps] at ht
    by_cases hau : a = unobservable
    · subst hau
      rw [Function.update_self] at ht
      obtain ⟨u, hu, rfl⟩ := List.mem_map.1 ht
      exact ⟨u, hu, ((C55_guard u.guard c.val).1 hg).1, rfl, hA.closed.2 _ hc _ u hu⟩
    · rw [Function.update_of_ne hau] at ht
      exact ⟨t, ht, hg, rfl, hA.closed.2 _ hc a t ht⟩
  · rintro c d ⟨rfl, hc⟩ hm
    simpa [if_pos hc, TA.boundEps] using hm

/-- Two clocks get a bound, the one that has an upper bound or two constraints does not. -/
example : Guard.addUpperBound [⟨0, .ge, 1⟩, ⟨1, .gt, 2⟩, ⟨2, .ge, 1⟩, ⟨2, .ge, 3⟩, ⟨3, .le, 4⟩] =
    [⟨0, .ge, 1⟩, ⟨1, .gt, 2⟩, ⟨2, .ge, 1⟩, ⟨2, .ge, 3⟩, ⟨3, .le, 4⟩, ⟨0, .lt, 2⟩, ⟨1, .lt, 3⟩] := by
  decide +kernel

/-- The delay before the first action. -/
def leadTime : List Event → ℚ
  | .delay d :: es => d + leadTime es
  | _ => 0

/-- C55: with unobservable transitions the language does shrink: the timed word (5, a, 0) is
accepted before the bounds are added, and not afterwards. -/
theorem C55_shrinks_witness :
    epsB.WF ∧ epsB.Accepts ⟨[actA], [5, 0]⟩ ∧
    ¬ epsB.addUpperBoundForUnobservableTransitions.Accepts ⟨[actA], [5, 0]⟩ := by
  have hB : epsB.WF := wf_of_check (by decide +kernel)
  refine ⟨hB, ?_, ?_⟩
  · refine ⟨1, by decide, _, .delay 5 (by norm_num) (.eps ⟨2, [(0, .const 0)], [⟨0, .ge, 1⟩]⟩
      (by decide +kernel) ?_ (.act actA (by decide) ⟨2, [], [⟨0, .le, 0⟩]⟩ (by decide +kernel) ?_
      (.delay 0 (by norm_num) (.nil _)))), rfl⟩
    all_goals
      intro c hc
      simp only [List.mem_singleton] at hc
      subst hc
      simp [Constraint.Holds, Valuation.shift, Valuation.zero, Resets.apply, Upd.eval]
  · set B := epsB.addUpperBoundForUnobservableTransitions with hBdef
    have n1u : (B.loc 1).next unobservable = [⟨2, [(0, .const 0)], [⟨0, .ge, 1⟩, ⟨0, .lt, 2⟩]⟩] := by
      decide +kernel
    have n1 : ∀ a, a ≠ unobservable → (B.loc 1).next a = [] := by decide +kernel
    have n2u : (B.loc 2).next unobservable = [] := by decide +kernel
    have n2 : ∀ a, ∀ t ∈ (B.loc 2).next a, t = ⟨2, [], [⟨0, .le, 0⟩]⟩ := by decide +kernel
    have key : ∀ c es c', B.Steps c es c' → .act actA ∈ es →
        (c.loc = 1 → c.val 0 + leadTime es < 2) ∧ (c.loc = 2 → c.val 0 + leadTime es ≤ 0) := by
      intro c es c' h
      induction h with
      | nil c => intro h; cases h
      | @eps c es c' t ht hg _ ih =>
        intro hm
        refine ⟨fun hc => ?_, fun hc => ?_⟩
        · rw [hc, n1u, List.mem_singleton] at ht
          subst ht
          have h1 := (ih hm).2 rfl
          have h2 := hg ⟨0, .lt, 2⟩ (by simp)
          simp [Constraint.Holds, Resets.apply, Upd.eval] at h1 h2
          linarith
        · rw [hc, n2u] at ht; cases ht
      | @delay c es c' d hd _ ih =>
        intro hm
        simp only [List.mem_cons, reduceCtorEq, false_or] at hm
        have := ih hm
        simp only [Valuation.shift, leadTime] at this ⊢
        exact ⟨fun h => by linarith [this.1 h], fun h => by linarith [this.2 h]⟩
      | @split c es c' d1 d2 _ _ _ ih =>
        intro hm
        simp only [List.mem_cons, reduceCtorEq, false_or] at hm
        have := ih (by simp [hm])
        simp only [leadTime] at this ⊢
        exact ⟨fun h => by linarith [this.1 h], fun h => by linarith [this.2 h]⟩
      | @act c es c' a ha t ht hg _ ih =>
        intro _
        refine ⟨fun hc => ?_, fun hc => ?_⟩
        · rw [hc, n1 a ha] at ht; cases ht
        · rw [hc] at ht
          have := n2 a t ht
          subst this
          have h2 := hg ⟨0, .le, 0⟩ (by simp)
          simpa [Constraint.Holds, leadTime] using h2
    rintro ⟨q, hq, c, hs, -⟩
    have hq1 : q = 1 := by
      have : B.init = [1] := by decide +kernel
      rw [this] at hq; simpa using hq
    subst hq1
    have := (key _ _ _ hs (by simp [TimedWord.events, eventsOf])).1 rfl
    norm_num [TimedWord.events, eventsOf, leadTime, Valuation.zero] at this

end LearnTA.Props
