import Verif.Lemmas.Ta2zaTerm
import Verif.Props.Product
import Verif.Props.TimedWord

/-!
# Properties of the zone construction (C37, C38, C53)

`ta2za A o quick fuel = some za` says that the construction, with the iteration orders `o` of the
hash containers and with (`quick = true`) or without the early return, ends within `fuel` rounds
with the result `za`.
-/

namespace LearnTA.Props

open LearnTA Ta2za

/-! ## C53 -/

/-- C53: the construction terminates, for both variants and all hash orders. -/
theorem C53_terminates (A : TA) (hA : A.WF) (hm : ∀ m ∈ A.maxC, 0 ≤ m) (o : HashOrder)
    (quick : Bool) : ∃ fuel za, ta2za A o quick fuel = some za := by
  obtain ⟨fuel, h⟩ := Ta2za.terminates A hA.closed hA.clocks hA.resets hm o quick
  exact ⟨fuel, Option.isSome_iff_exists.1 h⟩

/-- A hash order. -/
def exOrder : HashOrder := ⟨fun _ => allActions, fun _ => .refl _, id, fun _ => .refl _⟩
/-- Another one: everything in reverse. -/
def exOrder' : HashOrder :=
  ⟨fun _ => allActions.reverse, fun _ => List.reverse_perm _, List.reverse, List.reverse_perm⟩

/-- The hypotheses are met by the example automaton. -/
example : exA.WF ∧ (∀ m ∈ exA.maxC, 0 ≤ m) := ⟨exA_wf, by decide⟩

/-! ## C37 -/

/-- C37: the shape of the result.  Its initial states stand for the initial states of the automaton
with all clocks zero, every state stands for a state of the automaton and is accepting exactly if
that one is, every edge carries a transition of the automaton with the same action between the
states the ends stand for, there are no dangling pointers and no duplicated states. -/
theorem C37_shape (A : TA) (hA : A.WF) (o : HashOrder) (quick : Bool) (fuel : ℕ) (za : ZA)
    (h : ta2za A o quick fuel = some za) :
    za.Closed ∧ za.states.Nodup ∧ za.init.Nodup ∧
    za.init.map (fun q => (za.loc q).ta) = A.init ∧
    (∀ q ∈ za.init, (za.loc q).zone = Zone.zero (A.clockSize + 1)) ∧
    (∀ q ∈ za.states, (za.loc q).ta ∈ A.states ∧ (za.loc q).zone.dim = A.clockSize + 1 ∧
      (za.loc q).isMatch = (A.loc (za.loc q).ta).isMatch) ∧
    (∀ q ∈ za.states, ∀ a, ∀ e ∈ (za.loc q).next a,
      e.1 ∈ (A.loc (za.loc q).ta).next a ∧ (za.loc e.2).ta = e.1.target) := by
  obtain ⟨s, rfl, hs, -⟩ := ta2za_full A (PF A) o quick (pf_start hA.closed)
    (pf_step hA.closed hA.clocks quick) fuel za h
  have hmem : ∀ q, q ∈ s.za.states ↔ q < s.za.states.length := by
    intro q
    constructor
    · intro h; rw [hs.states] at h; exact List.mem_range.1 h
    · intro h; rw [hs.states]; exact List.mem_range.2 h
  have hinit : ∀ q ∈ s.za.init, q < A.init.length := by
    intro q h; rw [hs.init] at h; exact List.mem_range.1 h
  refine ⟨⟨fun q h => (hmem q).2 ((hinit q h).trans_le hs.initLen), fun p hp a e he =>
    (hmem _).2 (hs.edge p ((hmem p).1 hp) a e he).2.1⟩, ?_, ?_, ?_,
    fun q h => hs.initZone q (hinit q h),
    fun q h => ⟨(hs.node q ((hmem q).1 h)).1, (hs.node q ((hmem q).1 h)).2, hs.acc q ((hmem q).1 h)⟩,
    fun q h a e he => ⟨(hs.edge q ((hmem q).1 h) a e he).1, (hs.edge q ((hmem q).1 h) a e he).2.2⟩⟩
  · rw [hs.states]; exact List.nodup_range
  · rw [hs.init]; exact List.nodup_range
  · rw [hs.init]
    apply List.ext_getElem (by simp)
    intro i h1 h2
    simp only [List.getElem_map, List.getElem_range]
    exact hs.initTa i (by simpa using h1)

/-- C37: every run of the automaton is simulated by a path of the zone automaton with the same
transitions, if the exploration was not stopped by a sample; the zone of the last state, after
letting time pass, contains the clock values of the last configuration. -/
theorem C37_runs_simulated (A : TA) (hA : A.WF) (ho : A.ResetsOrdered) (o : HashOrder)
    (quick : Bool) (fuel : ℕ) (za : ZA) (h : ta2za A o quick fuel = some za)
    (hq : quick = false ∨ za.memo = none) (q : ℕ) (hqi : q ∈ A.init) (ms : List TA.Micro)
    (c : Config) (hr : A.MRun ⟨q, Valuation.zero⟩ ms c) :
    ∃ i ∈ za.init, (za.loc i).ta = q ∧ ∃ j ∈ za.states, za.Path i (TA.discrete ms) j ∧
      (za.loc j).ta = c.loc ∧ (za.loc j).zone.elapse.Mem c.val := by
  obtain ⟨s, rfl, hs, hdq, hm, hqk⟩ := ta2za_full A (PF A) o quick (pf_start hA.closed)
    (pf_step hA.closed hA.clocks quick) fuel za h
  have hd : s.done = false := by
    rcases hq with hq | hq
    · exact hqk hq
    · exact hm hq
  have hqe : s.queue = [] := by
    rcases hdq with h | h
    · rw [hd] at h; cases h
    · exact h
  obtain ⟨i, hi, rfl⟩ := List.mem_iff_getElem.1 hqi
  have hi' := hi.trans_le hs.initLen
  obtain ⟨j, hj, h1, h2, h3⟩ := forward hA.closed hA.clocks ho hs hd hqe hr i hi' (hs.initTa i hi) (by
    rw [hs.initZone i hi]
    exact (Zone.elapse_mem _ (zero_closed _) ⟨_, zero_mem _⟩ _).2
      ⟨0, le_refl _, by rw [neg_zero, Valuation.shift_zero]; exact zero_mem _⟩)
  exact ⟨i, by rw [hs.init]; exact List.mem_range.2 hi, hs.initTa i hi, j,
    by rw [hs.states]; exact List.mem_range.2 hj, h1, h2, h3⟩

/-- C37: every accepted timed word is spelled by a path to an accepting state. -/
theorem C37_words_simulated (A : TA) (hA : A.WF) (ho : A.ResetsOrdered) (o : HashOrder)
    (quick : Bool) (fuel : ℕ) (za : ZA) (h : ta2za A o quick fuel = some za)
    (hq : quick = false ∨ za.memo = none) (w : TimedWord) (hw : w.WF) (hacc : A.Accepts w) :
    ∃ i ∈ za.init, ∃ l, ∃ j ∈ za.states, za.Path i l j ∧ (za.loc j).isMatch = true ∧
      w.word = (l.map Prod.fst).filter (· ≠ unobservable) := by
  obtain ⟨q, hqi, c, ms, h1, h2, h3⟩ := (TA.accepts_iff_micro A w hw).1 hacc
  obtain ⟨i, hi, -, j, hj, hp, hta, -⟩ := C37_runs_simulated A hA ho o quick fuel za h hq q hqi ms c h1
  refine ⟨i, hi, _, j, hj, hp, ?_, ?_⟩
  · rw [((C37_shape A hA o quick fuel za h).2.2.2.2.2.1 j hj).2.2, hta, h3]
  · rw [TA.word_of_obs w hw, ← h2, TA.obs_discrete h1]

/-- C37: no state is spurious.  Whatever clock values the zone of a state allows, some reachable
configuration of the automaton has the same clock values, except for clocks that are beyond their
maximal constant in both. -/
theorem C37_states_realised (A : TA) (hA : A.WF) (ho : A.ResetsOrdered) (hm : A.MaxOK)
    (o : HashOrder) (quick : Bool) (fuel : ℕ) (za : ZA) (h : ta2za A o quick fuel = some za) (p : ℕ)
    (hp : p ∈ za.states) : (∃ v, (za.loc p).zone.Mem v) ∧
    ∀ v, (za.loc p).zone.elapse.Mem v → ∃ v', A.Reach ⟨(za.loc p).ta, v'⟩ ∧
      Valuation.Near (fun x => (A.maxC.getD x 0 : ℤ)) A.clockSize v v' := by
  obtain ⟨s, rfl, hs, -⟩ := ta2za_full A (PB A) o quick (pb_start hA.closed)
    (pb_step hA.closed hA.clocks hA.resets ho hm quick) fuel za h
  rw [hs.states] at hp
  obtain ⟨-, -, -, h1, h2⟩ := hs.node p (List.mem_range.1 hp)
  exact ⟨h1, h2⟩

/-- C37: the zone automaton has an accepting state only if the automaton accepts a timed word, also
if the exploration is stopped early. -/
theorem C37_accepting_realised (A : TA) (hA : A.WF) (ho : A.ResetsOrdered) (hm : A.MaxOK)
    (o : HashOrder) (quick : Bool) (fuel : ℕ) (za : ZA) (h : ta2za A o quick fuel = some za) (p : ℕ)
    (hp : p ∈ za.states) (hmatch : (za.loc p).isMatch = true) :
    ∃ w : TimedWord, w.WF ∧ w.Nonneg ∧ A.Accepts w := by
  obtain ⟨⟨v, hv⟩, h2⟩ := C37_states_realised A hA ho hm o quick fuel za h p hp
  have hv' : (za.loc p).zone.elapse.Mem v := by
    intro i hi j hj
    have := hv i hi j hj
    simp only [Zone.elapse]
    split
    · simp
    · exact this
  obtain ⟨v', h3, -⟩ := h2 v hv'
  refine TA.accepts_of_reach h3 ?_
  rw [← ((C37_shape A hA o quick fuel za h).2.2.2.2.2.1 p hp).2.2]; exact hmatch

/-- C37: emptiness is decided exactly: some timed word is accepted if and only if the zone automaton
has an accepting state, unless the exploration was stopped by a sample. -/
theorem C37_emptiness (A : TA) (hA : A.WF) (ho : A.ResetsOrdered) (hm : A.MaxOK)
    (o : HashOrder) (quick : Bool) (fuel : ℕ) (za : ZA) (h : ta2za A o quick fuel = some za)
    (hq : quick = false ∨ za.memo = none) :
    (∃ w : TimedWord, w.WF ∧ A.Accepts w) ↔ ∃ p ∈ za.states, (za.loc p).isMatch = true := by
  constructor
  · rintro ⟨w, hw, hacc⟩
    obtain ⟨-, -, -, j, hj, -, h2, -⟩ := C37_words_simulated A hA ho o quick fuel za h hq w hw hacc
    exact ⟨j, hj, h2⟩
  · rintro ⟨p, hp, hm'⟩
    obtain ⟨w, h1, -, h2⟩ := C37_accepting_realised A hA ho hm o quick fuel za h p hp hm'
    exact ⟨w, h1, h2⟩

theorem exA_ordered : exA.ResetsOrdered := by
  have : ∀ p ∈ exA.states, ∀ a, ∀ t ∈ (exA.loc p).next a,
      t.resets = [] ∨ t.resets = [(0, .const 0)] ∨ t.resets = [(1, .const 0)] ∨
      t.resets = [(0, .clock 0), (1, .clock 0)] := by decide +kernel
  intro p hp a t ht
  rcases this p hp a t ht with h | h | h | h <;> rw [h] <;> simp [Zone.NoReadAfterWrite]

theorem exA_max : exA.MaxOK := by
  refine ⟨by decide, fun p hp a t ht => ⟨?_, ?_⟩⟩
  · have : ∀ p ∈ exA.states, ∀ a, ∀ t ∈ (exA.loc p).next a, ∀ c ∈ t.guard,
        c.c ≤ exA.maxC.getD c.x 0 := by decide +kernel
    exact this p hp a t ht
  · have : ∀ p ∈ exA.states, ∀ a, ∀ t ∈ (exA.loc p).next a,
        t.resets = [] ∨ t.resets = [(0, .const 0)] ∨ t.resets = [(1, .const 0)] ∨
        t.resets = [(0, .clock 0), (1, .clock 0)] := by decide +kernel
    rcases this p hp a t ht with h | h | h | h <;> rw [h] <;> simp [exA]

/-- The hypotheses are met by the example automaton, for two different hash orders, and the result is
not trivial: a path to an accepting state that spells `aba`. -/
example : exA.WF ∧ exA.ResetsOrdered ∧ exA.MaxOK ∧
    ∀ o ∈ ({exOrder, exOrder'} : Set HashOrder), ∃ fuel za, ta2za exA o false fuel = some za ∧
      ∃ i ∈ za.init, ∃ l, ∃ j ∈ za.states, za.Path i l j ∧ (za.loc j).isMatch = true ∧
        [actA, actB, actA] = (l.map Prod.fst).filter (· ≠ unobservable) := by
  refine ⟨exA_wf, exA_ordered, exA_max, fun o _ => ?_⟩
  obtain ⟨fuel, za, h⟩ := C53_terminates exA exA_wf exA_max.1 o false
  refine ⟨fuel, za, h, C37_words_simulated exA exA_wf exA_ordered o false fuel za h (.inl rfl) exW
    rfl exW_accepted⟩

/-! ## C38 -/

/-- An accepting state can be reached from the state. -/
def CanAccept (za : ZA) (p : ℕ) : Prop :=
  ∃ l q, za.Path p l q ∧ (za.loc q).isMatch = true

/-- C38: exactly the states from which an accepting state can be reached are kept, likewise for the
initial states; what the kept states stand for does not change. -/
theorem C38_states (za : ZA) (hc : za.Closed) :
    (∀ p, p ∈ za.removeDeadStates.states ↔ p ∈ za.states ∧ CanAccept za p) ∧
    (∀ p, p ∈ za.removeDeadStates.init ↔ p ∈ za.init ∧ CanAccept za p) ∧
    (∀ p, (za.removeDeadStates.loc p).isMatch = (za.loc p).isMatch ∧
      (za.removeDeadStates.loc p).ta = (za.loc p).ta ∧
      (za.removeDeadStates.loc p).zone = (za.loc p).zone) :=
  ⟨ZA.removeDead_states za hc, ZA.removeDead_init za hc, ZA.removeDead_node za⟩

/-- C38: the accepted paths do not change, and the result has no dangling pointers. -/
theorem C38_paths (za : ZA) (hc : za.Closed) : za.removeDeadStates.Closed ∧
    ∀ (l : List (Action × Trans)) (i j : ℕ),
      (i ∈ za.removeDeadStates.init ∧ za.removeDeadStates.Path i l j ∧
        (za.removeDeadStates.loc j).isMatch = true) ↔
      (i ∈ za.init ∧ za.Path i l j ∧ (za.loc j).isMatch = true) := by
  have hst : ∀ i, i ∈ za.removeDeadStates.init → i ∈ za.removeDeadStates.states := fun i hi => by
    have := (ZA.removeDead_init za hc i).1 hi
    exact (ZA.removeDead_states za hc i).2 ⟨hc.1 i this.1, this.2⟩
  refine ⟨⟨hst, fun p hp a e he => ?_⟩, fun l i j => ?_⟩
  · have := (ZA.removeDead_next za hc hp a e).1 he
    exact (ZA.removeDead_states za hc _).2
      ⟨hc.2 p ((ZA.removeDead_states za hc p).1 hp).1 a e this.1, this.2⟩
  · rw [(ZA.removeDead_node za j).1]
    constructor
    · rintro ⟨h1, h2, h3⟩
      exact ⟨((ZA.removeDead_init za hc i).1 h1).1,
        ((ZA.removeDead_path za hc (hst i h1) l j).1 h2).1, h3⟩
    · rintro ⟨h1, h2, h3⟩
      have hi := (ZA.removeDead_init za hc i).2 ⟨h1, l, j, h2, h3⟩
      exact ⟨hi, (ZA.removeDead_path za hc (hst i hi) l j).2 ⟨h2, [], j, .nil j, h3⟩, h3⟩

/-- C38: a sampled word is spelled by a path to an accepting state; it is a well-formed timed word
without unobservable actions. -/
theorem C38_sample_path (za : ZA) (w : TimedWord) (h : za.sample = some w) :
    ∃ i ∈ za.init, ∃ l j, za.Path i l j ∧ (za.loc j).isMatch = true ∧
      w.word = (l.map Prod.fst).filter (· ≠ unobservable) ∧ w.WF ∧ w.Observable := by
  obtain ⟨r, ⟨i, hi, q, h1, h2, h3⟩, h4, h5⟩ := ZA.sample_ok w h
  obtain ⟨ds, hds, rfl⟩ := ZA.reconstruct_shape r ⟨h2.1, h2.2.1⟩ w h5
  have := C20_make_reading r.word ds hds
  refine ⟨i, hi, _, q, h3, by rw [← h1]; exact h4, ?_, this.1, this.2.1⟩
  rw [ZA.make_word _ _ hds, List.map_fst_zip (by omega)]

/-- C38: the search ends: each round but the last visits a new state, so that more than
`states + 2` rounds give the same answer. -/
theorem C38_sample_rounds (za : ZA) (hc : za.Closed) (hn : za.init.Nodup) (fuel : ℕ)
    (h : za.states.length + 2 ≤ fuel) :
    za.searchLoop fuel (za.init.map (SymRun.start za)) za.init = za.sample :=
  ZA.sample_rounds za hc hn fuel h

/-- A zone automaton with a cycle, an accepting state 2 and a dead state 3. -/
def exZA : ZA where
  loc
    | 0 => ⟨false, fun a => if a = actA then [(⟨1, [], []⟩, 1), (⟨3, [], []⟩, 3)] else [], 0, Zone.zero 2⟩
    | 1 => ⟨false, fun a => if a = actB then [(⟨0, [], []⟩, 0)]
        else if a = unobservable then [(⟨2, [], [⟨0, .ge, 1⟩]⟩, 2)] else [], 1, Zone.zero 2⟩
    | 2 => ⟨true, fun _ => [], 2, Zone.zero 2⟩
    | _ => ⟨false, fun a => if a = actA then [(⟨3, [], []⟩, 3)] else [], 3, Zone.zero 2⟩
  states := [0, 1, 2, 3]
  init := [0]
  memo := none

example : exZA.Closed ∧ exZA.init.Nodup ∧ exZA.removeDeadStates.states = [0, 1, 2] ∧
    exZA.sample = some ⟨[actA], [0, 1]⟩ := by
  refine ⟨⟨by decide, by decide +kernel⟩, by decide, by decide +kernel, by decide +kernel⟩

end LearnTA.Props
