import Verif.Props.Fixtures
import Verif.Lemmas.Protocols3

/-!
# Properties of the example programs: the languages of the protocols (C80)

The targets are numbered tables of transitions; `Spec/Protocols.lean` describes the protocols without these numbers.
-/

namespace LearnTA.Props
open Fixture ObsTable

theorem act_of_ok {n : ℕ} {al : List Action} {edges : List Edge} (h : EdgesOk n al edges) (hu : unobservable ∉ al) :
    ∀ e ∈ edges, e.act ≠ unobservable := fun e he h' => hu (h' ▸ h.act e he)

/-- C80: the language of "Fischer": exactly the words of three processes that request, write, retry, enter and leave. -/
theorem C80_fischer_language (scale : ℤ) (h0 : 0 < scale) (h1 : scale < intMax) (w : TimedWord) (hw : w.WF) :
    (fischer scale).Accepts w ↔ IsFischer scale w := by
  have hu : ∀ e ∈ fischerEdges scale, e.act ≠ unobservable := by
    rw [fischerEdges_scale]
    exact act_of_ok (checkEdges_ok fischer_check h0 (by simpa using h1)) abc_ok
  refine ((fischer_implements scale).accepts hu (by norm_num) (C80_fischer scale h0 h1).1 ⟨fun _ => .idle, 0⟩ (by norm_num) rfl
    w hw).trans ?_
  exact ⟨fun ⟨s, _, h⟩ => ⟨s, h⟩, fun ⟨s, h⟩ => ⟨s, rfl, h⟩⟩

/-- C80: the language of "FDDI": exactly the words of two stations and the ring between them. -/
theorem C80_fddi_language (scale : ℤ) (h0 : 0 < scale) (h1 : scale * 6 < intMax) (w : TimedWord) (hw : w.WF) :
    (fddi scale).Accepts w ↔ IsFddi scale w := by
  have hu : ∀ e ∈ fddiEdges scale, e.act ≠ unobservable := by
    rw [fddiEdges_scale]
    exact act_of_ok (checkEdges_ok fddi_check h0 h1) abcde_ok
  refine ((fddi_implements scale).accepts hu (by norm_num) (C80_fddi scale h0 h1).1 ⟨0, 0, 0⟩
    (.inl ⟨rfl, .inl rfl, .inl rfl⟩) rfl w hw).trans ?_
  exact ⟨fun ⟨s, _, h⟩ => ⟨s, h⟩, fun ⟨s, h⟩ => ⟨s, rfl, h⟩⟩

/-- C80: the language of "Light": exactly the beginnings of sequences of short presses, touches and holds. -/
theorem C80_light_language (scale : ℤ) (h0 : 0 < scale) (h1 : 2 * scale < intMax) (w : TimedWord) (hw : w.WF) :
    (light scale).Accepts w ↔ IsLight scale w := by
  have hu : ∀ e ∈ lightEdges scale, e.act ≠ unobservable := by
    intro e he
    simp only [lightEdges, List.mem_cons, List.not_mem_nil, or_false] at he
    rcases he with rfl | rfl | rfl | rfl | rfl | rfl | rfl | rfl <;> dsimp only <;> decide
  refine (accepts_goes hu (by norm_num) (C80_light scale h0 h1).1 w hw).trans ?_
  refine (light_goes scale w.word w.durations hw 0 Valuation.zero).trans ?_
  exact and_congr Iff.rfl (light_rest scale _ _ le_rfl _)

/-- C80: the timing of "CAS".  Apart from the three timing rules of `CasTiming`, only the order of the events matters: a word is
accepted exactly if it respects them and the same events, 27 apart from each other, are accepted. -/
theorem C80_cas_timing (w : TimedWord) (hw : w.WF) :
    cas.Accepts w ↔ w.Nonneg ∧ cas.Accepts (slow 27 w) ∧ CasTiming w := by
  have hu : ∀ e ∈ casEdges, e.act ≠ unobservable := by decide +kernel
  have hw' : (slow 27 w).WF := by
    unfold TimedWord.WF slow at *
    simpa using hw
  have hL := C80_fixed.1.1
  rw [cas] at hL ⊢
  rw [accepts_goes hu (by norm_num) hL w hw, accepts_goes hu (by norm_num) hL _ hw',
    cas_goes w.word w.durations hw 0 _ Valuation.zero (by intro h; simp at h) (by intro h; simp at h)]
  constructor
  · rintro ⟨h1, h2, h3, -⟩
    exact ⟨h1, h2, h3⟩
  · rintro ⟨h1, h2, h3⟩
    exact ⟨h1, h2, h3, by simp, by simp⟩

/-- C80: in every word of "CAS", locking and unlocking, closing and opening, arming and disarming, and the flash and the sound
going on and off alternate. -/
theorem C80_cas_alternate (w : TimedWord) (hw : w.WF) (h : cas.Accepts w) :
    ∀ p ∈ [(act 'l', act 'u'), (act 'c', act 'o'), (act 'a', act 'b'), (act 'f', act 'g'), (act 's', act 't')],
      Alternate p.1 p.2 w.word := by
  have hu : ∀ e ∈ casEdges, e.act ≠ unobservable := by decide +kernel
  have hL := C80_fixed.1.1
  rw [cas] at hL h
  rw [accepts_goes hu (by norm_num) hL w hw] at h
  intro p hp
  simp only [List.mem_cons, List.not_mem_nil, or_false] at hp
  rcases hp with rfl | rfl | rfl | rfl | rfl
  · exact (goes_alternate (fun p => decide (p ∈ [1, 3, 4, 6, 7, 8, 9, 11, 13])) _ _ (by decide) (by decide +kernel) _ _ _ _ h).1
      (by decide)
  · exact (goes_alternate (fun p => decide (p ∈ [2, 3, 4, 5])) _ _ (by decide) (by decide +kernel) _ _ _ _ h).1 (by decide)
  · exact (goes_alternate (fun p => decide (p ∈ [4, 5, 6])) _ _ (by decide) (by decide +kernel) _ _ _ _ h).1 (by decide)
  · exact (goes_alternate (fun p => decide (p ∈ [8, 9, 10, 11, 12])) _ _ (by decide) (by decide +kernel) _ _ _ _ h).1 (by decide)
  · exact (goes_alternate (fun p => decide (p ∈ [9, 10])) _ _ (by decide) (by decide +kernel) _ _ _ _ h).1 (by decide)

/-- C80: the timing of "PC".  Apart from the timing rule of `PcTiming`, only the order of the events matters: a word is accepted
exactly if it respects it and the same events, 10 apart from each other, are accepted. -/
theorem C80_pc_timing (w : TimedWord) (hw : w.WF) :
    pc.Accepts w ↔ w.Nonneg ∧ pc.Accepts (slow 10 w) ∧ PcTiming w := by
  have hu : ∀ e ∈ pcEdges, e.act ≠ unobservable := by decide +kernel
  have hw' : (slow 10 w).WF := by
    unfold TimedWord.WF slow at *
    simpa using hw
  have hT : PcT 0 w.word w.durations ↔ PcTiming w := by
    unfold PcT PcTiming
    simp only [pcAgeL_eq]
  have hL := C80_fixed.2.1
  rw [pc] at hL ⊢
  rw [accepts_goes hu (by norm_num) hL w hw, accepts_goes hu (by norm_num) hL _ hw',
    pc_goes w.word w.durations hw 0 _ Valuation.zero le_rfl, ← hT]
  constructor
  · rintro ⟨h1, h2, h3, -⟩
    exact ⟨h1, h2, h3⟩
  · rintro ⟨h1, h2, h3⟩
    exact ⟨h1, h2, h3, by simp⟩

/-! ### Concrete cases -/

/-- With scale 10, a touch and then a press that has not been released yet is a word of "Light"; starting to hold after 15 is not
possible. -/
example : (light 10).Accepts ⟨[act 'p', act 'r', act 't', act 'p'], [1, 12, 0, 3, 5]⟩ ∧
    ¬ (light 10).Accepts ⟨[act 'p', act 's', act 'r'], [1, 15, 0, 3]⟩ := by
  rw [C80_light_language 10 (by decide) (by decide) _ (by unfold TimedWord.WF; rfl),
    C80_light_language 10 (by decide) (by decide) _ (by unfold TimedWord.WF; rfl)]
  constructor
  · refine ⟨?_, [[(1, act 'p'), (12, act 'r'), (0, act 't')], [(3, act 'p'), (0, act 'r')]], ?_, ?_⟩
    · intro d hd
      simp only [List.mem_cons, List.not_mem_nil, or_false] at hd
      rcases hd with rfl | rfl | rfl | rfl | rfl <;> norm_num
    · intro l hl
      simp only [List.mem_cons, List.not_mem_nil, or_false] at hl
      rcases hl with rfl | rfl
      · exact .touch _ _ _ (by norm_num)
      · exact .short _ _ (by norm_num)
    · exact ⟨[(0, act 'r')], rfl⟩
  · rintro ⟨-, uses, h1, h2⟩
    rcases uses with _ | ⟨l, uses⟩
    · simp at h2
    rw [List.flatten_cons] at h2
    have hrs : act 's' ≠ act 'r' := by decide
    cases h1 l List.mem_cons_self with
    | short d1 d2 h => simp [List.cons_prefix_cons, hrs] at h2
    | touch d1 d2 d3 h => simp [List.cons_prefix_cons, hrs] at h2
    | hold d1 d2 d3 d4 h =>
      simp [List.cons_prefix_cons] at h2
      obtain ⟨-, rfl, -⟩ := h2
      norm_num at h

/-- With scale 10, a process that requests, writes the variable and enters its critical section 11 later. -/
example : (fischer 10).Accepts ⟨[act 'a', act 'a', act 'a'], [3, 10, 11, 0]⟩ := by
  rw [C80_fischer_language 10 (by decide) (by decide) _ (by unfold TimedWord.WF; rfl)]
  exact ⟨_, .step 3 (by norm_num) _ ⟨0, rfl, .request rfl rfl⟩ (.step 10 (by norm_num) _
    ⟨0, rfl, .write rfl (by simp [Valuation.shift])⟩ (.step 11 (by norm_num) _
      ⟨0, rfl, .enter rfl rfl (by simp [Valuation.shift]; norm_num)⟩ (.stop 0 le_rfl)))⟩

/-- With scale 1, the token goes round once. -/
example : (fddi 1).Accepts ⟨[act 'a', act 'e', act 'b', act 'c'], [0, 1, 2, 0, 7]⟩ := by
  rw [C80_fddi_language 1 (by decide) (by decide) _ (by unfold TimedWord.WF; rfl)]
  exact ⟨_, .step 0 le_rfl _ (.get1 (by simp [Valuation.shift, Valuation.zero])
      (.early0 (by simp [Valuation.shift, Valuation.zero])))
    (.step 1 (by norm_num) _ (.own1 (.more2 (by simp [Valuation.shift])))
      (.step 2 (by norm_num) _ (.release1 (.done3 (by simp [Valuation.shift, Valuation.zero]; norm_num)))
        (.step 0 le_rfl _ (.get2 (by simp [Valuation.shift]) (.early0 (by simp [Valuation.shift, Valuation.zero]; norm_num)))
          (.stop 7 (by norm_num)))))⟩

/-- Locking, closing and arming 2 later is a word of "CAS"; 1 later it is too early. -/
example : cas.Accepts ⟨[act 'l', act 'c', act 'a'], [0, 0, 2, 0]⟩ ∧ ¬ cas.Accepts ⟨[act 'l', act 'c', act 'a'], [0, 0, 1, 0]⟩ := by
  constructor
  · rw [cas, accepts_goes (by decide +kernel) (by norm_num) C80_fixed.1.1 _ (by unfold TimedWord.WF; rfl)]
    exact ⟨0, _, rfl, le_rfl, ⟨0, act 'l', 1, [], []⟩, by decide +kernel, rfl, rfl, guard_nil _,
      0, _, rfl, le_rfl, ⟨1, act 'c', 3, [0], []⟩, by decide +kernel, rfl, rfl, guard_nil _,
      2, _, rfl, by norm_num, ⟨3, act 'a', 4, [], [⟨0, .ge, 2⟩]⟩, by decide +kernel, rfl, rfl, guard_one (by
        simp [Constraint.Holds, Edge.trans, Resets.apply, Valuation.shift, Upd.eval]), 0, rfl, le_rfl, rfl⟩
  · rw [C80_cas_timing _ (by unfold TimedWord.WF; rfl)]
    rintro ⟨-, -, h⟩
    have := (h 2).1 (by simp)
    norm_num at this

/-- The particle counter goes back by itself 10 after the purge, but not before. -/
example : pc.Accepts ⟨[act 's', act 'u', act 'b', act 'l', act 's'], [0, 0, 4, 4, 2, 0]⟩ ∧
    ¬ pc.Accepts ⟨[act 's', act 'u', act 'b', act 'l', act 's'], [7, 0, 4, 4, 1, 0]⟩ := by
  constructor
  · rw [pc, accepts_goes (by decide +kernel) (by norm_num) C80_fixed.2.1 _ (by unfold TimedWord.WF; rfl)]
    exact ⟨0, _, rfl, le_rfl, ⟨0, act 's', 1, [], []⟩, by decide +kernel, rfl, rfl, guard_nil _,
      0, _, rfl, le_rfl, ⟨1, act 'u', 2, [0], []⟩, by decide +kernel, rfl, rfl, guard_nil _,
      4, _, rfl, by norm_num, ⟨2, act 'b', 4, [], []⟩, by decide +kernel, rfl, rfl, guard_nil _,
      4, _, rfl, by norm_num, ⟨4, act 'l', 5, [], []⟩, by decide +kernel, rfl, rfl, guard_nil _,
      2, _, rfl, by norm_num, ⟨5, act 's', 2, [], [⟨0, .ge, 10⟩]⟩, by decide +kernel, rfl, rfl, guard_one (by
        simp [Constraint.Holds, Edge.trans, Resets.apply, Valuation.shift, Upd.eval]; norm_num), 0, rfl, le_rfl, rfl⟩
  · rw [C80_pc_timing _ (by unfold TimedWord.WF; rfl)]
    rintro ⟨-, -, h⟩
    have hb : act 'b' ≠ act 'u' ∧ act 'b' ≠ act 'e' ∧ act 'b' ≠ act 'r' := by decide
    have hl : act 'l' ≠ act 'u' ∧ act 'l' ≠ act 'e' ∧ act 'l' ≠ act 'r' := by decide
    have := h 3 (by simp) (by simp)
    simp [pcAge, hb, hl] at this
    norm_num at this

end LearnTA.Props
