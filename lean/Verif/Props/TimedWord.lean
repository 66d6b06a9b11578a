import Verif.Lemmas.TimedWord

/-!
# Properties of timed words (C19, C20)
-/

namespace LearnTA.Props

open LearnTA

/-! ## C19 -/

/-- C19: concatenation of timed words is associative, has the empty word as two-sided unit, adds
total durations, concatenates actions and keeps the class invariant. -/
theorem C19_append_monoid (u v w : TimedWord) (hu : u.WF) (hv : v.WF) (hw : w.WF) :
    (u.append v).append w = u.append (v.append w) ∧
    u.append .empty = u ∧ TimedWord.empty.append u = u ∧
    (u.append v).total = u.total + v.total ∧
    (u.append v).word = u.word ++ v.word ∧
    (u.append v).WF :=
  ⟨TimedWord.append_assoc hu hv hw, TimedWord.append_empty hu, TimedWord.empty_append hu,
    TimedWord.append_total hu hv, rfl, TimedWord.append_wf hu hv⟩

/-- C19: appending one action or one delay is concatenation with the word `0 a 0`, respectively the
word that only waits. -/
theorem C19_append_single (u : TimedWord) (hu : u.WF) (a : Action) (q : ℚ) :
    u.appendAction a = u.append ⟨[a], [0, 0]⟩ ∧ u.appendDelay q = u.append ⟨[], [q]⟩ := by
  rcases u with ⟨uw, ud⟩
  obtain ⟨l, z, e1⟩ := TimedWord.exists_last hu
  simp only at e1; subst e1
  simp [TimedWord.appendAction, TimedWord.appendDelay, TimedWord.append]

/-- C19: the time stamps of a concatenation: those of the first word, then those of the second word
moved by the duration of the first. -/
theorem C19_append_stamps (u v : TimedWord) (hu : u.WF) (hv : v.WF) (t : ℚ) :
    TimedWord.stampsFrom t (u.append v).word (u.append v).durations =
      TimedWord.stampsFrom t u.word u.durations ++
      TimedWord.stampsFrom (t + u.total) v.word v.durations := by
  rcases u with ⟨uw, ud⟩; rcases v with ⟨vw, vd⟩
  obtain ⟨l, z, e1⟩ := TimedWord.exists_last hu
  obtain ⟨b, m, e2⟩ := TimedWord.exists_head hv
  simp only at e1 e2; subst e1; subst e2
  have hl : uw.length = l.length := by simp [TimedWord.WF] at hu; omega
  simp only [TimedWord.append, List.headD_cons, List.tail_cons, TimedWord.addBack_append,
    List.append_assoc, TimedWord.total]
  rw [TimedWord.stampsFrom_append _ _ _ hl, TimedWord.stampsFrom_cut t uw l [z] (by omega)]
  congr 1
  cases vw with
  | nil => simp [TimedWord.stampsFrom]
  | cons a vw => simp [TimedWord.stampsFrom, add_assoc]

example : (TimedWord.mk [1, 2] [1, 2, 3]).append ⟨[3], [4, 5]⟩ = ⟨[1, 2, 3], [1, 2, 7, 5]⟩ := by
  decide +kernel

/-! ## C20 -/

/-- C20: taking the suffix undoes concatenation. -/
theorem C20_getSuffix_append (u v : TimedWord) (hu : u.WF) (hv : v.WF) (ho : v.Observable) :
    (u.append v).getSuffix u = v := TimedWord.getSuffix_append hu hv ho

/-- C20: appending the extracted suffix to a prefix of the word gives the word back. -/
theorem C20_append_getSuffix (u w : TimedWord) (hu : u.WF)
    (h : ∃ v : TimedWord, v.WF ∧ v.Observable ∧ w = u.append v) : u.append (w.getSuffix u) = w := by
  obtain ⟨v, hv, ho, rfl⟩ := h
  rw [TimedWord.getSuffix_append hu hv ho]

/-- C20: the constructor removes exactly the unobservable actions and keeps the time stamp of each
other action and the total duration. -/
theorem C20_make_reading (word : List Action) (durations : List ℚ)
    (h : durations.length = word.length + 1) :
    (TimedWord.make word durations).WF ∧ (TimedWord.make word durations).Observable ∧
    TimedWord.reading (TimedWord.make word durations).word
      (TimedWord.make word durations).durations = TimedWord.reading word durations := by
  cases durations with
  | nil => simp at h
  | cons d ds =>
    have hl : word.length = ds.length := by simpa using h.symm
    obtain ⟨i1, i2, i3, i4⟩ := TimedWord.absorb_spec (word.zip ds) [] [d] (by simp) (by simp)
    refine ⟨i1, i2, ?_⟩
    unfold TimedWord.reading
    rw [Prod.mk.injEq]
    constructor
    · have e1 : (word.zip ds).map Prod.fst = word := List.map_fst_zip (by omega)
      have e2 : (word.zip ds).map Prod.snd = ds := List.map_snd_zip (by omega)
      rw [e1, e2] at i3
      have : TimedWord.stampsFrom 0 (TimedWord.make word (d :: ds)).word
          (TimedWord.make word (d :: ds)).durations = _ := i3
      rw [this]
      simp [List.filter_filter]
    · have e2 : (word.zip ds).map Prod.snd = ds := List.map_snd_zip (by omega)
      rw [e2] at i4
      exact i4

/-- C20: the `i`-th accumulated duration is the sum of the durations from `i` on. -/
theorem C20_accumulated (u : TimedWord) (i : ℕ) (hi : i < u.durations.length) :
    u.accumulatedDurations.length = u.durations.length ∧
    u.accumulatedDurations[i]? = some (u.durations.drop i).sum :=
  ⟨TimedWord.accumulate_length _, TimedWord.accumulate_getElem? _ i hi⟩

example : TimedWord.make [1, 0, 2] [1, 2, 3, 4] = ⟨[1, 2], [1, 5, 4]⟩ := by decide +kernel
example : (TimedWord.mk [1, 2, 3] [1, 2, 7, 5]).getSuffix ⟨[1, 2], [1, 2, 3]⟩ = ⟨[3], [4, 5]⟩ := by
  decide +kernel

end LearnTA.Props
