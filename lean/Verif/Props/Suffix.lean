import Verif.Lemmas.Suffix2

/-!
# The suffix of a region (C86)
-/

namespace LearnTA.Props
open LearnTA TimedCondition LearnTA.Suffix

/-- C86: `suffix` of a simple language and a simple language of beginnings of its words covers the language: every word is a
beginning in `p` followed by a word of the suffix (and cutting does not make delays negative). -/
theorem C86_suffix_covers (L p : ForwardRegional) (hL : L.WF) (hLs : L.cond.Simple) (hLc : L.cond.Canonical) (hp : p.WF)
    (hps : p.cond.Simple) (hpc : p.cond.Canonical) (ho : ∀ a ∈ L.word, a ≠ unobservable)
    (h : ∃ u v : TimedWord, p.Mem u ∧ (v.WF ∧ v.Nonneg) ∧ L.Mem (u.append v)) (x : TimedWord) (hx : L.Mem x) :
    ∃ y z, p.Mem y ∧ (L.suffix p).Mem z ∧ x = y.append z ∧ z.WF ∧ (x.Nonneg → z.Nonneg) := by
  have rL : Reg L.toElementaryLanguage := ⟨hL, hLs, hLc⟩
  have rp : Reg p.toElementaryLanguage := ⟨hp, hps, hpc⟩
  obtain ⟨y', f, hs⟩ := samples rL rp ho h
  have hsame := rL.sameRegion hs.fullMem hx
  obtain ⟨y, z, e, h1, h2⟩ := cut_same hs.fullWF hsame p.word.length hs.le (y'.durations.getLastD 0)
  rw [← hs.split] at h1
  have hwf := rest_wf hs.fullWF hs.le (y'.durations.getLastD 0)
  have hz : z.WF := by
    show z.durations.length = z.word.length + 1
    rw [← h2.2.1, ← h2.1]; exact hwf
  refine ⟨y, z, mem_of_same hps hs.preMem h1, ?_, e, hz, fun hn => ?_⟩
  · rw [hs.suffix ho]
    exact (C24_same_region_iff _ z hwf hz).2 ⟨h2.1.symm, h2.2.2⟩
  · have hf : f.Nonneg := nonneg_of_same (rL.sameRegion hx hs.fullMem) hn
    exact nonneg_of_same h2 (hs.rest_nonneg rL rp hf)

/-- C86: what is computed is the backward region of the rest of one word of the language after a beginning in `p`. -/
theorem C86_suffix_region (L p : ForwardRegional) (hL : L.WF) (hLs : L.cond.Simple) (hLc : L.cond.Canonical) (hp : p.WF)
    (hps : p.cond.Simple) (hpc : p.cond.Canonical) (ho : ∀ a ∈ L.word, a ≠ unobservable)
    (h : ∃ u v : TimedWord, p.Mem u ∧ (v.WF ∧ v.Nonneg) ∧ L.Mem (u.append v)) :
    ∃ y z, p.Mem y ∧ L.Mem (y.append z) ∧ L.suffix p = .fromTimedWord z ∧ (L.suffix p).Mem z ∧ ((y.append z).Nonneg → z.Nonneg) := by
  have rL : Reg L.toElementaryLanguage := ⟨hL, hLs, hLc⟩
  have rp : Reg p.toElementaryLanguage := ⟨hp, hps, hpc⟩
  obtain ⟨y, f, hs⟩ := samples rL rp ho h
  have hwf := rest_wf hs.fullWF hs.le (y.durations.getLastD 0)
  have e : y.append (rest f p.word.length (y.durations.getLastD 0)) = f := by
    have hfl : f.durations.length = f.word.length + 1 := hs.fullWF
    have hk := hs.le
    conv_lhs => rw [hs.split]
    rcases f with ⟨fw, fd⟩
    simp only at hfl hk
    simp only [rest, TimedWord.append, TimedWord.addBack, List.take_append_drop, TimedWord.mk.injEq, true_and,
      List.getLastD_eq_getLast?, List.getLast?_concat, Option.getD_some, List.dropLast_concat]
    rw [List.drop_eq_getElem_cons (show p.word.length < fd.length by omega)]
    simp only [TimedWord.subFront, List.headD_cons, List.tail_cons, List.append_assoc, List.singleton_append]
    rw [add_sub_cancel, ← List.drop_eq_getElem_cons, List.take_append_drop]
  refine ⟨y, rest f p.word.length (y.durations.getLastD 0), hs.preMem, by rw [e]; exact hs.fullMem, hs.suffix ho, ?_, ?_⟩
  · rw [hs.suffix ho]
    exact (C24_same_region_iff _ _ hwf hwf).2 ⟨rfl, fun _ _ _ _ => ⟨rfl, rfl⟩⟩
  · rw [e]; exact hs.rest_nonneg rL rp

/-! ### An instance -/

/-- The region of the word `a b` with the delays 1/2, 3/2, 1/4. -/
def exFull : ForwardRegional := .fromTimedWord ⟨[97, 98], [1 / 2, 3 / 2, 1 / 4]⟩

/-- The region of the beginning of this word that ends 3/4 after `a`. -/
def exBegin : ForwardRegional := .fromTimedWord ⟨[97], [1 / 2, 3 / 4]⟩

private theorem reg_of (w : TimedWord) (hw : w.WF) :
    (ForwardRegional.fromTimedWord w).WF ∧ (ForwardRegional.fromTimedWord w).cond.Simple ∧
      (ForwardRegional.fromTimedWord w).cond.Canonical := by
  have h := ForwardRegional.fromTimedWord_of w hw
  refine ⟨?_, .of_isRegion h.region, h.canonical⟩
  show _ = _
  rw [h.csize]; exact hw.symm

example (x : TimedWord) (hx : exFull.Mem x) :
    ∃ y z, exBegin.Mem y ∧ (exFull.suffix exBegin).Mem z ∧ x = y.append z := by
  obtain ⟨a1, a2, a3⟩ := reg_of ⟨[97, 98], [1 / 2, 3 / 2, 1 / 4]⟩ rfl
  obtain ⟨b1, b2, b3⟩ := reg_of ⟨[97], [1 / 2, 3 / 4]⟩ rfl
  obtain ⟨y, z, h1, h2, h3, _⟩ := C86_suffix_covers exFull exBegin a1 a2 a3 b1 b2 b3 (by decide +kernel)
    ⟨⟨[97], [1 / 2, 3 / 4]⟩, ⟨[98], [3 / 4, 1 / 4]⟩,
      (C24_same_region_iff ⟨[97], [1 / 2, 3 / 4]⟩ ⟨[97], [1 / 2, 3 / 4]⟩ rfl rfl).2 ⟨rfl, fun _ _ _ _ => ⟨rfl, rfl⟩⟩,
      ⟨rfl, by unfold TimedWord.Nonneg; decide +kernel⟩,
      (C21_contains_exact _ a1 a3.diagNN _ (by unfold TimedWord.WF; decide +kernel)).1 (by decide +kernel)⟩ x hx
  exact ⟨y, z, h1, h2, h3⟩

example : (exFull.suffix exBegin).word = [98] ∧ (exFull.suffix exBegin).contains ⟨[98], [3 / 4, 1 / 4]⟩ = true ∧
    (exFull.suffix exBegin).contains ⟨[98], [5 / 4, 1 / 4]⟩ = false := by decide +kernel

end LearnTA.Props
