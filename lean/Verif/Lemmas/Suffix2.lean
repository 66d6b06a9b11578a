import Verif.Lemmas.Suffix
import Verif.Props.ElementaryLanguage
import Verif.Props.Condition
import Verif.Lemmas.SampleUnique

/-!
# Lemmas about the suffix of a region
-/

namespace LearnTA
namespace Suffix
open Bound RegionTA TimedCondition

/-- A region contains with a word all words of the same region. -/
theorem mem_of_same {e : ElementaryLanguage} (hs : e.cond.Simple) {w w' : TimedWord} (hw : e.Mem w)
    (h : w.SameRegion w') : e.Mem w' := by
  obtain ⟨h1, h2, h3⟩ := hw
  obtain ⟨g1, g2, g3⟩ := h
  refine ⟨g1.symm.trans h1, g2.symm.trans h2, fun i j hij hj => ?_⟩
  obtain ⟨a, b⟩ := h3 i j hij hj
  obtain ⟨f1, f2⟩ := g3 i j hij (by omega)
  obtain ⟨r1, r2⟩ := ForwardRegional.reg_of_floor_ceil f1 f2
  have hI : IsInt (e.cond.upper i j) ∧ IsInt (e.cond.lower i j) := by
    obtain ⟨n, ⟨e1, e2⟩ | ⟨e1, e2⟩⟩ := hs i j hij hj <;> rw [e1, e2]
    · exact ⟨⟨n, rfl⟩, ⟨-n, by push_cast; rfl⟩⟩
    · exact ⟨⟨n + 1, by push_cast; rfl⟩, ⟨-n, by push_cast; rfl⟩⟩
  constructor
  · rw [LearnTA.sat_iff_reg_le hI.1] at a ⊢
    rwa [← r1]
  · rw [LearnTA.sat_iff_reg_le hI.2] at b ⊢
    rwa [← r2]

theorem nip_le (d : List ℚ) (c : TimedCondition) (i p q : ℕ) : (nip d c i).zone.val p q ≤ c.zone.val p q :=
  (restrictUpper_le _ _ _ _ _ _).trans (restrictLower_le _ _ _ _ _ _)

theorem foldl_nip_le (d : List ℚ) (l : List ℕ) (c : TimedCondition) (p q : ℕ) :
    (l.foldl (nip d) c).zone.val p q ≤ c.zone.val p q ∧ (l.foldl (nip d) c).zone.dim = c.zone.dim := by
  induction l generalizing c with
  | nil => exact ⟨le_refl _, rfl⟩
  | cons a l ih =>
    obtain ⟨h1, h2⟩ := ih (nip d c a)
    exact ⟨h1.trans (nip_le _ _ _ _ _), by rw [List.foldl_cons, h2, nip_dim]⟩

theorem constrain_bounds (e : ElementaryLanguage) (p : TimedWord) (i j : ℕ) :
    (e.constrain p).cond.upper i j ≤ e.cond.upper i j ∧ (e.constrain p).cond.lower i j ≤ e.cond.lower i j ∧
      (e.constrain p).cond.size = e.cond.size := by
  have h : ∀ a b, (e.constrain p).cond.zone.val a b ≤ e.cond.zone.val a b ∧ (e.constrain p).cond.zone.dim = e.cond.zone.dim :=
    fun a b => foldl_nip_le p.durations (List.range p.wordSize) e.cond a b
  have hd := (h 0 0).2
  have hs : (e.constrain p).cond.size = e.cond.size := by unfold size; rw [hd]
  refine ⟨?_, ?_, hs⟩
  · unfold upper; rw [hs]; split <;> exact (h _ _).1
  · unfold lower; rw [hs]; split <;> exact (h _ _).1

theorem ne_inf_of_le {a b : Bound} (h : a ≤ b) (hb : b ≠ .inf) : a ≠ .inf := by
  intro e
  subst e
  cases b with
  | inf => exact hb rfl
  | fin q s => exact absurd h (by simp)

theorem simple_bounded {c : TimedCondition} (hs : c.Simple) {i : ℕ} (hi : i < c.size) :
    c.upper i i ≠ .inf ∧ c.lower i i ≠ .inf := by
  obtain ⟨n, ⟨e1, e2⟩ | ⟨e1, e2⟩⟩ := hs i i (le_refl _) hi <;> rw [e1, e2] <;> simp

/-- A simple language (the words of which are in one region). -/
structure Reg (e : ElementaryLanguage) : Prop where
  wf : e.WF
  simple : e.cond.Simple
  canonical : e.cond.Canonical

theorem Reg.wordWF {e : ElementaryLanguage} (h : Reg e) {w : TimedWord} (hw : e.Mem w) : w.WF := by
  have h1 : e.word.length + 1 = e.cond.size := h.wf
  show w.durations.length = w.word.length + 1
  rw [hw.2.1, hw.1, h1]

theorem Reg.sameRegion {e : ElementaryLanguage} (h : Reg e) {w w' : TimedWord} (hw : e.Mem w) (hw' : e.Mem w') :
    w.SameRegion w' := by
  refine ⟨hw.1.trans hw'.1.symm, hw.2.1.trans hw'.2.1.symm, fun i j hij hj => ?_⟩
  rw [hw.2.1] at hj
  obtain ⟨a1, a2⟩ := hw.2.2 i j hij hj
  obtain ⟨b1, b2⟩ := hw'.2.2 i j hij hj
  obtain ⟨n, ⟨e1, e2⟩ | ⟨e1, e2⟩⟩ := h.simple i j hij hj
  · rw [e1] at a1 b1
    rw [e2] at a2 b2
    simp only [Bound.sat_true] at a1 a2 b1 b2
    have c1 : T w.durations i j = n := by linarith
    have c2 : T w'.durations i j = n := by linarith
    rw [c1, c2]; exact ⟨rfl, rfl⟩
  · rw [e1] at a1 b1
    rw [e2] at a2 b2
    simp only [Bound.sat_false] at a1 a2 b1 b2
    have f : ∀ q : ℚ, q < n + 1 → -q < -n → ⌊q⌋ = n ∧ ⌈q⌉ = n + 1 := fun q h1 h2 =>
      ⟨Int.floor_eq_iff.2 ⟨by linarith, h1⟩, Int.ceil_eq_iff.2 ⟨by push_cast; linarith, by push_cast; linarith⟩⟩
    obtain ⟨c1, c2⟩ := f _ a1 a2
    obtain ⟨d1, d2⟩ := f _ b1 b2
    rw [c1, c2, d1, d2]; exact ⟨rfl, rfl⟩

/-- The words that `suffix` samples. -/
structure Samples (L p : ForwardRegional) (y f : TimedWord) : Prop where
  pre : p.sample = y
  full : (L.constrain y).sample = f
  preMem : p.Mem y
  preWF : y.WF
  fullMem : L.Mem f
  fullWF : f.WF
  agree : ∀ i < p.word.length, f.durations.getD i 0 = y.durations.getD i 0
  word : f.word.take p.word.length = y.word
  canonical : (L.constrain y).cond.Canonical
  mem : ∀ w, (L.constrain y).Mem w ↔ L.Mem w ∧ ∀ i < p.word.length, w.durations.getD i 0 = y.durations.getD i 0
  ext : ∃ g : TimedWord, L.Mem g ∧ (∀ i < p.word.length, g.durations.getD i 0 = y.durations.getD i 0) ∧
    y.durations.getD p.word.length 0 ≤ g.durations.getD p.word.length 0
  preEq : y.durations = ElementaryLanguage.sampleDurations p.cond (p.word.length + 1)
  fullEq : f.durations = ElementaryLanguage.sampleDurations (L.constrain y).cond (L.word.length + 1)

theorem sampled {p : ForwardRegional} (pw : p.WF) (pc : p.cond.Canonical) (ps : p.cond.Simple)
    (hop : ∀ a ∈ p.word, a ≠ unobservable) :
    p.sample.durations = ElementaryLanguage.sampleDurations p.cond (p.word.length + 1) := by
  have hh := ElementaryLanguage.sampleDurations_holds p.cond pc fun i hi => simple_bounded ps hi
  have hs : p.word.length + 1 = p.cond.size := pw
  have hwf : TimedWord.WF ⟨p.word, ElementaryLanguage.sampleDurations p.cond (p.word.length + 1)⟩ := by
    show List.length _ = _
    rw [hs]; exact hh.1
  have hm := TimedWord.make_observable hwf hop
  show (TimedWord.make p.word _).durations = _
  exact congrArg TimedWord.durations hm

theorem samples {L p : ForwardRegional} (hL : Reg L.toElementaryLanguage) (hp : Reg p.toElementaryLanguage) (ho : ∀ a ∈ L.word, a ≠ unobservable)
    (h : ∃ u v : TimedWord, p.Mem u ∧ (v.WF ∧ v.Nonneg) ∧ L.Mem (u.append v)) : ∃ y f, Samples L p y f := by
  obtain ⟨u, v, hu, hvl, huv⟩ := h
  have hv := hvl.1
  obtain ⟨pw, ps, pc⟩ := hp
  obtain ⟨Lw, Ls, Lc⟩ := hL
  have hwl : L.word = p.word ++ v.word := by rw [← huv.1, ← hu.1]; rfl
  have hop : ∀ a ∈ p.word, a ≠ unobservable := fun a ha => ho a (by rw [hwl]; simp [ha])
  obtain ⟨y1, y2, _⟩ := Props.C22_sample_mem p.toElementaryLanguage pw pc (fun i hi => simple_bounded ps hi) hop
  have hsame := Reg.sameRegion ⟨pw, ps, pc⟩ hu y1
  obtain ⟨g, g1, g2, g3, g4, _⟩ := extend_begin (Reg.wordWF ⟨pw, ps, pc⟩ hu) hv hsame
  have hg : L.Mem g := mem_of_same Ls huv g1
  have eu : u.word.length = p.word.length := by rw [hu.1]
  have ey : p.sample.wordSize = p.word.length := by unfold TimedWord.wordSize; rw [y1.1]
  rw [eu] at g3 g4
  have hsz : p.sample.wordSize ≤ L.cond.size := by
    have h : L.word.length + 1 = L.cond.size := Lw
    have := congrArg List.length hwl
    simp only [List.length_append] at this
    omega
  obtain ⟨c1, c2⟩ := Props.C78_constrain L.toElementaryLanguage Lc p.sample hsz g hg (by rw [ey]; exact g3)
  rw [ey] at c2
  have cwf : (L.constrain p.sample).WF := by
    show L.word.length + 1 = _
    rw [(constrain_bounds _ _ 0 0).2.2]; exact Lw
  obtain ⟨f1, f2, _⟩ := Props.C22_sample_mem (L.constrain p.sample) cwf c1 (fun i hi => by
    rw [(constrain_bounds _ _ 0 0).2.2] at hi
    obtain ⟨b1, b2⟩ := simple_bounded Ls hi
    exact ⟨ne_inf_of_le (constrain_bounds _ _ i i).1 b1, ne_inf_of_le (constrain_bounds _ _ i i).2.1 b2⟩) ho
  obtain ⟨f3, f4⟩ := (c2 _).1 f1
  have h0 : 0 ≤ v.durations.headD 0 := by
    have := hvl.2
    cases hd : v.durations with
    | nil => simp
    | cons a l => exact this a (by rw [hd]; simp)
  have hfull : (L.constrain p.sample).sample.durations =
      ElementaryLanguage.sampleDurations (L.constrain p.sample).cond (L.word.length + 1) := by
    have hh := ElementaryLanguage.sampleDurations_holds (L.constrain p.sample).cond c1 (fun i hi => by
      rw [(constrain_bounds _ _ 0 0).2.2] at hi
      obtain ⟨b1, b2⟩ := simple_bounded Ls hi
      exact ⟨ne_inf_of_le (constrain_bounds _ _ i i).1 b1, ne_inf_of_le (constrain_bounds _ _ i i).2.1 b2⟩)
    have hs : L.word.length + 1 = (L.constrain p.sample).cond.size := cwf
    have hwf : TimedWord.WF ⟨L.word, ElementaryLanguage.sampleDurations (L.constrain p.sample).cond (L.word.length + 1)⟩ := by
      show List.length _ = _
      rw [hs]; exact hh.1
    have hm := TimedWord.make_observable hwf ho
    show (TimedWord.make L.word _).durations = _
    exact congrArg TimedWord.durations hm
  refine ⟨p.sample, _, rfl, rfl, y1, y2, f3, f2, f4, ?_, c1, c2, ⟨g, hg, g3, g4 h0⟩, sampled pw pc ps hop, hfull⟩
  rw [f3.1, hwl, y1.1]; simp

/-- The word whose region `suffix` returns. -/
def rest (f : TimedWord) (k : ℕ) (t : ℚ) : TimedWord := ⟨f.word.drop k, TimedWord.subFront (f.durations.drop k) t⟩

theorem Samples.split {L p : ForwardRegional} {y f : TimedWord} (h : Samples L p y f) :
    y = ⟨f.word.take p.word.length, f.durations.take p.word.length ++ [y.durations.getLastD 0]⟩ := by
  have hw := h.word
  have hp := h.preWF
  have hm := h.preMem.1
  have hag := h.agree
  have hf := h.fullWF
  have hfl : f.durations.length = f.word.length + 1 := hf
  have hk : p.word.length ≤ f.word.length := by
    have := congrArg List.length hw
    rw [hm] at this
    simp only [List.length_take] at this
    omega
  rcases y with ⟨yw, yd⟩
  have hyl : yd.length = p.word.length + 1 := by rw [← hm]; exact hp
  simp only [TimedWord.mk.injEq]
  refine ⟨hw.symm, ?_⟩
  obtain ⟨l, t, rfl⟩ : ∃ l t, yd = l ++ [t] :=
    ⟨yd.dropLast, yd.getLast (by intro h; simp [h] at hyl), (List.dropLast_append_getLast _).symm⟩
  have hl : l.length = p.word.length := by simpa using hyl
  simp only [List.getLastD_eq_getLast?, List.getLast?_concat, Option.getD_some]
  congr 1
  refine List.ext_getElem (by simp; omega) fun i h1 h2 => ?_
  have := hag i (by omega)
  simp only [List.getD_eq_getElem?_getD] at this
  rw [List.getElem?_append_left h1, List.getElem?_eq_getElem h1, List.getElem?_eq_getElem (by omega)] at this
  simpa using this.symm

theorem fract_add_fract (a b : ℚ) : (a - ⌊a⌋) + b - ⌊(a - ⌊a⌋) + b⌋ = a + b - ⌊a + b⌋ := by
  have : ⌊(a - ⌊a⌋) + b⌋ = ⌊a + b⌋ - ⌊a⌋ := by
    rw [show (a - ⌊a⌋) + b = a + b - (⌊a⌋ : ℤ) by push_cast; ring, Int.floor_sub_intCast]
  rw [this]; push_cast; ring

theorem suffixFractional_eq (ds : List ℚ) : ∀ t : ℚ, ForwardRegional.suffixFractional (t - ⌊t⌋) ds =
    (BackwardRegional.accumulateFront t ds).map (fun q : ℚ => q - (⌊q⌋ : ℚ)) := by
  induction ds with
  | nil => intro t; rfl
  | cons d ds ih =>
    intro t
    simp only [ForwardRegional.suffixFractional, BackwardRegional.accumulateFront, List.map_cons]
    rw [fract_add_fract, ih]

theorem rest_wf {f : TimedWord} (hf : f.WF) {k : ℕ} (hk : k ≤ f.word.length) (t : ℚ) : (rest f k t).WF := by
  have hfl : f.durations.length = f.word.length + 1 := hf
  show (TimedWord.subFront (f.durations.drop k) t).length = (f.word.drop k).length + 1
  rw [List.drop_eq_getElem_cons (by omega)]; simp [TimedWord.subFront]; omega

theorem Samples.le {L p : ForwardRegional} {y f : TimedWord} (h : Samples L p y f) : p.word.length ≤ f.word.length := by
  have := congrArg List.length h.word
  rw [h.preMem.1] at this
  simp only [List.length_take] at this
  omega

/-- `suffix` returns the backward region of the rest of the sampled word. -/
theorem Samples.suffix {L p : ForwardRegional} {y f : TimedWord} (h : Samples L p y f) (ho : ∀ a ∈ L.word, a ≠ unobservable) :
    L.suffix p = .fromTimedWord (rest f p.word.length (y.durations.getLastD 0)) := by
  have e : L.suffixDurations p = (rest f p.word.length (y.durations.getLastD 0)).durations := by
    unfold ForwardRegional.suffixDurations
    simp only
    rw [h.pre, h.full]; rfl
  have ew : L.word.drop p.word.length = (rest f p.word.length (y.durations.getLastD 0)).word := by
    rw [← h.fullMem.1]; rfl
  have hwf := rest_wf h.fullWF h.le (y.durations.getLastD 0)
  unfold ForwardRegional.suffix
  simp only
  rw [e, ew, TimedWord.make_observable hwf (fun a ha => ho a (by
    rw [← h.fullMem.1]; exact List.mem_of_mem_drop ha))]
  have := suffixFractional_eq (rest f p.word.length (y.durations.getLastD 0)).durations 0
  simp only [Int.floor_zero, Int.cast_zero, sub_zero] at this
  rw [this]
  rfl

end Suffix
end LearnTA

namespace LearnTA
namespace Suffix
open Bound RegionTA TimedCondition ElementaryLanguage

/-- The cut is not after the next event. -/
theorem Samples.front {L p : ForwardRegional} {y f : TimedWord} (h : Samples L p y f) (hL : Reg L.toElementaryLanguage) (hp : Reg p.toElementaryLanguage) :
    y.durations.getD p.word.length 0 ≤ f.durations.getD p.word.length 0 := by
  by_contra hlt
  push Not at hlt
  obtain ⟨pw, ps, pc⟩ := hp
  obtain ⟨Lw, Ls, Lc⟩ := hL
  obtain ⟨g, hg1, hg2, hg3⟩ := h.ext
  set k := p.word.length with hk
  set c := (L.constrain y).cond with hc
  have hLf : L.word.length = f.word.length := by rw [h.fullMem.1]
  have hfl : f.durations.length = f.word.length + 1 := h.fullWF
  have hyl : y.durations.length = k + 1 := by rw [hk, ← h.preMem.1]; exact h.preWF
  have hkf : k ≤ f.word.length := h.le
  have hcs : c.size = L.cond.size := (constrain_bounds _ _ 0 0).2.2
  have hLs : L.word.length + 1 = L.cond.size := Lw
  have hps : k + 1 = p.cond.size := pw
  set ds := f.durations.take k with hds
  have hdl : ds.length = k := by rw [hds, List.length_take]; omega
  have hyd : y.durations.take k = ds := by
    refine List.ext_getElem (by simp [hds]; omega) fun i h1 h2 => ?_
    have := h.agree i (by simp at h1; omega)
    simp only [List.getD_eq_getElem?_getD] at this
    rw [List.getElem?_eq_getElem (by simp at h1; omega), List.getElem?_eq_getElem (by simp at h1; omega)] at this
    simp only [hds, List.getElem_take]
    simpa using this.symm
  have hsnoc : ∀ (d : List ℚ), k < d.length → (∀ i < k, d.getD i 0 = y.durations.getD i 0) →
      d.take (k + 1) = ds ++ [d.getD k 0] := by
    intro d hd hi
    refine List.ext_getElem (by simp; omega) fun i h1 h2 => ?_
    simp only [List.length_take] at h1
    rw [List.getElem_take]
    by_cases e : i < k
    · rw [List.getElem_append_left (by omega)]
      have := hi i e
      simp only [List.getD_eq_getElem?_getD] at this
      rw [List.getElem?_eq_getElem (by omega), List.getElem?_eq_getElem (by omega)] at this
      simp only [Option.getD_some] at this
      rw [this]
      have e2 : ds[i]'(by omega) = (y.durations.take k)[i]'(by simp; omega) := by simp only [hyd]
      rw [e2, List.getElem_take]
    · obtain rfl : i = k := by omega
      rw [List.getElem_append_right (by omega)]
      simp [hdl, List.getD_eq_getElem?_getD, List.getElem?_eq_getElem (show k < d.length by omega)]
  have hwl : ∀ w, L.Mem w → w.durations.length = f.durations.length := fun w hw => by
    rw [hw.2.1, h.fullMem.2.1]
  -- possible delays
  have admL : ∀ w, L.Mem w → (∀ i < k, w.durations.getD i 0 = y.durations.getD i 0) → Adm c ds (w.durations.getD k 0) := by
    intro w hw hi
    have := partial_take ((h.mem w).2 ⟨hw, hi⟩).2 (k + 1)
    rw [hsnoc w.durations (by rw [hwl w hw]; omega) hi] at this
    exact ((partial_snoc _ _ _).1 this).2
  have pds : Partial c ds := partial_take ((h.mem f).2 ⟨h.fullMem, h.agree⟩).2 k
  have wordOf : ∀ τ, Adm c ds τ → ∃ es, L.Mem ⟨L.word, ds ++ [τ] ++ es⟩ ∧ (ds ++ [τ] ++ es).length = f.durations.length := by
    intro τ ht
    obtain ⟨es, he⟩ := partial_complete c h.canonical (L.cond.size - (k + 1)) (ds ++ [τ]) (by simp; omega)
      ((partial_snoc _ _ _).2 ⟨pds, ht⟩)
    have hm := (h.mem ⟨L.word, ds ++ [τ] ++ es⟩).1 ⟨rfl, he⟩
    exact ⟨es, hm.1, hwl _ hm.1⟩
  have hyk : y.durations = ds ++ [y.durations.getD k 0] := by
    have := hsnoc y.durations (by omega) fun _ _ => rfl
    rwa [List.take_of_length_le (by omega)] at this
  set t := y.durations.getD k 0 with ht
  have hadm_t : Adm c ds t := by
    refine (admL f h.fullMem h.agree).convex (admL g hg1 hg2) hlt.le hg3
  obtain ⟨es, hxm, hxl⟩ := wordOf t hadm_t
  have hpword : p.word = L.word.take k := by rw [← h.preMem.1, ← h.word, h.fullMem.1]
  have heq : ∀ τ, Adm p.cond ds τ ↔ Adm c ds τ := by
    intro τ
    constructor
    · intro hτ
      have pp : Partial p.cond ds := by
        have := partial_take h.preMem.2 k
        rwa [hyd] at this
      have hm : p.Mem ⟨p.word, ds ++ [τ]⟩ := by
        refine ⟨rfl, by simp; omega, fun i j hij hj => ?_⟩
        exact (partial_snoc _ _ _).2 ⟨pp, hτ⟩ i j hij (by simp; omega)
      have hsame := Reg.sameRegion ⟨pw, ps, pc⟩ h.preMem hm
      -- the word of `L` after the cut
      have happ : y.append ⟨L.word.drop k, 0 :: es⟩ = ⟨L.word, ds ++ [t] ++ es⟩ := by
        rcases y with ⟨yw, yd⟩
        have e1 : yw = L.word.take k := by have := h.preMem.1; rw [← hpword]; exact this
        subst e1
        simp only at hyk
        simp only [TimedWord.append, List.take_append_drop, TimedWord.mk.injEq, true_and]
        rw [hyk]
        simp [TimedWord.addBack]
      have hv : TimedWord.WF ⟨L.word.drop k, 0 :: es⟩ := by
        show (0 :: es).length = (L.word.drop k).length + 1
        simp at hxl ⊢; omega
      obtain ⟨w, w1, w2, w3, _, w5⟩ := extend_begin h.preWF hv hsame
      rw [happ] at w1
      have hw := mem_of_same Ls hxm w1
      have ek : y.word.length = k := by rw [h.preMem.1]
      rw [ek] at w3 w5
      have hτ' := w5 rfl
      have hds' : ∀ i < k, (ds ++ [τ]).getD i 0 = y.durations.getD i 0 := by
        intro i hi
        rw [hyk]
        simp only [List.getD_eq_getElem?_getD]
        rw [List.getElem?_append_left (by omega), List.getElem?_append_left (by omega)]
      have hlast : (ds ++ [τ]).getD k 0 = τ := by
        rw [List.getD_eq_getElem?_getD, List.getElem?_append_right (by omega), hdl]; simp
      rw [← hlast, ← hτ']
      exact admL w hw fun i hi => (w3 i hi).trans (hds' i hi)
    · intro hτ
      obtain ⟨es', hm', hl'⟩ := wordOf τ hτ
      have hsame := Reg.sameRegion ⟨Lw, Ls, Lc⟩ hxm hm'
      have hm : p.Mem ⟨p.word, ds ++ [τ]⟩ := by
        refine mem_of_same ps h.preMem ⟨h.preMem.1, by simp [hyl, hdl], fun i j hij hj => ?_⟩
        have := hsame.2.2 i j hij (by show j < (ds ++ [t] ++ es).length; rw [hxl]; omega)
        have cut : ∀ (σ : ℚ) (l : List ℚ), T (ds ++ [σ] ++ l) i j = T (ds ++ [σ]) i j := by
          intro σ l
          unfold T
          rw [List.drop_append_of_le_length (by simp; omega), List.take_append_of_le_length (by simp; omega)]
        rw [cut, cut] at this
        rw [hyk]
        exact this
      have := partial_take hm.2 (k + 1)
      rw [List.take_of_length_le (by simp; omega)] at this
      exact ((partial_snoc _ _ _).1 this).2
  have hb : p.cond.upper ds.length ds.length ≠ .inf ∧ p.cond.lower ds.length ds.length ≠ .inf :=
    simple_bounded ps (by omega)
  have hb' : c.upper ds.length ds.length ≠ .inf ∧ c.lower ds.length ds.length ≠ .inf := by
    obtain ⟨b1, b2⟩ := simple_bounded Ls (i := ds.length) (by omega)
    exact ⟨ne_inf_of_le (constrain_bounds _ _ _ _).1 b1, ne_inf_of_le (constrain_bounds _ _ _ _).2.1 b2⟩
  have hu := sampleStep_unique hb hb' ((heq t).2 hadm_t) heq
  have e1 : t = sampleStep p.cond ds := by
    have := sampleDurations_getD p.cond (n := k + 1) (k := k) (by omega)
    rw [← h.preEq, hyd] at this
    exact this
  have e2 : f.durations.getD k 0 = sampleStep c ds := by
    have := sampleDurations_getD c (n := L.word.length + 1) (k := k) (by omega)
    rw [← h.fullEq] at this
    exact this
  rw [e2, ← hu, ← e1] at hlt
  exact lt_irrefl _ hlt

theorem T_self (d : List ℚ) (i : ℕ) : T d i i = d.getD i 0 := by
  rw [← pts_sub d (le_refl i), pts_succ]; ring

theorem nonneg_of_same {w w' : TimedWord} (h : w.SameRegion w') (hn : w.Nonneg) : w'.Nonneg := by
  intro q hq
  obtain ⟨i, hi, rfl⟩ := List.getElem_of_mem hq
  obtain ⟨_, hl, hT⟩ := h
  have := (hT i i (le_refl _) (by omega)).1
  rw [T_self, T_self] at this
  have e : ∀ {d : List ℚ} (h : i < d.length), d.getD i 0 = d[i] := fun h => by
    simp [List.getD_eq_getElem?_getD, List.getElem?_eq_getElem h]
  rw [e hi, e (by omega : i < w.durations.length)] at this
  have h0 := Int.floor_nonneg.2 (hn _ (List.getElem_mem (by omega : i < w.durations.length)))
  rw [this] at h0
  exact Int.floor_nonneg.1 h0

theorem Samples.rest_nonneg {L p : ForwardRegional} {y f : TimedWord} (h : Samples L p y f) (hL : Reg L.toElementaryLanguage)
    (hp : Reg p.toElementaryLanguage) (hf : f.Nonneg) : (rest f p.word.length (y.durations.getLastD 0)).Nonneg := by
  have hfr := h.front hL hp
  have hfl : f.durations.length = f.word.length + 1 := h.fullWF
  have hk := h.le
  have hyl : y.durations.length = p.word.length + 1 := by rw [← h.preMem.1]; exact h.preWF
  have e : y.durations.getLastD 0 = y.durations.getD p.word.length 0 := by
    rw [List.getLastD_eq_getLast?, List.getLast?_eq_getElem?, hyl, List.getD_eq_getElem?_getD]; rfl
  intro q hq
  unfold rest at hq
  rw [List.drop_eq_getElem_cons (show p.word.length < f.durations.length by omega)] at hq
  simp only [TimedWord.subFront, List.mem_cons] at hq
  rcases hq with rfl | hq
  · rw [e]
    rw [List.getD_eq_getElem?_getD (l := f.durations), List.getElem?_eq_getElem (by omega)] at hfr
    simp only [Option.getD_some] at hfr
    linarith
  · exact hf q (List.mem_of_mem_drop hq)

end Suffix
end LearnTA
