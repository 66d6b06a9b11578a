import Verif.Lemmas.Double2
import Verif.Lemmas.Double4
import Verif.Lemmas.LongWait
import Verif.Props.Symbolic

/-!
# Double precision (C83)

The code computes with `double`.  The other properties are about exact numbers; these theorems say when that makes no difference.
`rnd` is the rounding of the processor, of which `Rounding` is all that is used.
-/

namespace LearnTA.Props

open LearnTA Double

/-! ## C83: rounding -/

/-- C83: rounding to the nearest number of type `double`, with ties to even, as IEEE 754 prescribes, is such a rounding: it keeps the
numbers of the type, adding a small number to `DBL_MAX` gives `DBL_MAX`, and a greater number is not rounded below `DBL_MAX`. -/
theorem C83_ieee : Rounding ieee := ieee_rounding

/-- It rounds. -/
example : ieee (1 / 3) = 6004799503160661 * (2 : ℚ) ^ (-54 : ℤ) ∧ ieee (2 ^ 53 + 1) = 2 ^ 53 ∧ ieee (2 ^ 53 + 3) = 2 ^ 53 + 4 ∧
    ieee (-1 / 10) ≠ -1 / 10 ∧ ieee (3 / 8) = 3 / 8 := by
  decide +kernel

/-! ## C83: zones -/

section Zones

variable {rnd : ℚ → ℚ} {k : ℕ} {B : ℚ} {d d' : DZone} {z z' : Zone}

/-- C83: canonising a zone whose bounds are multiples of `2 ^ -k` up to `B` gives the exact result if `3 ^ dim * B * 2 ^ k` is below
`2 ^ 53`, also with entries without bound, for which the code adds `DBL_MAX`. -/
theorem C83_canonize (hr : Rounding rnd) (hk : k ≤ 1074) (hB : 0 ≤ B) (hs : Stores d z) (hf : FineZone k B z)
    (hroom : 3 ^ z.dim * B * 2 ^ k < 2 ^ 53) : Stores (d.canonize rnd) z.canonize :=
  (Double.canonize hr hk hB hroom hs hf).1

/-- C83: so is the answer whether there is a valuation in the zone. -/
theorem C83_satisfiable (hr : Rounding rnd) (hk : k ≤ 1074) (hB : 0 ≤ B) (hs : Stores d z) (hf : FineZone k B z)
    (hroom : 2 * 3 ^ z.dim * B * 2 ^ k < 2 ^ 53) : d.isSatisfiable rnd = z.isSatisfiable :=
  Double.isSatisfiable hr hk hB hroom hs hf

/-- C83: the intersection of two zones. -/
theorem C83_inter (hr : Rounding rnd) (hk : k ≤ 1074) (hB : 0 ≤ B) (hs : Stores d z) (hf : FineZone k B z) (hs' : Stores d' z')
    (hf' : FineZone k B z') (hd : z'.dim = z.dim) (hroom : 3 ^ z.dim * B * 2 ^ k < 2 ^ 53) : Stores (d.inter rnd d') (z.inter z') :=
  (Double.inter hr hk hB hs hf hs' hf' hd hroom).1

/-- C83: intersecting a zone with a guard on its clocks. -/
theorem C83_guard (hr : Rounding rnd) (hk : k ≤ 1074) (hB : 0 ≤ B) (hs : Stores d z) (hf : FineZone k B z) (g : Guard)
    (hg : ∀ c ∈ g, c.x + 1 < z.dim ∧ |(c.c : ℚ)| ≤ B) (hroom : 9 ^ g.length * B * 2 ^ k < 2 ^ 53) :
    Stores (d.tightenG rnd g) (z.tightenG g) :=
  (Double.tightenG hr hk g B d z hB hs hf (fun c hc => ⟨(hg c hc).1, ⟨⟨c.c * 2 ^ k, by push_cast; rfl⟩, (hg c hc).2⟩⟩) hroom).1

/-- C83: letting time elapse (nothing is computed). -/
theorem C83_elapse (hs : Stores d z) : Stores d.elapse z.elapse := by
  refine ⟨hs.dim, fun i hi j hj => ?_⟩
  simp only [DZone.elapse, Zone.elapse]
  split
  · rfl
  · exact hs.val i hi j hj

/-- C83: updating clocks. -/
theorem C83_resets (hr : Rounding rnd) (hk : k ≤ 1074) (hB : 0 ≤ B) (hs : Stores d z) (hf : FineZone k B z) (r : Resets)
    (hc : ∀ p ∈ r, ∀ q, p.2 = .const q → Fine k B q) (hroom : (3 ^ z.dim) ^ (2 * r.length) * B * 2 ^ k < 2 ^ 53) :
    Stores (d.applyResets rnd r) (z.applyResets r) :=
  (Double.applyResets hr hk hB hs hf r hc hroom).1

/-- C83: extrapolation. -/
theorem C83_extrapolate (hs : Stores d z) (hf : FineZone k B z) (maxC : ℕ → ℚ) (hm : ∀ i, i + 1 < z.dim → Fine k B (maxC i))
    (hroom : B * 2 ^ k < 2 ^ 53) : Stores (d.extrapolate maxC) (z.extrapolate maxC) :=
  (Double.extrapolate hroom hs hf hm).1

/-- C83: the comparisons of zones. -/
theorem C83_compare (hs : Stores d z) (hf : FineZone k B z) (hs' : Stores d' z') (hf' : FineZone k B z') (hd : z'.dim = z.dim)
    (hroom : B * 2 ^ k < 2 ^ 53) :
    d.includes d' = z.includes z' ∧ d.beq d' = z.beq z' ∧ d.strictEqual d' = z.strictEqual z' :=
  ⟨Double.includes hroom hs hf hs' hf' hd, Double.beq hroom hs hf hs' hf', Double.strictEqual hroom hs hf hs' hf' hd⟩

/-- C83: sampling a zone, with its halves. -/
theorem C83_zone_sample (hr : Rounding rnd) (hB : 0 ≤ B) (hs : Stores d z) (hf : FineZone k B z) (hk : k + z.dim ≤ 1074)
    (hroom : 4 * z.dim * (3 ^ z.dim * B + 1) * 2 ^ (k + z.dim) < 2 ^ 53) : d.sample rnd = z.sample :=
  Double.zoneSample hr hB hs hf hk hroom

end Zones

/-- A zone of two clocks: `x < 5`, `y ≥ 2`, and no bound for `y`. -/
def dblZ : Zone := ((Zone.top 3).set 1 0 (.fin 5 false)).set 0 2 (.fin (-2) true)

theorem dblZ_fine : FineZone 0 7 dblZ := by
  intro i hi j hj c s e
  have hc : c = 5 ∨ c = -2 := by
    simp only [dblZ, Zone.set, Zone.top] at e
    split at e
    · right; injection e with e _; exact e.symm
    · split at e
      · left; injection e with e _; exact e.symm
      · cases e
  rcases hc with rfl | rfl
  · exact ⟨⟨5, by norm_num⟩, by norm_num [abs_le]⟩
  · exact ⟨⟨-2, by norm_num⟩, by norm_num [abs_le]⟩

/-- The hypotheses hold for all operations together, with room left. -/
example : Stores (ofZone dblZ) dblZ ∧ FineZone 0 7 dblZ ∧ (2 : ℚ) * 3 ^ dblZ.dim * 7 * 2 ^ 0 < 2 ^ 53 ∧
    (9 : ℚ) ^ [Constraint.mk 1 .le 7].length * 7 * 2 ^ 0 < 2 ^ 53 ∧
    ((3 : ℚ) ^ dblZ.dim) ^ (2 * [((0 : ℕ), Upd.const 3)].length) * 7 * 2 ^ 0 < 2 ^ 53 ∧
    4 * (dblZ.dim : ℚ) * (3 ^ dblZ.dim * 7 + 1) * 2 ^ (0 + dblZ.dim) < 2 ^ 53 ∧
    (ofZone dblZ).isSatisfiable ieee = true ∧ (ofZone dblZ).sample ieee = [1 / 2, 2] := by
  have hd : dblZ.dim = 3 := rfl
  have room : 4 * (dblZ.dim : ℚ) * (3 ^ dblZ.dim * 7 + 1) * 2 ^ (0 + dblZ.dim) < 2 ^ 53 := by rw [hd]; norm_num
  refine ⟨stores_ofZone _, dblZ_fine, by rw [hd]; norm_num, by norm_num, by rw [hd]; norm_num, room, ?_, ?_⟩
  · rw [C83_satisfiable (k := 0) (B := 7) C83_ieee (by norm_num) (by norm_num) (stores_ofZone dblZ) dblZ_fine (by rw [hd]; norm_num)]
    decide +kernel
  · rw [C83_zone_sample (k := 0) (B := 7) C83_ieee (by norm_num) (stores_ofZone dblZ) dblZ_fine (by rw [hd]; norm_num) room]
    decide +kernel

/-! ## C83: the words that are sampled -/

/-- C83: the timed word sampled from a language with integer bounds up to `B`, halves included, is the exact one if there are fewer
than about `52 - log₂ B` delays. -/
theorem C83_sample {rnd : ℚ → ℚ} (hr : Rounding rnd) {B : ℚ} (hB : 1 ≤ B) (e : ElementaryLanguage) (he : e.WF) (hc : e.cond.Canonical)
    (hb : e.cond.Bounded) (ho : ∀ a ∈ e.word, a ≠ unobservable) (hf : FineZone 0 B e.cond.zone) {d : DZone} (hs : Stores d e.cond.zone)
    (hroom : 2 * B * 2 ^ e.cond.size < 2 ^ 53) : sampleWord rnd e.word d = e.sample := by
  unfold sampleWord ElementaryLanguage.sample
  have hn : e.word.length + 1 = e.cond.size := he
  rw [makeWord_eq rnd _ _ ho, (sampleDurations_eq hr hf hc hb hB hs hroom (e.word.length + 1) hn.le).1]

/-- The language of `n - 2` actions where all sums of consecutive delays are strictly between 0 and 1. -/
def tinyZone (n : ℕ) : Zone :=
  ⟨n, fun i j => if i = j then .fin 0 true else if i ≠ 0 ∧ (j = 0 ∨ i < j) then .fin 1 false else .fin 0 false⟩

/-- The language of `n - 2` actions where all sums of consecutive delays are strictly between 0 and 1. -/
def tinyLang (n : ℕ) : ElementaryLanguage := ⟨List.replicate (n - 2) actA, ⟨tinyZone n⟩⟩

theorem tiny_ok (n : ℕ) (hn : 2 ≤ n) : (tinyLang n).WF ∧ (tinyLang n).cond.Canonical ∧ (tinyLang n).cond.Bounded ∧
    (∀ a ∈ (tinyLang n).word, a ≠ unobservable) ∧ FineZone 0 1 (tinyLang n).cond.zone ∧ (tinyLang n).cond.Simple := by
  have hd : (tinyLang n).cond.zone.dim = n := rfl
  have hval : ∀ i j, (tinyLang n).cond.zone.val i j = if i = j then .fin 0 true else if i ≠ 0 ∧ (j = 0 ∨ i < j) then .fin 1 false
    else .fin 0 false := fun _ _ => rfl
  have hsz : (tinyLang n).cond.size = n - 1 := rfl
  refine ⟨?_, ⟨hn, ?_, ?_⟩, ?_, ?_, ?_, ?_⟩
  · show (List.replicate (n - 2) actA).length + 1 = n - 1
    rw [List.length_replicate]; omega
  · intro i hi j hj
    rw [hval, hval]
    show Bound.fin 0 true ≤ _
    split_ifs <;> first | omega | simp
  · intro i hi j hj k hk hij
    rw [hval, hval, hval]
    split_ifs <;> first | omega | simp
  · intro i hi j hj hij
    rw [hval]
    split_ifs <;> simp
  · intro a ha
    rw [List.eq_of_mem_replicate ha]; decide
  · intro i hi j hj c s e
    rw [hval] at e
    have : c = 0 ∨ c = 1 := by
      split_ifs at e <;> injection e with e _ <;> simp [← e]
    rcases this with rfl | rfl
    · exact ⟨⟨0, by norm_num⟩, by norm_num⟩
    · exact ⟨⟨1, by norm_num⟩, by norm_num⟩
  · intro i j hij hj
    rw [hsz] at hj
    refine ⟨0, Or.inr ?_⟩
    unfold TimedCondition.upper TimedCondition.lower
    rw [hsz]
    simp only [hval]
    constructor
    · split_ifs <;> first | omega | (simp; done) | (exfalso; simp_all; done) | (exfalso; simp_all; omega)
    · split_ifs <;> first | omega | (simp; done) | (exfalso; simp_all; done) | (exfalso; simp_all; omega)

theorem tiny_lower (n : ℕ) (hn : 2 ≤ n) (i : ℕ) (hi : i < (tinyLang n).cond.size) : (tinyLang n).cond.lower i i = .fin 0 false := by
  have hi' : i < n - 1 := hi
  have hval : ∀ i j, (tinyLang n).cond.zone.val i j = if i = j then .fin 0 true else if i ≠ 0 ∧ (j = 0 ∨ i < j) then .fin 1 false
    else .fin 0 false := fun _ _ => rfl
  unfold TimedCondition.lower
  rw [hval, hval]
  split_ifs <;> first | rfl | omega | (exfalso; simp_all; done) | (exfalso; simp_all; omega)

/-- The hypotheses of `C83_sample` hold for fifty such delays. -/
example : (sampleWord ieee (tinyLang 51).word (ofZone (tinyZone 51))) = (tinyLang 51).sample := by
  obtain ⟨h1, h2, h3, h4, h5, -⟩ := tiny_ok 51 (by norm_num)
  refine C83_sample C83_ieee (le_refl 1) (tinyLang 51) h1 h2 h3 h4 h5 (stores_ofZone _) ?_
  show (2 : ℚ) * 1 * 2 ^ 50 < 2 ^ 53
  norm_num

theorem tiny_steps : ∀ n < 54, sampleStep ieee (ofZone (tinyZone 56)) ((List.range n).map fun i => 1 / 2 ^ (i + 1)) = 1 / 2 ^ (n + 1) := by
  decide +kernel

theorem tiny_last : sampleStep ieee (ofZone (tinyZone 56)) ((List.range 54).map fun i => 1 / 2 ^ (i + 1)) = 0 := by
  decide +kernel

theorem tiny_durations (n : ℕ) (hn : n ≤ 54) :
    sampleDurations ieee (ofZone (tinyZone 56)) n = (List.range n).map fun i => 1 / 2 ^ (i + 1) := by
  induction n with
  | zero => rfl
  | succ n ih =>
    have e : sampleDurations ieee (ofZone (tinyZone 56)) (n + 1) = sampleDurations ieee (ofZone (tinyZone 56)) n ++
        [sampleStep ieee (ofZone (tinyZone 56)) (sampleDurations ieee (ofZone (tinyZone 56)) n)] := by
      unfold sampleDurations
      rw [List.range_succ, List.foldl_append]; rfl
    rw [e, ih (by omega), tiny_steps n (by omega), List.range_succ, List.map_append]; rfl

/-- C83 needs the limit: there is a language of 55 delays, simple and canonical, whose sampled word is in the language if computed
exactly, but has a delay 0 with IEEE 754 arithmetic and so is not in the language. -/
theorem C83_precision_witness : (tinyLang 56).WF ∧ (tinyLang 56).cond.Canonical ∧ (tinyLang 56).cond.Simple ∧
    (tinyLang 56).Mem (tinyLang 56).sample ∧ ¬ (tinyLang 56).Mem (sampleWord ieee (tinyLang 56).word (ofZone (tinyZone 56))) := by
  obtain ⟨h1, h2, h3, h4, h5, h6⟩ := tiny_ok 56 (by norm_num)
  have hb : ∀ i < (tinyLang 56).cond.size, (tinyLang 56).cond.upper i i ≠ .inf ∧ (tinyLang 56).cond.lower i i ≠ .inf := by
    intro i hi
    obtain ⟨n, h | h⟩ := h6 i i (le_refl _) hi
    · rw [h.1, h.2]; simp
    · rw [h.1, h.2]; simp
  refine ⟨h1, h2, h6, (C22_sample_mem _ h1 h2 hb h4).1, fun hm => ?_⟩
  have e : sampleDurations ieee (ofZone (tinyZone 56)) 55 = ((List.range 54).map fun i => 1 / 2 ^ (i + 1)) ++ [0] := by
    have e : sampleDurations ieee (ofZone (tinyZone 56)) (54 + 1) = sampleDurations ieee (ofZone (tinyZone 56)) 54 ++
        [sampleStep ieee (ofZone (tinyZone 56)) (sampleDurations ieee (ofZone (tinyZone 56)) 54)] := by
      unfold sampleDurations
      rw [List.range_succ, List.foldl_append]; rfl
    rw [e, tiny_durations 54 (le_refl _), tiny_last]
  have hl : (tinyLang 56).word.length + 1 = 55 := by
    show (List.replicate 54 actA).length + 1 = 55
    rw [List.length_replicate]
  have hwf : TimedWord.WF ⟨(tinyLang 56).word, ((List.range 54).map fun i => 1 / 2 ^ (i + 1)) ++ [0]⟩ := by
    show (((List.range 54).map fun i => (1 : ℚ) / 2 ^ (i + 1)) ++ [0]).length = (tinyLang 56).word.length + 1
    rw [hl]; simp
  have hw : (sampleWord ieee (tinyLang 56).word (ofZone (tinyZone 56))).durations = ((List.range 54).map fun i => 1 / 2 ^ (i + 1)) ++ [0] := by
    unfold sampleWord
    rw [makeWord_eq ieee _ _ h4, hl, e]
    exact congrArg TimedWord.durations (TimedWord.make_observable hwf h4)
  have h := (hm.2.2 54 54 (le_refl _) (by show 54 < 55; norm_num)).2
  rw [hw] at h
  have hT : TimedCondition.T (((List.range 54).map fun i => (1 : ℚ) / 2 ^ (i + 1)) ++ [0]) 54 54 = 0 := by
    unfold TimedCondition.T
    rw [List.drop_append_of_le_length (by simp), List.drop_of_length_le (by simp)]
    simp
  have hlo : (tinyLang 56).cond.lower 54 54 = .fin 0 false := rfl
  rw [hT, hlo] at h
  simp [Bound.Sat] at h

/-! ## C83: membership queries -/

/-- C83: executing an automaton without unobservable transitions on a word whose delays are multiples of `2 ^ -k` gives the exact
answer, and leaves the same runner, if the constants `C` of the updates plus the total time stay below `2 ^ (53 - k)`. -/
theorem C83_run {rnd : ℚ → ℚ} (hr : Rounding rnd) (A : TA) (hc : A.Closed) (he : A.EpsFree) (hne : A.states ≠ []) {k : ℕ} (hk : k ≤ 1074)
    {C : ℚ} (hC : 0 ≤ C)
    (hres : ∀ p ∈ A.states, ∀ a, ∀ t ∈ (A.loc p).next a, ∀ u ∈ t.resets, ∀ q, u.2 = .const q → Fine k C q)
    (fuel : ℕ) (r : Runner) (w : TimedWord) (hw : w.WF) (hn : w.Nonneg) (hd : ∀ d ∈ w.durations, ∃ m : ℤ, d * 2 ^ k = m)
    (hroom : (C + w.total) * 2 ^ k < 2 ^ 53) :
    Runner.answerQuery A (fuel + 1) r w = some (answerQuery rnd A r w) :=
  answerQuery_eq hr hc he hk fuel hC hres r hne w hw
    (fun d h => ⟨hd d h, by rw [abs_of_nonneg (hn d h)]⟩) hroom

/-- C83: a membership query for a simple language, of which the code samples a word in double precision and executes the automaton on
it in double precision, is answered correctly for every word of the language, if the constants of the bounds (up to `B`), of the
updates (up to `C`) and the number of delays leave room. -/
theorem C83_membership {rnd : ℚ → ℚ} (hr : Rounding rnd) (A : TA) (hA : A.WF) (he : A.EpsFree) (hdet : A.deterministic = true)
    (hi : A.init.length = 1) (hI : A.IntResets) {B C : ℚ} (hB : 1 ≤ B) (hC : 0 ≤ C)
    (hres : ∀ p ∈ A.states, ∀ a, ∀ t ∈ (A.loc p).next a, ∀ u ∈ t.resets, ∀ q, u.2 = .const q → q ≤ C)
    (e : ElementaryLanguage) (hq : e.Queryable) (hs : e.cond.Simple) (hn : ∀ i < e.cond.size, e.cond.lower i i ≤ .fin 0 true)
    (hf : FineZone 0 B e.cond.zone) {d : DZone} (hd : Stores d e.cond.zone)
    (hroom : (C + 2 * B) * 2 ^ e.cond.size < 2 ^ 53)
    (r : Runner) (w : TimedWord) (hw : e.Mem w) :
    (answerQuery rnd A r (sampleWord rnd e.word d)).2 = true ↔ A.Accepts w := by
  have hpos : (0 : ℚ) < 2 ^ e.cond.size := by positivity
  have hroom1 : 2 * B * 2 ^ e.cond.size < 2 ^ 53 := lt_of_le_of_lt (mul_le_mul_of_nonneg_right (by linarith) hpos.le) hroom
  have hroom2 : (C + B) * 2 ^ e.cond.size < 2 ^ 53 := lt_of_le_of_lt (mul_le_mul_of_nonneg_right (by linarith) hpos.le) hroom
  have hbb : ∀ i < e.cond.size, e.cond.upper i i ≠ .inf ∧ e.cond.lower i i ≠ .inf := by
    intro i hi
    obtain ⟨n, h | h⟩ := hs i i (le_refl _) hi
    · rw [h.1, h.2]; simp
    · rw [h.1, h.2]; simp
  have hsz : e.word.length + 1 = e.cond.size := hq.wf
  have hsize : e.cond.size ≤ 52 := by
    by_contra hcon
    push Not at hcon
    have h1 : (2 : ℚ) ^ 53 ≤ 2 ^ e.cond.size := pow_le_pow_right₀ (by norm_num) hcon
    nlinarith
  rw [C83_sample hr hB e hq.wf hq.canonical hq.bounded hq.observable hf hd hroom1]
  obtain ⟨m1, m2, -⟩ := C22_sample_mem e hq.wf hq.canonical hbb hq.observable
  have hdur : e.sample.durations = ElementaryLanguage.sampleDurations e.cond e.cond.size := by
    have hh := ElementaryLanguage.sampleDurations_holds e.cond hq.canonical hbb
    have hwf : TimedWord.WF ⟨e.word, ElementaryLanguage.sampleDurations e.cond e.cond.size⟩ := by
      show (ElementaryLanguage.sampleDurations e.cond e.cond.size).length = e.word.length + 1
      rw [hh.1, hsz]
    unfold ElementaryLanguage.sample
    rw [hsz]
    exact congrArg TimedWord.durations (TimedWord.make_observable hwf hq.observable)
  obtain ⟨-, fine⟩ := sampleDurations_eq (d := d) hr hf hq.canonical hq.bounded hB hd hroom1 e.cond.size (le_refl _)
  have len : e.sample.durations.length = e.cond.size := m1.2.1
  have hnn : e.sample.Nonneg := by
    intro x hx
    obtain ⟨i, hi, rfl⟩ := List.mem_iff_getElem.1 hx
    have h1 := (m1.2.2 i i (le_refl _) (by omega)).2
    have h2 := hn i (by omega)
    have hT : TimedCondition.T e.sample.durations i i = e.sample.durations[i] := by
      unfold TimedCondition.T
      rw [List.drop_eq_getElem_cons hi]
      have : i + 1 - i = 0 + 1 := by omega
      rw [this, List.take_succ_cons, List.take_zero, List.sum_singleton]
    rw [hT] at h1
    have h3 := Bound.Sat.mono h1 h2
    simp [Bound.Sat] at h3
    linarith
  have htot : e.sample.total ≤ B := by
    have h1 := (m1.2.2 0 (e.cond.size - 1) (by omega) (by omega)).1
    obtain ⟨u, s, hu, fu⟩ := upper_fin hf hq.bounded (i := 0) (j := e.cond.size - 1) (by omega) (by omega) (by omega)
    have hT : TimedCondition.T e.sample.durations 0 (e.cond.size - 1) = e.sample.total := by
      unfold TimedCondition.T TimedWord.total
      rw [List.drop_zero, List.take_of_length_le (by omega)]
    rw [hT, hu] at h1
    have h2 := le_trans (le_abs_self u) fu.2
    cases s <;> simp [Bound.Sat] at h1 <;> linarith
  have hst : A.states ≠ [] := by
    intro h
    obtain ⟨q, hq⟩ := List.length_eq_one_iff.1 hi
    have := hA.closed.1 q (by rw [hq]; simp)
    rw [h] at this; cases this
  have hrun := C83_run hr A hA.closed he hst (k := e.cond.size) (by omega) hC
    (fun p hp a t ht u hu q hq => by
      obtain ⟨n, hn⟩ := hI p hp a t ht u hu q hq
      have h0 := hA.resets p hp a t ht u hu q hq
      have h1 := hres p hp a t ht u hu q hq
      exact ⟨⟨n * 2 ^ e.cond.size, by rw [hn]; push_cast; rfl⟩, by rw [abs_of_nonneg h0]; exact h1⟩)
    0 r e.sample m2 hnn
    (fun x hx => by
      obtain ⟨i, hi, e1⟩ := List.mem_iff_getElem.1 hx
      have h1 := fine i x (by rw [← hdur, List.getElem?_eq_getElem hi, e1])
      exact (h1.finer (l := e.cond.size) (by omega)).1)
    (lt_of_le_of_lt (mul_le_mul_of_nonneg_right (by linarith) hpos.le) hroom2)
  have hobs : e.sample.Observable := by
    intro a ha
    rw [m1.1] at ha
    exact hq.observable a ha
  obtain ⟨r', b, h1, h2⟩ := C30_membership_exact A hA he hdet (.inl hi) 0 r e.sample m2 hobs hnn
  rw [hrun] at h1
  simp only [Option.some.injEq] at h1
  rw [h1]
  exact h2.trans (C60_region_invariant A hA.closed hI e.sample w m2 (ElementaryLanguage.same_region hs m1 hw))

/-- The hypotheses hold: the automaton of the examples, and twenty delays that are together less than 1. -/
example (r : Runner) (w : TimedWord) (hw : (tinyLang 21).Mem w) :
    (answerQuery ieee exA r (sampleWord ieee (tinyLang 21).word (ofZone (tinyZone 21)))).2 = true ↔ exA.Accepts w := by
  obtain ⟨h1, h2, h3, h4, h5, h6⟩ := tiny_ok 21 (by norm_num)
  have hI : exA.IntResets := by
    intro p hp a t ht r hr q hq
    have : ∀ p ∈ exA.states, ∀ a ∈ allActions, ∀ t ∈ (exA.loc p).next a, ∀ r ∈ t.resets, r.2 = .const 0 ∨ r.2 = .clock 0 := by
      decide +kernel
    rcases this p hp a (mem_allActions a) t ht r hr with h | h
    · rw [h] at hq; injection hq with hq; exact ⟨0, by rw [← hq]; rfl⟩
    · rw [h] at hq; cases hq
  refine C83_membership C83_ieee exA exA_wf exA_eps exA_check rfl hI (le_refl (1 : ℚ)) (le_refl (0 : ℚ)) ?_ (tinyLang 21)
    ⟨h1, h2, h3, ?_, h4⟩ h6 ?_ h5 (stores_ofZone _) ?_ r w hw
  · intro p hp a t ht u hu q hq
    have : ∀ p ∈ exA.states, ∀ a ∈ allActions, ∀ t ∈ (exA.loc p).next a, ∀ r ∈ t.resets, r.2 = .const 0 ∨ r.2 = .clock 0 := by
      decide +kernel
    rcases this p hp a (mem_allActions a) t ht u hu with h | h
    · rw [h] at hq; injection hq with hq; rw [← hq]
    · rw [h] at hq; cases hq
  · intro i hi j hj
    have hval : (tinyLang 21).cond.zone.val i j = if i = j then .fin 0 true else if i ≠ 0 ∧ (j = 0 ∨ i < j) then .fin 1 false
      else .fin 0 false := rfl
    rw [hval]
    split_ifs
    · exact ⟨0, by norm_num⟩
    · exact ⟨1, by norm_num⟩
    · exact ⟨0, by norm_num⟩
  · intro i hi
    rw [tiny_lower 21 (by norm_num) i hi]; simp
  · show (0 + 2 * 1 : ℚ) * 2 ^ 20 < 2 ^ 53
    norm_num

end LearnTA.Props
