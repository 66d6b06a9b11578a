import Verif.Lemmas.Double
import Verif.Lemmas.ElementarySample
import Verif.Spec.Symbolic

/-!
# Double precision: sampling and running
-/

namespace LearnTA
namespace Double

open ElementaryLanguage TimedCondition

theorem makeWord_eq (rnd : ℚ → ℚ) (word : List Action) (ds : List ℚ) (ho : ∀ a ∈ word, a ≠ unobservable) :
    makeWord rnd word ds = TimedWord.make word ds := by
  have key : ∀ (l : List (Action × ℚ)) (s : List Action × List ℚ), (∀ p ∈ l, p.1 ≠ unobservable) →
      l.foldl (absorbStep rnd) s = l.foldl TimedWord.absorbStep s := by
    intro l
    induction l with
    | nil => intro s _; rfl
    | cons p l ih =>
      intro s h
      rw [List.foldl_cons, List.foldl_cons]
      have : absorbStep rnd s p = TimedWord.absorbStep s p := by
        unfold absorbStep TimedWord.absorbStep
        rw [if_pos (h p (by simp)), if_pos (h p (by simp))]
      rw [this]
      exact ih _ fun q hq => h q (by simp [hq])
  unfold makeWord TimedWord.make
  simp only
  rw [key _ _ fun p hp => ho p.1 (List.of_mem_zip hp).1]

section Sample

variable {rnd : ℚ → ℚ} {B : ℚ} {c : TimedCondition} {d : DZone}

theorem upper_fin (hf : FineZone 0 B c.zone) (hb : c.Bounded) {i j : ℕ} (hi : i < c.size) (hj : j < c.size) (hij : i ≤ j) :
    ∃ u s, c.upper i j = .fin u s ∧ Fine 0 B u := by
  have hsz : c.zone.dim = c.size + 1 := by unfold size at hi ⊢; omega
  unfold TimedCondition.upper
  split
  · cases h : c.zone.val (i + 1) 0 with
    | fin u s => exact ⟨u, s, rfl, hf _ (by omega) _ (by omega) u s h⟩
    | inf => exact absurd h (hb _ (by omega) _ (by omega) (by omega))
  · cases h : c.zone.val (i + 1) (j + 2) with
    | fin u s => exact ⟨u, s, rfl, hf _ (by omega) _ (by omega) u s h⟩
    | inf => exact absurd h (hb _ (by omega) _ (by omega) (by omega))

theorem lower_fin (hf : FineZone 0 B c.zone) (hb : c.Bounded) {i j : ℕ} (hi : i < c.size) (hj : j < c.size) (hij : i ≤ j) :
    ∃ u s, c.lower i j = .fin u s ∧ Fine 0 B u := by
  have hsz : c.zone.dim = c.size + 1 := by unfold size at hi ⊢; omega
  unfold TimedCondition.lower
  split
  · cases h : c.zone.val 0 (i + 1) with
    | fin u s => exact ⟨u, s, rfl, hf _ (by omega) _ (by omega) u s h⟩
    | inf => exact absurd h (hb _ (by omega) _ (by omega) (by omega))
  · cases h : c.zone.val (j + 2) (i + 1) with
    | fin u s => exact ⟨u, s, rfl, hf _ (by omega) _ (by omega) u s h⟩
    | inf => exact absurd h (hb _ (by omega) _ (by omega) (by omega))

theorem stores_upper (hs : Stores d c.zone) {i j : ℕ} (hi : i < c.size) (hj : j < c.size) : d.upper i j = ofBound (c.upper i j) := by
  have hsz : c.zone.dim = c.size + 1 := by unfold size at hi ⊢; omega
  unfold DZone.upper TimedCondition.upper TimedCondition.size
  rw [hs.dim]
  split
  · exact hs.val _ (by omega) _ (by omega)
  · exact hs.val _ (by omega) _ (by omega)

theorem stores_lower (hs : Stores d c.zone) {i j : ℕ} (hi : i < c.size) (hj : j < c.size) : d.lower i j = ofBound (c.lower i j) := by
  have hsz : c.zone.dim = c.size + 1 := by unfold size at hi ⊢; omega
  unfold DZone.lower TimedCondition.lower TimedCondition.size
  rw [hs.dim]
  split
  · exact hs.val _ (by omega) _ (by omega)
  · exact hs.val _ (by omega) _ (by omega)

/-- The sums of the delays chosen so far are small. -/
theorem accV_small (hf : FineZone 0 B c.zone) (hb : c.Bounded) (hB : 0 ≤ B) {ds : List ℚ} (hl : ds.length ≤ c.size)
    (hp : Partial c ds) (j : ℕ) (hj : j ≤ ds.length) : |accV ds j| ≤ B := by
  by_cases h : j = ds.length
  · subst h; simpa [accV] using hB
  · have hj' : j < ds.length := by omega
    have e : T ds j (ds.length - 1) = accV ds j := by
      unfold TimedCondition.T accV
      rw [List.take_of_length_le]
      rw [List.length_drop]; omega
    obtain ⟨h1, h2⟩ := hp j (ds.length - 1) (by omega) (by omega)
    obtain ⟨u, s, hu, fu⟩ := upper_fin hf hb (i := j) (j := ds.length - 1) (by omega) (by omega) (by omega)
    obtain ⟨l, t, hl', fl⟩ := lower_fin hf hb (i := j) (j := ds.length - 1) (by omega) (by omega) (by omega)
    rw [e, hu] at h1
    rw [e, hl'] at h2
    have a1 : accV ds j ≤ u := by cases s <;> simp [Bound.Sat] at h1 <;> linarith
    have a2 : -accV ds j ≤ l := by cases t <;> simp [Bound.Sat] at h2 <;> linarith
    have b1 := le_trans (le_abs_self u) fu.2
    have b2 := le_trans (le_abs_self l) fl.2
    rw [abs_le]; constructor <;> linarith

theorem accV_fine {ds : List ℚ} (h : ∀ i q, ds[i]? = some q → Fine (i + 1) B q) (j : ℕ) (hB : |accV ds j| ≤ B) :
    Fine ds.length B (accV ds j) := by
  refine ⟨?_, hB⟩
  have key : ∀ l : List ℚ, (∀ q ∈ l, ∃ m : ℤ, q * 2 ^ ds.length = m) → ∃ m : ℤ, l.sum * 2 ^ ds.length = m := by
    intro l
    induction l with
    | nil => intro _; exact ⟨0, by simp⟩
    | cons a l ih =>
      intro hl
      obtain ⟨m, hm⟩ := hl a (by simp)
      obtain ⟨n, hn⟩ := ih fun q hq => hl q (by simp [hq])
      exact ⟨m + n, by rw [List.sum_cons, add_mul, hm, hn]; push_cast; rfl⟩
  refine key _ fun q hq => ?_
  obtain ⟨i, hi, e⟩ := List.mem_iff_getElem.1 (List.mem_of_mem_drop hq)
  exact ((h i q (by rw [List.getElem?_eq_getElem hi, e])).finer (by omega)).1

theorem max_fine {k : ℕ} {C p q : ℚ} (hp : Fine k C p) (hq : Fine k C q) : Fine k C (max p q) := by
  rcases le_total p q with h | h
  · rwa [max_eq_right h]
  · rwa [max_eq_left h]

theorem min_fine {k : ℕ} {C p q : ℚ} (hp : Fine k C p) (hq : Fine k C q) : Fine k C (min p q) := by
  rcases le_total p q with h | h
  · rwa [min_eq_left h]
  · rwa [min_eq_right h]

theorem sampleInner_fold (hr : Rounding rnd) (hf : FineZone 0 B c.zone) (hb : c.Bounded) (hB : 0 ≤ B) (hs : Stores d c.zone)
    {ds : List ℚ} (hl : ds.length < c.size) (hp : Partial c ds) (hds : ∀ i q, ds[i]? = some q → Fine (i + 1) B q)
    (hk : ds.length ≤ 1074) (hroom : 4 * B * 2 ^ ds.length < 2 ^ 53) (init : ℚ × ℚ × ℚ) (h0 : init.1 = 0)
    (h1 : Fine ds.length (2 * B) init.2.1) (h2 : Fine ds.length (2 * B) init.2.2) (m : ℕ) (hm : m ≤ ds.length) :
    let S := (List.range' (ds.length - m) m).foldr (fun j s => ElementaryLanguage.sampleInner c ds ds.length s j) init
    (List.range' (ds.length - m) m).foldr (fun j s => sampleInner rnd d ds ds.length s j) init = S ∧
      S.1 = accV ds (ds.length - m) ∧ Fine ds.length (2 * B) S.2.1 ∧ Fine ds.length (2 * B) S.2.2 := by
  have hpos : (0 : ℚ) < 2 ^ ds.length := by positivity
  induction m with
  | zero =>
    refine ⟨rfl, ?_, h1, h2⟩
    simp [h0, accV]
  | succ m ih =>
    obtain ⟨e, a1, a2, a3⟩ := ih (by omega)
    have hj : ds.length - (m + 1) + 1 = ds.length - m := by omega
    have hlt : ds.length - (m + 1) < ds.length := by omega
    have hr1 : List.range' (ds.length - (m + 1)) (m + 1) =
        (ds.length - (m + 1)) :: List.range' (ds.length - m) m := by rw [List.range'_succ, hj]
    rw [hr1, List.foldr_cons, List.foldr_cons, e]
    generalize (List.range' (ds.length - m) m).foldr (fun j s => ElementaryLanguage.sampleInner c ds ds.length s j) init = S at *
    set j := ds.length - (m + 1) with hjd
    have hacc : S.1 + ds.getD j 0 = accV ds j := by
      rw [a1, ← hj]
      unfold accV
      rw [List.drop_eq_getElem_cons hlt, List.sum_cons, List.getD_eq_getElem?_getD, List.getElem?_eq_getElem hlt]
      simp [add_comm]
    have hsm := accV_small hf hb hB hl.le hp j (by omega)
    have hfa := accV_fine hds j hsm
    have hroomB : B * 2 ^ ds.length < 2 ^ 53 := lt_of_le_of_lt (mul_le_mul_of_nonneg_right (by linarith) hpos.le) hroom
    have hroom2 : (B + B) * 2 ^ ds.length < 2 ^ 53 := lt_of_le_of_lt (mul_le_mul_of_nonneg_right (by linarith) hpos.le) hroom
    obtain ⟨u, s, hu, fu⟩ := upper_fin hf hb (i := j) (j := ds.length) (by omega) (by omega) (by omega)
    obtain ⟨l, t, hlo, fl⟩ := lower_fin hf hb (i := j) (j := ds.length) (by omega) (by omega) (by omega)
    have g1 : Fine ds.length (B + B) (-l - accV ds j) := ((fl.finer (by omega)).neg).sub hfa
    have g2 : Fine ds.length (B + B) (u - accV ds j) := (fu.finer (by omega)).sub hfa
    have e1 : rnd (accV ds j) = accV ds j := hr.exact _ (hfa.isDouble hk hroomB)
    have e2 := hr.exact _ (g1.isDouble hk hroom2)
    have e3 := hr.exact _ (g2.isDouble hk hroom2)
    have x1 : sampleInner rnd d ds ds.length S j = (accV ds j, max S.2.1 (-l - accV ds j), min S.2.2 (u - accV ds j)) := by
      unfold sampleInner
      rw [hacc, e1, stores_lower hs (by omega) (by omega), stores_upper hs (by omega) (by omega), hu, hlo]
      simp only [ofBound, pair, ofLex_toLex]
      rw [e2, e3]
    have x2 : ElementaryLanguage.sampleInner c ds ds.length S j = (accV ds j, max S.2.1 (-l - accV ds j), min S.2.2 (u - accV ds j)) := by
      unfold ElementaryLanguage.sampleInner
      rw [hacc, hu, hlo]
      rfl
    rw [x1, x2]
    exact ⟨rfl, rfl, max_fine a2 (by rw [two_mul]; exact g1), min_fine a3 (by rw [two_mul]; exact g2)⟩

theorem sampleStep_eq (hr : Rounding rnd) (hf : FineZone 0 B c.zone) (hb : c.Bounded) (hB : 0 ≤ B) (hs : Stores d c.zone)
    {ds : List ℚ} (hl : ds.length < c.size) (hp : Partial c ds) (hds : ∀ i q, ds[i]? = some q → Fine (i + 1) B q)
    (hk : ds.length + 1 ≤ 1074) (hroom : 4 * B * 2 ^ ds.length < 2 ^ 53) :
    sampleStep rnd d ds = ElementaryLanguage.sampleStep c ds ∧ ∃ m : ℤ, ElementaryLanguage.sampleStep c ds * 2 ^ (ds.length + 1) = m := by
  have hpos : (0 : ℚ) < 2 ^ ds.length := by positivity
  obtain ⟨u, s, hu, fu⟩ := upper_fin hf hb (i := ds.length) (j := ds.length) hl hl (le_refl _)
  obtain ⟨l, t, hlo, fl⟩ := lower_fin hf hb (i := ds.length) (j := ds.length) hl hl (le_refl _)
  have hpt : isPoint (ofBound (.fin u s)) (ofBound (.fin l t)) = Bound.isPoint (.fin u s) (.fin l t) := rfl
  unfold sampleStep ElementaryLanguage.sampleStep
  dsimp only
  rw [stores_lower hs hl hl, stores_upper hs hl hl, hu, hlo, hpt]
  by_cases h : Bound.isPoint (.fin u s) (.fin l t) = true
  · rw [if_pos h, if_pos h]
    exact ⟨rfl, (fu.finer (l := ds.length + 1) (by omega)).1⟩
  · rw [if_neg h, if_neg h, List.foldl_reverse, List.foldl_reverse, List.range_eq_range']
    have key := sampleInner_fold hr hf hb hB hs hl hp hds (by omega) hroom (0, -l, u) rfl
      ((fl.finer (Nat.zero_le _)).neg.mono (by linarith)) ((fu.finer (Nat.zero_le _)).mono (by linarith)) ds.length (le_refl _)
    rw [Nat.sub_self] at key
    obtain ⟨e, -, a2, a3⟩ := key
    simp only [ofBound, pair, ofLex_toLex, ElementaryLanguage.negFirst, ElementaryLanguage.first]
    rw [e]
    generalize (List.range' 0 ds.length).foldr (fun j s => ElementaryLanguage.sampleInner c ds ds.length s j) (0, -l, u) = S at *
    have g := a2.add a3
    have g' := g.half
    rw [hr.exact _ (g.isDouble (by omega) (by rw [← two_mul, ← mul_assoc]; norm_num; exact hroom))]
    refine ⟨?_, g'.1⟩
    refine hr.exact _ (g'.isDouble hk ?_)
    rw [pow_succ]
    refine lt_of_le_of_lt (le_of_eq ?_) hroom
    ring

theorem sampleDurations_eq (hr : Rounding rnd) (hf : FineZone 0 B c.zone) (hc : c.Canonical) (hb : c.Bounded) (hB : 1 ≤ B)
    (hs : Stores d c.zone) (hroom : 2 * B * 2 ^ c.size < 2 ^ 53) (n : ℕ) (hn : n ≤ c.size) :
    sampleDurations rnd d n = ElementaryLanguage.sampleDurations c n ∧
      ∀ i q, (ElementaryLanguage.sampleDurations c n)[i]? = some q → Fine (i + 1) B q := by
  have hsz : c.zone.dim = c.size + 1 := by have := hc.1; unfold size; omega
  have hbb : ∀ i < c.size, c.upper i i ≠ .inf ∧ c.lower i i ≠ .inf := by
    intro i hi
    obtain ⟨u, s, hu, -⟩ := upper_fin hf hb hi hi (le_refl _)
    obtain ⟨l, t, hl, -⟩ := lower_fin hf hb hi hi (le_refl _)
    rw [hu, hl]; simp
  have hsize : c.size ≤ 52 := by
    by_contra hcon
    push Not at hcon
    have h1 : (2 : ℚ) ^ 53 ≤ 2 ^ c.size := pow_le_pow_right₀ (by norm_num) hcon
    have h2 : (0 : ℚ) < 2 ^ 53 := by norm_num
    nlinarith
  induction n with
  | zero => exact ⟨rfl, fun i q h => by simp [ElementaryLanguage.sampleDurations] at h⟩
  | succ n ih =>
    obtain ⟨e, h⟩ := ih (by omega)
    obtain ⟨len, part⟩ := ElementaryLanguage.sampleDurations_ok c hc hbb n (by omega)
    obtain ⟨len', part'⟩ := ElementaryLanguage.sampleDurations_ok c hc hbb (n + 1) hn
    have st : ElementaryLanguage.sampleDurations c (n + 1) = ElementaryLanguage.sampleDurations c n ++
        [ElementaryLanguage.sampleStep c (ElementaryLanguage.sampleDurations c n)] := by
      unfold ElementaryLanguage.sampleDurations
      rw [List.range_succ, List.foldl_append]; rfl
    have st' : sampleDurations rnd d (n + 1) = sampleDurations rnd d n ++ [sampleStep rnd d (sampleDurations rnd d n)] := by
      unfold sampleDurations
      rw [List.range_succ, List.foldl_append]; rfl
    have hroomn : 4 * B * 2 ^ n < 2 ^ 53 := by
      refine lt_of_le_of_lt ?_ hroom
      have : (2 : ℚ) ^ (n + 1) ≤ 2 ^ c.size := pow_le_pow_right₀ (by norm_num) hn
      rw [pow_succ] at this
      nlinarith
    obtain ⟨x1, m, x2⟩ := sampleStep_eq (d := d) hr hf hb (by linarith) hs (ds := ElementaryLanguage.sampleDurations c n) (by omega) part h
      (by omega) (by rw [len]; exact hroomn)
    rw [st', e, x1, st]
    refine ⟨rfl, fun i q hq => ?_⟩
    rw [List.getElem?_append] at hq
    split at hq
    · exact h i q hq
    · rw [len] at hq
      have hi : i = n := by
        by_contra hne
        rw [List.getElem?_eq_none (by simp; omega)] at hq
        simp at hq
      subst hi
      simp only [Nat.sub_self, List.getElem?_cons_zero, Option.some.injEq] at hq
      subst hq
      rw [len] at x2
      refine ⟨⟨m, x2⟩, ?_⟩
      have := accV_small hf hb (by linarith : (0 : ℚ) ≤ B) (by rw [len']; exact hn) part' i (by omega)
      rw [st] at this
      unfold accV at this
      rw [List.drop_append_of_le_length (by omega), List.drop_of_length_le (by omega)] at this
      simpa using this

end Sample

/-! ### The runner -/

section Run

variable {rnd : ℚ → ℚ} {A : TA} {k : ℕ}

theorem apply_fine {B : ℚ} {r : Resets} {v : Valuation} (hv : ∀ x, Fine k B (v x)) (hr : ∀ p ∈ r, ∀ q, p.2 = .const q → Fine k B q) (x : ℕ) :
    Fine k B (r.apply v x) := by
  unfold Resets.apply
  have key : ∀ (l : Resets) (w : Valuation), (∀ p ∈ l, ∀ q, p.2 = .const q → Fine k B q) → (∀ x, Fine k B (w x)) →
      ∀ x, Fine k B (l.foldl (fun w p => Function.update w p.1 (p.2.eval v)) w x) := by
    intro l
    induction l with
    | nil => intro w _ h; exact h
    | cons p l ih =>
      intro w hl h
      refine ih _ (fun q hq => hl q (by simp [hq])) fun y => ?_
      by_cases hy : y = p.1
      · subst hy
        dsimp only
        rw [Function.update_self]
        cases e : p.2 with
        | const q => exact hl p (by simp) q e
        | clock z => exact hv z
      · dsimp only; rw [Function.update_of_ne hy]; exact h y
  exact key r v hr hv x

theorem stepDelay_eq (hr : Rounding rnd) (he : A.EpsFree) (hk : k ≤ 1074) (fuel : ℕ) {r : Runner} (hloc : ∀ p, r.loc = some p → p ∈ A.states)
    {B d : ℚ} (hv : ∀ x, Fine k B (r.val x)) (hd : Fine k d d) (hroom : (B + d) * 2 ^ k < 2 ^ 53) :
    Runner.stepDelay A (fuel + 1) r d = some (stepDelay rnd A r d) ∧
      (∀ p, (stepDelay rnd A r d).1.loc = some p → p ∈ A.states) ∧ ∀ x, Fine k (B + d) ((stepDelay rnd A r d).1.val x) := by
  have hd0 : 0 ≤ d := fine_nonneg hd
  have hex : ∀ x, rnd (r.val x + d) = r.val x + d := fun x => hr.exact _ (((hv x).add hd).isDouble hk hroom)
  unfold Runner.stepDelay stepDelay
  by_cases hE : A.states.isEmpty
  · simp only [hE, if_true]
    exact ⟨trivial, hloc, fun x => (hv x).mono (by linarith)⟩
  · rw [if_neg hE, if_neg hE]
    cases hl : r.loc with
    | none => exact ⟨rfl, by simpa [hl] using hloc, fun x => (hv x).mono (by linarith)⟩
    | some p =>
      dsimp only
      by_cases h0 : d = 0
      · rw [if_pos h0, if_pos h0]
        exact ⟨rfl, hloc, fun x => (hv x).mono (by linarith)⟩
      · rw [if_neg h0, if_neg h0, he p (hloc p hl)]
        refine ⟨?_, by simpa [hl] using hloc, fun x => ?_⟩
        · simp only [Runner.epsCandidate, Option.some.injEq, Prod.mk.injEq, and_true]
          congr 1
          funext x
          rw [hex x]; rfl
        · dsimp only; rw [hex x]; exact (hv x).add hd

theorem stepAct_fine (hc : A.Closed) {B : ℚ}
    (hres : ∀ p ∈ A.states, ∀ a, ∀ t ∈ (A.loc p).next a, ∀ u ∈ t.resets, ∀ q, u.2 = .const q → Fine k B q)
    {r : Runner} (hloc : ∀ p, r.loc = some p → p ∈ A.states) (hv : ∀ x, Fine k B (r.val x)) (a : Action) :
    (∀ p, (Runner.stepAct A r a).1.loc = some p → p ∈ A.states) ∧ ∀ x, Fine k B ((Runner.stepAct A r a).1.val x) := by
  unfold Runner.stepAct
  by_cases hE : A.states.isEmpty
  · simp only [hE, if_true]; exact ⟨hloc, hv⟩
  · rw [if_neg hE]
    cases hl : r.loc with
    | none => exact ⟨by simpa [hl] using hloc, hv⟩
    | some p =>
      dsimp only
      cases hf : ((A.loc p).next a).find? (fun t => t.guard.satisfy r.val) with
      | none => exact ⟨by simp, hv⟩
      | some t =>
        have ht := List.mem_of_find?_eq_some hf
        refine ⟨fun q hq => ?_, fun x => ?_⟩
        · simp only [Option.some.injEq] at hq
          rw [← hq]; exact hc.2 p (hloc p hl) a t ht
        · exact apply_fine hv (fun u hu q e => hres p (hloc p hl) a t ht u hu q e) x

theorem runFrom_eq (hr : Rounding rnd) (hc : A.Closed) (he : A.EpsFree) (hk : k ≤ 1074) (fuel : ℕ) {C : ℚ}
    (hres : ∀ p ∈ A.states, ∀ a, ∀ t ∈ (A.loc p).next a, ∀ u ∈ t.resets, ∀ q, u.2 = .const q → Fine k C q)
    (as : List Action) : ∀ (ds : List ℚ) (r : Runner) (b : Bool) (B : ℚ), C ≤ B → (∀ p, r.loc = some p → p ∈ A.states) →
      (∀ x, Fine k B (r.val x)) → (∀ d ∈ ds, Fine k d d) → (B + ds.sum) * 2 ^ k < 2 ^ 53 →
      Runner.runFrom A (fuel + 1) r b as ds = some (runFrom rnd A r b as ds) := by
  have hpos : (0 : ℚ) < 2 ^ k := by positivity
  induction as with
  | nil => intro ds r b B _ _ _ _ _; simp [Runner.runFrom, runFrom]
  | cons a as ih =>
    intro ds r b B hCB hloc hv hd hroom
    cases ds with
    | nil => simp [Runner.runFrom, runFrom]
    | cons d ds =>
      rw [List.sum_cons] at hroom
      have hs0 : 0 ≤ ds.sum := List.sum_nonneg fun q hq => fine_nonneg (hd q (by simp [hq]))
      obtain ⟨s1, s2⟩ := stepAct_fine hc (fun p hp a t ht u hu q e => (hres p hp a t ht u hu q e).mono hCB) hloc hv a
      obtain ⟨t1, t2, t3⟩ := stepDelay_eq (rnd := rnd) hr he hk fuel s1 s2 (hd d (by simp))
        (lt_of_le_of_lt (mul_le_mul_of_nonneg_right (by linarith) hpos.le) hroom)
      simp only [Runner.runFrom, runFrom, t1]
      have hd0 := fine_nonneg (hd d (by simp))
      exact ih ds _ _ (B + d) (by linarith) t2 t3 (fun q hq => hd q (by simp [hq])) (by rw [add_assoc]; exact hroom)

theorem answerQuery_eq (hr : Rounding rnd) (hc : A.Closed) (he : A.EpsFree) (hk : k ≤ 1074) (fuel : ℕ) {C : ℚ} (hC : 0 ≤ C)
    (hres : ∀ p ∈ A.states, ∀ a, ∀ t ∈ (A.loc p).next a, ∀ u ∈ t.resets, ∀ q, u.2 = .const q → Fine k C q)
    (r : Runner) (hloc : A.states ≠ []) (w : TimedWord) (hw : w.WF)
    (hd : ∀ d ∈ w.durations, Fine k d d) (hroom : (C + w.durations.sum) * 2 ^ k < 2 ^ 53) :
    Runner.answerQuery A (fuel + 1) r w = some (answerQuery rnd A r w) := by
  have hpos : (0 : ℚ) < 2 ^ k := by positivity
  have hlen : w.durations.length = w.word.length + 1 := hw
  obtain ⟨d, ds, e⟩ : ∃ d ds, w.durations = d :: ds := by
    cases h : w.durations with
    | nil => rw [h] at hlen; simp at hlen
    | cons d ds => exact ⟨d, ds, rfl⟩
  have hE : A.states.isEmpty = false := by
    cases h : A.states with
    | nil => exact absurd h hloc
    | cons _ _ => rfl
  have hpl : ∀ p, (Runner.pre A r).loc = some p → p ∈ A.states := by
    intro p hp
    simp only [Runner.pre, hE] at hp
    exact hc.1 p (List.mem_of_mem_head? hp)
  have hpv : ∀ x, Fine k C ((Runner.pre A r).val x) := by
    intro x
    simp only [Runner.pre, hE]
    exact ⟨⟨0, by simp [Valuation.zero]⟩, by simpa [Valuation.zero] using hC⟩
  rw [e] at hd hroom
  rw [List.sum_cons] at hroom
  have hs0 : 0 ≤ ds.sum := List.sum_nonneg fun q hq => fine_nonneg (hd q (by simp [hq]))
  have hd0 := fine_nonneg (hd d (by simp))
  obtain ⟨t1, t2, t3⟩ := stepDelay_eq (rnd := rnd) hr he hk fuel hpl hpv (hd d (by simp))
    (lt_of_le_of_lt (mul_le_mul_of_nonneg_right (by linarith) hpos.le) hroom)
  unfold Runner.answerQuery answerQuery
  rw [e]
  simp only [List.headD_cons, List.tail_cons, t1]
  rw [runFrom_eq hr hc he hk fuel hres w.word ds _ _ (C + d) (by linarith) t2 t3 (fun q hq => hd q (by simp [hq]))
    (by rw [add_assoc]; exact hroom)]

end Run

end Double
end LearnTA
