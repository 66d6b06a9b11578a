import Verif.Lemmas.HypFinish
import Verif.Lemmas.Counterexample

/-!
# Runs of a hypothesis
-/

namespace LearnTA
open Zone TimedCondition

namespace TimedWord

theorem appendDelay_clocks (w : TimedWord) (t : ℚ) {n : ℕ} (hn : w.durations.length = n) {x : ℕ} (hx : x < n) :
    (w.appendDelay t).clocks x = w.clocks x + t := by
  obtain ⟨ww, wd⟩ := w
  obtain ⟨l, s, rfl⟩ : ∃ l s, wd = l ++ [s] := ⟨wd.dropLast, wd.getLast (by intro h; simp only [h, List.length_nil] at hn; omega),
    (List.dropLast_append_getLast _).symm⟩
  show accV (addBack (l ++ [s]) t) x = accV (l ++ [s]) x + t
  have e : addBack (l ++ [s]) t = l ++ [s + t] := by simp [addBack, List.getLastD_eq_getLast?]
  rw [e, RecognizableLanguage.accV_last l (s + t) s (by simp at hn; omega)]
  ring

theorem appendDelay_length (w : TimedWord) (t : ℚ) (h : w.durations ≠ []) : (w.appendDelay t).durations.length = w.durations.length := by
  simp only [appendDelay, addBack, List.length_append, List.length_dropLast, List.length_singleton]
  have := List.length_pos_of_ne_nil h
  omega

theorem append_delay (u : TimedWord) (t : ℚ) : u.append ⟨[], [t]⟩ = u.appendDelay t := by
  simp [append, appendDelay]

theorem append_split {u : TimedWord} (s t : ℚ) (w : List Action) (ds : List ℚ) :
    u.append ⟨w, (s + t) :: ds⟩ = (u.appendDelay s).append ⟨w, t :: ds⟩ := by
  simp [append, appendDelay, addBack, List.getLastD_eq_getLast?]
  ring

theorem append_act {u : TimedWord} (t : ℚ) (a : Action) (w : List Action) {ds : List ℚ} (h : ds ≠ []) :
    u.append ⟨a :: w, t :: ds⟩ = ((u.appendDelay t).act a).append ⟨w, ds⟩ := by
  obtain ⟨d, ds, rfl⟩ := List.exists_cons_of_ne_nil h
  simp [append, appendDelay, act, addBack, List.getLastD_eq_getLast?]

end TimedWord

namespace ForwardRegional

/-- The region after some time, in terms of words. -/
theorem Reach.mem_after {p q : ForwardRegional} (hq : q.Reach) (hw : q.word = p.word) (hp : p.Reach) {u : TimedWord}
    (hu : p.toElementaryLanguage.Mem u) {t : ℚ} :
    q.toElementaryLanguage.Mem (u.appendDelay t) ↔ q.Of (p.word.length + 1) (after u.clocks t) := by
  obtain ⟨h1, h2, h3⟩ := (hp.mem_iff u).1 hu
  have hne : u.durations ≠ [] := by intro h; simp [h] at h2
  rw [hq.mem_iff, hw]
  constructor
  · rintro ⟨_, _, h6⟩
    exact h6.congr fun x hx => TimedWord.appendDelay_clocks u t h2 hx
  · intro h6
    exact ⟨h1, by rw [TimedWord.appendDelay_length u t hne]; exact h2,
      h6.congr fun x hx => (TimedWord.appendDelay_clocks u t h2 hx).symm⟩

theorem Reach.legal {p : ForwardRegional} (h : p.Reach) {w : TimedWord} (hob : ∀ a ∈ p.word, a ≠ unobservable)
    (hw : p.toElementaryLanguage.Mem w) : w.Legal := by
  obtain ⟨h1, h2, h3⟩ := (h.mem_iff w).1 hw
  refine ⟨?_, ?_, h.nonneg w hw⟩
  · show w.durations.length = w.word.length + 1
    rw [h2, h1]
  · intro a ha
    rw [h1] at ha
    exact hob a ha

end ForwardRegional

namespace ObsTable
open ForwardRegional Guard

variable {σ : Type} {f : TimedWord → Bool} {T : ObsTable σ}

/-- The hypothesis before it is simplified. -/
def rawTA (H : List ℕ) (loc : ℕ → TAState) : TA :=
  ⟨loc, List.range H.length, [0], TA.makeMaxConstants loc (List.range H.length)⟩

theorem AnyEdge.legal {toState : ℕ → Option ℕ} {a : Action} {i : ℕ} {t : Trans} (h : AnyEdge f T toState a i t) :
    t.resets.Legal ∧ ∃ j, toState j = some t.target := by
  rcases h with ⟨_, h2, p, j, q, _, _, _, h6, _⟩ | ⟨_, h2, i', p, pc, j, q, u, _, _, _, _, _, _, h6, _⟩
  · exact ⟨h2, j, h6⟩
  · exact ⟨h2, j, h6⟩

theorem Finished.trans {H : List ℕ} {B0 : Build} {loc : ℕ → TAState} (h : Finished f T H B0 loc) {q : ℕ} (hq : q < H.length)
    {a : Action} {t : Trans} (ht : t ∈ (loc q).next a) :
    a ∈ T.alphabet ∧ t.guard.Small ∧ t.resets.Legal ∧ ∃ j, B0.toState j = some t.target := by
  by_cases ha : a ∈ T.alphabet
  · obtain ⟨n, K, κ, L, v, D, hc, hall⟩ := h.full q hq
    obtain ⟨E, hF, hE⟩ := hall a ha
    obtain ⟨m, hm, e⟩ := hF.effect t ht
    have hlt : m < (B0.toIndices q).length := by rw [hc.length]; omega
    obtain ⟨g, hg⟩ := hE m _ (List.getElem?_eq_getElem hlt)
    rw [e] at hg
    exact ⟨ha, hF.small t ht, hg.legal⟩
  · rw [h.empty q hq a ha] at ht
    simp at ht

theorem raw_ok (hI : Inv f T) {H : List ℕ} {B0 : Build} {bd : List (ℕ × Action)} (hx : Explored T H B0 bd)
    {loc : ℕ → TAState} (h : Finished f T H B0 loc) :
    (rawTA H loc).WF ∧ (rawTA H loc).EpsFree ∧ (rawTA H loc).Deterministic := by
  have hlen : 0 < H.length := (List.getElem?_eq_some_iff.1 hx.root).1
  refine ⟨⟨List.nodup_range, ⟨?_, ?_⟩, ?_, ?_, ?_⟩, ?_, ?_⟩
  · intro q hq
    simp [rawTA] at hq ⊢
    omega
  · intro p hp a t ht
    obtain ⟨_, _, _, j, hj⟩ := h.trans (List.mem_range.1 hp) ht
    exact List.mem_range.2 (hx.b.lt ((hx.b.toState j _).1 hj))
  · intro p hp a t ht
    have := TA.makeMaxConstants_covers loc (List.range H.length) p hp a t ht
    exact ⟨fun c hc => (this.1 c hc).1, this.2⟩
  · intro p hp a t ht r hr k e
    exact (h.trans (List.mem_range.1 hp) ht).2.2.1.nonneg r hr k e
  · intro p hp a t ht
    exact (h.trans (List.mem_range.1 hp) ht).2.1
  · intro p hp
    exact h.empty p (List.mem_range.1 hp) _ fun hc => hI.alpha.2 _ hc rfl
  · intro p hp a
    by_cases ha : a ∈ T.alphabet
    · obtain ⟨n, K, κ, L, v, D, hc, hall⟩ := h.full p (List.mem_range.1 hp)
      obtain ⟨E, hF, _⟩ := hall a ha
      exact hF.disjoint
    · show ((loc p).next a).Pairwise _
      rw [h.empty p (List.mem_range.1 hp) a ha]
      exact List.Pairwise.nil

/-- The configuration stands for the word `u` of the prefix `i` of `P`. -/
structure Rep (T : ObsTable σ) (toState : ℕ → Option ℕ) (i : ℕ) (u : TimedWord) (q : ℕ) (v : Valuation) : Prop where
  inside : i ∈ T.pIndices
  state : toState i = some q
  mem : ∃ p, T.prefixes[i]? = some p ∧ p.toElementaryLanguage.Mem u ∧ ∀ x < p.cond.size, v x = u.clocks x
  nonneg : v.Nonneg

/-- The passing of time: a prefix of the chain is reached, or the last one is passed, and the transitions are those of that
prefix. -/
theorem pass (hI : Inv f T) {H : List ℕ} {B0 : Build} {bd : List (ℕ × Action)} (hx : Explored T H B0 bd)
    {loc : ℕ → TAState} (h : Finished f T H B0 loc) {i q : ℕ} {u : TimedWord} {v : Valuation} (hr : Rep T B0.toState i u q v)
    {t : ℚ} (ht : 0 ≤ t) :
    ∃ i' p' t', i' ∈ B0.toIndices q ∧ T.prefixes[i']? = some p' ∧ 0 ≤ t' ∧ t' ≤ t ∧
      p'.toElementaryLanguage.Mem (u.appendDelay t') ∧ (i' ∈ T.pIndices → t' = t) ∧
      ∀ a ∈ T.alphabet, ∃ tr ∈ (loc q).next a, tr.guard.Holds (v.shift t) ∧
        ∃ g, AnyEdge f T B0.toState a i' ⟨tr.target, tr.resets, g⟩ := by
  have hmem := (hx.b.toState i q).1 hr.state
  have hq := hx.b.lt hmem
  obtain ⟨n, K, κ, L, v0, D, hc, hall⟩ := h.full q hq
  obtain ⟨m, hm⟩ := List.getElem?_of_mem hmem
  obtain ⟨p, hp, hu, hv⟩ := hr.mem
  obtain ⟨g1, g2, g3⟩ := hc.get m i hm
  rw [hp] at g1
  cases g1
  obtain ⟨w1, w2, w3⟩ := (g3.mem_iff u).1 hu
  have hlt := (List.getElem?_eq_some_iff.1 hm).1
  rw [hc.length] at hlt
  have hn : n = (L.chain m).word.length + 1 := by rw [chain_word]; exact hc.size
  rw [← hn] at w3
  obtain ⟨m', t', a1, a2, a3, a4, a5, a6⟩ := Of.pass K (K - m) m u.clocks t (by omega) ht w3
  have hlt' : m' < (B0.toIndices q).length := by rw [hc.length]; omega
  have hi' := List.getElem?_eq_getElem hlt'
  obtain ⟨k1, k2, k3⟩ := hc.get m' _ hi'
  refine ⟨_, _, t', List.getElem_mem hlt', k1, a3, a4, ?_, ?_, ?_⟩
  · rw [k3.mem_after (by rw [chain_word, chain_word]) g3 hu, ← hn]
    exact a5
  · intro hP
    exact a6 ((hc.inside m' _ hi').1 hP)
  · intro a ha
    obtain ⟨E, hF, hE⟩ := hall a ha
    obtain ⟨tr, htr, e, hh⟩ := hF.cover m' a2
    have hat := hc.delays.at a4 a5 a6 a2
    rw [← hc.kappa] at hat
    refine ⟨tr, htr, ?_, ?_⟩
    · refine hh _ (fun x _ => ?_) fun x hx => ?_
      · have := hr.nonneg x
        unfold Valuation.shift
        linarith
      · have := hat x hx
        rw [g2] at hv
        unfold Valuation.shift
        rw [hv x hx]
        exact this
    · obtain ⟨g, hg⟩ := hE m' _ hi'
      rw [e] at hg
      exact ⟨g, hg⟩

end ObsTable
end LearnTA
