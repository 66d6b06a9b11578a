import Verif.Lemmas.Symbolic
import Verif.Lemmas.RegionTA
import Verif.Props.ElementaryLanguage
import Verif.Props.TA

/-!
# Properties of symbolic membership queries and region invariance (C41, C60)
-/

namespace LearnTA.Props

open LearnTA TimedCondition

/-! ## C41 -/

/-- C41: after any history of symbolic queries, whatever equal keys the hash table finds, each answer
consists of pairwise disjoint conditions that hold for exactly the words of the queried language that
the system accepts; the system need only answer by `f` on the words of the queried languages, and `f`
must be constant on the regions of each language. -/
theorem C41_query_exact {σ : Type} (ask : σ → TimedWord → σ × Bool) (f : TimedWord → Bool)
    (near : ElementaryLanguage → ElementaryLanguage → Bool) (s : σ) (es : List ElementaryLanguage)
    (hf : ∀ s w, (∃ e ∈ es, e.Mem w) → (ask s w).2 = f w)
    (he : ∀ e ∈ es, e.Queryable ∧ e.Regional f) :
    ∃ o rs, SymOracle.queryAll ask near (.start s) es = some (o, rs) ∧
      List.Forall₂ (fun e r => (∀ w, w.word = e.word → (TimedConditionSet.Holds r w ↔ e.Mem w ∧ f w = true)) ∧
        r.Pairwise fun c c' => ∀ d, ¬ (c.Holds d ∧ c'.Holds d)) es rs := by
  have key : ∀ (l : List ElementaryLanguage) (o : SymOracle σ), (∀ e ∈ l, e ∈ es) →
      SymOracle.Inv f (fun w => ∃ e ∈ es, e.Mem w) o →
      ∃ o' rs, SymOracle.queryAll ask near o l = some (o', rs) ∧
        List.Forall₂ (fun e r => SymOracle.ExactFor e f r ∧
          (r.Pairwise fun c c' => ∀ d, ¬ (c.Holds d ∧ c'.Holds d))) l rs := by
    intro l
    induction l with
    | nil => intro o _ _; exact ⟨o, [], rfl, .nil⟩
    | cons e l ih =>
      intro o hl ho
      obtain ⟨h1, h2⟩ := he e (hl e (by simp))
      obtain ⟨o', r, g1, g2, g3, g4, _⟩ := SymOracle.query_spec ask f _ hf (near e) o ho e h1
        (fun w hw => ⟨e, hl e (by simp), hw⟩) h2
      obtain ⟨o'', rs, k1, k2⟩ := ih o' (fun x hx => hl x (by simp [hx])) g2
      exact ⟨o'', r :: rs, by simp only [SymOracle.queryAll, g1, k1, Option.map_some], .cons ⟨g3, g4⟩ k2⟩
  exact key es (.start s) (fun _ h => h) ⟨by simp [SymOracle.start, MemCache.start], by simp [SymOracle.start]⟩

/-- C41: asking again for the same language, when the lookup compares with the key, gives the
identical answer and does not ask the system. -/
theorem C41_query_again {σ : Type} (ask : σ → TimedWord → σ × Bool) (near near' : ElementaryLanguage → Bool)
    (o o' : SymOracle σ) (e : ElementaryLanguage) (r : TimedConditionSet)
    (h : SymOracle.query ask near o e = some (o', r)) (hn : ∀ e, near' e = true) (hn' : ∀ e, near e = true) :
    ∃ o'', SymOracle.query ask near' o' e = some (o'', r) ∧ o''.mem = o'.mem ∧ o''.cache = o'.cache := by
  have hbe : e.beq e = true := by
    simp [ElementaryLanguage.beq, TimedCondition.beq, Zone.strictEqual]
  simp only [SymOracle.query, hn, hn', Bool.true_and] at h ⊢
  split at h
  · rename_i p hp
    simp only [Option.some.injEq, Prod.mk.injEq] at h
    obtain ⟨rfl, rfl⟩ := h
    rw [hp]
    exact ⟨_, rfl, rfl, rfl⟩
  · split at h
    · simp at h
    · rw [Option.map_eq_some_iff] at h
      obtain ⟨r', _, h⟩ := h
      simp only [Prod.mk.injEq] at h
      obtain ⟨rfl, rfl⟩ := h
      simp [hbe]

/-- **C41** The printed statistics: `n` queries of a new oracle count as `n` symbolic queries; the ones counted with the
cache are those whose answers were not found in the cache, which has one entry for each of them. -/
theorem C41_statistics {σ : Type} (ask : σ → TimedWord → σ × Bool) (near : ElementaryLanguage → ElementaryLanguage → Bool)
    (s : σ) (es : List ElementaryLanguage) (o : SymOracle σ) (rs : List TimedConditionSet)
    (h : (SymOracle.start s).queryAll ask near es = some (o, rs)) :
    o.countSymbolic = es.length ∧ o.countSymbolicWithCache = o.cache.length ∧ o.countSymbolicWithCache ≤ es.length ∧
      rs.length = es.length := by
  have key : ∀ (es : List ElementaryLanguage) (o1 o : SymOracle σ) (rs : List TimedConditionSet),
      o1.queryAll ask near es = some (o, rs) → o1.countSymbolicWithCache = o1.cache.length →
      o.countSymbolic = o1.countSymbolic + es.length ∧ o.countSymbolicWithCache = o.cache.length ∧
      o.countSymbolicWithCache ≤ o1.countSymbolicWithCache + es.length ∧ rs.length = es.length := by
    intro es
    induction es with
    | nil =>
      intro o1 o rs h hc
      unfold SymOracle.queryAll at h
      cases h
      exact ⟨rfl, hc, le_refl _, rfl⟩
    | cons e es ih =>
      intro o1 o rs h hc
      unfold SymOracle.queryAll at h
      cases hq : SymOracle.query ask (near e) o1 e with
      | none => rw [hq] at h; cases h
      | some p =>
        obtain ⟨o2, r⟩ := p
        rw [hq] at h
        dsimp only at h
        rw [Option.map_eq_some_iff] at h
        obtain ⟨⟨o3, rs'⟩, h1, h2⟩ := h
        cases h2
        have h3 : o2.countSymbolic = o1.countSymbolic + 1 ∧ o2.countSymbolicWithCache = o2.cache.length ∧
            o2.countSymbolicWithCache ≤ o1.countSymbolicWithCache + 1 := by
          unfold SymOracle.query at hq
          split at hq
          · cases hq
            exact ⟨rfl, hc, Nat.le_succ _⟩
          · split at hq
            · cases hq
            · dsimp only at hq
              rw [Option.map_eq_some_iff] at hq
              obtain ⟨_, _, e1⟩ := hq
              cases e1
              refine ⟨rfl, ?_, le_refl _⟩
              dsimp only
              rw [List.length_cons, hc]
        obtain ⟨i1, i2, i3, i4⟩ := ih o2 _ _ h1 h3.2.1
        dsimp only
        rw [List.length_cons, List.length_cons]
        exact ⟨by omega, i2, by omega, by omega⟩
  have := key es _ _ _ h rfl
  simpa [SymOracle.start] using this

/-- C41: `reduce` of pairwise disjoint simple languages over one word terminates; the result has no
more conditions, they are pairwise disjoint, and hold for exactly the same delays together. -/
theorem C41_reduce_exact (u : List Action) (l : List ElementaryLanguage)
    (hl : ∀ x ∈ l, x.Queryable ∧ x.word = u ∧ x.cond.isSimple = true)
    (hd : l.Pairwise fun x y => ∀ d, ¬ (x.cond.Holds d ∧ y.cond.Holds d)) :
    ∃ r, TimedConditionSet.reduce l = some r ∧ r.length ≤ l.length ∧
      (∀ d, (∃ c ∈ r, c.Holds d) ↔ ∃ x ∈ l, x.cond.Holds d) ∧
      r.Pairwise fun c c' => ∀ d, ¬ (c.Holds d ∧ c'.Holds d) := by
  have hf : ∀ x ∈ l, Fine (u.length + 2) x.cond := by
    intro x hx
    obtain ⟨h1, h2, _⟩ := hl x hx
    rw [← h2]; exact h1.fine
  have hdis : (l.map (·.cond)).Pairwise Disj := by
    rw [List.pairwise_map]
    refine hd.imp_of_mem ?_
    intro x y hx hy h w hw
    have hs := Zone.Sat.shift hw.1 (w 0)
    have hs' := Zone.Sat.shift hw.2 (w 0)
    let v : Valuation := fun i => w (i + 1) - w 0
    have e : ∀ i, (fun i => w i - w 0) i = Valuation.ext v i := by
      intro i
      cases i with
      | zero => simp [Valuation.ext]
      | succ i => rfl
    have hv : x.cond.zone.Mem v := hs.congr fun i _ => e i
    have hv' : y.cond.zone.Mem v := hs'.congr fun i _ => e i
    refine h (delays v (u.length + 1)) ⟨?_, ?_⟩
    · rw [(hf x hx).holds_iff (by simp)]
      have := mem_delays hv
      rwa [show x.cond.size = u.length + 1 by unfold TimedCondition.size; rw [(hf x hx).dim]; omega] at this
    · rw [(hf y hy).holds_iff (by simp)]
      have := mem_delays hv'
      rwa [show y.cond.size = u.length + 1 by unfold TimedCondition.size; rw [(hf y hy).dim]; omega] at this
  obtain ⟨r, h1, h2, h3, h4, h5⟩ := TimedConditionSet.reduce_spec l
    (fun x hx => ⟨hf x hx, (hl x hx).2.2⟩) hdis
  refine ⟨r, h1, h3, fun d => ?_, SymOracle.apart_of_disj h2 h5⟩
  constructor
  · rintro ⟨c, hc, hh⟩
    have hl := (h2 c hc).length hh
    obtain ⟨x, hx, hs⟩ := (h4 _).1 ⟨c, hc, ((h2 c hc).holds_iff hl).1 hh⟩
    exact ⟨x, hx, ((hf x hx).holds_iff hl).2 hs⟩
  · rintro ⟨x, hx, hh⟩
    have hl := (hf x hx).length hh
    obtain ⟨c, hc, hs⟩ := (h4 _).2 ⟨x, hx, ((hf x hx).holds_iff hl).1 hh⟩
    exact ⟨c, hc, ((h2 c hc).holds_iff hl).2 hs⟩

/-! ## C60 -/

/-- C60: a timed automaton whose clocks are set to integers (or copied) accepts either all or none of
the timed words of a region, also with nondeterminism and unobservable transitions. -/
theorem C60_region_invariant (A : TA) (hA : A.Closed) (hI : A.IntResets) (w w' : TimedWord) (hw : w.WF)
    (h : w.SameRegion w') : A.Accepts w ↔ A.Accepts w' := by
  refine ⟨RegionTA.accepts_of_sameRegion hA hI hw h, RegionTA.accepts_of_sameRegion hA hI ?_ ?_⟩
  · show w'.durations.length = w'.word.length + 1
    rw [← h.2.1, ← h.1]; exact hw
  · refine ⟨h.1.symm, h.2.1.symm, fun i j hij hj => ?_⟩
    obtain ⟨h1, h2⟩ := h.2.2 i j hij (by rw [h.2.1]; exact hj)
    exact ⟨h1.symm, h2.symm⟩

/-- C60: in particular it does not distinguish the words of a regional elementary language. -/
theorem C60_regional_language (A : TA) (hA : A.Closed) (hI : A.IntResets) (w w' : TimedWord) (hw : w.WF)
    (hw' : w'.WF) (h : (ForwardRegional.fromTimedWord w).Mem w') : A.Accepts w ↔ A.Accepts w' := by
  obtain ⟨h1, h2⟩ := (C24_same_region_iff w w' hw hw').1 h
  refine C60_region_invariant A hA hI w w' hw ⟨h1.symm, ?_, h2⟩
  rw [hw, hw', h1]

/-- `a` sets the clock to 1/2, then `b` needs the clock to be at most 1. -/
def halfA : TA where
  loc
    | 0 => ⟨false, fun a => if a = actA then [⟨1, [(0, .const (1 / 2))], []⟩] else []⟩
    | 1 => ⟨false, fun a => if a = actB then [⟨2, [], [⟨0, .le, 1⟩]⟩] else []⟩
    | _ => ⟨true, fun _ => []⟩
  states := [0, 1, 2]
  init := [0]
  maxC := [1]

/-- C60 needs integers: an automaton that sets a clock to 1/2 distinguishes two words in the same
region. -/
theorem C60_fraction_witness :
    let w : TimedWord := ⟨[actA, actB], [0, 1 / 4, 0]⟩
    let w' : TimedWord := ⟨[actA, actB], [0, 3 / 4, 0]⟩
    halfA.WF ∧ w.SameRegion w' ∧ halfA.Accepts w ∧ ¬ halfA.Accepts w' := by
  intro w w'
  have hw : halfA.WF := wf_of_check (by decide +kernel)
  have he : halfA.EpsFree := by unfold TA.EpsFree; decide +kernel
  have hd : halfA.deterministic = true := by decide +kernel
  have o : w.Observable := by unfold TimedWord.Observable; decide +kernel
  have o' : w'.Observable := by unfold TimedWord.Observable; decide +kernel
  have n : w.Nonneg := by unfold TimedWord.Nonneg; decide +kernel
  have n' : w'.Nonneg := by unfold TimedWord.Nonneg; decide +kernel
  obtain ⟨r1, b1, e1, h1⟩ := C30_membership_exact halfA hw he hd (.inl rfl) 0 (Runner.start halfA) w rfl o n
  obtain ⟨r2, b2, e2, h2⟩ := C30_membership_exact halfA hw he hd (.inl rfl) 0 (Runner.start halfA) w' rfl o' n'
  have k1 : (Runner.answerQuery halfA 1 (Runner.start halfA) w).map (·.2) = some true := by decide +kernel
  have k2 : (Runner.answerQuery halfA 1 (Runner.start halfA) w').map (·.2) = some false := by decide +kernel
  rw [e1] at k1; rw [e2] at k2
  simp only [Option.map_some, Option.some.injEq] at k1 k2
  refine ⟨hw, ⟨rfl, rfl, ?_⟩, h1.1 k1, fun h => ?_⟩
  · have : ∀ j < 3, ∀ i ≤ j, ⌊T w.durations i j⌋ = ⌊T w'.durations i j⌋ ∧
        ⌈T w.durations i j⌉ = ⌈T w'.durations i j⌉ := by decide +kernel
    exact fun i j hij hj => this j hj i hij
  · have := h2.2 h; rw [k2] at this; simp at this

theorem exA_intResets : exA.IntResets := by
  have : ∀ p ∈ exA.states, ∀ a, ∀ t ∈ (exA.loc p).next a, ∀ r ∈ t.resets,
      r.2 = .const 0 ∨ ∃ y ∈ [0, 1], r.2 = .clock y := by decide +kernel
  intro p hp a t ht r hr q hq
  rcases this p hp a t ht r hr with h | ⟨y, _, h⟩ <;> rw [hq] at h
  · cases h; exact ⟨0, by simp⟩
  · cases h

example : exA.Accepts ⟨[actA], [1 / 4, 1 / 2]⟩ ↔ exA.Accepts ⟨[actA], [3 / 8, 1 / 2]⟩ := by
  refine C60_region_invariant exA exA_wf.closed exA_intResets _ _ rfl ⟨rfl, rfl, ?_⟩
  have : ∀ j < 2, ∀ i ≤ j, ⌊T [1 / 4, 1 / 2] i j⌋ = ⌊T [3 / 8, 1 / 2] i j⌋ ∧
        ⌈T [1 / 4, 1 / 2] i j⌉ = ⌈T [3 / 8, 1 / 2] i j⌉ := by decide +kernel
  exact fun i j hij hj => this j hj i hij

/-- C41 with C30 and C60: symbolic queries to the simulated deterministic automaton give exactly the
accepted words of each queried language. -/
theorem C41_simulated (A : TA) (hw : A.WF) (he : A.EpsFree) (hdet : A.deterministic = true)
    (hi : A.init.length = 1) (hI : A.IntResets) (fuel : ℕ)
    (near : ElementaryLanguage → ElementaryLanguage → Bool) (r0 : Runner) (es : List ElementaryLanguage)
    (hes : ∀ e ∈ es, e.Queryable ∧ ∀ w, e.Mem w → w.Nonneg) :
    let ask := fun (r : Runner) w => (Runner.answerQuery A (fuel + 1) r w).getD (r, false)
    ∃ o rs, SymOracle.queryAll ask near (.start r0) es = some (o, rs) ∧
      List.Forall₂ (fun e r => ∀ w, w.word = e.word → (TimedConditionSet.Holds r w ↔ e.Mem w ∧ A.Accepts w)) es rs := by
  intro ask
  classical
  have hmem : ∀ e ∈ es, ∀ w, e.Mem w → w.WF ∧ w.Observable ∧ w.Nonneg := by
    intro e h w hm
    obtain ⟨hq, hn⟩ := hes e h
    refine ⟨?_, ?_, hn w hm⟩
    · show w.durations.length = w.word.length + 1
      rw [hm.2.1, hm.1]; exact hq.wf.symm
    · intro a ha; rw [hm.1] at ha; exact hq.observable a ha
  obtain ⟨o, rs, h1, h2⟩ := C41_query_exact ask (fun w => decide (A.Accepts w)) near r0 es (by
    rintro s w ⟨e, h, hm⟩
    obtain ⟨a1, a2, a3⟩ := hmem e h w hm
    obtain ⟨r', b, hb, hiff⟩ := C30_membership_exact A hw he hdet (.inl hi) fuel s w a1 a2 a3
    simp only [ask, hb, Option.getD_some]
    rw [Bool.eq_iff_iff, hiff]; simp) (by
    intro e h
    refine ⟨(hes e h).1, fun w w' hm hm' hr => ?_⟩
    have := C60_region_invariant A hw.closed hI w w' (hmem e h w hm).1 hr
    simp [this])
  refine ⟨o, rs, h1, h2.imp fun e r h w hww => ?_⟩
  rw [h.1 w hww]; simp

theorem exLang_queryable : exLang.Queryable :=
  ⟨exLang_wf, exCond_canonical, exCond_bounded, exCond_integral, by
    intro a ha
    have : a = 97 := List.mem_singleton.1 ha
    rw [this]; decide +kernel⟩

set_option maxRecDepth 100000 in
theorem exLang_nonneg (w : TimedWord) (h : exLang.Mem w) : w.Nonneg := by
  obtain ⟨_, h1, h2⟩ := h
  have hs : exLang.cond.size = 2 := by decide +kernel
  have l0 : exLang.cond.lower 0 0 = .fin 0 true := by decide +kernel
  have l1 : exLang.cond.lower 1 1 = .fin 0 true := by decide +kernel
  have b0 := (h2 0 0 (le_refl 0) (by rw [hs]; norm_num)).2
  have b1 := (h2 1 1 (le_refl 1) (by rw [hs]; norm_num)).2
  rw [l0] at b0; rw [l1] at b1; rw [hs] at h1
  match hd : w.durations, h1 with
  | [x, y], _ =>
    rw [hd] at b0 b1
    simp [T] at b0 b1
    intro d hm
    rw [hd] at hm
    simp at hm
    rcases hm with rfl | rfl <;> assumption

/-- The accepted words of `exLang` (`τ₀, τ₁ ≤ 2`, `1 < τ₀ + τ₁ ≤ 3`) in `exA`: those with `τ₀ ≤ 1`;
their hull is exact. -/
example : (SymOracle.query (fun (r : Runner) w => (Runner.answerQuery exA 1 r w).getD (r, false)) (fun _ => true)
    (.start (Runner.start exA)) exLang).map (fun r => r.2.map fun c => (c.upper 0 0, c.lower 0 0, c.upper 0 1)) =
      some [(.fin 1 true, .fin 0 true, .fin 3 true)] := by decide +kernel

/-- An answer with more than one condition: the words with `τ₁ = 0` or `τ₁ ≥ 1`. -/
example : (SymOracle.query (fun (_ : Unit) w => ((), decide (w.durations.getD 1 0 = 0 ∨ 1 ≤ w.durations.getD 1 0)))
    (fun _ => true) (.start ()) exLang).map (fun r => decide (2 ≤ r.2.length ∧ r.2.length ≤ 4)) = some true := by
  decide +kernel

end LearnTA.Props
