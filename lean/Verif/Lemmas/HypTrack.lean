import Verif.Lemmas.HypRun
import Mathlib.Algebra.Order.Archimedean.Basic

/-!
# The language of a hypothesis
-/

namespace LearnTA
namespace ObsTable
open ForwardRegional Guard

variable {σ : Type} {f : TimedWord → Bool} {T : ObsTable σ}

theorem legal_delay {t : ℚ} (h : 0 ≤ t) : (⟨[], [t]⟩ : TimedWord).Legal :=
  ⟨rfl, by intro a ha; simp at ha, by intro d hd; simp at hd; rw [hd]; exact h⟩

theorem BadMerge.wrong {s : TimedWord} (hs : s.Legal) (h : BadMerge f T s) : Wrong f T s := by
  refine ⟨⟨[], [0]⟩, s, legal_delay (le_refl _), hs, ?_, h⟩
  obtain ⟨w, d⟩ := s
  have h1 : d.length = w.length + 1 := hs.wf
  cases d with
  | nil => simp at h1
  | cons x d => simp [TimedWord.append, TimedWord.addBack]

theorem Wrong.longer {x s : TimedWord} (hx : x.Legal) (h : Wrong f T s) : Wrong f T (x.append s) := by
  obtain ⟨y, t, hy, ht, rfl, hb⟩ := h
  exact ⟨x.append y, t, append_legal hx hy, ht, (TimedWord.append_assoc hx.wf hy.wf ht.wf).symm, hb⟩

theorem suffix_delay (s t : ℚ) (w : List Action) (ds : List ℚ) :
    (⟨w, (s + t) :: ds⟩ : TimedWord) = (⟨[], [s]⟩ : TimedWord).append ⟨w, t :: ds⟩ := by
  simp [TimedWord.append, TimedWord.addBack]

theorem suffix_act (t : ℚ) (a : Action) (w : List Action) {ds : List ℚ} (h : ds ≠ []) :
    (⟨a :: w, t :: ds⟩ : TimedWord) = (⟨[a], [t, 0]⟩ : TimedWord).append ⟨w, ds⟩ := by
  obtain ⟨d, ds, rfl⟩ := List.exists_cons_of_ne_nil h
  simp [TimedWord.append, TimedWord.addBack]

theorem _root_.LearnTA.TimedWord.Legal.front {w : List Action} {t t' : ℚ} {ds : List ℚ}
    (h : (⟨w, t :: ds⟩ : TimedWord).Legal) (ht : 0 ≤ t') : (⟨w, t' :: ds⟩ : TimedWord).Legal := by
  refine ⟨?_, h.observable, ?_⟩
  · have : (t :: ds).length = w.length + 1 := h.wf
    exact this
  · intro d hd
    simp at hd
    rcases hd with rfl | hd
    · exact ht
    · exact h.nonneg d (by simp [hd])

theorem _root_.LearnTA.TimedWord.Legal.tail {a : Action} {w : List Action} {t : ℚ} {ds : List ℚ}
    (h : (⟨a :: w, t :: ds⟩ : TimedWord).Legal) : (⟨w, ds⟩ : TimedWord).Legal ∧ ds ≠ [] ∧ 0 ≤ t ∧ a ≠ unobservable := by
  have h1 : (t :: ds).length = (a :: w).length + 1 := h.wf
  simp only [List.length_cons] at h1
  refine ⟨⟨?_, fun b hb => h.observable b (by simp [hb]), fun d hd => h.nonneg d (by simp [hd])⟩, ?_, h.nonneg t (by simp),
    h.observable a (by simp)⟩
  · show ds.length = w.length + 1
    omega
  · intro e
    simp [e] at h1

/-! ### Beyond the last region -/

theorem fixed_next {p : ForwardRegional} (hp : p.Reach) {x : ℕ} (hx : x ≤ p.word.length) (hf : p.toElementaryLanguage.Fixed x)
    {u : TimedWord} (hu : p.toElementaryLanguage.Mem u) :
    ∃ δ : ℚ, 0 < δ ∧ ∀ e, 0 < e → e ≤ δ → p.successor.toElementaryLanguage.Mem (u.appendDelay e) := by
  obtain ⟨h1, h2, h3⟩ := (hp.mem_iff u).1 hu
  obtain ⟨δ, h0, _, hd⟩ := h3.successor
  refine ⟨δ, h0, fun e he hle => ?_⟩
  rcases hd e he.le hle with h | h
  · have hm := (hp.mem_after rfl hp hu (t := e)).2 h
    have := hf _ _ hm hu
    rw [TimedWord.appendDelay_clocks u e h2 (by omega)] at this
    linarith
  · exact ((ForwardRegional.Reach.time hp).mem_after (p := p) rfl hp hu).2 h

theorem exterior_same (hI : Inv f T) (hR : Ready f T) {i c : ℕ} {p pc : ForwardRegional} (hi : i ∈ T.pIndices)
    (hc : T.continuousSuccessors i = some c) (hcP : c ∉ T.pIndices) (hp : T.prefixes[i]? = some p) (hpc : T.prefixes[c]? = some pc)
    {x u : TimedWord} (hx : pc.toElementaryLanguage.Mem x) (hu : p.toElementaryLanguage.Mem u) {w : List Action} {τ : ℚ}
    {ds : List ℚ} (hs : (⟨w, τ :: ds⟩ : TimedWord).Legal) :
    f (x.append ⟨w, τ :: ds⟩) = f (u.append ⟨w, 0 :: ds⟩) ∨ Wrong f T ⟨w, τ :: ds⟩ := by
  have hrel : T.getRelation c i = some [] := by
    obtain ⟨s, h1, h2⟩ := hR.saturated i hi
    rw [hc] at h1
    cases h1
    rcases h2 with h2 | ⟨h2, _⟩
    · exact absurd h2 hcP
    · simp [getRelation, h2]
  have step : ∀ (y : TimedWord) (s : TimedWord), pc.toElementaryLanguage.Mem y → s.Legal →
      f (y.append s) = f (u.append s) ∨ Wrong f T s := by
    intro y s hy hs
    by_cases e : f (y.append s) = f (u.append s)
    · exact Or.inl e
    · exact Or.inr (BadMerge.wrong hs ⟨c, i, pc, p, [], hcP, hi, hpc, hp, hrel, y, u, hy, hu, by simp [RenamingRelation.Relates], e⟩)
  rcases step x _ hx hs with h1 | h1
  swap
  · exact Or.inr h1
  rw [h1]
  have hpR := hI.reach hp
  have hτ : 0 ≤ τ := hs.nonneg τ (by simp)
  rcases hR.exterior i hi c p hc hp with h2 | ⟨k, hk, hf⟩
  · exact absurd h2 hcP
  obtain ⟨δ0, hδ0, hall⟩ := fixed_next hpR hk hf hu
  have hsucc : p.successor = pc := by
    have := hI.time_get hi hc hp
    rw [hpc] at this
    exact (Option.some.inj this).symm
  rw [hsucc] at hall
  have key : ∀ (δ : ℚ), 0 < δ → δ ≤ δ0 → ∀ N : ℕ, f (u.append ⟨w, (N * δ) :: ds⟩) = f (u.append ⟨w, 0 :: ds⟩) ∨
      Wrong f T ⟨w, (N * δ) :: ds⟩ := by
    intro δ hd hle N
    induction N with
    | zero => left; simp
    | succ N ih =>
      have e : (((N + 1 : ℕ) : ℚ) * δ) = δ + N * δ := by push_cast; ring
      rw [e]
      have hl := hs.front (t' := N * δ) (by positivity)
      have hw : Wrong f T ⟨w, (N * δ) :: ds⟩ → Wrong f T ⟨w, (δ + N * δ) :: ds⟩ := fun h => by
        rw [suffix_delay]; exact h.longer (legal_delay hd.le)
      rcases ih with ih | ih
      · rw [TimedWord.append_split]
        rcases step _ _ (hall δ hd hle) hl with h3 | h3
        · left; rw [h3, ih]
        · right; exact hw h3
      · right; exact hw ih
  rcases hτ.eq_or_lt with h0 | h0
  · rw [← h0]; exact Or.inl rfl
  · obtain ⟨N, hN⟩ := exists_nat_gt (τ / δ0)
    have hN0 : (0 : ℚ) < N := lt_of_le_of_lt (by positivity) hN
    have := key (τ / N) (by positivity) (by rw [div_le_iff₀ hN0]; rw [div_lt_iff₀ hδ0] at hN; linarith) N
    rwa [mul_div_cancel₀ _ hN0.ne'] at this

/-! ### Actions -/

theorem Jump.same {i j : ℕ} {a : Action} {u w s : TimedWord} (hI : Inv f T) (hi : i ∈ T.pIndices) (ha : a ∈ T.alphabet)
    {p q : ForwardRegional} (hp : T.prefixes[i]? = some p) (hu : p.toElementaryLanguage.Mem u) (hj : j ∈ T.pIndices)
    (hq : T.prefixes[j]? = some q) (hw : q.toElementaryLanguage.Mem w) (h : Jump f T i a u j w) (hs : s.Legal) :
    f ((u.act a).append s) = f (w.append s) ∨ Wrong f T s := by
  obtain ⟨d, hd, ⟨_, _, rfl⟩ | ⟨hdP, p', q', r, h1, h2, h3, h4, h5⟩⟩ := h
  · exact Or.inl rfl
  · by_cases e : f ((u.act a).append s) = f (w.append s)
    · exact Or.inl e
    · refine Or.inr (BadMerge.wrong hs ⟨d, j, p', q', r, hdP, hj, h1, h2, h3, u.act a, w, ?_, ?_, h5, e⟩)
      · have := hI.disc_get hi ha hd hp
        rw [h1] at this
        cases this
        exact (hI.reach hp).act_mem a hu
      · rw [hq] at h2
        cases h2
        exact hw

/-! ### Acceptance from a configuration -/

/-- The automaton accepts from the configuration. -/
def AcceptsFrom (A : TA) (q : ℕ) (v : Valuation) (es : List Event) : Prop :=
  ∃ c, A.Steps ⟨q, v⟩ es c ∧ (A.loc c.loc).isMatch = true

theorem acceptsFrom_delay {A : TA} (hw : A.WF) (he : A.EpsFree) {q : ℕ} (hq : q ∈ A.states) {v : Valuation} {t : ℚ}
    (ht : 0 ≤ t) {es : List Event} : AcceptsFrom A q v (.delay t :: es) ↔ AcceptsFrom A q (v.shift t) es := by
  constructor
  · rintro ⟨c, h1, h2⟩
    cases h1.plain hw.closed he hq with
    | delay _ _ h => exact ⟨c, h.steps, h2⟩
  · rintro ⟨c, h1, h2⟩
    exact ⟨c, .delay t ht h1, h2⟩

theorem acceptsFrom_nil {A : TA} (hw : A.WF) (he : A.EpsFree) {q : ℕ} (hq : q ∈ A.states) {v : Valuation} :
    AcceptsFrom A q v [] ↔ (A.loc q).isMatch = true := by
  constructor
  · rintro ⟨c, h1, h2⟩
    cases h1.plain hw.closed he hq with
    | nil => exact h2
  · intro h
    exact ⟨⟨q, v⟩, .nil _, h⟩

theorem acceptsFrom_act {A : TA} (hw : A.WF) (he : A.EpsFree) (hd : A.Deterministic) {q : ℕ} (hq : q ∈ A.states) {v : Valuation}
    (hv : v.Nonneg) {a : Action} (ha : a ≠ unobservable) {t : Trans} (ht : t ∈ (A.loc q).next a) (hg : t.guard.Holds v)
    {es : List Event} : AcceptsFrom A q v (.act a :: es) ↔ AcceptsFrom A t.target (t.resets.apply v) es := by
  constructor
  · rintro ⟨c, h1, h2⟩
    cases h1.plain hw.closed he hq with
    | act _ _ t' ht' hg' h =>
      obtain ⟨e1, e2⟩ := hd.confluent q hq a t ht t' ht' v hv hg hg'
      rw [e1, e2]
      exact ⟨c, h.steps, h2⟩
  · rintro ⟨c, h1, h2⟩
    exact ⟨c, .act a ha t ht hg h1, h2⟩

/-- The effect of an edge of a prefix of `P`. -/
theorem Edge.rep {toState : ℕ → Option ℕ} {a : Action} {i : ℕ} {t : Trans} (h : Edge f T toState a i t) {p : ForwardRegional}
    (hp : T.prefixes[i]? = some p) {u : TimedWord} (hu : p.toElementaryLanguage.Mem u) {v : Valuation} (hv : v.Nonneg)
    (hvu : ∀ x < p.cond.size, v x = u.clocks x) :
    ∃ j w q, Rep T toState j w t.target (t.resets.apply v) ∧ Jump f T i a u j w ∧ T.prefixes[j]? = some q ∧
      q.toElementaryLanguage.Mem w := by
  obtain ⟨hl, p', j, q, h1, h2, h3, h4, _, _, h5⟩ := h
  rw [hp] at h1
  cases h1
  obtain ⟨w, k1, k2, k3⟩ := h5 u hu v hvu
  exact ⟨j, w, q, ⟨h2, h4, ⟨q, h3, k1, k3⟩, Resets.apply_nonneg _ _ hv hl.nonneg⟩, k2, h3, k1⟩

theorem loc_match {env : Env σ} (he : EnvOk env f) (hI : Inv f T) {H : List ℕ} {B0 : Build} {bd : List (ℕ × Action)}
    (hx : Explored T H B0 bd) {loc : ℕ → TAState} (h : Finished f T H B0 loc) {q i : ℕ} (hi : i ∈ B0.toIndices q)
    {p : ForwardRegional} (hp : T.prefixes[i]? = some p) {u : TimedWord} (hu : p.toElementaryLanguage.Mem u) :
    (loc q).isMatch = f u := by
  rw [h.isMatch q (hx.b.lt hi)]
  obtain ⟨b, h1, h2⟩ := hI.isMatch he hp
  have := hx.b.uniform q i hi
  rw [h1] at this
  rw [h2 u hu]
  exact (Option.some.inj this).symm

theorem Inv.observable (hI : Inv f T) {i : ℕ} {p : ForwardRegional} (hp : T.prefixes[i]? = some p) :
    ∀ a ∈ p.word, a ≠ unobservable := fun a ha =>
  hI.alpha.2 a ((hI.closed.region p (List.mem_of_getElem? hp)).2 a ha)

/-- A prefix outside of `P` that belongs to a state succeeds one of `P` of the same state. -/
theorem chain_parent (hI : Inv f T) {H : List ℕ} {B0 : Build} {bd : List (ℕ × Action)} (hx : Explored T H B0 bd) {q c : ℕ}
    (hc : c ∈ B0.toIndices q) (hcP : c ∉ T.pIndices) : ∃ i ∈ T.pIndices, i ∈ B0.toIndices q ∧ T.continuousSuccessors i = some c := by
  have hqH := hx.b.lt hc
  have hch := hx.b.chain q _ (List.getElem?_eq_getElem hqH)
  obtain ⟨m, hm⟩ := List.getElem?_of_mem hc
  have hh := (hx.b.head _ (List.getElem_mem hqH)).2
  cases m with
  | zero =>
    obtain ⟨l', e⟩ := hch.cons
    rw [e] at hm
    simp at hm
    rw [hm] at hh
    exact absurd hh hcP
  | succ m =>
    have hlt : m < (B0.toIndices q).length := by
      have := (List.getElem?_eq_some_iff.1 hm).1; omega
    have hy := List.getElem?_eq_getElem hlt
    rcases hch.get hy with ⟨h2, y, e, hy'⟩ | ⟨_, h3⟩
    · rw [hm] at hy'
      cases hy'
      exact ⟨_, h2, List.getElem_mem hlt, e⟩
    · have := (List.getElem?_eq_some_iff.1 hm).1
      omega

/-- The hypothesis decides every word as `f` does, unless some merging is wrong. -/
theorem track {env : Env σ} (he : EnvOk env f) (hI : Inv f T) (hR : Ready f T) {H : List ℕ} {B0 : Build}
    {bd : List (ℕ × Action)} (hx : Explored T H B0 bd) {loc : ℕ → TAState} (h : Finished f T H B0 loc) (ws : List Action) :
    ∀ (ds : List ℚ) (i q : ℕ) (u : TimedWord) (v : Valuation), Rep T B0.toState i u q v → (⟨ws, ds⟩ : TimedWord).Legal →
      (∀ a ∈ ws, a ∈ T.alphabet) →
      (AcceptsFrom (rawTA H loc) q v (eventsOf ws ds) ↔ f (u.append ⟨ws, ds⟩) = true) ∨ Wrong f T ⟨ws, ds⟩ := by
  obtain ⟨hw, hef, hdet⟩ := raw_ok hI hx h
  induction ws with
  | nil =>
    intro ds i q u v hr hs _
    have hl : ds.length = 1 := hs.wf
    obtain ⟨t, rfl⟩ := List.length_eq_one_iff.1 hl
    have ht : 0 ≤ t := hs.nonneg t (by simp)
    have hq : q ∈ (rawTA H loc).states := List.mem_range.2 (hx.b.lt ((hx.b.toState i q).1 hr.state))
    show (AcceptsFrom (rawTA H loc) q v [.delay t] ↔ _) ∨ _
    rw [acceptsFrom_delay hw hef hq ht, acceptsFrom_nil hw hef hq]
    obtain ⟨i', p', t', k1, k2, k3, k4, k5, k6, _⟩ := pass hI hx h hr ht
    by_cases hi' : i' ∈ T.pIndices
    · left
      rw [k6 hi'] at k5
      rw [TimedWord.append_delay]
      show (loc q).isMatch = true ↔ _
      rw [loc_match he hI hx h k1 k2 k5]
    · obtain ⟨i0, j1, j2, j3⟩ := chain_parent hI hx k1 hi'
      obtain ⟨p0, hp0, hp0R⟩ := hI.pget j1
      obtain ⟨u0, hu0⟩ := hp0R.exists_mem
      have hleg := hp0R.legal (hI.observable hp0) hu0
      have e : t = t' + (t - t') := by ring
      have hs' : (⟨[], (t - t') :: []⟩ : TimedWord).Legal := legal_delay (by linarith)
      rcases exterior_same hI hR j1 j3 hi' hp0 k2 k5 hu0 hs' with h1 | h1
      · left
        conv_rhs => rw [e, TimedWord.append_split, h1, show u0.append ⟨[], [0]⟩ = u0 from TimedWord.append_empty hleg.wf]
        show (loc q).isMatch = true ↔ _
        rw [loc_match he hI hx h j2 hp0 hu0]
      · right
        rw [e, suffix_delay]
        exact h1.longer (legal_delay k3)
  | cons a ws ih =>
    intro ds i q u v hr hs hal
    obtain ⟨t, ds, rfl⟩ : ∃ t ds', ds = t :: ds' := by
      have hl : ds.length = (a :: ws).length + 1 := hs.wf
      cases ds with
      | nil => simp at hl
      | cons t ds => exact ⟨t, ds, rfl⟩
    obtain ⟨hs', hne, ht, ha⟩ := hs.tail
    have haA : a ∈ T.alphabet := hal a (by simp)
    have hq : q ∈ (rawTA H loc).states := List.mem_range.2 (hx.b.lt ((hx.b.toState i q).1 hr.state))
    show (AcceptsFrom (rawTA H loc) q v (.delay t :: .act a :: eventsOf ws ds) ↔ _) ∨ _
    have hvn : (v.shift t).Nonneg := fun x => by
      have := hr.nonneg x
      unfold Valuation.shift; linarith
    obtain ⟨i', p', t', k1, k2, k3, k4, k5, k6, k7⟩ := pass hI hx h hr ht
    obtain ⟨tr, htr, hg, g, hedge⟩ := k7 a haA
    rw [acceptsFrom_delay hw hef hq ht, acceptsFrom_act hw hef hdet hq hvn ha htr hg]
    have hlong : ∀ {s : TimedWord}, s = ⟨ws, ds⟩ → Wrong f T s → Wrong f T ⟨a :: ws, t :: ds⟩ := by
      rintro s rfl hW
      rw [suffix_act t a ws hne]
      refine hW.longer ⟨rfl, ?_, ?_⟩
      · intro b hb; simp at hb; rw [hb]; exact ha
      · intro d hd; simp at hd; rcases hd with rfl | rfl
        · exact ht
        · exact le_refl _
    by_cases hi' : i' ∈ T.pIndices
    · rcases hedge with ⟨_, hedge⟩ | ⟨hc, _⟩
      swap
      · exact absurd hi' hc
      rw [k6 hi'] at k5
      obtain ⟨p, hp, hu, hvu⟩ := hr.mem
      have hpR := hI.reach hp
      obtain ⟨_, w2, _⟩ := (hpR.mem_iff u).1 hu
      have hp'R := hI.reach k2
      have hsz : p'.cond.size = u.durations.length := by
        obtain ⟨_, w3, _⟩ := (hp'R.mem_iff _).1 k5
        rw [TimedWord.appendDelay_length _ _ (by intro h; simp [h] at w2)] at w3
        rw [hp'R.csize, w3]
      have hvu' : ∀ x < p'.cond.size, v.shift t x = (u.appendDelay t).clocks x := by
        intro x hx
        rw [hsz] at hx
        rw [TimedWord.appendDelay_clocks u t rfl hx]
        unfold Valuation.shift
        rw [hvu x (by rw [hpR.csize, ← w2]; exact hx)]
      obtain ⟨j, w, qj, r1, r2, r3, r4⟩ := hedge.rep k2 k5 hvn hvu'
      rcases ih ds j tr.target w _ r1 hs' (fun b hb => hal b (by simp [hb])) with h1 | h1
      · rcases r2.same hI hi' haA k2 k5 r1.inside r3 r4 hs' with h2 | h2
        · left
          rw [TimedWord.append_act t a ws hne, h2]
          exact h1
        · exact Or.inr (hlong rfl h2)
      · exact Or.inr (hlong rfl h1)
    · rcases hedge with ⟨hc, _⟩ | ⟨_, hl, i0, p0, pc, j, qj, u0, m1, m2, m3, m4, m5, m6, m7, _, m8, m9⟩
      · exact absurd hc hi'
      rw [k2] at m4
      cases m4
      obtain ⟨w, n1, n2, n3⟩ := m9 (v.shift t)
      have hrep : Rep T B0.toState j w tr.target (tr.resets.apply (v.shift t)) :=
        ⟨m5, m7, ⟨qj, m6, n1, n3⟩, Resets.apply_nonneg _ _ hvn hl.nonneg⟩
      have e : t = t' + (t - t') := by ring
      have hsx : (⟨a :: ws, (t - t') :: ds⟩ : TimedWord).Legal := hs.front (by linarith)
      rcases exterior_same hI hR m1 m2 hi' m3 k2 k5 m8 hsx with h0 | h0
      · rcases ih ds j tr.target w _ hrep hs' (fun b hb => hal b (by simp [hb])) with h1 | h1
        · rcases n2.same hI m1 haA m3 m8 m5 m6 n1 hs' with h2 | h2
          · left
            rw [e, TimedWord.append_split, h0, TimedWord.append_act 0 a ws hne]
            have e0 : u0.appendDelay 0 = u0 := by
              rw [← TimedWord.append_delay]
              exact TimedWord.append_empty ((hI.reach m3).legal (hI.observable m3) m8).wf
            rw [e0, h2, ← e]
            exact h1
          · exact Or.inr (hlong rfl h2)
        · exact Or.inr (hlong rfl h1)
      · right
        rw [e, suffix_delay]
        exact h0.longer (legal_delay k3)

end ObsTable
end LearnTA
