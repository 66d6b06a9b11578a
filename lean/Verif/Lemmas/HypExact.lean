import Verif.Lemmas.HypTrack

/-!
# The hypothesis on the words of the prefixes
-/

namespace LearnTA
namespace ObsTable
open ForwardRegional Guard

variable {σ : Type} {f : TimedWord → Bool} {T : ObsTable σ}

theorem Inv.region_unique (hI : Inv f T) {i j : ℕ} {p q : ForwardRegional} (hp : T.prefixes[i]? = some p)
    (hq : T.prefixes[j]? = some q) {w : TimedWord} (h1 : p.toElementaryLanguage.Mem w) (h2 : q.toElementaryLanguage.Mem w) :
    i = j := by
  have hpR := hI.reach hp
  have hqR := hI.reach hq
  obtain ⟨a1, a2, a3⟩ := (hpR.mem_iff w).1 h1
  obtain ⟨b1, b2, b3⟩ := (hqR.mem_iff w).1 h2
  have e : q.word = p.word := by rw [← a1, b1]
  rw [e] at b3
  exact hI.closed.distinct i j p q hp hq (a3.beq b3 e.symm)

/-- A beginning of a word of `P` is a word of `P`. -/
theorem inside_begin (hI : Inv f T) {k : ℕ} {pk : ForwardRegional} (hk : k ∈ T.pIndices) (hpk : T.prefixes[k]? = some pk)
    {x s : TimedWord} (hx : x.Legal) (hs : s.Legal) (hm : pk.toElementaryLanguage.Mem (x.append s)) {i : ℕ} {p : ForwardRegional}
    (hp : T.prefixes[i]? = some p) (hpx : p.toElementaryLanguage.Mem x) : i ∈ T.pIndices := by
  obtain ⟨e, k1, k2, k3⟩ := cut_of_append hx hs
  obtain ⟨j, hj, q, hq, hqx⟩ := inside_cut hI k hk hpk (append_legal hx hs) hm k1 k2 k3
  rw [e] at hqx
  rw [hI.region_unique hp hq hpx hqx]
  exact hj

/-- The run on a word of `P` ends in the state of that prefix with the clocks of the word. -/
theorem exact_run (hI : Inv f T) {H : List ℕ} {B0 : Build} {bd : List (ℕ × Action)} (hx : Explored T H B0 bd)
    {loc : ℕ → TAState} (h : Finished f T H B0 loc) {k : ℕ} {pk : ForwardRegional} (hk : k ∈ T.pIndices)
    (hpk : T.prefixes[k]? = some pk) (ws : List Action) :
    ∀ (ds : List ℚ) (i q : ℕ) (u : TimedWord) (v : Valuation), Rep T B0.toState i u q v → (⟨ws, ds⟩ : TimedWord).Legal →
      (∀ a ∈ ws, a ∈ T.alphabet) → pk.toElementaryLanguage.Mem (u.append ⟨ws, ds⟩) →
      ∃ q' v', Rep T B0.toState k (u.append ⟨ws, ds⟩) q' v' ∧ (rawTA H loc).Steps ⟨q, v⟩ (eventsOf ws ds) ⟨q', v'⟩ := by
  induction ws with
  | nil =>
    intro ds i q u v hr hs _ hm
    have hl : ds.length = 1 := hs.wf
    obtain ⟨t, rfl⟩ := List.length_eq_one_iff.1 hl
    have ht : 0 ≤ t := hs.nonneg t (by simp)
    obtain ⟨i', p', t', k1, k2, k3, k4, k5, k6, _⟩ := pass hI hx h hr ht
    obtain ⟨p, hp, hu, hvu⟩ := hr.mem
    have hpR := hI.reach hp
    have hp'R := hI.reach k2
    obtain ⟨_, w2, _⟩ := (hpR.mem_iff u).1 hu
    have hi' : i' ∈ T.pIndices := by
      refine inside_begin hI hk hpk (hp'R.legal (hI.observable k2) k5) (s := ⟨[], [t - t']⟩) (legal_delay (by linarith)) ?_ k2 k5
      rw [← TimedWord.append_split, show t' + (t - t') = t by ring]
      exact hm
    rw [k6 hi'] at k5
    rw [TimedWord.append_delay] at hm ⊢
    have := hI.region_unique k2 hpk k5 hm
    subst this
    rw [hpk] at k2
    cases k2
    refine ⟨q, v.shift t, ⟨hk, (hx.b.toState _ _).2 k1, ⟨pk, hpk, k5, ?_⟩, fun x => ?_⟩, .delay t ht (.nil _)⟩
    · intro x hx
      have hsz : pk.cond.size = u.durations.length := by
        obtain ⟨_, w3, _⟩ := (hp'R.mem_iff _).1 k5
        rw [TimedWord.appendDelay_length _ _ (by intro h; simp [h] at w2)] at w3
        rw [hp'R.csize, w3]
      rw [hsz] at hx
      rw [TimedWord.appendDelay_clocks u t rfl hx]
      unfold Valuation.shift
      rw [hvu x (by rw [hpR.csize, ← w2]; exact hx)]
    · have := hr.nonneg x
      unfold Valuation.shift; linarith
  | cons a ws ih =>
    intro ds i q u v hr hs hal hm
    obtain ⟨t, ds, rfl⟩ : ∃ t ds', ds = t :: ds' := by
      have hl : ds.length = (a :: ws).length + 1 := hs.wf
      cases ds with
      | nil => simp at hl
      | cons t ds => exact ⟨t, ds, rfl⟩
    obtain ⟨hs', hne, ht, ha⟩ := hs.tail
    have haA : a ∈ T.alphabet := hal a (by simp)
    have hvn : (v.shift t).Nonneg := fun x => by
      have := hr.nonneg x
      unfold Valuation.shift; linarith
    obtain ⟨i', p', t', k1, k2, k3, k4, k5, k6, k7⟩ := pass hI hx h hr ht
    obtain ⟨tr, htr, hg, g, hedge⟩ := k7 a haA
    obtain ⟨p, hp, hu, hvu⟩ := hr.mem
    have hpR := hI.reach hp
    have hp'R := hI.reach k2
    obtain ⟨_, w2, _⟩ := (hpR.mem_iff u).1 hu
    have hi' : i' ∈ T.pIndices := by
      refine inside_begin hI hk hpk (hp'R.legal (hI.observable k2) k5) (s := ⟨a :: ws, (t - t') :: ds⟩) (hs.front (by linarith)) ?_ k2 k5
      rw [← TimedWord.append_split, show t' + (t - t') = t by ring]
      exact hm
    rw [k6 hi'] at k5
    have hsz : p'.cond.size = u.durations.length := by
      obtain ⟨_, w3, _⟩ := (hp'R.mem_iff _).1 k5
      rw [TimedWord.appendDelay_length _ _ (by intro h; simp [h] at w2)] at w3
      rw [hp'R.csize, w3]
    have hvu' : ∀ x < p'.cond.size, v.shift t x = (u.appendDelay t).clocks x := by
      intro x hx
      rw [hsz] at hx
      rw [TimedWord.appendDelay_clocks u t rfl hx]
      unfold Valuation.shift
      rw [hvu x (by rw [hpR.csize, ← w2]; exact hx)]
    rcases hedge with ⟨_, hedge⟩ | ⟨hc, _⟩
    swap
    · exact absurd hi' hc
    obtain ⟨j, w, qj, r1, r2, r3, r4⟩ := hedge.rep k2 k5 hvn hvu'
    rw [TimedWord.append_act t a ws hne] at hm ⊢
    obtain ⟨d, hd, hcase⟩ := r2
    have hdget := hI.disc_get hi' haA hd k2
    have hdmem := hp'R.act_mem a k5
    have hdP : d ∈ T.pIndices := inside_begin hI hk hpk ((hI.reach hdget).legal (hI.observable hdget) hdmem) hs' hm hdget hdmem
    rcases hcase with ⟨_, rfl, rfl⟩ | ⟨hc, _⟩
    swap
    · exact absurd hdP hc
    obtain ⟨q', v', h1, h2⟩ := ih ds j tr.target _ _ r1 hs' (fun b hb => hal b (by simp [hb])) hm
    exact ⟨q', v', h1, .delay t ht (.act a ha tr htr hg h2)⟩

/-- The start. -/
theorem start_rep (hI : Inv f T) {H : List ℕ} {B0 : Build} {bd : List (ℕ × Action)} (hx : Explored T H B0 bd) :
    Rep T B0.toState 0 ⟨[], [0]⟩ 0 Valuation.zero := by
  have hm : (0 : ℕ) ∈ B0.toIndices 0 := by
    obtain ⟨l, e⟩ := (hx.b.chain 0 0 hx.root).cons
    rw [e]; simp
  refine ⟨hI.closed.root.2, (hx.b.toState 0 0).2 hm, ⟨_, hI.closed.root.1, ?_, ?_⟩, fun _ => le_refl _⟩
  · rw [ForwardRegional.Reach.init.mem_iff]
    exact ⟨rfl, rfl, ForwardRegional.init_of.congr fun i hi => by
      have : i = 0 := by omega
      subst this; simp [TimedWord.clocks]⟩
  · intro x hx
    have : ForwardRegional.init.cond.size = 1 := ForwardRegional.init_of.csize
    have : x = 0 := by omega
    subst this; simp [TimedWord.clocks, Valuation.zero]

theorem empty_append {s : TimedWord} (hs : s.WF) : (⟨[], [0]⟩ : TimedWord).append s = s := by
  obtain ⟨w, d⟩ := s
  have h1 : d.length = w.length + 1 := hs
  cases d with
  | nil => simp at h1
  | cons x d => simp [TimedWord.append, TimedWord.addBack]

theorem accepts_raw {H : List ℕ} {loc : ℕ → TAState} {w : TimedWord} :
    (rawTA H loc).Accepts w ↔ AcceptsFrom (rawTA H loc) 0 Valuation.zero w.events := by
  unfold TA.Accepts AcceptsFrom rawTA
  simp

/-- Every word over the alphabet. -/
theorem raw_language {env : Env σ} (he : EnvOk env f) (hI : Inv f T) (hR : Ready f T) {H : List ℕ} {B0 : Build}
    {bd : List (ℕ × Action)} (hx : Explored T H B0 bd) {loc : ℕ → TAState} (h : Finished f T H B0 loc) {w : TimedWord}
    (hw : w.Legal) (hal : ∀ a ∈ w.word, a ∈ T.alphabet) :
    ((rawTA H loc).Accepts w ↔ f w = true) ∨ Wrong f T w := by
  have := track he hI hR hx h w.word w.durations 0 0 _ _ (start_rep hI hx) hw hal
  rw [accepts_raw]
  rwa [empty_append hw.wf] at this

/-- Other words are rejected. -/
theorem raw_foreign (hI : Inv f T) {H : List ℕ} {B0 : Build} {bd : List (ℕ × Action)} (hx : Explored T H B0 bd)
    {loc : ℕ → TAState} (h : Finished f T H B0 loc) {w : TimedWord} (hw : w.Legal) (ha : (rawTA H loc).Accepts w) :
    ∀ a ∈ w.word, a ∈ T.alphabet := by
  obtain ⟨hwf, hef, hdet⟩ := raw_ok hI hx h
  rw [accepts_raw] at ha
  obtain ⟨c, h1, _⟩ := ha
  have hq : (0 : ℕ) ∈ (rawTA H loc).states := List.mem_range.2 (List.getElem?_eq_some_iff.1 hx.root).1
  have hp := h1.plain hwf.closed hef hq
  have key : ∀ (es : List Event) (c c' : Config), (rawTA H loc).Plain c es c' → c.loc ∈ (rawTA H loc).states →
      ∀ a, Event.act a ∈ es → a ∈ T.alphabet := by
    intro es c c' hp
    induction hp with
    | nil => intro _ a ha; simp at ha
    | delay d hd _ ih => intro hl a ha; simp at ha; exact ih hl a ha
    | act b hb t ht hg _ ih =>
      intro hl a ha
      simp only [List.mem_cons, Event.act.injEq] at ha
      rcases ha with rfl | ha
      · exact (h.trans (List.mem_range.1 hl) ht).1
      · exact ih (hwf.closed.2 _ hl _ t ht) a ha
  intro a ha
  refine key _ _ _ hp hq a ?_
  have hev : ∀ (ws : List Action) (ds : List ℚ), ds.length = ws.length + 1 → ∀ a ∈ ws, Event.act a ∈ eventsOf ws ds := by
    intro ws
    induction ws with
    | nil => intro ds _ a ha; simp at ha
    | cons b ws ih =>
      intro ds hl a ha
      cases ds with
      | nil => simp at hl
      | cons d ds =>
        simp only [eventsOf, List.mem_cons, Event.act.injEq, reduceCtorEq, false_or]
        simp only [List.mem_cons] at ha
        rcases ha with rfl | ha
        · exact Or.inl rfl
        · exact Or.inr (ih ds (by simpa using hl) a ha)
  exact hev _ _ hw.wf a ha

/-! ### Parents of the words -/

theorem time_back {p : ForwardRegional} (h : p.Reach) {w : TimedWord} (hw : p.successor.toElementaryLanguage.Mem w) :
    ∃ u δ, p.toElementaryLanguage.Mem u ∧ 0 ≤ δ ∧ w = u.appendDelay δ := by
  have hnn := (ForwardRegional.Reach.time h).nonneg w hw
  obtain ⟨m1, m2, m3⟩ := ((ForwardRegional.Reach.time h).mem_iff w).1 hw
  have hwd : p.successor.word = p.word := rfl
  rw [hwd] at m1 m2 m3
  obtain ⟨ww, wd⟩ := w
  obtain ⟨l, d, rfl⟩ : ∃ l d, wd = l ++ [d] :=
    ⟨wd.dropLast, wd.getLast (by intro h; simp [h] at m2), (List.dropLast_append_getLast _).symm⟩
  simp only at m1 m2 m3
  have hll : l.length = p.word.length := by simpa using m2
  rw [← hll] at m3
  have hclk : (⟨ww, l ++ [d]⟩ : TimedWord).clocks = accV (l ++ [d]) := rfl
  rw [hclk] at m3
  obtain ⟨k1, v1, hqo, hqm⟩ := h.of
  have hacc : accV (l ++ [d]) l.length = d := by
    rw [ElementaryLanguage.accV_append _ _ (by omega), TimedCondition.accV_ge _ (by omega), zero_add]
  obtain ⟨δ, hδ, hso, _⟩ := hqo.successor
  have hk1 : k1 = l.length + 1 := by rw [← hso.word, m3.word]
  subst hk1
  have hne : d ≠ 0 := by
    intro hd
    have := m3.zero hso (i := l.length) (by omega) (by rw [hacc, hd])
    have h2 := hqm.2
    simp only [Nat.add_sub_cancel] at h2
    linarith
  have hmono : ForwardRegional.Mono (l.length + 1) (accV (l ++ [d])) := by
    have := ForwardRegional.accV_mono (d := l ++ [d]) hnn
    simpa using this
  obtain ⟨ε, hε, hb, hbm, _⟩ := m3.back_mono hmono (by simp only [Nat.add_sub_cancel, hacc]; exact hne)
  rw [hqo.back_successor] at hb
  refine ⟨⟨ww, l ++ [d - ε]⟩, ε, (h.mem_iff _).2 ⟨m1, by simp [hll], ?_⟩, hε.le, ?_⟩
  · rw [← hll]
    exact hb.congr fun i hi => by
      show _ = accV (l ++ [d - ε]) i
      rw [RecognizableLanguage.accV_last l d (d - ε) (by omega)]; ring
  · simp [TimedWord.appendDelay, TimedWord.addBack, List.getLastD_eq_getLast?]

theorem act_back {p : ForwardRegional} (h : p.Reach) {a : Action} {w : TimedWord}
    (hw : (p.successorAction a).toElementaryLanguage.Mem w) : ∃ u, p.toElementaryLanguage.Mem u ∧ w = u.act a := by
  obtain ⟨m1, m2, m3⟩ := ((ForwardRegional.Reach.action a h).mem_iff w).1 hw
  have hwd : (p.successorAction a).word = p.word ++ [a] := rfl
  rw [hwd] at m1 m2 m3
  obtain ⟨ww, wd⟩ := w
  obtain ⟨l, d, rfl⟩ : ∃ l d, wd = l ++ [d] :=
    ⟨wd.dropLast, wd.getLast (by intro h; simp [h] at m2), (List.dropLast_append_getLast _).symm⟩
  simp only at m1 m2 m3
  have hll : l.length = p.word.length + 1 := by simpa using m2
  have e : (p.word ++ [a]).length + 1 = l.length + 1 := by simp [hll]
  rw [e] at m3
  have hclk : (⟨ww, l ++ [d]⟩ : TimedWord).clocks = accV (l ++ [d]) := rfl
  rw [hclk] at m3
  obtain ⟨k1, v1, hqo, hqm⟩ := h.of
  have hacc : accV (l ++ [d]) l.length = d := by
    rw [ElementaryLanguage.accV_append _ _ (by omega), TimedCondition.accV_ge _ (by omega), zero_add]
  have hso := hqo.successorAction a
  have hk1 : k1 = l.length := by have h1 := hso.word; have h2 := m3.word; omega
  subst hk1
  have hd : d = 0 := by
    rw [← hacc]; exact hso.zero m3 (by omega) (by simp)
  have hqo' : p.Of l.length (accV l) := by
    have hp' := hqo.pos
    have hc := (m3.chop hp' (by rw [hacc, hd])).1
    have hcb := (hc.congr (v' := accV l) fun i hi => by
      rw [ElementaryLanguage.accV_append _ _ (by omega), hd, add_zero])
    have hc2 := ((hso.chop hp' (by simp)).1.congr (v' := v1) fun i hi => if_pos hi)
    exact hqo.transfer (by
      have hbq : (p.successorAction a).chop.beq p = true :=
        hc2.beq hqo (by show (p.word ++ [a]).dropLast = p.word; simp)
      exact (hcb.of_beq hqo hbq).2.sat)
  refine ⟨⟨p.word, l⟩, (h.mem_iff _).2 ⟨rfl, hll, ?_⟩, ?_⟩
  · rw [← hll]; exact hqo'
  · simp [TimedWord.act, m1, hd]

/-! ### Events -/

theorem events_delay : ∀ (ws : List Action) (l : List ℚ) (d : ℚ), l.length = ws.length →
    ∃ es, ∀ d, eventsOf ws (l ++ [d]) = es ++ [.delay d] := by
  intro ws
  induction ws with
  | nil => intro l d hl; exact ⟨[], fun d => by simp at hl; simp [hl, eventsOf]⟩
  | cons a ws ih =>
    intro l d hl
    cases l with
    | nil => simp at hl
    | cons x l =>
      obtain ⟨es, he⟩ := ih l d (by simpa using hl)
      exact ⟨.delay x :: .act a :: es, fun d => by simp [eventsOf, he]⟩

theorem events_act : ∀ (ws : List Action) (ds : List ℚ) (a : Action), ds.length = ws.length + 1 →
    eventsOf (ws ++ [a]) (ds ++ [0]) = eventsOf ws ds ++ [.act a, .delay 0] := by
  intro ws
  induction ws with
  | nil =>
    intro ds a hl
    obtain ⟨t, rfl⟩ := List.length_eq_one_iff.1 (by simpa using hl)
    rfl
  | cons b ws ih =>
    intro ds a hl
    cases ds with
    | nil => simp at hl
    | cons x l => simp [eventsOf, ih l a (by simpa using hl)]

theorem plain_longer {A : TA} {c c' : Config} {es es' : List Event} {d δ : ℚ} (hδ : 0 ≤ δ) (h : A.Plain c es' c')
    (e : es' = es ++ [.delay d]) : A.Plain c (es ++ [.delay (d + δ)]) ⟨c'.loc, c'.val.shift δ⟩ := by
  induction h generalizing es with
  | nil => simp at e
  | delay x hx h ih =>
    cases es with
    | nil =>
      simp at e
      obtain ⟨rfl, rfl⟩ := e
      cases h
      have : ∀ v : Valuation, (v.shift x).shift δ = v.shift (x + δ) := fun v => by
        funext i; simp [Valuation.shift]; ring
      rw [this]
      exact .delay _ (by linarith) (.nil _)
    | cons y es =>
      simp at e
      obtain ⟨rfl, rfl⟩ := e
      exact .delay x hx (ih rfl)
  | act a ha t ht hg h ih =>
    cases es with
    | nil => simp at e
    | cons y es =>
      simp at e
      obtain ⟨rfl, rfl⟩ := e
      exact .act a ha t ht hg (ih rfl)

theorem plain_append {A : TA} {c c' c'' : Config} {es es' : List Event} (h : A.Plain c es c') (h' : A.Plain c' es' c'') :
    A.Plain c (es ++ es') c'' := by
  induction h with
  | nil => exact h'
  | delay x hx h ih => exact .delay x hx (ih h')
  | act a ha t ht hg h ih => exact .act a ha t ht hg (ih h')

/-- A run of a deterministic automaton decides its word. -/
theorem plain_unique {A : TA} (hw : A.WF) (hd : A.Deterministic) {c c1 c2 : Config} {es : List Event}
    (h1 : A.Plain c es c1) (h2 : A.Plain c es c2) (hl : c.loc ∈ A.states) (hv : c.val.Nonneg) : c1 = c2 := by
  induction h1 with
  | nil => cases h2; rfl
  | delay x hx h ih =>
    cases h2 with
    | delay _ _ h' =>
      refine ih h' hl fun y => ?_
      have := hv y
      simp only [Valuation.shift]; linarith
  | act a ha t ht hg h ih =>
    cases h2 with
    | act _ _ t' ht' hg' h' =>
      obtain ⟨e1, e2⟩ := hd.confluent _ hl a t ht t' ht' _ hv hg hg'
      rw [← e1, ← e2] at h'
      exact ih h' (hw.closed.2 _ hl _ t ht) (Resets.apply_nonneg _ _ hv (hw.resets _ hl a t ht))

/-- The words of the prefixes. -/
theorem raw_prefix {env : Env σ} (he : EnvOk env f) (hI : Inv f T) {H : List ℕ} {B0 : Build}
    {bd : List (ℕ × Action)} (hx : Explored T H B0 bd) {loc : ℕ → TAState} (h : Finished f T H B0 loc) {i : ℕ} {p : ForwardRegional}
    (hp : T.prefixes[i]? = some p) {w : TimedWord} (hm : p.toElementaryLanguage.Mem w) :
    (rawTA H loc).Accepts w ↔ f w = true := by
  obtain ⟨hwf, hef, hdet⟩ := raw_ok hI hx h
  have hq0 : (0 : ℕ) ∈ (rawTA H loc).states := List.mem_range.2 (List.getElem?_eq_some_iff.1 hx.root).1
  -- words of `P`
  have inP : ∀ {k : ℕ} {pk : ForwardRegional} {u : TimedWord}, k ∈ T.pIndices → T.prefixes[k]? = some pk →
      pk.toElementaryLanguage.Mem u → ∃ q v, Rep T B0.toState k u q v ∧ (rawTA H loc).Plain ⟨0, Valuation.zero⟩ u.events ⟨q, v⟩ := by
    intro k pk u hk hpk hu
    have hl := (hI.reach hpk).legal (hI.observable hpk) hu
    have := exact_run hI hx h hk hpk u.word u.durations 0 0 _ _ (start_rep hI hx) hl (fun a ha => by
      obtain ⟨e, _⟩ := ((hI.reach hpk).mem_iff u).1 hu
      rw [e] at ha
      exact (hI.closed.region pk (List.mem_of_getElem? hpk)).2 a ha) (by rw [empty_append hl.wf]; exact hu)
    rw [empty_append hl.wf] at this
    obtain ⟨q, v, h1, h2⟩ := this
    exact ⟨q, v, h1, h2.plain hwf.closed hef hq0⟩
  have decide : ∀ c, (rawTA H loc).Plain ⟨0, Valuation.zero⟩ w.events c → (loc c.loc).isMatch = f w →
      ((rawTA H loc).Accepts w ↔ f w = true) := by
    intro c hc hf
    rw [accepts_raw, ← hf]
    constructor
    · rintro ⟨c', h1, h2⟩
      rw [plain_unique hwf hdet hc (h1.plain hwf.closed hef hq0) hq0 fun _ => le_refl _]
      exact h2
    · intro h1
      exact ⟨c, hc.steps, h1⟩
  by_cases hi : i ∈ T.pIndices
  · obtain ⟨q, v, h1, h2⟩ := inP hi hp hm
    exact decide _ h2 (loc_match he hI hx h ((hx.b.toState _ _).1 h1.state) hp hm)
  · have hpos : 0 < i := by
      rcases Nat.eq_zero_or_pos i with rfl | h0
      · exact absurd hI.closed.root.2 hi
      · exact h0
    obtain ⟨k, hk, _, hpar⟩ := hI.closed.parent i hpos (List.getElem?_eq_some_iff.1 hp).1
    obtain ⟨pk, hpk, hpkR⟩ := hI.pget hk
    rcases hpar with hs | ⟨a, ha, hs⟩
    · have e := hI.time_get hk hs hpk
      rw [hp] at e
      cases e
      obtain ⟨u, δ, hu, hδ, rfl⟩ := time_back hpkR hm
      obtain ⟨q, v, h1, h2⟩ := inP hk hpk hu
      have hkm := (hx.b.toState _ _).1 h1.state
      have hleg := hpkR.legal (hI.observable hpk) hu
      obtain ⟨uw, ud⟩ := u
      have hln : ud.length = uw.length + 1 := hleg.wf
      obtain ⟨l, d, rfl⟩ : ∃ l d, ud = l ++ [d] :=
        ⟨ud.dropLast, ud.getLast (by intro h; simp [h] at hln), (List.dropLast_append_getLast _).symm⟩
      obtain ⟨es, hes⟩ := events_delay uw l d (by simpa using hln)
      have hrun := plain_longer hδ h2 (hes d)
      refine decide ⟨q, v.shift δ⟩ ?_ ?_
      · have : (TimedWord.appendDelay ⟨uw, l ++ [d]⟩ δ).events = es ++ [.delay (d + δ)] := by
          simp [TimedWord.appendDelay, TimedWord.addBack, List.getLastD_eq_getLast?, TimedWord.events, hes]
        rw [this]
        exact hrun
      · refine loc_match he hI hx h ?_ hp hm
        have hqH := hx.b.lt hkm
        have hch := hx.b.chain q _ (List.getElem?_eq_getElem hqH)
        obtain ⟨m, hmm⟩ := List.getElem?_of_mem hkm
        rcases hch.get hmm with ⟨_, y, e, hy⟩ | ⟨h3, _⟩
        · rw [hs] at e
          cases e
          exact List.mem_of_getElem? hy
        · exact absurd hk h3
    · have e := hI.disc_get hk ha hs hpk
      rw [hp] at e
      cases e
      obtain ⟨u, hu, rfl⟩ := act_back hpkR hm
      obtain ⟨q, v, h1, h2⟩ := inP hk hpk hu
      have hleg := hpkR.legal (hI.observable hpk) hu
      obtain ⟨i', p', t', k1, k2, k3, k4, k5, k6, k7⟩ := pass hI hx h h1 (le_refl 0)
      have ht' : t' = 0 := le_antisymm k4 k3
      subst ht'
      have e0 : u.appendDelay 0 = u := by
        rw [← TimedWord.append_delay]
        exact TimedWord.append_empty hleg.wf
      rw [e0] at k5
      have := hI.region_unique k2 hpk k5 hu
      subst this
      rw [hpk] at k2
      cases k2
      obtain ⟨tr, htr, hg, g, hedge⟩ := k7 a ha
      rcases hedge with ⟨_, hedge⟩ | ⟨hc, _⟩
      swap
      · exact absurd hk hc
      obtain ⟨pk', hpk', _, hvu⟩ := h1.mem
      rw [hpk] at hpk'
      cases hpk'
      have hvs : v.shift 0 = v := by funext x; simp [Valuation.shift]
      rw [hvs] at hg
      obtain ⟨j, w, qj, r1, r2, r3, r4⟩ := hedge.rep hpk hu h1.nonneg hvu
      refine decide ⟨tr.target, (tr.resets.apply v).shift 0⟩ ?_ ?_
      · have : (u.act a).events = u.events ++ [.act a, .delay 0] := events_act _ _ _ hleg.wf
        rw [this]
        exact plain_append h2 (.act a (hI.alpha.2 a ha) tr htr hg (.delay 0 (le_refl _) (.nil _)))
      · show (loc tr.target).isMatch = _
        rw [loc_match he hI hx h ((hx.b.toState _ _).1 r1.state) r3 r4]
        obtain ⟨d, hd, hcase⟩ := r2
        rw [hs] at hd
        cases hd
        rcases hcase with ⟨hc, _⟩ | ⟨_, p1, q1, r, x1, x2, x3, x4, x5⟩
        · exact absurd hc hi
        · rw [hp] at x1
          cases x1
          rw [r3] at x2
          cases x2
          have hin : BackwardRegional.init.toElementaryLanguage.Mem ⟨[], [0]⟩ := by
            show ForwardRegional.init.toElementaryLanguage.Mem ⟨[], [0]⟩
            obtain ⟨p0, y1, y2, _⟩ := (start_rep hI hx).mem
            rw [hI.closed.root.1] at y1
            cases y1
            exact y2
          have := x4.merges.agree _ _ hm r4 x5 _ (by simp) _ hin
          have hl1 := (hI.reach hp).legal (hI.observable hp) hm
          have hl2 := (hI.reach r3).legal (hI.observable r3) r4
          rw [show (u.act a).append ⟨[], [0]⟩ = u.act a from TimedWord.append_empty hl1.wf,
            show w.append ⟨[], [0]⟩ = w from TimedWord.append_empty hl2.wf] at this
          exact this.symm

end ObsTable
end LearnTA
