import Verif.Lemmas.Beginning

/-!
# Lemmas about the analysis of counterexamples
-/

namespace LearnTA
open TimedCondition Zone RecognizableLanguage

theorem append_legal {u v : TimedWord} (hu : u.Legal) (hv : v.Legal) : (u.append v).Legal := by
  have h1 : u.durations.length = u.word.length + 1 := hu.wf
  have h2 : v.durations.length = v.word.length + 1 := hv.wf
  refine ⟨?_, ?_, ?_⟩
  · show (TimedWord.addBack _ _ ++ _).length = (u.word ++ v.word).length + 1
    simp only [TimedWord.addBack, List.length_append, List.length_dropLast, List.length_tail, List.length_singleton]
    omega
  · intro a ha
    rcases List.mem_append.1 ha with ha | ha
    · exact hu.observable a ha
    · exact hv.observable a ha
  · exact glue_nonneg hu.nonneg hv.nonneg

namespace CEX

/-- What `reductions` does in one step. -/
structure Reduces (R : RecognizableLanguage) (w w' s : TimedWord) : Prop where
  legal : w'.Legal ∧ s.Legal
  outside : R.inPrefixes w = false
  by_morphism : ∃ m ∈ R.morphisms, ∃ p p', m.domain.Mem p ∧ m.codomain.Mem p' ∧ m.rel.Relates p p' ∧
    w = p.append s ∧ w' = p'.append s

theorem apply_ok {R : RecognizableLanguage} (hR : ∀ m ∈ R.morphisms, OfRegion m) {w : TimedWord} (hw : w.Legal)
    {t : SplitTriple} (h : SplitOk R w t) : ∃ w', t.apply = some w' ∧ w'.Legal ∧ ∃ p p', t.morphism.domain.Mem p ∧
      t.morphism.codomain.Mem p' ∧ t.morphism.rel.Relates p p' ∧ w = p.append t.suf ∧ w' = p'.append t.suf := by
  have ht := (hR _ h.morphism).total
  obtain ⟨p', h1, h2, h3⟩ := SingleMorphism.maps_ok ht h.inDomain
  have hl : p'.Legal := by
    refine ⟨?_, ?_, ht.rightNN p' h2⟩
    · show p'.durations.length = _
      have : _ + 1 = _ := ht.right.wf
      rw [h2.2.1, h2.1, this]
    · intro a ha; rw [h2.1] at ha; exact ht.observable a ha
  refine ⟨p'.append t.suf, by unfold SplitTriple.apply; rw [h1]; rfl, append_legal hl h.suffix, t.pre, p', h.inDomain, h2, h3,
    h.whole.symm, rfl⟩

/-- `reductions` and `contains` make the same steps. -/
theorem reductions_ok {R : RecognizableLanguage} (hR : ∀ m ∈ R.morphisms, OfRegion m) (fuel : ℕ) (n : ℕ) :
    ∀ {w : TimedWord} (s : TimedWord), w.Legal →
      (∃ e, reductions fuel R n w s = .error e ∧ R.contains fuel n w = .error e) ∨
      ∃ l x, reductions fuel R n w s = .ok l ∧ R.contains fuel n w = .ok (R.isFinal x.1) ∧ l.head? = some (w, s) ∧
        l.getLast? = some x ∧ R.inPrefixes x.1 = true ∧ x.1.Legal ∧ l.IsChain fun a b => Reduces R a.1 b.1 b.2 := by
  induction n with
  | zero => intro w s hw; exact Or.inl ⟨.fuel, rfl, rfl⟩
  | succ n ih =>
    intro w s hw
    unfold reductions RecognizableLanguage.contains
    by_cases hin : R.inPrefixes w = true
    · rw [if_pos hin, if_pos hin]
      exact Or.inr ⟨[(w, s)], (w, s), rfl, rfl, rfl, rfl, hin, hw, by simp⟩
    · rw [if_neg hin, if_neg hin]
      have hmaps : R.maps fuel w = match R.split fuel w with
          | .error e => .error e
          | .ok none => .error .undefined
          | .ok (some t) =>
            match t.apply with
            | none => .error .undefined
            | some w' => .ok w' := by
        unfold RecognizableLanguage.maps; rw [if_neg hin]; rfl
      rw [hmaps]
      cases hs : R.split fuel w with
      | error e => exact Or.inl ⟨e, rfl, rfl⟩
      | ok o =>
        cases o with
        | none => exact Or.inl ⟨_, rfl, rfl⟩
        | some t =>
          have hso := split_ok hR hw hs
          obtain ⟨w', h1, h2, p, p', h3⟩ := apply_ok hR hw hso
          have hred : Reduces R w w' t.suf := ⟨⟨h2, hso.suffix⟩, by simpa using hin, t.morphism, hso.morphism, p, p', h3⟩
          simp only [h1]
          rcases ih t.suf h2 with ⟨e, g1, g2⟩ | ⟨l, x, g1, g2, g3, g4, g5, g6, g7⟩
          · exact Or.inl ⟨e, by rw [g1]; rfl, g2⟩
          · refine Or.inr ⟨(w, s) :: l, x, by rw [g1]; rfl, g2, rfl, ?_, g5, g6, ?_⟩
            · rw [List.getLast?_cons, g4]; rfl
            · rw [List.isChain_cons]
              refine ⟨?_, g7⟩
              intro y hy
              rw [g3] at hy
              simp only [Option.mem_some_iff] at hy
              subst hy; exact hred

variable {σ : Type} {ask : σ → TimedWord → σ × Bool} {f : TimedWord → Bool}

/-- The remembered answers are those of `f`. -/
def CacheOk (f : TimedWord → Bool) (m : MemCache σ) : Prop := ∀ u b, u.Legal → m.cache.lookup u = some b → b = f u

theorem answer_ok (ha : Answers ask f) {m : MemCache σ} (hm : CacheOk f m) {w : TimedWord} (hw : w.Legal) :
    (m.answerQuery ask w).2 = f w ∧ CacheOk f (m.answerQuery ask w).1 := by
  unfold MemCache.answerQuery
  split
  · rename_i b h; exact ⟨hm w b hw h, hm⟩
  · rename_i h
    refine ⟨ha _ _ hw, ?_⟩
    intro u b hu hl
    simp only [List.lookup_cons] at hl
    by_cases e : u = w
    · subst e
      simp only [beq_self_eq_true, Option.some.injEq] at hl
      rw [← hl]; exact ha _ _ hw
    · rw [beq_eq_false_iff_ne.2 e] at hl; exact hm u b hu hl

/-- If the answers at both ends differ, and words of the suffixes do not tell words apart that are related by a
morphism, the search finds a suffix. -/
theorem search_ok (ha : Answers ask f) {R : RecognizableLanguage} {suffixes : List ElementaryLanguage}
    (hs : ∀ a b s, Reduces R a b s → (suffixes.all fun e => !e.contains s) = false → f a = f b)
    (l : List (TimedWord × TimedWord)) : ∀ (m : MemCache σ), CacheOk f m →
    l.IsChain (fun a b => Reduces R a.1 b.1 b.2) → (∀ x, l.head? = some x → x.1.Legal) →
    ∀ x y, l.head? = some x → l.getLast? = some y → f x.1 ≠ f y.1 →
    ∃ m' s a b, search ask suffixes m l = (m', some s) ∧ CacheOk f m' ∧ Reduces R a b s ∧ f a ≠ f b ∧
      (suffixes.all fun e => !e.contains s) = true ∧ (b, s) ∈ l.tail := by
  induction l with
  | nil => intro m hm hc hl x y hx; simp at hx
  | cons a l ih =>
    intro m hm hc hl x y hx hy hne
    simp only [List.head?_cons, Option.some.injEq] at hx
    subst hx
    cases l with
    | nil =>
      simp only [List.getLast?_singleton, Option.some.injEq] at hy
      subst hy; exact absurd rfl hne
    | cons b l =>
      rw [List.isChain_cons_cons] at hc
      obtain ⟨hred, hc⟩ := hc
      have hla := hl a rfl
      have hlb := hred.legal.1
      obtain ⟨q1, q2⟩ := answer_ok ha hm hla
      obtain ⟨r1, r2⟩ := answer_ok ha q2 hlb
      have hy' : (b :: l).getLast? = some y := by rw [List.getLast?_cons_cons] at hy; exact hy
      obtain ⟨aw, as⟩ := a
      obtain ⟨bw, bs⟩ := b
      simp only at *
      unfold search
      simp only [q1, r1]
      by_cases hab : f aw = f bw
      · rw [if_neg (by simpa using hab)]
        obtain ⟨m', s, a, b, k1, k2, k3, k4, k5, k6⟩ :=
          ih _ r2 hc (by simpa using hlb) _ y rfl hy' (by simp only; rw [← hab]; exact hne)
        exact ⟨m', s, a, b, k1, k2, k3, k4, k5, List.mem_cons_of_mem _ k6⟩
      · rw [if_pos hab]
        by_cases hall : (suffixes.all fun e => !e.contains bs) = true
        · rw [if_pos hall]
          exact ⟨_, _, _, _, rfl, r2, hred, hab, hall, by simp⟩
        · exact absurd (hs _ _ _ hred (by simpa using hall)) hab

end CEX

namespace ObsTable
variable {σ : Type} {env : Env σ} {f : TimedWord → Bool} {T : ObsTable σ}

theorem FromTable.ofRegion (h : Inv f T) {i : ℕ} {m : SingleMorphism} (hm : FromTable f T i m) : OfRegion m := by
  obtain ⟨j, p, q, h1, h2, h3, h4, h5, h6, h7, h8, h9⟩ := hm
  have hp := h.preOk (List.mem_of_getElem? h3)
  have hq := h.preOk (List.mem_of_getElem? h4)
  refine ⟨⟨?_, ?_, ?_, ?_, ?_, ?_, ?_, ?_⟩, p, hp.reach, hp.obs, h5⟩
  · rw [h5]; exact hp.queryable.proper
  · rw [h5]; exact hp.reach.nonneg
  · rw [h6]; exact hq.queryable.proper
  · rw [h6]; exact hq.reach.nonneg
  · rw [h6]; exact hq.simple
  · rw [h6]; exact hq.obs
  · rw [h5, h6]; exact h8.inRange
  · obtain ⟨U, _, hU⟩ := h9.reset
    intro w hw
    obtain ⟨w', a, b, _⟩ := hU w hw
    exact ⟨w', a, b⟩

theorem Recognized.from_table {R : RecognizableLanguage} (h : Recognized f T R) {m : SingleMorphism} (hm : m ∈ R.morphisms) :
    ∃ i, FromTable f T i m := by
  obtain ⟨ks, hks, h2⟩ := h.morphisms
  clear h hks
  generalize R.morphisms = l at hm h2
  induction h2 with
  | nil => simp at hm
  | cons h1 _ ih =>
    rcases List.mem_cons.1 hm with rfl | hm
    · exact ⟨_, h1⟩
    · exact ih hm

theorem contains_pre (h : Inv f T) {p : ForwardRegional} (hp : p ∈ T.prefixes) {w : TimedWord} (hw : w.Legal) :
    p.toElementaryLanguage.contains w = true ↔ p.toElementaryLanguage.Mem w :=
  have hq := (h.preOk hp).queryable
  Props.C21_contains_exact _ hq.wf hq.canonical.diagNN w hw.wf

theorem Recognized.inPrefixes_iff {R : RecognizableLanguage} (hR : Recognized f T R) (h : Inv f T) {w : TimedWord}
    (hw : w.Legal) : R.inPrefixes w = true ↔
      ∃ i ∈ T.pIndices, ∃ p, T.prefixes[i]? = some p ∧ p.toElementaryLanguage.Mem w := by
  unfold RecognizableLanguage.inPrefixes
  simp only [List.any_eq_true]
  constructor
  · rintro ⟨e, he, hc⟩
    obtain ⟨i, hi, p, hp, rfl⟩ := (hR.prefixes e).1 he
    exact ⟨i, hi, p, hp, (contains_pre h (List.mem_of_getElem? hp) hw).1 hc⟩
  · rintro ⟨i, hi, p, hp, hm⟩
    exact ⟨_, (hR.prefixes _).2 ⟨i, hi, p, hp, rfl⟩, (contains_pre h (List.mem_of_getElem? hp) hw).2 hm⟩

/-- On words of `P`, the language read off the table is the one of the system. -/
theorem Recognized.isFinal_eq {R : RecognizableLanguage} (hR : Recognized f T R) (he : EnvOk env f) (h : Inv f T)
    {w : TimedWord} (hw : w.Legal) (hin : R.inPrefixes w = true) : R.isFinal w = f w := by
  obtain ⟨i, hi, p, hp, hm⟩ := (hR.inPrefixes_iff h hw).1 hin
  obtain ⟨b, _, hb⟩ := h.isMatch he hp
  rw [Bool.eq_iff_iff]
  unfold RecognizableLanguage.isFinal
  simp only [List.any_eq_true]
  constructor
  · rintro ⟨e, hf, hc⟩
    obtain ⟨j, hj, q, hq, rfl, hall⟩ := (hR.final e).1 hf
    exact hall w ((contains_pre h (List.mem_of_getElem? hq) hw).1 hc)
  · intro hf
    refine ⟨_, (hR.final _).2 ⟨i, hi, p, hp, rfl, fun u hu => ?_⟩, (contains_pre h (List.mem_of_getElem? hp) hw).2 hm⟩
    rw [hb u hu, ← hb w hm, hf]

/-- The region of a legal word as a suffix. -/
theorem fromTimedWord_good {s : TimedWord} (hs : s.Legal) :
    (BackwardRegional.fromTimedWord s).Good ∧ (BackwardRegional.fromTimedWord s).toElementaryLanguage.Mem s := by
  have ho := ForwardRegional.fromTimedWord_of s hs.wf
  have hself : (ForwardRegional.fromTimedWord s).toElementaryLanguage.Mem s := (ho.mem_iff s).2 ⟨rfl, rfl, ho⟩
  refine ⟨⟨ofAccumulated_queryable s hs.wf hs.observable, ?_, .of_isRegion ho.region⟩, hself⟩
  obtain ⟨_, l, _, _, _, h4⟩ := Props.C56_prefixes_chain s hs.wf hs.nonneg
  obtain ⟨R, hR, hb⟩ := h4 (.fromTimedWord s) (by simp)
  obtain ⟨n, v, hRo, _⟩ := hR.of
  intro w hw
  have hw' : (ForwardRegional.fromTimedWord s).toElementaryLanguage.Mem w := hw
  obtain ⟨hn, hof⟩ := hRo.of_beq ho hb
  obtain ⟨a1, a2, a3⟩ := (ho.mem_iff w).1 hw'
  have hsymm := ForwardRegional.beq_symm hRo ho hb
  have : R.Of s.durations.length (accV w.durations) := (a3.of_beq hRo hsymm).2
  refine hR.nonneg w ((hRo.mem_iff w).2 ⟨?_, by omega, by rw [← hn]; exact this⟩)
  rw [a1]
  exact (((ForwardRegional.beq_iff _ _).1 hb).1).symm

theorem PreOk.legal {p : ForwardRegional} (h : PreOk p) {w : TimedWord} (hw : p.toElementaryLanguage.Mem w) : w.Legal := by
  obtain ⟨n, v, ho, _⟩ := h.reach.of
  obtain ⟨a, b, _⟩ := (ho.mem_iff w).1 hw
  refine ⟨?_, ?_, h.reach.nonneg w hw⟩
  · show w.durations.length = w.word.length + 1
    rw [a, b, ho.word]
  · intro x hx; rw [a] at hx; exact h.obs x hx

/-- A word of `P` and a beginning of a word outside of `P`. -/
theorem Recognized.step_suffix {R : RecognizableLanguage} (hR : Recognized f T R) (h : Inv f T) {p' s b s1 : TimedWord} {j : ℕ}
    {q : ForwardRegional} (hj : j ∈ T.pIndices) (hq : T.prefixes[j]? = some q) (hm : q.toElementaryLanguage.Mem p')
    (hp' : p'.Legal) (hs : s.Legal) (hr : CEX.Reduces R (p'.append s) b s1) : ∃ x : TimedWord, x.Legal ∧ s = x.append s1 := by
  obtain ⟨m, hm1, p2, p2', b1, b2, b3, b4, b5⟩ := hr.by_morphism
  obtain ⟨i, j', P, Q, c1, c2, c3, c4, c5, c6, _⟩ := hR.from_table hm1
  rw [c5] at b1
  have hP := h.preOk (List.mem_of_getElem? c3)
  have hleg : p2.Legal := hP.legal b1
  rcases beginnings hp' hs hleg hr.legal.2 b4 with ⟨x, hx, _, e⟩ | ⟨n, t, k1, k2, k3, e⟩
  · exact ⟨x, hx, e⟩
  · obtain ⟨k, hk, q', hq', hmem⟩ := inside_cut h j hj hq hp' hm k1 k2 k3
    rw [← e] at hmem
    have hQ := h.preOk (List.mem_of_getElem? hq')
    obtain ⟨n1, v1, o1, _⟩ := hP.reach.of
    obtain ⟨n2, v2, o2, _⟩ := hQ.reach.of
    obtain ⟨w1, l1, o1'⟩ := (o1.mem_iff _).1 b1
    obtain ⟨w2, l2, o2'⟩ := (o2.mem_iff _).1 hmem
    have hbeq : P.beq q' = true := by
      have : n1 = n2 := by omega
      subst this
      exact o1'.beq o2' (w1.symm.trans w2)
    have := h.closed.distinct i k P q' c3 hq' hbeq
    exact absurd (this ▸ hk) c1

/-- The suffixes that occur are suffixes of the first word. -/
theorem suffix_of_chain {R : RecognizableLanguage} (hR : Recognized f T R) (h : Inv f T) {w s0 : TimedWord} (hw : w.Legal)
    {l : List (TimedWord × TimedWord)} (hc : l.IsChain fun a b => CEX.Reduces R a.1 b.1 b.2) (hl : l.head? = some (w, s0))
    {b s : TimedWord} (hb : (b, s) ∈ l.tail) : ∃ v : TimedWord, v.Legal ∧ w = v.append s := by
  have hin : ∀ {a b s}, CEX.Reduces R a b s → ∃ p' j q, j ∈ T.pIndices ∧ T.prefixes[j]? = some q ∧
      q.toElementaryLanguage.Mem p' ∧ p'.Legal ∧ s.Legal ∧ b = p'.append s := by
    intro a b s hr
    obtain ⟨m, hm1, p2, p2', b1, b2, b3, b4, b5⟩ := hr.by_morphism
    obtain ⟨i, j', P, Q, c1, c2, c3, c4, c5, c6, _⟩ := hR.from_table hm1
    rw [c6] at b2
    exact ⟨p2', j', Q, c2, c4, b2, (h.preOk (List.mem_of_getElem? c4)).legal b2, hr.legal.2, b5⟩
  have key : ∀ (l : List (TimedWord × TimedWord)) (p' s0 : TimedWord) (j : ℕ) (q : ForwardRegional), j ∈ T.pIndices →
      T.prefixes[j]? = some q → q.toElementaryLanguage.Mem p' → p'.Legal → s0.Legal →
      ((p'.append s0, s0) :: l).IsChain (fun a b => CEX.Reduces R a.1 b.1 b.2) →
      ∀ b s, (b, s) ∈ l → ∃ x : TimedWord, x.Legal ∧ s.Legal ∧ s0 = x.append s := by
    intro l
    induction l with
    | nil => intro p' s0 j q _ _ _ _ _ _ b s hb; simp at hb
    | cons y l ih =>
      intro p' s0 j q h1 h2 h3 h4 h5 hc b s hb
      rw [List.isChain_cons_cons] at hc
      obtain ⟨hr, hc⟩ := hc
      obtain ⟨yb, ys⟩ := y
      simp only at hr
      obtain ⟨x, hx, e⟩ := hR.step_suffix h h1 h2 h3 h4 h5 hr
      rcases List.mem_cons.1 hb with e1 | hb'
      · simp only [Prod.mk.injEq] at e1
        obtain ⟨_, rfl⟩ := e1
        exact ⟨x, hx, hr.legal.2, e⟩
      · obtain ⟨p2, j2, q2, a1, a2, a3, a4, a5, rfl⟩ := hin hr
        obtain ⟨x', hx', hs, e'⟩ := ih p2 ys j2 q2 a1 a2 a3 a4 a5 hc b s hb'
        refine ⟨x.append x', append_legal hx hx', hs, ?_⟩
        rw [e, e', TimedWord.append_assoc hx.wf hx'.wf hs.wf]
  cases l with
  | nil => simp at hb
  | cons y l =>
    simp only [List.head?_cons, Option.some.injEq] at hl
    subst hl
    cases l with
    | nil => simp at hb
    | cons y l =>
      rw [List.isChain_cons_cons] at hc
      obtain ⟨hr, hc⟩ := hc
      obtain ⟨yb, ys⟩ := y
      simp only at hr
      obtain ⟨m, hm1, p2, p2', b1, b2, b3, b4, b5⟩ := hr.by_morphism
      obtain ⟨i, j', P, Q, c1, c2, c3, c4, c5, c6, _⟩ := hR.from_table hm1
      rw [c5] at b1
      have hleg := (h.preOk (List.mem_of_getElem? c3)).legal b1
      rw [List.tail_cons] at hb
      rcases List.mem_cons.1 hb with e1 | hb'
      · simp only [Prod.mk.injEq] at e1
        obtain ⟨_, rfl⟩ := e1
        exact ⟨p2, hleg, b4⟩
      · obtain ⟨p3, j2, q2, a1, a2, a3, a4, a5, rfl⟩ := hin hr
        obtain ⟨x', hx', hs, e'⟩ := key l p3 ys j2 q2 a1 a2 a3 a4 a5 hc b s hb'
        refine ⟨p2.append x', append_legal hleg hx', ?_⟩
        rw [b4, e', TimedWord.append_assoc hleg.wf hx'.wf hs.wf]

theorem run_bind_ok {α β : Type} {m : TableM σ α} {T T' : ObsTable σ} {a : α} (h : m.run T = .ok (a, T'))
    (k : α → TableM σ β) : (m >>= k).run T = (k a).run T' := by
  show StateT.bind m k T = _
  unfold StateT.bind
  have h' : m T = .ok (a, T') := h
  rw [h']; rfl

theorem run_bind_error {α β : Type} {m : TableM σ α} {T : ObsTable σ} {e : Fail} (h : m.run T = .error e)
    (k : α → TableM σ β) : (m >>= k).run T = .error e := by
  show StateT.bind m k T = _
  unfold StateT.bind
  have h' : m T = .error e := h
  rw [h']; rfl

/-- `handleCEX` after `toRecognizable`. -/
def afterRecognizing (env : Env σ) (w : TimedWord) (R : RecognizableLanguage) : TableM σ Unit := do
  match ← analyze env R w with
  | some s => addSuffix env (.fromTimedWord s)
  | none =>
    match ForwardRegional.prefixes env.fuel (.fromTimedWord w) with
    | none => throw .fuel
    | some ps =>
      match ← addPrefixes env ps false with
      | none => pure ()
      | some updated => if updated then pure () else throw .abort

theorem handleCEX_ok (he : EnvOk env f) (h : Inv f T) {w : TimedWord} (hw : w.Legal) :
    ∃ R T1, (toRecognizable env).run T = .ok (R, T1) ∧ Inv f T1 ∧ RelStep T T1 ∧ Recognized f T1 R ∧
      match R.contains env.fuel env.fuel w with
      | .error e => (handleCEX env w).run T = .error e
      | .ok b => if b = f w then (handleCEX env w).run T = .error .exception
        else ∃ T', (handleCEX env w).run T = .ok ((), T') ∧ Inv f T' ∧ Separated f w T T' := by
  have hrec := toRecognizable_ok (E := fun _ => False) he h
  obtain ⟨R, T1, hrun, h1, h2, h3, _⟩ : ∃ R T1, (toRecognizable env).run T = .ok (R, T1) ∧ Inv f T1 ∧ RelStep T T1 ∧
      Recognized f T1 R ∧ True := by
    unfold Ok at hrec
    cases hr : toRecognizable env T with
    | error e => rw [hr] at hrec; exact hrec.elim
    | ok p => rw [hr] at hrec; obtain ⟨R, T1⟩ := p; exact ⟨R, T1, hr, hrec.1, hrec.2.1, hrec.2.2.1, trivial⟩
  refine ⟨R, T1, hrun, h1, h2, h3, ?_⟩
  have hreg : ∀ m ∈ R.morphisms, OfRegion m := fun m hm => by
    obtain ⟨i, hi⟩ := h3.from_table hm
    exact hi.ofRegion h1
  have hrunE : (handleCEX env w).run T = (afterRecognizing env w R).run T1 := run_bind_ok hrun _
  rw [hrunE]
  have hcache : CEX.CacheOk f T1.oracle.mem := h1.oracle.mem
  rcases CEX.reductions_ok hreg env.fuel env.fuel (w := w) .empty hw with ⟨e, g1, g2⟩ | ⟨l, x, g1, g2, g3, g4, g5, g6, g7⟩
  · rw [g2]
    have : analyze env R w T1 = .error e := by unfold analyze CEX.analyze; rw [g1]
    exact run_bind_error (m := analyze env R w) (T := T1) this _
  · rw [g2]
    have hfx : R.isFinal x.1 = f x.1 := h3.isFinal_eq he h1 g6 g5
    obtain ⟨q1, q2⟩ := CEX.answer_ok he.answers hcache hw
    have hlast : l.getLastD (w, .empty) = x := by rw [List.getLastD_eq_getLast?, g4]; rfl
    simp only
    by_cases hb : R.isFinal x.1 = f w
    · rw [if_pos hb]
      have : analyze env R w T1 = .error .exception := by
        unfold analyze CEX.analyze; rw [g1]; simp only [hlast, q1, hb, if_true]
      exact run_bind_error (m := analyze env R w) (T := T1) this _
    · rw [if_neg hb]
      have hsuf : T1.sufs = T.sufs := by unfold sufs; obtain ⟨⟨a, b, rfl⟩, _⟩ := h2; rfl
      have hcont : ∀ s : TimedWord, s.Legal → ∀ e ∈ T1.sufs, (e.contains s = true ↔ e.Mem s) := by
        intro s hs e hE
        obtain ⟨t, ht, rfl⟩ := List.mem_map.1 hE
        have hq := (h1.sufs t ht).queryable
        exact Props.C21_contains_exact _ hq.wf hq.canonical.diagNN s hs.wf
      obtain ⟨m', s, a, b, k1, k2, k3, k4, k5, k6⟩ := CEX.search_ok (σ := σ) he.answers (R := R) (suffixes := T1.sufs) (by
          intro a b s hr hall
          obtain ⟨e, hE, hc⟩ : ∃ e ∈ T1.sufs, e.contains s = true := by
            simpa using hall
          obtain ⟨m, hm, p, p', b1, b2, b3, b4, b5⟩ := hr.by_morphism
          obtain ⟨i, j, P, Q, _, _, _, _, _, _, _, _, hM⟩ := h3.from_table hm
          rw [b4, b5]
          exact hM.agree p p' b1 b2 b3 e hE s ((hcont s hr.legal.2 e hE).1 hc))
        l (T1.oracle.mem.answerQuery env.ask w).1 q2 g7 (by
          intro y hy; rw [g3] at hy; simp only [Option.some.injEq] at hy; rw [← hy]; exact hw) (w, .empty) x g3 g4 (by
          simp only; rw [← hfx]; exact fun e => hb e.symm)
      have hA : analyze env R w T1 = .ok (some s, { T1 with oracle := { T1.oracle with mem := m' } }) := by
        unfold analyze CEX.analyze; rw [g1]
        simp only [hlast, q1]
        rw [if_neg (fun e => hb e.symm)]
        have : List.map (fun x => x.toElementaryLanguage) T1.suffixes = T1.sufs := rfl
        rw [this, k1]
      have h1' : Inv f ({ T1 with oracle := { T1.oracle with mem := m' } } : ObsTable σ) :=
        ⟨⟨h1.alpha, h1.suf0, h1.sufs, ⟨k2, h1.oracle.cache⟩, h1.rel, h1.dist⟩, ⟨h1.closed.region, h1.closed.root, h1.closed.inside,
          h1.closed.distinct, h1.closed.time, h1.closed.action, h1.closed.parent, h1.closed.only⟩, ⟨h1.rows.len, h1.rows.len', h1.rows.ok⟩⟩
      obtain ⟨hg, hmem⟩ := fromTimedWord_good k3.legal.2
      have hadd := addSuffix_ok (E := fun _ => False) he h1' hg
      obtain ⟨T', hrun', hM⟩ : ∃ T', addSuffix env (.fromTimedWord s) ({ T1 with oracle := { T1.oracle with mem := m' } } : ObsTable σ) =
          .ok ((), T') ∧ MoreS f ({ T1 with oracle := { T1.oracle with mem := m' } } : ObsTable σ) T' (.fromTimedWord s) := by
        unfold Ok at hadd
        cases hr : addSuffix env (.fromTimedWord s) ({ T1 with oracle := { T1.oracle with mem := m' } } : ObsTable σ) with
        | error e => rw [hr] at hadd; exact hadd.elim
        | ok p => rw [hr] at hadd; obtain ⟨_, T'⟩ := p; exact ⟨T', rfl, hadd⟩
      refine ⟨T', ?_, hM.inv, ?_⟩
      · exact (run_bind_ok (m := analyze env R w) (T := T1) hA _).trans hrun'
      · have e1 := h2.prefixes
        have e2 := h2.pIndices
        have e3 : T1.suffixes = T.suffixes := by obtain ⟨⟨a, b, rfl⟩, _⟩ := h2; rfl
        have g := hM.grew
        refine ⟨⟨?_, ?_, ?_, ?_, ?_, ?_⟩, ?_, s, k3.legal.2, suffix_of_chain h3 h1 hw g7 g3 k6, ?_, ?_, ?_⟩
        · have := g.prefixes; rwa [show ({ T1 with oracle := { T1.oracle with mem := m' } } : ObsTable σ).prefixes = T.prefixes from e1] at this
        · have := g.suffixes; rwa [show ({ T1 with oracle := { T1.oracle with mem := m' } } : ObsTable σ).suffixes = T.suffixes from e3] at this
        · rw [g.alphabet]; exact h2.alphabet
        · intro i hi; exact g.inside i (by show i ∈ T1.pIndices; rw [e2]; exact hi)
        · intro i hi
          rw [g.time i (by show i ∈ T1.pIndices; rw [e2]; exact hi)]
          show T1.continuousSuccessors i = _
          rw [h2.cont]
        · intro i hi a ha
          rw [g.action i (by show i ∈ T1.pIndices; rw [e2]; exact hi) a (by show a ∈ T1.alphabet; rw [h2.alphabet]; exact ha)]
          show T1.discreteSuccessors i a = _
          rw [h2.disc]
        · exact ⟨hM.same.1.trans e1, hM.same.2.trans e2⟩
        · rw [hM.suffixes]
          show T1.suffixes ++ _ = _
          rw [e3]
        · intro t ht hmem'
          rw [← hsuf] at ht
          have := (hcont s k3.legal.2 t ht).2 hmem'
          rw [List.all_eq_true] at k5
          have := k5 t ht
          simp_all
        · obtain ⟨m, hm, p, p', b1, b2, b3, b4, b5⟩ := k3.by_morphism
          obtain ⟨i, j, P, Q, c1, c2, c3, c4, c5, c6, c7, c8, c9⟩ := h3.from_table hm
          rw [e2] at c1 c2
          rw [e1] at c3 c4
          rw [hsuf, c5, c6] at c9
          rw [c5] at b1
          rw [c6] at b2
          exact ⟨i, j, P, Q, m.rel, c1, c2, c3, c4, c8.inRange, c9, p, p', b1, b2, b3, by rw [← b4, ← b5]; exact k4⟩

end ObsTable
end LearnTA

namespace LearnTA
open TimedCondition Zone RecognizableLanguage

theorem ForwardRegional.prefixes_mono {f f' : ℕ} : ∀ {L : ForwardRegional} {ps : List ForwardRegional},
    L.prefixes f = some ps → f ≤ f' → L.prefixes f' = some ps := by
  induction f generalizing f' with
  | zero => intro L ps h; simp [ForwardRegional.prefixes] at h
  | succ f ih =>
    intro L ps h hle
    obtain ⟨f', rfl⟩ : ∃ k, f' = k + 1 := ⟨f' - 1, by omega⟩
    simp only [ForwardRegional.prefixes] at h ⊢
    cases hI : L.immediatePrefix with
    | none => rw [hI] at h; exact h
    | some P =>
      rw [hI] at h
      simp only [Option.map_eq_some_iff] at h ⊢
      obtain ⟨a, h1, h2⟩ := h
      exact ⟨a, ih h1 (by omega), h2⟩

namespace ObsTable
variable {σ : Type} {env : Env σ} {f : TimedWord → Bool} {T : ObsTable σ}

/-- The region is in the table. -/
def Listed (T : ObsTable σ) (i : ℕ) (P : ForwardRegional) : Prop := ∃ p, T.prefixes[i]? = some p ∧ p.beq P = true

theorem Listed.step (h : Inv f T) {i : ℕ} (hi : i ∈ T.pIndices) {A B : ForwardRegional} (hA : T.Listed i A)
    {n m : ℕ} {v v' : Valuation} (hAo : A.Of n v) (hBo : B.Of m v') (hs : A.Step B) (hB : ∀ a ∈ B.word, a ∈ T.alphabet) :
    ∃ j, T.Listed j B := by
  obtain ⟨p, hp, hb⟩ := hA
  obtain ⟨k, u, hpo, _⟩ := (h.preOk (List.mem_of_getElem? hp)).reach.of
  have hpo' : p.Of n v := (hAo.of_beq hpo (ForwardRegional.beq_symm hpo hAo hb)).2
  have hword := ((ForwardRegional.beq_iff _ _).1 hb).1
  rcases hs with rfl | ⟨a, ha⟩
  · obtain ⟨j, _, hj⟩ := h.closed.time i hi p hp
    exact ⟨j, _, hj, ForwardRegional.beq_successor hpo' hb⟩
  · have hw2 : A.word ++ [a] = B.word := ((ForwardRegional.beq_iff _ _).1 ha).1
    obtain ⟨j, _, hj⟩ := h.closed.action i hi p hp a (hB a (by rw [← hw2]; simp))
    refine ⟨j, _, hj, ?_⟩
    have e1 := hAo.successorAction a
    have e2 := (e1.of_beq hBo ha).2
    exact (hpo'.successorAction a).beq e2 (by show p.word ++ [a] = B.word; rw [hword, hw2])

/-- Either all elements of a chain from the root are in `P`, or one is in the table outside of `P`. -/
theorem chain_listed (h : Inv f T) (l : List ForwardRegional) (hc : l.IsChain ForwardRegional.Step)
    (hof : ∀ P ∈ l, ∃ n v, P.Of n v) (hα : ∀ P ∈ l, ∀ a ∈ P.word, a ∈ T.alphabet)
    (hhead : ∀ A, l.head? = some A → ∃ i, T.Listed i A) :
    (∃ P ∈ l, ∃ i, i ∉ T.pIndices ∧ T.Listed i P) ∨ ∀ P ∈ l, ∃ i ∈ T.pIndices, T.Listed i P := by
  induction l with
  | nil => exact Or.inr (by simp)
  | cons A l ih =>
    obtain ⟨i, hi⟩ := hhead A rfl
    by_cases hP : i ∈ T.pIndices
    · rw [List.isChain_cons] at hc
      rcases ih hc.2 (fun P hP => hof P (by simp [hP])) (fun P hP => hα P (by simp [hP])) (by
        intro B hB
        have hBm : B ∈ l := List.mem_of_mem_head? hB
        obtain ⟨n, v, hA⟩ := hof A (by simp)
        obtain ⟨m, v', hBo⟩ := hof B (by simp [hBm])
        exact hi.step h hP hA hBo (hc.1 B hB) (hα B (by simp [hBm]))) with ⟨P, h1, h2⟩ | hall
      · exact Or.inl ⟨P, by simp [h1], h2⟩
      · refine Or.inr fun P hPm => ?_
        rcases List.mem_cons.1 hPm with rfl | hPm
        · exact ⟨i, hP, hi⟩
        · exact hall P hPm
    · exact Or.inl ⟨A, by simp, i, hP, hi⟩

/-- The chain of the prefixes of a word, with any bound on the iterations that suffices. -/
theorem prefixes_chain {w : TimedWord} (hw : w.Legal) {fuel : ℕ} {ps : List ForwardRegional}
    (h : ForwardRegional.prefixes fuel (.fromTimedWord w) = some ps) :
    ps.getLast? = some (.fromTimedWord w) ∧ ps.IsChain ForwardRegional.Step ∧
      ∃ I, ps.head? = some I ∧ ForwardRegional.init.beq I = true := by
  obtain ⟨N, l, h1, h2, h3, _⟩ := Props.C56_prefixes_chain w hw.wf hw.nonneg
  have e := h1 (max fuel (N + 1)) (by omega)
  rw [ForwardRegional.prefixes_mono h (by omega)] at e
  simp only [Option.some.injEq] at e
  subst e
  exact ⟨by simp, h3, h2⟩

/-- A word over the alphabet that is not in `P` has a beginning in the table outside of `P`. -/
theorem boundary (h : Inv f T) {R : RecognizableLanguage} (hR : Recognized f T R) {w : TimedWord} (hw : w.Legal)
    (hα : ∀ a ∈ w.word, a ∈ T.alphabet) (hout : R.inPrefixes w = false) {fuel : ℕ} {ps : List ForwardRegional}
    (hps : ForwardRegional.prefixes fuel (.fromTimedWord w) = some ps) :
    ∃ P ∈ ps, ∃ i, i ∉ T.pIndices ∧ T.Listed i P := by
  obtain ⟨h1, h2, I, h3, h4⟩ := prefixes_chain hw hps
  have hsp := prefixes_spec hw hps
  rcases chain_listed h ps h2 (fun P hP => by obtain ⟨m, s, _, _, _, a, _⟩ := hsp P hP; exact ⟨_, _, a⟩)
    (fun P hP a ha => by
      obtain ⟨m, s, _, _, _, _, b⟩ := hsp P hP
      rw [b] at ha; exact hα a (List.mem_of_mem_take ha))
    (fun A hA => ⟨0, .init, h.closed.root.1, by rw [h3] at hA; simp only [Option.some.injEq] at hA; rw [← hA]; exact h4⟩)
    with hl | hall
  · exact hl
  · obtain ⟨i, hi, p, hp, hb⟩ := hall (.fromTimedWord w) (List.mem_of_getLast? h1)
    have ho := ForwardRegional.fromTimedWord_of w hw.wf
    obtain ⟨k, u, hpo, _⟩ := (h.preOk (List.mem_of_getElem? hp)).reach.of
    have hpo' := ho.of_beq hpo (ForwardRegional.beq_symm hpo ho hb)
    have hm : p.toElementaryLanguage.Mem w := by
      refine (hpo.mem_iff w).2 ⟨(((ForwardRegional.beq_iff _ _).1 hb).1).symm, hpo'.1.symm, ?_⟩
      rw [hpo'.1]; exact hpo'.2
    have := (hR.inPrefixes_iff h hw).2 ⟨i, hi, p, hp, hm⟩
    rw [this] at hout; simp at hout

/-- If there is a morphism for every prefix outside of `P`, every word over the alphabet can be split. -/
theorem split_exists (h : Inv f T) {R : RecognizableLanguage} (hR : Recognized f T R)
    (hcov : ∀ i < T.prefixes.length, i ∉ T.pIndices → ∃ m ∈ R.morphisms, FromTable f T i m) {w : TimedWord} (hw : w.Legal)
    (hα : ∀ a ∈ w.word, a ∈ T.alphabet) (hout : R.inPrefixes w = false) (fuel : ℕ) :
    R.split fuel w = .error .fuel ∨ ∃ t, R.split fuel w = .ok (some t) := by
  unfold RecognizableLanguage.split
  cases hps : ForwardRegional.prefixes fuel (.fromTimedWord w) with
  | none => exact Or.inl rfl
  | some ps =>
    right
    obtain ⟨P, hP, i, hi, p, hp, hb⟩ := boundary h hR hw hα hout hps
    obtain ⟨m, hm, j, p', q, _, _, h3, _, h5, _⟩ := hcov i (List.getElem?_eq_some_iff.1 hp).1 hi
    rw [hp] at h3
    simp only [Option.some.injEq] at h3
    subst h3
    have hdom : m.isDomain P.toElementaryLanguage = true := by
      unfold SingleMorphism.isDomain ElementaryLanguage.beq
      rw [h5]
      unfold ForwardRegional.beq at hb
      simp only [Bool.and_eq_true] at hb ⊢
      exact hb.1
    simp only
    cases hf : R.morphisms.find? fun m => ps.any fun p => m.isDomain p.toElementaryLanguage with
    | none =>
      rw [List.find?_eq_none] at hf
      exact absurd (List.any_eq_true.2 ⟨P, hP, hdom⟩) (hf m hm)
    | some m' =>
      simp only
      split
      · exact ⟨_, rfl⟩
      · exact ⟨_, rfl⟩

theorem append_word {u v : TimedWord} : (u.append v).word = u.word ++ v.word := rfl

/-- … and the language read off the table answers for it, unless the iterations do not suffice. -/
theorem contains_total (h : Inv f T) {R : RecognizableLanguage} (hR : Recognized f T R)
    (hcov : ∀ i < T.prefixes.length, i ∉ T.pIndices → ∃ m ∈ R.morphisms, FromTable f T i m) (fuel n : ℕ) :
    ∀ {w : TimedWord}, w.Legal → (∀ a ∈ w.word, a ∈ T.alphabet) →
      R.contains fuel n w = .error .fuel ∨ ∃ b, R.contains fuel n w = .ok b := by
  have hreg : ∀ m ∈ R.morphisms, OfRegion m := fun m hm => by
    obtain ⟨i, hi⟩ := hR.from_table hm
    exact hi.ofRegion h
  induction n with
  | zero => intro w _ _; exact Or.inl rfl
  | succ n ih =>
    intro w hw hα
    unfold RecognizableLanguage.contains
    by_cases hin : R.inPrefixes w = true
    · rw [if_pos hin]; exact Or.inr ⟨_, rfl⟩
    · rw [if_neg hin]
      unfold RecognizableLanguage.maps
      rw [if_neg hin]
      rcases split_exists h hR hcov hw hα (by simpa using hin) fuel with hs | ⟨t, hs⟩
      · rw [hs]; exact Or.inl rfl
      · have hso := split_ok hreg hw hs
        obtain ⟨w', h1, h2, p, p', g1, g2, g3, g4, g5⟩ := CEX.apply_ok hreg hw hso
        rw [hs]
        simp only [h1]
        refine ih h2 fun a ha => ?_
        rw [g5, append_word] at ha
        rcases List.mem_append.1 ha with ha | ha
        · obtain ⟨k, j, _, q, _, _, _, c4, _, c6, _⟩ := hR.from_table hso.morphism
          rw [g2.1, c6] at ha
          exact (h.closed.region q (List.mem_of_getElem? c4)).2 a ha
        · exact hα a (by rw [g4, append_word]; simp [ha])

end ObsTable
end LearnTA
