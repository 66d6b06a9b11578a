import Verif.Lemmas.HypEdges
import Verif.Lemmas.MergeTrans

/-!
# The transitions of a hypothesis beyond `P`
-/

namespace LearnTA
namespace ObsTable
open ForwardRegional Guard

variable {σ : Type} {f : TimedWord → Bool} {T : ObsTable σ}

/-- The regions of a chain as a line. -/
structure ChainLine (T : ObsTable σ) (l : List ℕ) (n K : ℕ) (κ : ℕ → ℕ → ℤ) (L : ForwardRegional) (v : Valuation) (D : ℕ → ℚ) :
    Prop where
  reach : L.Reach
  pos : 0 < n
  size : n = L.word.length + 1
  length : l.length = K + 1
  last : 0 < K
  delays : L.Delays n v D
  kappa : κ = posOf v D
  line : Line n K κ
  get : ∀ m x, l[m]? = some x → T.prefixes[x]? = some (L.chain m) ∧ (L.chain m).cond.size = n ∧ (L.chain m).Reach
  inside : ∀ m x, l[m]? = some x → (x ∈ T.pIndices ↔ m < K)
  seg : ∀ m < K, IsSeg n K κ m m (L.chain m).cond.toGuard
  segLast : IsSeg n K κ K K (L.chain K).cond.removeUpperBound.toGuard

theorem chain_reach {L : ForwardRegional} (h : L.Reach) (m : ℕ) : (L.chain m).Reach := by
  induction m with
  | zero => exact h
  | succ m ih => exact ForwardRegional.Reach.time ih

theorem Chain.line (hI : Inv f T) {h : ℕ} {l : List ℕ} (hc : Chain T h l) (hh : h ∈ T.pIndices) :
    ∃ n K κ L v D, ChainLine T l n K κ L v D := by
  obtain ⟨L, hL, hr⟩ := hI.pget hh
  obtain ⟨v, hv⟩ := hr.canonical.nonempty
  have hof := hr.of_zone.2 hv
  have hnn : ∀ x < L.word.length + 1, 0 ≤ v x := by
    intro x hx
    exact hr.nonneg_zone hv x (by rw [hr.csize]; exact hx)
  obtain ⟨D, hD⟩ := hof.delays
  have hlen : 2 ≤ l.length := by
    cases hc with
    | last h' => exact absurd hh h'
    | next _ _ h' => obtain ⟨l', rfl⟩ := h'.cons; simp
  have hnn' : ∀ m, ∀ x < L.word.length + 1, 0 ≤ after v (D m) x := by
    intro m x hx
    have : 0 ≤ D m := by
      induction m with
      | zero => rw [hD.zero]
      | succ m ih => exact ih.trans (hD.lt m).le
    unfold after
    have := hnn x hx
    linarith
  refine ⟨L.word.length + 1, l.length - 1, posOf v D, L, v, D, hr, by omega, rfl, by omega, by omega, hD, rfl, hD.line hnn _, ?_, ?_, ?_, ?_⟩
  · intro m x hx
    have hm := chain_reach hr m
    refine ⟨hc.region hI hL m x hx, ?_, hm⟩
    rw [hm.csize, chain_word]
  · intro m x hx
    have hlt := (List.getElem?_eq_some_iff.1 hx).1
    rcases hc.get hx with ⟨h1, y, _, hy⟩ | ⟨h1, h2⟩
    · have := (List.getElem?_eq_some_iff.1 hy).1
      exact ⟨fun _ => by omega, fun _ => h1⟩
    · exact ⟨fun h' => absurd h' h1, fun h' => by omega⟩
  · intro m hm
    unfold IsSeg endOf
    rw [if_neg (by omega)]
    exact ((hD.of m).isBox (hnn' m)).1
  · unfold IsSeg endOf
    rw [if_pos rfl]
    exact ((hD.of _).isBox (hnn' _)).2

/-- Only the guard of a region is weaker than it. -/
theorem ChainLine.weaker {l : List ℕ} {n K : ℕ} {κ : ℕ → ℕ → ℤ} {L : ForwardRegional} {v : Valuation} {D : ℕ → ℚ}
    (h : ChainLine T l n K κ L v D) {m m' : ℕ} (hm : m < K) (hm' : m' < K)
    (hw : Guard.isWeaker (L.chain m').cond.toGuard (L.chain m).cond.toGuard = true) : m' = m := by
  have hr := chain_reach h.reach m
  obtain ⟨u, hu⟩ := hr.canonical.nonempty
  have hsz : (L.chain m).cond.size = n := by rw [hr.csize, chain_word, ← h.size]
  have hnn : ∀ x < n, 0 ≤ u x := fun x hx => hr.nonneg_zone hu x (by rw [hsz]; exact hx)
  have hof := hr.of_zone.2 hu
  rw [chain_word, ← h.size] at hof
  have hat : At n K κ m u := by
    have := h.delays.at (K := K) (m := m) (u := u) (t := 0) (t' := 0) (le_refl _) (by rw [after_zero]; exact hof) (fun _ => rfl) hm.le
    rw [after_zero, ← h.kappa] at this
    exact this
  have h1 := ((h.seg m hm).at h.line (le_refl _) hm.le hm.le hnn hat).2 ⟨le_refl _, le_refl _⟩
  have h2 := Guard.isWeaker_sound hw u h1
  have h3 := ((h.seg m' hm').at h.line (le_refl _) hm'.le hm.le hnn hat).1 h2
  omega

/-- A transition of the state of `i`. -/
def AnyEdge (f : TimedWord → Bool) (T : ObsTable σ) (toState : ℕ → Option ℕ) (a : Action) (i : ℕ) (t : Trans) : Prop :=
  (i ∈ T.pIndices ∧ Edge f T toState a i t) ∨ (i ∉ T.pIndices ∧ EdgeX f T toState a i t)

/-- What holds when the pairs in `done` are treated; `B0` are the states found by the exploration. -/
structure OInv (f : TimedWord → Bool) (T : ObsTable σ) (B0 B1 : Build) (done : ℕ → Action → Prop) (s : Build × Pending) : Prop where
  pending : s.2 = []
  states : s.1.states = B0.states
  isMatch : ∀ q, (s.1.loc q).isMatch = (B0.loc q).isMatch
  toState : s.1.toState = B1.toState
  lists : ∀ q a, a ∈ T.alphabet → Indexed (AnyEdge f T B0.toState a)
    (fun i => i ∈ B0.toIndices q ∧ (i ∈ T.pIndices ∨ done i a)) ((s.1.loc q).next a)
  empty : ∀ q a, a ∉ T.alphabet → (s.1.loc q).next a = []

theorem OInv.congr {B0 B1 : Build} {done done' : ℕ → Action → Prop} {s : Build × Pending} (h : OInv f T B0 B1 done s)
    (hd : ∀ i a, a ∈ T.alphabet → (done' i a ↔ done i a)) : OInv f T B0 B1 done' s where
  pending := h.pending
  states := h.states
  isMatch := h.isMatch
  toState := h.toState
  lists q a ha := (h.lists q a ha).mono (fun _ _ _ h => h) fun i => by rw [hd i a ha]
  empty := h.empty

theorem EInv.start (hI : Inv f T) {H : List ℕ} {B0 : Build} {bd done : List (ℕ × Action)} (hx : Explored T H B0 bd)
    (hd : ∀ b, b ∈ done ↔ b ∈ bd) {s : Build × Pending} (h : EInv f T B0 done s) :
    OInv f T B0 s.1 (fun _ _ => False) s where
  pending := h.pending
  states := h.states
  isMatch := h.isMatch
  toState := rfl
  lists q a ha := by
    have key : ∀ i, i ∈ T.pIndices ↔ (Inside T a i ∨ (i, a) ∈ done) := by
      intro i
      rw [hd, hx.bd]
      constructor
      · intro hi
        obtain ⟨p, hp, _⟩ := hI.pget hi
        obtain ⟨d, hd, _⟩ := hI.closed.action i hi p hp a ha
        by_cases hdP : d ∈ T.pIndices
        · exact Or.inl ⟨d, hdP, hd⟩
        · exact Or.inr ⟨hi, ha, d, hd, hdP⟩
      · rintro (⟨d, _, e⟩ | h')
        · by_contra hP
          rw [(hI.closed.only i hP).2 a] at e
          cases e
        · exact h'.1
    refine (h.lists q a ha).mono (fun i t hi ht => Or.inl ⟨?_, ht⟩) fun i => ?_
    · exact (key i).2 hi.2
    · rw [← key i, or_false]
  empty := h.empty

theorem mem_asMap {l : Resets} {y : ℕ × Upd} (h : y ∈ Resets.asMap l) : y ∈ l := by
  have : ∀ (l m : Resets) y, y ∈ l.foldl Resets.mapInsert m → y ∈ m ∨ y ∈ l := by
    intro l
    induction l with
    | nil => intro m y h; exact Or.inl h
    | cons p l ih =>
      intro m y h
      rw [List.foldl_cons] at h
      rcases ih _ y h with h | h
      · unfold Resets.mapInsert at h
        split at h
        · obtain ⟨z, hz, e⟩ := List.mem_map.1 h
          split at e
          · subst e; simp
          · subst e; exact Or.inl hz
        · rcases List.mem_append.1 h with h | h
          · exact Or.inl h
          · simp at h; subst h; simp
      · exact Or.inr (by simp [h])
  rcases this l [] y h with h | h
  · simp at h
  · exact h

/-- The composition with constants for all clocks that are read. -/
theorem composition_consts {U : Resets} (hU : U.Legal) {n : ℕ} (hr : ∀ y ∈ U, ∀ x, y.2 = .clock x → x < n) {vals : List ℚ}
    (hl : vals.length = n) (hv : ∀ x ∈ vals, 0 ≤ x) :
    (Resets.composition U (vals.zipIdx.map fun v => (v.2, .const v.1))).Legal ∧
    (∀ y ∈ Resets.composition U (vals.zipIdx.map fun v => (v.2, .const v.1)), ∃ k, y.2 = .const k) ∧
    ∀ v, (Resets.composition U (vals.zipIdx.map fun v => (v.2, .const v.1))).apply v =
      U.apply (Resets.apply (vals.zipIdx.map fun v => (v.2, .const v.1)) v) := by
  set C : Resets := vals.zipIdx.map fun v => (v.2, .const v.1) with hC
  have hCk : C.map Prod.fst = List.range n := by
    rw [hC, List.map_map]
    show vals.zipIdx.map Prod.snd = _
    rw [List.zipIdx_map_snd, hl, List.range_eq_range']
  have hCm : ∀ y ∈ C, ∃ k, 0 ≤ k ∧ y.2 = .const k := by
    intro y hy
    obtain ⟨z, hz, rfl⟩ := List.mem_map.1 hy
    exact ⟨z.1, hv _ (by have := List.mem_map_of_mem (f := Prod.fst) hz; rwa [List.zipIdx_map_fst] at this), rfl⟩
  have hupd : ∀ x < n, ∃ k, 0 ≤ k ∧ Resets.upd C x = some (.const k) := by
    intro x hx
    have hm : x ∈ C.map Prod.fst := by rw [hCk]; simpa using hx
    obtain ⟨y, hy, e⟩ := List.mem_map.1 hm
    obtain ⟨k, hk, e'⟩ := hCm y hy
    refine ⟨k, hk, ?_⟩
    rw [← e, Resets.upd_of_mem (by rw [hCk]; exact List.nodup_range) hy, e']
  have key : ∀ y ∈ Resets.composition U C, ∃ k, 0 ≤ k ∧ y.2 = .const k := by
    intro y hy
    rw [Resets.composition_eq] at hy
    rcases List.mem_append.1 hy with hy | hy
    · obtain ⟨z, hz, rfl⟩ := List.mem_map.1 hy
      have hz := mem_asMap hz
      obtain ⟨zx, zu⟩ := z
      cases zu with
      | const k => exact ⟨k, hU.nonneg _ hz k rfl, rfl⟩
      | clock x =>
        obtain ⟨k, hk, e⟩ := hupd x (hr _ hz x rfl)
        refine ⟨k, hk, ?_⟩
        show Resets.compose C (.clock x) = _
        unfold Resets.compose
        dsimp only
        rw [e]
        rfl
    · exact hCm y (mem_asMap (List.mem_of_mem_filter hy))
  refine ⟨⟨Resets.keys_composition _ _, fun y hy k e => ?_⟩, fun y hy => ?_, fun v => Resets.composition_apply _ _ v⟩
  · obtain ⟨k', hk', e'⟩ := key y hy
    rw [e] at e'
    cases e'
    exact hk'
  · obtain ⟨k', _, e'⟩ := key y hy
    exact ⟨k', e'⟩

theorem consts_apply {n : ℕ} {vals : List ℚ} (hl : vals.length = n) (v : Valuation) :
    ∀ x < n, Resets.apply (vals.zipIdx.map fun v => (v.2, .const v.1)) v x = vals.getD x 0 := by
  intro x hx
  rw [Resets.apply_eq]
  have hm : (x, Upd.const (vals.getD x 0)) ∈ (vals.zipIdx.map fun v => (v.2, Upd.const v.1)) := by
    refine List.mem_map.2 ⟨(vals.getD x 0, x), ?_, rfl⟩
    rw [List.mem_zipIdx_iff_getElem?]
    rw [List.getD_eq_getElem?_getD, List.getElem?_eq_getElem (by omega)]
    rfl
  have hnd : ((vals.zipIdx.map fun v => (v.2, Upd.const v.1)).map Prod.fst).Nodup := by
    rw [List.map_map]
    show (vals.zipIdx.map Prod.snd).Nodup
    rw [List.zipIdx_map_snd]
    exact List.nodup_range'
  rw [Resets.upd_of_mem hnd hm]
  rfl

theorem renamingOf_consts {U : Resets} (h : ∀ y ∈ U, ∃ k, y.2 = Upd.const k) : renamingOf U = [] := by
  unfold renamingOf
  rw [List.filterMap_eq_nil_iff]
  intro y hy
  obtain ⟨k, e⟩ := h y hy
  rw [e]

theorem hasImprecise_nil (c : TimedCondition) : RenamingRelation.hasImpreciseClocks [] c = false := rfl

theorem push_nil (pending : Pending) (q : ℕ) (p : ForwardRegional) : pushImprecise pending q [] p = pending := by
  unfold pushImprecise
  rw [hasImprecise_nil]
  simp

theorem selfLoopStep_ok {env : Env σ} (he : EnvOk env f) (hI : Inv f T) (hcov : ∀ i < T.prefixes.length, Covered f T i)
    {H : List ℕ} {B0 B1 : Build} {bd : List (ℕ × Action)} (hx : Explored T H B0 bd) {done : ℕ → Action → Prop}
    {s : Build × Pending} (h : OInv f T B0 B1 done s) {q p c : ℕ} {a : Action} (ha : a ∈ T.alphabet) (hp : p ∈ T.pIndices)
    (hpc : T.continuousSuccessors p = some c) (hcP : c ∉ T.pIndices) (hpq : p ∈ B0.toIndices q) (hcq : c ∈ B0.toIndices q)
    (hn : ¬ done c a) (honly : ∀ i b, done i b → i ∉ T.pIndices)
    {pp pc : ForwardRegional} (hpp : T.prefixes[p]? = some pp) (hcc : T.prefixes[c]? = some pc) {vals : List ℚ}
    (hl : vals.length = pp.cond.size) (hv : pp.cond.zone.Mem (fun k => vals.getD k 0)) :
    ∃ s', selfLoopStep env T q p pp.cond pc.cond (vals.zipIdx.map fun v => (v.2, .const v.1)) s a = .ok s' ∧
      OInv f T B0 B1 (fun i b => done i b ∨ (i = c ∧ b = a)) s' := by
  have hr := hI.reach hpp
  -- the state
  have hqH := hx.b.lt hpq
  have eH := List.getElem?_eq_getElem hqH
  have hch := hx.b.chain q _ eH
  obtain ⟨n, K, κ, L, v0, D, hline⟩ := hch.line hI (hx.b.head _ (List.getElem_mem hqH)).2
  obtain ⟨mp, hmp⟩ := List.getElem?_of_mem hpq
  have hmpK := (hline.inside mp p hmp).1 hp
  have epp : pp = L.chain mp := by
    have := (hline.get mp p hmp).1
    rw [hpp] at this
    simpa using this
  -- the last one of the chain is `c`
  have hlastc : ∀ i ∈ B0.toIndices q, i ∉ T.pIndices → i = c := by
    intro i hi hiP
    obtain ⟨m, hm⟩ := List.getElem?_of_mem hi
    obtain ⟨m', hm'⟩ := List.getElem?_of_mem hcq
    have h1 := (hline.inside m i hm)
    have h2 := (hline.inside m' c hm')
    have h3 := (List.getElem?_eq_some_iff.1 hm).1
    have h4 := (List.getElem?_eq_some_iff.1 hm').1
    have h5 := hline.length
    have : m = m' := by
      have : ¬ m < K := fun h' => hiP (h1.2 h')
      have : ¬ m' < K := fun h' => hcP (h2.2 h')
      omega
    subst this
    rw [hm] at hm'
    simpa using hm'
  have hlist := h.lists q a ha
  have hS : ∀ i, (i ∈ B0.toIndices q ∧ (i ∈ T.pIndices ∨ done i a)) → i ∈ B0.toIndices q ∧ i ∈ T.pIndices := by
    rintro i ⟨h1, h2 | h2⟩
    · exact ⟨h1, h2⟩
    · exact absurd (hlastc i h1 (honly i a h2) ▸ h2) hn
  -- the transition that is found
  obtain ⟨t, hfind, htw, hte⟩ : ∃ t, ((s.1.loc q).next a).find? (fun t => Guard.isWeaker t.guard pp.cond.toGuard) = some t ∧
      True ∧ Edge f T B0.toState a p t := by
    cases hfd : ((s.1.loc q).next a).find? (fun t => Guard.isWeaker t.guard pp.cond.toGuard) with
    | none =>
      exfalso
      obtain ⟨t, ht, h1 | h1⟩ := hlist.exists_left (i := p) ⟨hpq, Or.inl hp⟩
      · obtain ⟨_, _, p', _, _, e1, _, _, _, e2, _⟩ := h1
        rw [hpp] at e1
        cases e1
        have := List.find?_eq_none.1 hfd t ht
        rw [e2, Guard.isWeaker_refl] at this
        exact this rfl
      · exact absurd hp h1.1
    | some t =>
      refine ⟨t, rfl, trivial, ?_⟩
      have hw := List.find?_some hfd
      obtain ⟨i, hi, h1 | h1⟩ := hlist.exists_right (List.mem_of_find?_eq_some hfd)
      · have h1' := h1.2
        obtain ⟨m, hm⟩ := List.getElem?_of_mem hi.1
        have hmK := (hline.inside m i hm).1 h1.1
        obtain ⟨_, p', _, _, e1, _, _, _, e2, _⟩ := h1'
        have := (hline.get m i hm).1
        rw [e1] at this
        simp only [Option.some.injEq] at this
        rw [e2, this, epp] at hw
        have := hline.weaker hmpK hmK hw
        subst this
        rw [hm] at hmp
        simp only [Option.some.injEq] at hmp
        subst hmp
        exact h1.2
      · exact absurd (hS i hi).2 h1.1
  obtain ⟨hleg, p', j, qq, e1, hj, hqq, htgt, hg, hclk, hjump⟩ := hte
  rw [hpp] at e1
  simp only [Option.some.injEq] at e1
  subst e1
  have hvn : ∀ x ∈ vals, 0 ≤ x := by
    intro x hx
    obtain ⟨k, hk⟩ := List.getElem?_of_mem hx
    have hk' := (List.getElem?_eq_some_iff.1 hk).1
    have := hr.nonneg_zone hv k (by omega)
    rw [List.getD_eq_getElem?_getD, hk] at this
    exact this
  obtain ⟨c1, c2, c3⟩ := composition_consts hleg hclk hl hvn
  -- the successor
  obtain ⟨d, hd, hd2⟩ := hI.closed.action p hp _ hpp a ha
  refine ⟨(s.1.addTrans q a [⟨t.target, Resets.composition t.resets (vals.zipIdx.map fun v => (v.2, .const v.1)),
    pc.cond.removeUpperBound.toGuard⟩], s.2), ?_, ?_⟩
  · unfold selfLoopStep
    rw [hfind]
    simp only [ObsTable.need, bind, Except.bind, pure, Except.pure]
    rw [renamingOf_consts c2, hd]
    dsimp only
    simp only [push_nil]
    by_cases hdP : d ∈ T.pIndices
    · rw [if_pos (inP_iff.2 hdP), hd2]
    · rw [if_neg (by rw [inP_iff]; exact hdP)]
      obtain ⟨k, r, _, q', k1, _, _, _, k2, _⟩ := find_target he hI hdP (hcov d (hI.disc_lt hp ha hd).2)
      rw [k1]
      dsimp only
      rw [k2]
  · refine ⟨h.pending, h.states, ?_, h.toState, ?_, ?_⟩
    · intro q'
      rw [addTrans_isMatch]
      exact h.isMatch q'
    · intro q' b hb
      rw [addTrans_loc]
      split
      · rename_i e
        obtain ⟨rfl, rfl⟩ := e
        refine hlist.snoc (i := c) (Or.inr ⟨hcP, c1, p, pp, pc, j, qq, ?_⟩) ?_ ?_
        · have hm := Equivalence.mem_of_zone hr.proper hv
          have hcl : ∀ x < pp.cond.size, vals.getD x 0 = TimedWord.clocks _ x := fun x hx =>
            (Equivalence.clocks_delays (e := pp.toElementaryLanguage) (fun k => vals.getD k 0) hx).symm
          refine ⟨_, hp, hpc, hpp, hcc, hj, hqq, htgt, rfl, hm, fun v => ?_⟩
          obtain ⟨w, w1, w2, w3⟩ := hjump _ hm _ (fun x hx => (consts_apply hl v x hx).trans (hcl x hx))
          exact ⟨w, w1, w2, fun x hx => by rw [c3]; exact w3 x hx⟩
        · rintro ⟨_, h1 | h1⟩
          · exact hcP h1
          · exact hn h1
        · intro i
          constructor
          · rintro ⟨h1, h2 | h2 | h2⟩
            · exact Or.inl ⟨h1, Or.inl h2⟩
            · exact Or.inl ⟨h1, Or.inr h2⟩
            · exact Or.inr h2.1
          · rintro (⟨h1, h2 | h2⟩ | rfl)
            · exact ⟨h1, Or.inl h2⟩
            · exact ⟨h1, Or.inr (Or.inl h2)⟩
            · exact ⟨hcq, Or.inr (Or.inr ⟨rfl, rfl⟩)⟩
      · rename_i e
        refine (h.lists q' b hb).mono (fun _ _ _ h => h) ?_
        intro i
        constructor
        · rintro ⟨h1, h2 | h2 | ⟨rfl, rfl⟩⟩
          · exact ⟨h1, Or.inl h2⟩
          · exact ⟨h1, Or.inr h2⟩
          · exact absurd ⟨hx.b.unique h1 hcq, rfl⟩ e
        · rintro ⟨h1, h2 | h2⟩
          · exact ⟨h1, Or.inl h2⟩
          · exact ⟨h1, Or.inr (Or.inl h2)⟩
    · intro q' b hb
      rw [addTrans_loc, if_neg (by rintro ⟨_, rfl⟩; exact hb ha)]
      exact h.empty q' b hb

/-- The time successors outside of `P` of the prefixes in the list. -/
def Treated (T : ObsTable σ) (ps : List ℕ) (i : ℕ) (_ : Action) : Prop :=
  ∃ p ∈ ps, T.continuousSuccessors p = some i ∧ i ∉ T.pIndices

theorem exteriorStep_ok {env : Env σ} (he : EnvOk env f) (hI : Inv f T) (hR : Ready f T) {W : Prop}
    {H : List ℕ} {B0 B1 : Build} {bd : List (ℕ × Action)} (hx : Explored T H B0 bd)
    (hkeep : ∀ i q, B0.toState i = some q → B1.toState i = some q) {ps : List ℕ}
    {s : Build × Pending} (h : OInv f T B0 B1 (Treated T ps) s) {p : ℕ} (hps : ∀ x ∈ ps, x ∈ T.pIndices) (hp : p ∈ T.pIndices) (hn : p ∉ ps) :
    OrAbort W (exteriorStep env T s p) (OInv f T B0 B1 (Treated T (ps ++ [p]))) := by
  obtain ⟨c, hc, hsat⟩ := hR.saturated p hp
  unfold exteriorStep
  refine OrAbort.bind (OrAbort.need hc (Q := fun x => x = c) rfl) ?_
  rintro x rfl
  by_cases hcP : x ∈ T.pIndices
  · rw [if_pos (inP_iff.2 hcP)]
    refine OrAbort.pure (h.congr fun i a _ => ?_)
    constructor
    · rintro ⟨p', hp', h1, h2⟩
      rcases List.mem_append.1 hp' with hp' | hp'
      · exact ⟨p', hp', h1, h2⟩
      · simp only [List.mem_singleton] at hp'
        subst hp'
        rw [hc] at h1
        cases h1
        exact absurd hcP h2
    · rintro ⟨p', hp', h1, h2⟩
      exact ⟨p', by simp [hp'], h1, h2⟩
  · rw [if_neg (by rw [inP_iff]; exact hcP)]
    rcases hsat with h' | ⟨hrel, _⟩
    · exact absurd h' hcP
    have hrow : env.orderRow T x = [p] := by
      have := he.lawful.orderRow T x
      rw [hrel] at this
      exact List.perm_singleton.1 this
    have hfind : (env.orderRow T x).find? (fun j => T.inP j) = some p := by
      rw [hrow, List.find?_cons, inP_iff.2 hp]
    have hget : T.getRelation x p = some [] := by
      unfold getRelation
      rw [hrel]
      simp
    obtain ⟨q, hq⟩ := hx.all p hp
    have hxq : x ∈ B0.toIndices q := by
      obtain ⟨m, hm⟩ := List.getElem?_of_mem hq
      have hch := hx.b.chain q _ (List.getElem?_eq_getElem (hx.b.lt hq))
      rcases hch.get hm with ⟨_, y, e, hy⟩ | ⟨h2, _⟩
      · rw [hc] at e
        cases e
        exact List.mem_of_getElem? hy
      · exact absurd hp h2
    have htx : s.1.toState x = some q := by
      rw [h.toState]; exact hkeep x q ((hx.b.toState x q).2 hxq)
    have htp : s.1.toState p = some q := by
      rw [h.toState]; exact hkeep p q ((hx.b.toState p q).2 hq)
    obtain ⟨pp, hpp, hr⟩ := hI.pget hp
    have hcc := hI.time_get hp hc hpp
    obtain ⟨vals, v1, v2, v3⟩ := RenamingRelation.toValuation_mem hr.canonical hr.simple.clocksBounded
    refine OrAbort.bind (OrAbort.need htx (Q := fun y => q = y) rfl) ?_
    rintro _ rfl
    refine OrAbort.bind (OrAbort.need hfind (Q := fun y => p = y) rfl) ?_
    rintro _ rfl
    refine OrAbort.bind (OrAbort.need hget (Q := fun y => [] = y) rfl) ?_
    rintro _ rfl
    refine OrAbort.bind (OrAbort.need htp (Q := fun y => q = y) rfl) ?_
    rintro _ rfl
    refine OrAbort.bind (OrAbort.need hpp (Q := fun y => pp = y) rfl) ?_
    rintro _ rfl
    refine OrAbort.bind (OrAbort.need hcc (Q := fun y => pp.successor = y) rfl) ?_
    rintro _ rfl
    refine OrAbort.bind (OrAbort.need v1 (Q := fun y => vals = y) rfl) ?_
    rintro _ rfl
    dsimp only
    rw [if_pos rfl, push_nil]
    refine (OrAbort.foldlM (fun as s => OInv f T B0 B1 (fun i b => Treated T ps i b ∨ (i = x ∧ b ∈ as)) s) ?_ ?_).mono ?_
    · exact h.congr fun i a _ => by simp
    · intro as a rest s' e h'
      have hnd := hI.alpha.1
      rw [e] at hnd
      have hdone : a ∉ as := by
        rw [List.nodup_append] at hnd
        intro hd
        exact hnd.2.2 a hd a (by simp) rfl
      have haA : a ∈ T.alphabet := by rw [e]; simp
      obtain ⟨s'', g1, g2⟩ := selfLoopStep_ok he hI hR.covered hx h' haA hp hc hcP hq hxq (by
        rintro (⟨p', hp', h1, _⟩ | h1)
        · rw [← hI.time_inj hp (hps p' hp') hc h1] at hp'
          exact hn hp'
        · exact hdone h1.2) (by
        rintro i b (⟨_, _, _, h1⟩ | ⟨rfl, _⟩)
        · exact h1
        · exact hcP) hpp hcc v2 v3
      rw [g1]
      refine OrAbort.ok (g2.congr fun i b _ => ?_)
      rw [List.mem_append, List.mem_singleton, and_or_left, or_assoc]
    · intro s' h'
      refine h'.congr fun i b hb => ?_
      constructor
      · rintro ⟨p', hp', h1, h2⟩
        rcases List.mem_append.1 hp' with hp' | hp'
        · exact Or.inl ⟨p', hp', h1, h2⟩
        · simp only [List.mem_singleton] at hp'
          subst hp'
          rw [hc] at h1
          cases h1
          exact Or.inr ⟨rfl, hb⟩
      · rintro (⟨p', hp', h1, h2⟩ | ⟨rfl, _⟩)
        · exact ⟨p', by simp [hp'], h1, h2⟩
        · exact ⟨p, by simp, hc, hcP⟩

/-- All transitions are made. -/
structure Made (f : TimedWord → Bool) (T : ObsTable σ) (H : List ℕ) (B0 : Build) (s : Build × Pending) : Prop where
  pending : s.2 = []
  states : s.1.states = List.range H.length
  isMatch : ∀ q, (s.1.loc q).isMatch = (B0.loc q).isMatch
  total : ∀ i < T.prefixes.length, (s.1.toState i).isSome = true
  lists : ∀ q a, a ∈ T.alphabet → Indexed (AnyEdge f T B0.toState a) (fun i => i ∈ B0.toIndices q) ((s.1.loc q).next a)
  empty : ∀ q a, a ∉ T.alphabet → (s.1.loc q).next a = []

theorem rest_ok {env : Env σ} (he : EnvOk env f) (hI : Inv f T) (hR : Ready f T) {W : Prop}
    {H : List ℕ} {B0 : Build} {bd : List (ℕ × Action)} (hx : Explored T H B0 bd) :
    OrAbort W (do
      let s1 ← (sortBoundaries bd).foldlM (externalStep env T) (B0, [])
      (env.orderP T).foldlM (exteriorStep env T) s1) (Made f T H B0) := by
  refine OrAbort.bind (external_ok he hI hR.covered hx) ?_
  intro s1 h1
  have hP := he.lawful.orderP T
  have hnd : (env.orderP T).Nodup := hP.nodup_iff.2 hI.closed.inside.1
  refine (OrAbort.foldlM (fun ps s => OInv f T B0 s1.1 (Treated T ps) s) ?_ ?_).mono ?_
  · refine (h1.start hI hx (sortBoundaries_spec bd).2).congr fun i a _ => ?_
    unfold Treated
    simp
  · intro ps p rest s e h
    rw [e] at hnd
    refine exteriorStep_ok he hI hR hx h1.keep h (fun x hx => hP.mem_iff.1 (by rw [e]; simp [hx]))
      (hP.mem_iff.1 (by rw [e]; simp)) ?_
    rw [List.nodup_append] at hnd
    intro hd
    exact hnd.2.2 p hd p (by simp) rfl
  · intro s h
    refine ⟨h.pending, by rw [h.states, hx.b.states], h.isMatch, ?_, ?_, h.empty⟩
    · intro i hi
      rw [h.toState]
      have fromB0 : ∀ q, i ∈ B0.toIndices q → (s1.1.toState i).isSome = true := fun q hq => by
        rw [h1.keep i q ((hx.b.toState i q).2 hq)]; rfl
      rcases Nat.eq_zero_or_pos i with rfl | h0
      · obtain ⟨q, hq⟩ := hx.all 0 hI.closed.root.2
        exact fromB0 q hq
      · obtain ⟨j, hj, _, h2 | ⟨a, ha, h2⟩⟩ := hI.closed.parent i h0 hi
        · obtain ⟨q, hq⟩ := hx.all j hj
          obtain ⟨m, hm⟩ := List.getElem?_of_mem hq
          rcases (hx.b.chain q _ (List.getElem?_eq_getElem (hx.b.lt hq))).get hm with ⟨_, y, e, hy⟩ | ⟨h3, _⟩
          · rw [h2] at e
            cases e
            exact fromB0 q (List.mem_of_getElem? hy)
          · exact absurd hj h3
        · by_cases hiP : i ∈ T.pIndices
          · obtain ⟨q, hq⟩ := hx.all i hiP
            exact fromB0 q hq
          · exact h1.new (j, a) (((sortBoundaries_spec bd).2 _).2 ((hx.bd j a).2 ⟨hj, ha, i, h2, hiP⟩)) i h2
    · intro q a ha
      refine (h.lists q a ha).mono (fun _ _ _ h => h) fun i => ?_
      constructor
      · intro hi
        refine ⟨hi, ?_⟩
        by_cases hiP : i ∈ T.pIndices
        · exact Or.inl hiP
        · refine Or.inr ?_
          have hqH := hx.b.lt hi
          have hch := hx.b.chain q _ (List.getElem?_eq_getElem hqH)
          obtain ⟨m, hm⟩ := List.getElem?_of_mem hi
          have hh := (hx.b.head _ (List.getElem_mem hqH)).2
          cases m with
          | zero =>
            obtain ⟨l', e⟩ := hch.cons
            rw [e] at hm
            simp at hm
            rw [hm] at hh
            exact absurd hh hiP
          | succ m =>
            have hlt : m < (B0.toIndices q).length := by
              have := (List.getElem?_eq_some_iff.1 hm).1; omega
            have hy := List.getElem?_eq_getElem hlt
            rcases hch.get hy with ⟨h2, y, e, hy'⟩ | ⟨_, h3⟩
            · rw [hm] at hy'
              cases hy'
              exact ⟨_, hP.mem_iff.2 h2, e, hiP⟩
            · have := (List.getElem?_eq_some_iff.1 hm).1
              omega
      · exact fun hi => hi.1

end ObsTable
end LearnTA
