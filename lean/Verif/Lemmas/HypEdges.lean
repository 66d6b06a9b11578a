import Verif.Lemmas.HypExplore2
import Verif.Lemmas.HypExternal

/-!
# The transitions of a hypothesis that leave `P`
-/

namespace LearnTA
namespace ObsTable

/-! ### Sorting of `discreteBoundaries` -/

theorem charValue_inj {a b : Action} (h : charValue a = charValue b) : a = b := by
  unfold charValue at h
  apply Fin.ext
  have ha := a.isLt
  have hb := b.isLt
  split at h <;> split at h <;> omega

theorem boundaryLe_iff (p q : ℕ × Action) : boundaryLe p q = true ↔
    p.1 < q.1 ∨ (p.1 = q.1 ∧ charValue p.2 ≤ charValue q.2) := by
  unfold boundaryLe
  simp

theorem uniqueBy_go_eq {α : Type} [BEq α] [LawfulBEq α] (le : α → α → Prop) (hanti : ∀ a b, le a b → le b a → a = b)
    (htr : ∀ a b c, le a b → le b c → le a c) (a : α) (l : List α) (h : (a :: l).Pairwise le) :
    (a :: uniqueBy.go (fun x y => x == y) a l).Nodup ∧
      ∀ x, x ∈ a :: uniqueBy.go (fun x y => x == y) a l ↔ x ∈ a :: l := by
  induction l generalizing a with
  | nil => simp [uniqueBy.go]
  | cons b l ih =>
    rw [List.pairwise_cons] at h
    unfold uniqueBy.go
    split
    · rename_i e
      have e : a = b := by simpa using e
      subst e
      obtain ⟨h1, h2⟩ := ih a h.2
      exact ⟨h1, fun x => by rw [h2 x]; simp⟩
    · rename_i e
      have e : a ≠ b := by simpa using e
      obtain ⟨h1, h2⟩ := ih b h.2
      refine ⟨List.nodup_cons.2 ⟨fun hm => ?_, h1⟩, fun x => by rw [List.mem_cons, h2 x, List.mem_cons (b := a)]⟩
      rw [h2] at hm
      rcases List.mem_cons.1 hm with hm | hm
      · exact e hm
      · have h3 := h.1 b (by simp)
        have h4 := (List.pairwise_cons.1 h.2).1 a hm
        exact e (hanti _ _ h3 h4)

theorem sortBoundaries_spec (l : List (ℕ × Action)) : (sortBoundaries l).Nodup ∧ ∀ b, b ∈ sortBoundaries l ↔ b ∈ l := by
  unfold sortBoundaries
  have htot : Std.Total (fun p q : ℕ × Action => boundaryLe p q = true) := ⟨by
    intro a b
    rw [boundaryLe_iff, boundaryLe_iff]
    omega⟩
  have htr : IsTrans (ℕ × Action) (fun p q => boundaryLe p q = true) := ⟨by
    intro a b c
    rw [boundaryLe_iff, boundaryLe_iff, boundaryLe_iff]
    omega⟩
  have hs := List.pairwise_insertionSort (fun p q : ℕ × Action => boundaryLe p q = true) l
  have hm : ∀ b, b ∈ l.insertionSort (fun p q => boundaryLe p q = true) ↔ b ∈ l := fun b =>
    (List.perm_insertionSort _ l).mem_iff
  generalize l.insertionSort (fun p q => boundaryLe p q = true) = l' at hs hm
  cases l' with
  | nil => exact ⟨by simp [uniqueBy], fun b => by rw [← hm]; simp [uniqueBy]⟩
  | cons a l' =>
    obtain ⟨h1, h2⟩ := uniqueBy_go_eq (fun p q : ℕ × Action => boundaryLe p q = true) (by
      intro p q h1 h2
      rw [boundaryLe_iff] at h1 h2
      exact Prod.ext (by omega) (charValue_inj (by omega))) (fun a b c h h' => htr.trans a b c h h') a l' hs
    exact ⟨h1, fun b => by rw [← hm]; exact h2 b⟩

/-! ### Edges -/

variable {σ : Type} {f : TimedWord → Bool} {T : ObsTable σ}

/-- From the word `u` of the prefix `i`, the action `a` leads to the word `w` of the prefix `j` of `P`: the word extended by the
action, or one related to it by the renaming that is recorded for the merged prefixes. -/
def Jump (f : TimedWord → Bool) (T : ObsTable σ) (i : ℕ) (a : Action) (u : TimedWord) (j : ℕ) (w : TimedWord) : Prop :=
  ∃ d, T.discreteSuccessors i a = some d ∧ ((d ∈ T.pIndices ∧ j = d ∧ w = u.act a) ∨
    (d ∉ T.pIndices ∧ ∃ p q r, T.prefixes[d]? = some p ∧ T.prefixes[j]? = some q ∧ T.getRelation d j = some r ∧
      Recorded f p q r ∧ r.Relates (u.act a) w))

/-- Updates that can be part of a transition. -/
structure _root_.LearnTA.Resets.Legal (U : Resets) : Prop where
  nodup : (U.map Prod.fst).Nodup
  nonneg : ∀ p ∈ U, ∀ k, p.2 = .const k → 0 ≤ k

/-- A transition for the prefix `i` of `P`. -/
def Edge (f : TimedWord → Bool) (T : ObsTable σ) (toState : ℕ → Option ℕ) (a : Action) (i : ℕ) (t : Trans) : Prop :=
  t.resets.Legal ∧ ∃ p j q, T.prefixes[i]? = some p ∧ j ∈ T.pIndices ∧ T.prefixes[j]? = some q ∧ toState j = some t.target ∧
    t.guard = p.cond.toGuard ∧ (∀ y ∈ t.resets, ∀ x, y.2 = .clock x → x < p.cond.size) ∧
    ∀ u, p.toElementaryLanguage.Mem u → ∀ v : Valuation, (∀ x < p.cond.size, v x = u.clocks x) →
      ∃ w, q.toElementaryLanguage.Mem w ∧ Jump f T i a u j w ∧ ∀ x < q.cond.size, t.resets.apply v x = w.clocks x

/-- A transition for the time successor `c` of `i`, which is not in `P`: it does what the one of `i` does for some word of
`i`. -/
def EdgeX (f : TimedWord → Bool) (T : ObsTable σ) (toState : ℕ → Option ℕ) (a : Action) (c : ℕ) (t : Trans) : Prop :=
  t.resets.Legal ∧ ∃ i p pc j q u, i ∈ T.pIndices ∧ T.continuousSuccessors i = some c ∧ T.prefixes[i]? = some p ∧
    T.prefixes[c]? = some pc ∧ j ∈ T.pIndices ∧ T.prefixes[j]? = some q ∧ toState j = some t.target ∧
    t.guard = pc.cond.removeUpperBound.toGuard ∧ p.toElementaryLanguage.Mem u ∧
    ∀ v : Valuation, ∃ w, q.toElementaryLanguage.Mem w ∧ Jump f T i a u j w ∧ ∀ x < q.cond.size, t.resets.apply v x = w.clocks x

theorem Internal.edge (hI : Inv f T) {toState : ℕ → Option ℕ} {a : Action} {i : ℕ} {t : Trans} (hi : i ∈ T.pIndices)
    (ha : a ∈ T.alphabet) (h : Internal T toState a i t) : Edge f T toState a i t := by
  obtain ⟨d, p, h1, h2, h3, h4, h5, h6⟩ := h
  have hd := hI.disc_get hi ha h1 h3
  have hp := hI.reach h3
  refine ⟨⟨by rw [h5]; simp, by rw [h5]; simp⟩, p, d, _, h3, h2, hd, h4, h6, by rw [h5]; simp, ?_⟩
  intro u hu v hv
  refine ⟨u.act a, hp.act_mem a hu, ⟨d, h1, Or.inl ⟨h2, rfl, rfl⟩⟩, fun x hx => ?_⟩
  rw [successorAction_csize hp] at hx
  rw [ForwardRegional.act_clocks u a ((hp.mem_iff u).1 hu).2.1, h5, ← hp.csize]
  show Function.update v p.cond.size 0 x = _
  by_cases e : x = p.cond.size
  · subst e; simp
  · rw [Function.update_of_ne e, if_pos (by omega)]
    exact hv x (by omega)

/-- The first row of `P` that is recorded. -/
theorem find_target {env : Env σ} (he : EnvOk env f) (hI : Inv f T) {d : ℕ} (hd : d ∉ T.pIndices) (hc : Covered f T d) :
    ∃ j r p q, (env.orderRow T d).find? (fun j => T.inP j) = some j ∧ j ∈ T.pIndices ∧ T.getRelation d j = some r ∧
      T.prefixes[d]? = some p ∧ T.prefixes[j]? = some q ∧ Recorded f p q r := by
  rcases hc with h | ⟨j0, hj0, p0, q0, r0, h1, h2, h3, _⟩
  · exact absurd h hd
  · have hm : j0 ∈ env.orderRow T d := by
      rw [(he.lawful.orderRow T d).mem_iff]
      unfold getRelation at h3
      cases hl : T.closedRelation d with
      | none => rw [hl] at h3; simp at h3
      | some l =>
        rw [hl] at h3
        exact List.mem_map.2 ⟨_, lookup_mem h3, rfl⟩
    cases hf : (env.orderRow T d).find? (fun j => T.inP j) with
    | none =>
      have := List.find?_eq_none.1 hf j0 hm
      exact absurd (inP_iff.2 hj0) (by simpa using this)
    | some j =>
      obtain ⟨r, hr⟩ := (orderRow_ok he hI d).2 j (List.mem_of_find?_eq_some hf)
      obtain ⟨p, q, g1, g2, g3⟩ := hI.static hr
      exact ⟨j, r, p, q, rfl, inP_iff.1 (by simpa using List.find?_some hf), hr, g1, g2, g3⟩

/-! ### The loop over the boundaries -/

/-- What holds when the boundaries in `done` are treated; `B0` are the states found by the exploration. -/
structure EInv (f : TimedWord → Bool) (T : ObsTable σ) (B0 : Build) (done : List (ℕ × Action)) (s : Build × Pending) : Prop where
  pending : s.2 = []
  states : s.1.states = B0.states
  isMatch : ∀ q, (s.1.loc q).isMatch = (B0.loc q).isMatch
  keep : ∀ i q, B0.toState i = some q → s.1.toState i = some q
  only : ∀ i, (s.1.toState i).isSome = true → (B0.toState i).isSome = true ∨ ∃ b ∈ done, T.discreteSuccessors b.1 b.2 = some i
  new : ∀ b ∈ done, ∀ d, T.discreteSuccessors b.1 b.2 = some d → (s.1.toState d).isSome = true
  lists : ∀ q a, a ∈ T.alphabet → Indexed (Edge f T B0.toState a)
    (fun i => i ∈ B0.toIndices q ∧ (Inside T a i ∨ (i, a) ∈ done)) ((s.1.loc q).next a)
  empty : ∀ q a, a ∉ T.alphabet → (s.1.loc q).next a = []

theorem externalStep_ok {env : Env σ} (he : EnvOk env f) (hI : Inv f T) (hc : ∀ i < T.prefixes.length, Covered f T i)
    {H : List ℕ} {B0 : Build} {bd : List (ℕ × Action)} (hx : Explored T H B0 bd) {done : List (ℕ × Action)}
    {s : Build × Pending} (h : EInv f T B0 done s) (hdone : ∀ b ∈ done, b ∈ bd) {b : ℕ × Action} (hb : b ∈ bd) (hn : b ∉ done) :
    ∃ s', externalStep env T s b = .ok s' ∧ EInv f T B0 (done ++ [b]) s' := by
  obtain ⟨i, a⟩ := b
  obtain ⟨hi, ha, d, hd, hdP⟩ := (hx.bd i a).1 hb
  obtain ⟨j, r, pd, q, hf, hjP, hr, hpd, hq, hrec⟩ := find_target he hI hdP (hc d (hI.disc_lt hi ha hd).2)
  obtain ⟨p, hp, hpr⟩ := hI.pget hi
  have hpd' := hI.disc_get hi ha hd hp
  rw [hpd] at hpd'
  simp only [Option.some.injEq] at hpd'
  subst hpd'
  have hnew : s.1.toState d = none := by
    rw [← Option.not_isSome_iff_eq_none]
    intro hs
    rcases h.only d hs with h1 | ⟨b', hb', h1⟩
    · have := (hx.b.head_iff (hI.head_disc hi ha hd)).1 h1
      exact hdP (hx.b.head d this).2
    · obtain ⟨hi', ha', _⟩ := (hx.bd b'.1 b'.2).1 (hdone b' hb')
      obtain ⟨e1, e2⟩ := hI.disc_inj hi hi' ha ha' hd h1
      have : b' = (i, a) := Prod.ext e1.symm e2.symm
      exact hn (this ▸ hb')
  obtain ⟨qj, hqj⟩ := hx.all j hjP
  have hqj0 := (hx.b.toState j qj).2 hqj
  have hqj' := h.keep j qj hqj0
  obtain ⟨qi, hqi⟩ := hx.all i hi
  have hqi' := h.keep i qi ((hx.b.toState i qi).2 hqi)
  have hid : i ≠ d := fun e => hdP (e ▸ hi)
  obtain ⟨U, e1, e2, e3, e4⟩ := external_spec hpr (hI.reach hq) hrec.toStatic hrec.merges qj
  refine ⟨((s.1.add qj d).addTrans qi a [⟨qj, U, p.cond.toGuard⟩], s.2), ?_, ?_⟩
  · unfold externalStep
    dsimp only
    rw [hd]
    simp only [ObsTable.need, bind, Except.bind, pure, Except.pure, hnew, Option.isSome_none, Bool.false_eq_true, if_false]
    rw [if_neg (by rw [inP_iff]; exact hdP), hf]
    simp only [hr, hp, hq, hqj', e1]
    have : (s.1.add qj d).toState i = some qi := by
      unfold Build.add
      dsimp only
      rw [Function.update_of_ne hid]
      exact hqi'
    rw [this]
    dsimp only
    unfold pushImprecise
    rw [e3]
    simp
  · refine ⟨h.pending, h.states, ?_, ?_, ?_, ?_, ?_, ?_⟩
    · intro q'
      rw [addTrans_isMatch]
      exact h.isMatch q'
    · intro k q' hk
      show Function.update s.1.toState d (some qj) k = some q'
      have := h.keep k q' hk
      rw [Function.update_of_ne]
      · exact this
      · intro e; subst e; rw [hnew] at this; cases this
    · intro k hk
      have hk : (Function.update s.1.toState d (some qj) k).isSome = true := hk
      by_cases e : k = d
      · subst e; exact Or.inr ⟨(i, a), by simp, hd⟩
      · rw [Function.update_of_ne e] at hk
        rcases h.only k hk with h1 | ⟨b', hb', h1⟩
        · exact Or.inl h1
        · exact Or.inr ⟨b', by simp [hb'], h1⟩
    · intro b' hb' k hk
      show (Function.update s.1.toState d (some qj) k).isSome = true
      by_cases e : k = d
      · subst e; simp
      · rw [Function.update_of_ne e]
        rcases List.mem_append.1 hb' with hb' | hb'
        · exact h.new b' hb' k hk
        · simp only [List.mem_singleton] at hb'
          subst hb'
          rw [hd] at hk
          cases hk
          exact absurd rfl e
    · intro q' b ha'
      rw [addTrans_loc]
      split
      · rename_i e
        obtain ⟨rfl, rfl⟩ := e
        refine (h.lists q' b ha').snoc (i := i) ?_ ?_ ?_
        · refine ⟨⟨e2.nodup, e2.nonneg⟩, p, j, q, hp, hjP, hq, hqj0, rfl, e2.clocks, ?_⟩
          intro u hu v hv
          obtain ⟨w, w1, w2, w3⟩ := e4 u hu v hv
          exact ⟨w, w1, ⟨d, hd, Or.inr ⟨hdP, _, _, r, hpd, hq, hr, hrec, w2⟩⟩, w3⟩
        · rintro ⟨_, ⟨d', hd', e'⟩ | h2⟩
          · rw [hd] at e'
            cases e'
            exact hdP hd'
          · exact hn h2
        · intro x
          constructor
          · rintro ⟨h1, h2 | h2⟩
            · exact Or.inl ⟨h1, Or.inl h2⟩
            · rcases List.mem_append.1 h2 with h2 | h2
              · exact Or.inl ⟨h1, Or.inr h2⟩
              · simp at h2; exact Or.inr h2
          · rintro (⟨h1, h2 | h2⟩ | rfl)
            · exact ⟨h1, Or.inl h2⟩
            · exact ⟨h1, Or.inr (List.mem_append.2 (Or.inl h2))⟩
            · exact ⟨hqi, Or.inr (by simp)⟩
      · rename_i e
        refine (h.lists q' b ha').mono (fun _ _ _ h => h) ?_
        intro x
        constructor
        · rintro ⟨h1, h2 | h2⟩
          · exact ⟨h1, Or.inl h2⟩
          · rcases List.mem_append.1 h2 with h2 | h2
            · exact ⟨h1, Or.inr h2⟩
            · simp only [List.mem_singleton, Prod.mk.injEq] at h2
              obtain ⟨rfl, rfl⟩ := h2
              exact absurd ⟨hx.b.unique h1 hqi, rfl⟩ e
        · rintro ⟨h1, h2 | h2⟩
          · exact ⟨h1, Or.inl h2⟩
          · exact ⟨h1, Or.inr (List.mem_append.2 (Or.inl h2))⟩
    · intro q' b hb'
      rw [addTrans_loc, if_neg (by rintro ⟨_, rfl⟩; exact hb' ha)]
      exact h.empty q' b hb'

theorem external_ok {env : Env σ} (he : EnvOk env f) (hI : Inv f T) (hc : ∀ i < T.prefixes.length, Covered f T i)
    {W : Prop} {H : List ℕ} {B0 : Build} {bd : List (ℕ × Action)} (hx : Explored T H B0 bd) :
    OrAbort W ((sortBoundaries bd).foldlM (externalStep env T) (B0, [])) (EInv f T B0 (sortBoundaries bd)) := by
  obtain ⟨hnd, hm⟩ := sortBoundaries_spec bd
  refine OrAbort.foldlM (fun done s => EInv f T B0 done s) ?_ ?_
  · refine ⟨rfl, rfl, fun _ => rfl, fun _ _ h => h, fun _ h => Or.inl h, by simp, ?_, hx.empty⟩
    intro q a ha
    refine (hx.lists q a ha).mono (fun i t hi ht => ?_) (by simp)
    refine Internal.edge hI ?_ ha ht
    by_contra hP
    obtain ⟨_, d, _, e⟩ := hi
    rw [(hI.closed.only i hP).2 a] at e
    cases e
  · intro done b rest s e h
    rw [e] at hnd
    obtain ⟨s', h1, h2⟩ := externalStep_ok he hI hc hx h (fun b hb => (hm b).1 (by rw [e]; simp [hb]))
      (b := b) ((hm b).1 (by rw [e]; simp)) (by
        rw [List.nodup_append] at hnd
        intro hb
        exact hnd.2.2 b hb b (by simp) rfl)
    rw [h1]
    exact OrAbort.ok h2

end ObsTable
end LearnTA
