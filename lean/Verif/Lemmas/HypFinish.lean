import Verif.Lemmas.HypExterior
import Verif.Lemmas.TAReach

/-!
# The last steps of `generateHypothesis`
-/

namespace LearnTA
namespace ObsTable
open ForwardRegional Guard

variable {σ : Type} {f : TimedWord → Bool} {T : ObsTable σ}

theorem ChainLine.small {l : List ℕ} {n K : ℕ} {κ : ℕ → ℕ → ℤ} {L : ForwardRegional} {v : Valuation} {D : ℕ → ℚ}
    (h : ChainLine T l n K κ L v D) (hs : SmallPrefixes T) : LineSmall n K κ := by
  intro m hm x hx
  have hlt : m < l.length := by rw [h.length]; omega
  have hg := List.getElem?_eq_getElem hlt
  have hsm := hs _ ((h.inside m _ hg).2 hm) _ (h.get m _ hg).1
  have hseg := h.seg m hm
  unfold IsSeg endOf at hseg
  rw [if_neg (by omega)] at hseg
  have := hsm _ (hseg.upper_mem hx)
  have e : (Constraint.ofBound x true (upOf (κ m x))).c = (upOf (κ m x)).fst := rfl
  rw [e] at this
  unfold upOf at this
  simp only [IntBound.fst_mk] at this
  omega

theorem forall₂_choice {β : Type} (d : β) {R : ℕ → β → Prop} {ms : List ℕ} {l : List β} (h : List.Forall₂ R ms l) (hn : ms.Nodup) :
    ∃ g : ℕ → β, List.Forall₂ (fun m t => R m t ∧ g m = t) ms l := by
  induction h with
  | nil => exact ⟨fun _ => d, .nil⟩
  | @cons m t ms l hmt hl ih =>
    rw [List.nodup_cons] at hn
    obtain ⟨g, hg⟩ := ih hn.2
    refine ⟨Function.update g m t, .cons ⟨hmt, by simp⟩ ?_⟩
    have key : ∀ (ms' : List ℕ) (l' : List β), (∀ x ∈ ms', x ≠ m) → List.Forall₂ (fun m t => R m t ∧ g m = t) ms' l' →
        List.Forall₂ (fun k s => R k s ∧ Function.update g m t k = s) ms' l' := by
      intro ms' l' hne h'
      induction h' with
      | nil => exact .nil
      | @cons k s ms' l' hks _ ih' =>
        refine .cons ⟨hks.1, ?_⟩ (ih' fun x hx => hne x (by simp [hx]))
        rw [Function.update_of_ne (hne k (by simp))]
        exact hks.2
    exact key ms l (fun x hx e => hn.1 (e ▸ hx)) hg

/-- The transitions of one state for one action, before the last steps. -/
theorem Indexed.base {idx : List ℕ} {n K : ℕ} {κ : ℕ → ℕ → ℤ} {L : ForwardRegional} {v : Valuation} {D : ℕ → ℚ}
    (hc : ChainLine T idx n K κ L v D) (hnd : idx.Nodup) {toState : ℕ → Option ℕ} {a : Action} {ts : List Trans}
    (h : Indexed (AnyEdge f T toState a) (fun i => i ∈ idx) ts) :
    ∃ E, Trans.Base n K κ E ts ∧ ∀ m i, idx[m]? = some i → ∃ g, AnyEdge f T toState a i ⟨(E m).1, (E m).2, g⟩ := by
  obtain ⟨is, h1, h2, h3⟩ := h
  obtain ⟨g, hg⟩ := forall₂_choice (⟨0, [], []⟩ : Trans) h3 h1
  have hidx : ∀ i, i ∈ idx → idx[idx.idxOf i]? = some i := fun i hi => by
    rw [List.getElem?_eq_getElem (List.idxOf_lt_length_of_mem hi)]
    simp
  have hinv : ∀ m i, idx[m]? = some i → idx.idxOf i = m := by
    intro m i hm
    obtain ⟨hlt, e⟩ := List.getElem?_eq_some_iff.1 hm
    rw [← e]
    exact hnd.idxOf_getElem m hlt
  refine ⟨fun m => ((g (idx.getD m 0)).target, (g (idx.getD m 0)).resets), ⟨is.map idx.idxOf, ?_, ?_, ?_⟩, ?_⟩
  · rw [List.nodup_map_iff_inj_on h1]
    intro x hx y hy e
    have ex := hidx x ((h2 x).1 hx)
    have ey := hidx y ((h2 y).1 hy)
    rw [e, ey] at ex
    simpa using ex.symm
  · intro m
    rw [List.mem_map]
    constructor
    · rintro ⟨i, hi, rfl⟩
      have := List.idxOf_lt_length_of_mem ((h2 i).1 hi)
      rw [hc.length] at this
      omega
    · intro hm
      have hlt : m < idx.length := by rw [hc.length]; omega
      exact ⟨idx[m], (h2 _).2 (List.getElem_mem hlt), hinv m _ (List.getElem?_eq_getElem hlt)⟩
  · have key : ∀ (is' : List ℕ) (l' : List Trans), (∀ i ∈ is', i ∈ idx) →
        List.Forall₂ (fun m t => AnyEdge f T toState a m t ∧ g m = t) is' l' →
        List.Forall₂ (fun m t => IsSeg n K κ m m t.guard ∧
          ((g (idx.getD m 0)).target, (g (idx.getD m 0)).resets) = (t.target, t.resets)) (is'.map idx.idxOf) l' := by
      intro is' l' hsub h'
      induction h' with
      | nil => exact .nil
      | @cons i t is' l' hit _ ih =>
        refine .cons ⟨?_, ?_⟩ (ih fun j hj => hsub j (by simp [hj]))
        · have hi := hsub i (by simp)
          have hg := hidx i hi
          have hlt := (List.getElem?_eq_some_iff.1 hg).1
          rw [hc.length] at hlt
          obtain ⟨g1, _, _⟩ := hc.get _ _ hg
          have g2 := hc.inside _ _ hg
          rcases hit.1 with ⟨h4, _, p, j, q, h5, _, _, _, h6, _⟩ | ⟨h4, _, i', p, pc, j, q, u, _, _, _, h5, _, _, _, h6, _⟩
          · rw [g1] at h5
            cases h5
            rw [h6]
            exact hc.seg _ (g2.1 h4)
          · rw [g1] at h5
            cases h5
            rw [h6]
            have e : idx.idxOf i = K := by
              have : ¬ idx.idxOf i < K := fun h' => h4 (g2.2 h')
              omega
            show IsSeg n K κ (idx.idxOf i) (idx.idxOf i) _
            rw [e]
            exact hc.segLast
        · have hi := hsub i (by simp)
          have : idx.getD (idx.idxOf i) 0 = i := by
            rw [List.getD_eq_getElem?_getD, hidx i hi]; rfl
          rw [this, hit.2]
    exact key is ts (fun i hi => (h2 i).1 hi) hg
  · intro m i hm
    have hgd : idx.getD m 0 = i := by
      rw [List.getD_eq_getElem?_getD, hm]; rfl
    obtain ⟨t, _, ht⟩ := Trans.forall₂_mem_left hg ((h2 i).2 (List.mem_of_getElem? hm))
    refine ⟨t.guard, ?_⟩
    dsimp only
    rw [hgd, ht.2]
    exact ht.1

theorem AnyEdge.sorted {toState : ℕ → Option ℕ} {a : Action} {i q : ℕ} {r : Resets} {g : Guard}
    (h : AnyEdge f T toState a i ⟨q, r, g⟩) : AnyEdge f T toState a i ⟨q, Trans.sorted r, g⟩ := by
  have hp : (Trans.sorted r).Perm r := List.perm_insertionSort _ r
  have hl : r.Legal → (Trans.sorted r).Legal := fun h => ⟨(hp.map _).nodup_iff.2 h.nodup, fun p hp' => h.nonneg p (hp.mem_iff.1 hp')⟩
  have ha : r.Legal → ∀ v, (Trans.sorted r).apply v = r.apply v := fun h v =>
    Resets.apply_perm hp.symm h.nodup v
  rcases h with ⟨h1, h2, p, j, q', h3, h4, h5, h6, h7, h8, h9⟩ | ⟨h1, h2, i', p, pc, j, q', u, h3, h4, h5, h6, h7, h8, h9, h10, h11, h12⟩
  · refine Or.inl ⟨h1, hl h2, p, j, q', h3, h4, h5, h6, h7, fun y hy => h8 y (hp.mem_iff.1 hy), ?_⟩
    intro u hu v hv
    obtain ⟨w, k1, k2, k3⟩ := h9 u hu v hv
    exact ⟨w, k1, k2, by dsimp only at k3 ⊢; rw [ha h2]; exact k3⟩
  · refine Or.inr ⟨h1, hl h2, i', p, pc, j, q', u, h3, h4, h5, h6, h7, h8, h9, h10, h11, ?_⟩
    intro v
    obtain ⟨w, k1, k2, k3⟩ := h12 v
    exact ⟨w, k1, k2, by dsimp only at k3 ⊢; rw [ha h2]; exact k3⟩

/-- The states of the hypothesis before it is simplified. -/
structure Finished (f : TimedWord → Bool) (T : ObsTable σ) (H : List ℕ) (B0 : Build) (loc : ℕ → TAState) : Prop where
  isMatch : ∀ q < H.length, (loc q).isMatch = (B0.loc q).isMatch
  empty : ∀ q < H.length, ∀ a, a ∉ T.alphabet → (loc q).next a = []
  full : ∀ q < H.length, ∃ n K κ L v D, ChainLine T (B0.toIndices q) n K κ L v D ∧ ∀ a ∈ T.alphabet, ∃ E,
    Trans.Full n K κ E ((loc q).next a) ∧
    ∀ m i, (B0.toIndices q)[m]? = some i → ∃ g, AnyEdge f T B0.toState a i ⟨(E m).1, (E m).2, g⟩

theorem Made.finish (hI : Inv f T) (hs : SmallPrefixes T) {H : List ℕ} {B0 : Build} {bd : List (ℕ × Action)}
    (hx : Explored T H B0 bd) {s : Build × Pending} (h : Made f T H B0 s) {q : ℕ} (hq : q < H.length) :
    (s.1.loc q).needSplitting = false ∧
      ∃ n K κ L v D, ChainLine T (B0.toIndices q) n K κ L v D ∧ ∀ a ∈ T.alphabet, ∃ E,
        Trans.Full n K κ E ((tidyState (s.1.loc q)).next a) ∧
        ∀ m i, (B0.toIndices q)[m]? = some i → ∃ g, AnyEdge f T B0.toState a i ⟨(E m).1, (E m).2, g⟩ := by
  have hq' := List.getElem?_eq_getElem hq
  have hch := hx.b.chain q _ hq'
  have hhP := (hx.b.head _ (List.getElem_mem hq)).2
  obtain ⟨n, K, κ, L, v, D, hcl⟩ := hch.line hI hhP
  have hnd := hch.nodup hI (hI.closed.inside.2 _ hhP)
  have hsm := hcl.small hs
  constructor
  · unfold TAState.needSplitting
    rw [List.any_eq_false]
    intro a _
    by_cases ha : a ∈ T.alphabet
    · obtain ⟨E, hb, _⟩ := Indexed.base hcl hnd (h.lists q a ha)
      have hf := hb.full hcl.line hcl.last hsm
      rw [Trans.needSplitting_go _ (Trans.disjoint_sat _ hf.disjoint hf.small)]
      decide
    · rw [h.empty q a ha]
      simp [TAState.needSplitting.go]
  · refine ⟨n, K, κ, L, v, D, hcl, fun a ha => ?_⟩
    obtain ⟨E, hb, he⟩ := Indexed.base hcl hnd (h.lists q a ha)
    refine ⟨_, Trans.finish_full hcl.line hcl.pos hcl.last hsm hb, ?_⟩
    intro m i hm
    obtain ⟨g, hg⟩ := he m i hm
    exact ⟨g, hg.sorted⟩

/-- The transitions of the state do not overlap after the tidying. -/
def Tidy (s : TAState) : Prop := ∀ a, ((tidyState s).next a).Pairwise fun t u => Trans.overlap t u = false

theorem finishState_eq (henv : HypEnv) (loc : ℕ → TAState) (q : ℕ) (h : Tidy (loc q)) :
    finishState henv loc q = Function.update loc q (tidyState (loc q)) := by
  unfold finishState mergeBranching
  dsimp only
  refine mergeState_eq _ _ _ fun a _ => ?_
  rw [Function.update_self]
  exact h a

theorem foldl_finish (henv : HypEnv) (states : List ℕ) (hn : states.Nodup) (loc : ℕ → TAState)
    (h : ∀ q ∈ states, Tidy (loc q)) (q : ℕ) :
    (states.foldl (finishState henv) loc) q = if q ∈ states then tidyState (loc q) else loc q := by
  induction states generalizing loc with
  | nil => simp
  | cons x xs ih =>
    rw [List.nodup_cons] at hn
    rw [List.foldl_cons, finishState_eq henv loc x (h x (by simp)), ih hn.2]
    · by_cases e : q = x
      · subst e
        simp [hn.1]
      · simp [e]
    · intro y hy
      rw [Function.update_of_ne (by rintro rfl; exact hn.1 hy)]
      exact h y (by simp [hy])

/-- `generateHypothesis` without the simplification at the end. -/
theorem generate_ok {env : Env σ} (he : EnvOk env f) {henv : HypEnv} (hh : henv.Lawful) (hI : Inv f T) (hR : Ready f T)
    (hs : SmallPrefixes T) :
    OrAbort (Changes T) (generateHypothesis env henv T) fun A => ∃ H B0 bd loc, Explored T H B0 bd ∧ Finished f T H B0 loc ∧
      A = TA.simplify ⟨loc, List.range H.length, [0], TA.makeMaxConstants loc (List.range H.length)⟩ := by
  obtain ⟨m, hm⟩ := hI.matchOf he (hI.closed.inside.2 0 hI.closed.root.2)
  have h1 := start_ok he hh hI hm
  unfold generateHypothesis
  refine OrAbort.bind (OrAbort.need hm (Q := fun y => m = y) rfl) ?_
  rintro _ rfl
  dsimp only
  rw [← bind_assoc]
  refine OrAbort.bind h1 ?_
  rintro s ⟨H, hx⟩
  rw [← bind_assoc]
  refine OrAbort.bind (rest_ok he hI hR hx) ?_
  intro s2 hM
  have hsp : (s2.1.states.filter fun q => (s2.1.loc q).needSplitting) = [] := by
    rw [List.filter_eq_nil_iff]
    intro q hq
    rw [hM.states, List.mem_range] at hq
    rw [(hM.finish hI hs hx hq).1]
    decide
  have hall : ((List.range T.prefixes.length).all fun i => (s2.1.toState i).isSome) = true := by
    rw [List.all_eq_true]
    intro i hi
    exact hM.total i (List.mem_range.1 hi)
  rw [hM.pending]
  simp only [List.isEmpty_nil, if_true, hsp, hall, pure_bind]
  refine OrAbort.pure ⟨H, s.build, s.boundaries, _, hx, ?_, by rw [hM.states]⟩
  have htidy : ∀ q ∈ List.range H.length, Tidy (s2.1.loc q) := by
    intro q hq a
    obtain ⟨n, K, κ, L, v, D, _, hfull⟩ := (hM.finish hI hs hx (List.mem_range.1 hq)).2
    by_cases ha : a ∈ T.alphabet
    · obtain ⟨E, hf, _⟩ := hfull a ha
      exact Trans.disjoint_sat _ hf.disjoint hf.small
    · unfold tidyState
      dsimp only
      rw [hM.empty q a ha]
      exact List.Pairwise.nil
  have hloc : ∀ q < H.length, (List.range H.length).foldl (finishState henv) s2.1.loc q = tidyState (s2.1.loc q) := by
    intro q hq
    rw [foldl_finish _ _ List.nodup_range _ htidy, if_pos (List.mem_range.2 hq)]
  refine ⟨?_, ?_, ?_⟩
  · intro q hq
    rw [hloc q hq]
    exact hM.isMatch q
  · intro q hq a ha
    rw [hloc q hq]
    unfold tidyState
    dsimp only
    rw [hM.empty q a ha]
    rfl
  · intro q hq
    rw [hloc q hq]
    exact (hM.finish hI hs hx hq).2

end ObsTable
end LearnTA
