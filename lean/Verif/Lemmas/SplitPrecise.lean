import Verif.Lemmas.SplitStates

/-!
# Splitting of states: the precise clocks of the copies
-/

namespace LearnTA
namespace Split

/-- Merged for the precise clocks `A`, then redirected to other copies. -/
def MergedFor (h : HashEnv) (loc0 : ℕ → TAState) (R : ℕ → ℕ → Prop) (o : ℕ) (A : Finset ℕ) (f : Action → List Trans) : Prop :=
  ∃ (acts : List Action) (l : ℕ → TAState) (p : ℕ), From loc0 R o (l p).next ∧ ∀ a,
    List.Forall₂ (fun t' t : Trans => t'.resets = t.resets ∧ t'.guard = t.guard ∧ ∃ o', R o' t.target ∧ R o' t'.target)
      (f a) ((mergeBranchingPrecise (h.clocks A) acts l p p).next a)

/-- The transition `t` of the copy for the precise clocks `A` leads to the right copy. -/
def Links (loc0 : ℕ → TAState) (s : St) (V : List Enhanced) (A : Finset ℕ) (t : Trans) : Prop :=
  ∃ e', (e', t.target) ∈ s.forward ∧ (e' ∈ V ∨ e' ∈ s.queue) ∧
    ∃ k ≤ (loc0 e'.1).usedClockSize, e'.2 = preciseAfterReset k A t.resets

variable {loc0 : ℕ → TAState} {states0 : List ℕ} {base : ℕ} {e0 : Enhanced} {G G0 : Shape} {P : Enhanced → Prop} {h : HashEnv}

theorem Links.mono {s s' : St} {V V' : List Enhanced} {A : Finset ℕ} {t : Trans} (hf : ∀ p ∈ s.forward, p ∈ s'.forward)
    (hV : ∀ e, e ∈ V ∨ e ∈ s.queue → e ∈ V' ∨ e ∈ s'.queue) (hL : Links loc0 s V A t) : Links loc0 s' V' A t := by
  obtain ⟨e', h1, h2, h3⟩ := hL
  exact ⟨e', hf _ h1, hV _ h2, h3⟩

theorem MergedFor.mono {R R' : ℕ → ℕ → Prop} {o : ℕ} {A : Finset ℕ} {f : Action → List Trans} (hR : ∀ o q, R o q → R' o q)
    (hm : MergedFor h loc0 R o A f) : MergedFor h loc0 R' o A f := by
  obtain ⟨acts, l, p, h1, h2⟩ := hm
  refine ⟨acts, l, p, (From.keeps loc0).mono hR h1, fun a => (h2 a).imp fun t' t ht => ?_⟩
  obtain ⟨i1, i2, o', i3, i4⟩ := ht
  exact ⟨i1, i2, o', hR _ _ i3, hR _ _ i4⟩

theorem MergedFor.retarget {R : ℕ → ℕ → Prop} {o : ℕ} {A : Finset ℕ} {f : Action → List Trans} {a : Action}
    {d ts : List Trans} {t : Trans} {n o' : ℕ} (hf : ∀ o o' q, R o q → R o' q → o = o') (hm : MergedFor h loc0 R o A f)
    (hfa : f a = d ++ t :: ts) (h1 : R o' t.target) (h2 : R o' n) :
    MergedFor h loc0 R o A (Function.update f a (d ++ { t with target := n } :: ts)) := by
  obtain ⟨acts, l, p, i1, i2⟩ := hm
  refine ⟨acts, l, p, i1, fun b => ?_⟩
  rw [Function.update_apply]
  split
  · rename_i e
    subst e
    have := i2 b
    rw [hfa] at this
    obtain ⟨l1, l2, j1, j2, e⟩ := forall₂_append_left this
    rw [e]
    cases j2 with
    | cons hx hxs =>
      obtain ⟨k1, k2, o'', k3, k4⟩ := hx
      have : o'' = o' := hf _ _ _ k4 h1
      subst this
      exact List.rel_append j1 (.cons ⟨k1, k2, o'', k3, h2⟩ hxs)
  · exact i2 b

/-- The second part of the invariant. -/
structure Tracked (h : HashEnv) (loc0 : ℕ → TAState) (e0 : Enhanced) (V : List Enhanced) (D : Enhanced → Prop) (s : St) :
    Prop where
  keys : (s.forward.map Prod.fst).Nodup
  links : ∀ p ∈ s.forward, D p.1 → ∀ a, ∀ t ∈ (s.loc p.2).next a, Links loc0 s V p.1.2 t
  merged : ∀ p ∈ s.forward, p.1 ≠ e0 → p.1 ∈ V ∨ p.1 ∈ s.queue → MergedFor h loc0 s.Copy p.1.1 p.1.2 (s.loc p.2).next

theorem lookup_none {α β : Type} [BEq α] [LawfulBEq α] {l : List (α × β)} {k : α} (hl : l.lookup k = none) :
    k ∉ l.map Prod.fst := by
  induction l with
  | nil => simp
  | cons p l ih =>
    obtain ⟨k', v'⟩ := p
    rw [List.lookup_cons] at hl
    split at hl
    · cases hl
    · rename_i e
      rw [List.map_cons, List.mem_cons]
      rintro (e1 | h1)
      · dsimp only at e1
        subst e1
        simp at e
      · exact ih hl h1

theorem discover_keys {s : St} (hk : (s.forward.map Prod.fst).Nodup) (target : ℕ) (e : Enhanced) :
    ((discover h s target e).forward.map Prod.fst).Nodup := by
  unfold discover St.make
  cases hm : s.map e with
  | some q => exact hk
  | none =>
    dsimp only
    rw [List.map_append, List.nodup_append]
    refine ⟨hk, by simp, ?_⟩
    intro x hx y hy e1
    simp only [List.map_cons, List.map_nil, List.mem_singleton] at hy
    subst e1 hy
    exact lookup_none hm hx

theorem discover_queue (h : HashEnv) (s : St) (target : ℕ) (e : Enhanced) :
    (discover h s target e).queue = s.queue ++ [e] := by
  unfold discover St.make
  cases hm : s.map e with
  | some q => rfl
  | none => rfl

theorem discover_merged (I : Inv loc0 states0 base e0 G G0 s) {e : Enhanced} {target o : ℕ} (ht : s.Copy o target) {q : ℕ}
    (hq : (e, q) ∈ (discover h s target e).forward) (hk : (s.forward.map Prod.fst).Nodup) :
    ∃ (acts : List Action) (l : ℕ → TAState), (l q).next = (s.loc target).next ∧
      (discover h s target e).loc q = mergeBranchingPrecise (h.clocks e.2) acts l q q := by
  obtain ⟨A, htA⟩ := ht
  have hk' := discover_keys (h := h) hk target e
  unfold discover St.make at hq hk' ⊢
  cases hm : s.map e with
  | some q' =>
    rw [hm] at hq hk'
    dsimp only at hq ⊢
    have : q = q' := by
      have h2 := lookup_mem' hm
      have := (List.nodup_map_iff_inj_on (List.Nodup.of_map _ hk)).1 hk _ hq _ h2 rfl
      exact congrArg Prod.snd this
    subst this
    refine ⟨_, _, ?_, rfl⟩
    rw [Function.update_self]
  | none =>
    rw [hm] at hq hk'
    dsimp only at hq hk' ⊢
    have : q = s.next := by
      have := (List.nodup_map_iff_inj_on (List.Nodup.of_map _ hk')).1 hk' _ hq (e, s.next) (by simp) rfl
      exact congrArg Prod.snd this
    subst this
    refine ⟨_, _, ?_, rfl⟩
    rw [Function.update_self]
    dsimp only
    rw [Function.update_of_ne]
    intro e1
    have := (I.addr _ htA).2
    dsimp only at this
    omega

theorem discover_tracked (hF : ∀ R o f, G R o f → From loc0 R o f) {s s1 : St} {V : List Enhanced} {D : Enhanced → Prop}
    {e : Enhanced} {target : ℕ} (hs1 : discover h s target e = s1) (I : Inv loc0 states0 base e0 G G0 s)
    (I1 : Inv loc0 states0 base e0 G G0 s1) (X : Ext P s s1)
    (hl : ∀ p ∈ s.forward, p.1 ≠ e → s1.loc p.2 = s.loc p.2)
    (T : Tracked h loc0 e0 V D s) (heV : e ∉ V) (hD : ∀ x, D x → x ∈ V) (ht : s.Copy e.1 target) :
    Tracked h loc0 e0 V D s1 := by
  have hk1 : (s1.forward.map Prod.fst).Nodup := by rw [← hs1]; exact discover_keys T.keys target e
  have hq1 : s1.queue = s.queue ++ [e] := by rw [← hs1]; exact discover_queue h s target e
  have hold : ∀ p ∈ s1.forward, p.1 ≠ e → p ∈ s.forward := by
    intro p hp hpe
    rw [← hs1] at hp
    unfold discover St.make at hp
    cases hm : s.map e with
    | some q => rw [hm] at hp; exact hp
    | none =>
      rw [hm] at hp
      simp only [List.mem_append, List.mem_singleton] at hp
      rcases hp with hp | rfl
      · exact hp
      · exact absurd rfl hpe
  refine ⟨hk1, ?_, ?_⟩
  · intro p hp hpD a t htt
    have hpe : p.1 ≠ e := fun e1 => heV (e1 ▸ hD _ hpD)
    have hp' := hold p hp hpe
    rw [hl p hp' hpe] at htt
    refine (T.links p hp' hpD a t htt).mono (fun _ => X.mem) fun x hx => ?_
    rw [hq1, List.mem_append]
    exact hx.imp id Or.inl
  · intro p hp hp0 hpV
    by_cases hpe : p.1 = e
    · obtain ⟨e', q⟩ := p
      dsimp only at hpe
      subst hpe
      have := discover_merged (h := h) I ht (q := q) (by rw [hs1]; exact hp) T.keys
      rw [hs1] at this
      obtain ⟨acts, l, i1, i2⟩ := this
      obtain ⟨A, htA⟩ := ht
      dsimp only
      have hfr : From loc0 s1.Copy e'.1 (l q).next := by
        rw [i1]
        exact (From.keeps loc0).mono X.copy (hF _ _ _ (I.shape _ htA))
      refine ⟨acts, l, q, hfr, fun a => ?_⟩
      rw [i2, List.forall₂_same]
      intro t htt
      obtain ⟨x, _, j, _⟩ := (From.merge loc0 [e'.1]) (h.clocks e'.2) acts l q (List.mem_singleton.2 rfl) hfr a t htt
      exact ⟨rfl, rfl, _, j, j⟩
    · have hp' := hold p hp hpe
      rw [hl p hp' hpe]
      refine (T.merged p hp' hp0 ?_).mono X.copy
      rcases hpV with hv | hv
      · exact Or.inl hv
      · rw [hq1, List.mem_append, List.mem_singleton] at hv
        rcases hv with hv | hv
        · exact Or.inr hv
        · exact absurd hv hpe

theorem setTarget_tracked {s : St} {V : List Enhanced} {D : Enhanced → Prop} (I : Inv loc0 states0 base e0 G G0 s)
    (T : Tracked h loc0 e0 V D s) {eq : Enhanced} {q : ℕ} (hq : (eq, q) ∈ s.forward) (hnD : ¬ D eq) {a : Action}
    {d ts : List Trans} {t : Trans} (hl : (s.loc q).next a = d ++ t :: ts) {n o : ℕ} (h1 : s.Copy o t.target)
    (h2 : s.Copy o n) :
    Tracked h loc0 e0 V D { s with loc := setList s.loc q a (d ++ { t with target := n } :: ts) } := by
  refine ⟨T.keys, ?_, ?_⟩
  · intro p hp hpD b u hu
    dsimp only at hp hu
    have hne : p.2 ≠ q := fun e1 => hnD (by have := I.unique hp hq e1; subst this; exact hpD)
    rw [setList_other _ hne] at hu
    exact (T.links p hp hpD b u hu).mono (fun _ h => h) fun _ h => h
  · intro p hp hp0 hpV
    dsimp only at hp
    refine MergedFor.mono (R := s.Copy) (fun o q ⟨B, hB⟩ => ⟨B, hB⟩) ?_
    dsimp only
    by_cases hne : p.2 = q
    · have := T.merged p hp hp0 hpV
      rw [hne] at this ⊢
      have := this.retarget I.copy_fun hl h1 h2
      unfold setList TAState.setNext
      rw [Function.update_self]
      exact this
    · rw [setList_other _ hne]
      exact T.merged p hp hp0 hpV

theorem rewire_tracked (hK : Keeps G) (hM : KeepsMerge states0 G) (hK0 : Keeps G0) {K : ℕ} (hC : ClocksBelow states0 K G)
    (hF : ∀ R o f, G R o f → From loc0 R o f)
    (h : HashEnv) (hlt : ∀ p ∈ states0, p < base) {visited : List Enhanced} (hv0 : e0 ∈ visited) {eq : Enhanced}
    (hve : eq ∈ visited) {D : Enhanced → Prop} (hD : ∀ x, D x → x ∈ visited) (hnD : ¬ D eq)
    {q : ℕ} (a : Action) : ∀ (ts done : List Trans) (s s' : St),
    Inv loc0 states0 base e0 G G0 s → (∀ e ∈ visited, (s.map e).isSome) → (eq, q) ∈ s.forward →
    (s.loc q).next a = done ++ ts → Tracked h loc0 e0 visited D s → (∀ t ∈ done, Links loc0 s visited eq.2 t) →
    rewire h visited eq.2 q a s done ts = .ok s' →
    Inv loc0 states0 base e0 G G0 s' ∧ Ext (InU states0 K) s s' ∧ Tracked h loc0 e0 visited D s' ∧
      (∀ t ∈ (s'.loc q).next a, Links loc0 s' visited eq.2 t) ∧ ∀ b, b ≠ a → (s'.loc q).next b = (s.loc q).next b := by
  intro ts
  induction ts with
  | nil =>
    intro done s s' I _ hq hl T hdone hr
    unfold rewire at hr
    cases hr
    refine ⟨I, .refl s, T, ?_, fun _ _ => rfl⟩
    rw [hl, List.append_nil]
    exact hdone
  | cons t ts ih =>
    intro done s s' I hvis hq hl T hdone hr
    unfold rewire at hr
    obtain ⟨o, hto⟩ := hK.target (I.shape _ hq) (a := a) (t := t) (by dsimp only; rw [hl]; simp)
    rw [I.toOriginal hto] at hr
    dsimp only at hr
    obtain ⟨A, htA⟩ := hto
    have ho : o ∈ states0 := I.orig _ htA
    have hsize : (s.loc t.target).usedClockSize ≤ (loc0 o).usedClockSize := by
      refine usedClockSize_le fun b u hu c hc => ?_
      obtain ⟨x, hx, _, _, _, j⟩ := hF _ _ _ (I.shape _ htA) b u hu
      obtain ⟨d, hd, e⟩ := j c hc
      rw [← e]
      exact le_usedClockSize hx hd
    generalize he : ((o, preciseAfterReset (s.loc t.target).usedClockSize eq.2 t.resets) : Enhanced) = e at hr
    have he1 : e.1 = o := by rw [← he]
    have he2 : e.2 = preciseAfterReset (s.loc t.target).usedClockSize eq.2 t.resets := by rw [← he]
    have hP : InU states0 K e := by
      refine ⟨by rw [he1]; exact ho, ?_⟩
      rw [← he]
      intro x hx
      have h1 : x < (s.loc t.target).usedClockSize := (mem_preciseAfterReset.1 hx).1
      have h2 := usedClockSize_le (hC _ _ _ ho (I.shape _ htA))
      dsimp only at h2
      exact Finset.mem_range.2 (by omega)
    have hs1 : ∃ s1, (if e ∈ visited then s else discover h s t.target e) = s1 ∧ Inv loc0 states0 base e0 G G0 s1 ∧
        Ext (InU states0 K) s s1 ∧ s1.loc q = s.loc q ∧ (e ∉ visited → (s1.map e).isSome) ∧
        Tracked h loc0 e0 visited D s1 ∧ (e ∈ visited ∨ e ∈ s1.queue) := by
      split
      · exact ⟨s, rfl, I, .refl s, rfl, fun hn => absurd ‹_› hn, T, Or.inl ‹_›⟩
      · rename_i hn
        obtain ⟨h1, h2, h3, h4⟩ := discover_spec (P := InU states0 K) hK hM hK0 h hlt I (e := e)
          (fun e1 => hn (e1 ▸ hv0)) (by rw [he1]; exact ho) hP (target := t.target) ⟨A, by rw [he1]; exact htA⟩
        exact ⟨_, rfl, h1, h2, h4 _ hq (fun e1 => hn (e1 ▸ hve)), fun _ => h3,
          discover_tracked hF rfl I h1 h2 h4 T hn hD ⟨A, by rw [he1]; exact htA⟩,
          Or.inr (by rw [discover_queue]; simp)⟩
    obtain ⟨s1, e1, I1, X1, hl1, hm1, T1, hin⟩ := hs1
    rw [e1] at hr
    have hsome : (s1.map e).isSome := by
      by_cases hn : e ∈ visited
      · exact X1.isSome (hvis e hn)
      · exact hm1 hn
    obtain ⟨n, hn⟩ := Option.isSome_iff_exists.1 hsome
    rw [hn] at hr
    dsimp only at hr
    have hmem : (e, n) ∈ s1.forward := lookup_mem' hn
    have hl' : (s1.loc q).next a = done ++ t :: ts := by rw [hl1, hl]
    have I2 := I1.setTarget hK hK0 hlt (X1.mem hq) hl' (o := o) (n := n) ⟨A, X1.mem htA⟩ ⟨e.2, by rw [← he1]; exact hmem⟩
    have T2 := setTarget_tracked I1 T1 (X1.mem hq) hnD hl' (o := o) (n := n) ⟨A, X1.mem htA⟩ ⟨e.2, by rw [← he1]; exact hmem⟩
    have X2 : Ext (InU states0 K) s1 { s1 with loc := setList s1.loc q a (done ++ { t with target := n } :: ts) } :=
      ⟨⟨[], by simp⟩, [], by simp, by simp⟩
    obtain ⟨h1, h2, h3, h4, h5⟩ := ih (done ++ [{ t with target := n }]) _ s' I2
      (fun e he => X2.isSome (X1.isSome (hvis e he))) (X2.mem (X1.mem hq)) (by
        dsimp only
        rw [setList_self_next, if_pos rfl]
        simp) T2 (by
        intro u hu
        rw [List.mem_append, List.mem_singleton] at hu
        rcases hu with hu | rfl
        · refine (hdone u hu).mono (fun _ => X1.mem) fun x hx => hx.imp id fun hx => ?_
          obtain ⟨l, hlq, _⟩ := X1.queue
          dsimp only
          rw [hlq]
          exact List.mem_append_left _ hx
        · exact ⟨e, hmem, hin, _, by rw [he1]; exact hsize, he2⟩) hr
    refine ⟨h1, X1.trans (X2.trans h2), h3, h4, fun b hb => ?_⟩
    rw [h5 b hb]
    dsimp only
    rw [setList_self_next, if_neg hb, hl1]

theorem rewireAll_tracked (hK : Keeps G) (hM : KeepsMerge states0 G) (hK0 : Keeps G0) {K : ℕ} (hC : ClocksBelow states0 K G)
    (hF : ∀ R o f, G R o f → From loc0 R o f)
    (h : HashEnv) (hlt : ∀ p ∈ states0, p < base) {visited : List Enhanced} (hv0 : e0 ∈ visited) {eq : Enhanced}
    (hve : eq ∈ visited) {D : Enhanced → Prop} (hD : ∀ x, D x → x ∈ visited) (hnD : ¬ D eq)
    {q : ℕ} : ∀ (acts : List Action) (s s' : St),
    Inv loc0 states0 base e0 G G0 s → (∀ e ∈ visited, (s.map e).isSome) → (eq, q) ∈ s.forward →
    Tracked h loc0 e0 visited D s →
    acts.foldlM (fun s a => rewire h visited eq.2 q a s [] ((s.loc q).next a)) s = .ok s' →
    Inv loc0 states0 base e0 G G0 s' ∧ Ext (InU states0 K) s s' ∧ Tracked h loc0 e0 visited D s' ∧
      ∀ b, b ∈ acts ∨ (∀ t ∈ (s.loc q).next b, Links loc0 s visited eq.2 t) →
        ∀ t ∈ (s'.loc q).next b, Links loc0 s' visited eq.2 t := by
  intro acts
  induction acts with
  | nil =>
    intro s s' I _ _ T hr
    cases hr
    refine ⟨I, .refl s, T, fun b hb => ?_⟩
    simpa using hb
  | cons a acts ih =>
    intro s s' I hvis hq T hr
    rw [List.foldlM_cons] at hr
    match h1 : rewire h visited eq.2 q a s [] ((s.loc q).next a) with
    | .error x => rw [h1] at hr; cases hr
    | .ok s1 =>
      rw [h1] at hr
      obtain ⟨I1, X1, T1, L1, F1⟩ := rewire_tracked hK hM hK0 hC hF h hlt hv0 hve hD hnD a ((s.loc q).next a) [] s s1 I hvis hq
        (by simp) T (by simp) h1
      obtain ⟨I2, X2, T2, L2⟩ := ih s1 s' I1 (fun e he => X1.isSome (hvis e he)) (X1.mem hq) T1 hr
      refine ⟨I2, X1.trans X2, T2, fun b hb => ?_⟩
      by_cases hba : b = a
      · subst hba
        exact L2 b (Or.inr L1)
      · refine L2 b ?_
        rcases hb with hb | hb
        · rw [List.mem_cons] at hb
          rcases hb with hb | hb
          · exact absurd hb hba
          · exact Or.inl hb
        · refine Or.inr ?_
          rw [F1 b hba]
          intro t ht
          refine (hb t ht).mono (fun _ => X1.mem) fun x hx => hx.imp id fun hx => ?_
          obtain ⟨l, hlq, _⟩ := X1.queue
          rw [hlq]
          exact List.mem_append_left _ hx

theorem search_tracked (hK : Keeps G) (hM : KeepsMerge states0 G) (hK0 : Keeps G0) {K : ℕ} (hC : ClocksBelow states0 K G)
    (hF : ∀ R o f, G R o f → From loc0 R o f)
    (h : HashEnv) (hacts : ∀ (st : TAState) a, st.next a ≠ [] → a ∈ h.acts st) (hlt : ∀ p ∈ states0, p < base) :
    ∀ (n : ℕ) (visited : List Enhanced) (s s' : St),
    Inv loc0 states0 base e0 G G0 s → (∀ e ∈ visited, (s.map e).isSome) →
    (∀ e ∈ s.queue, InU states0 K e ∧ (s.map e).isSome) → (e0 ∈ visited ∨ ∃ rest, s.queue = e0 :: rest) →
    Tracked h loc0 e0 visited (· ∈ visited) s → search h n visited s = .ok s' →
    ∃ V, Inv loc0 states0 base e0 G G0 s' ∧ Tracked h loc0 e0 V (· ∈ V) s' ∧ s'.queue = [] ∧
      (∀ e, e ∈ visited ∨ e ∈ s.queue → e ∈ V) ∧ ∀ p ∈ s.forward, p ∈ s'.forward := by
  intro n
  induction n with
  | zero => intro visited s s' _ _ _ _ _ hs; unfold search at hs; cases hs
  | succ n ih =>
    intro visited s s' I hvis hqu h0 T hs
    unfold search at hs
    cases hq : s.queue with
    | nil =>
      rw [hq] at hs
      cases hs
      exact ⟨visited, I, T, hq, by simp, fun _ h => h⟩
    | cons e queue =>
      rw [hq] at hs
      dsimp only at hs
      have heq := hqu e (by rw [hq]; simp)
      obtain ⟨q, hmq⟩ := Option.isSome_iff_exists.1 heq.2
      rw [hmq] at hs
      dsimp only at hs
      by_cases hv : e ∈ visited
      · rw [if_pos hv] at hs
        have hin : ∀ x, x ∈ visited ∨ x ∈ s.queue → x ∈ visited ∨ x ∈ queue := by
          intro x hx
          rw [hq, List.mem_cons] at hx
          rcases hx with hx | rfl | hx
          · exact Or.inl hx
          · exact Or.inl hv
          · exact Or.inr hx
        obtain ⟨V, i1, i2, i3, i4, i5⟩ := ih visited { s with queue := queue } s' (I.setQueue hK hK0 _) hvis
          (fun x hx => hqu x (by rw [hq]; exact List.mem_cons_of_mem _ hx)) (by
              rcases h0 with h0 | ⟨rest, h0⟩
              · exact Or.inl h0
              · rw [hq] at h0
                simp only [List.cons.injEq] at h0
                exact Or.inl (h0.1 ▸ hv)) (by
            refine ⟨T.keys, fun p hp hpD a t ht => Links.mono (s := s) (V := visited) (fun _ h => h) hin (T.links p hp hpD a t ht), fun p hp hp0 hpV => ?_⟩
            refine MergedFor.mono (R := s.Copy) (fun o q ⟨B, hB⟩ => ⟨B, hB⟩) (T.merged p hp hp0 ?_)
            refine hpV.imp id fun hx => ?_
            rw [hq]
            exact List.mem_cons_of_mem _ hx) hs
        exact ⟨V, i1, i2, i3, fun x hx => i4 x (hin x (by rw [hq]; exact hx)), i5⟩
      · rw [if_neg hv] at hs
        have hv0 : e0 ∈ e :: visited := by
          rcases h0 with h0 | ⟨rest, h0⟩
          · exact List.mem_cons_of_mem _ h0
          · rw [hq] at h0
            simp only [List.cons.injEq] at h0
            rw [h0.1]; exact List.mem_cons_self
        have Iq := I.setQueue hK hK0 queue
        have I1 := Iq.mergeOriginal hK hK0 hlt heq.1.1 (h.clocks e.2) (h.acts (s.loc e.1))
        dsimp only at I1
        have hoth := (mergeBranchingPrecise_narrows (h.clocks e.2) (h.acts (s.loc e.1)) s.loc e.1).others
        have hl1 : mergeBranchingPrecise (h.clocks e.2) (h.acts (s.loc e.1)) s.loc e.1 =
          (St.mk (mergeBranchingPrecise (h.clocks e.2) (h.acts (s.loc e.1)) s.loc e.1) s.states s.forward queue s.next).loc := rfl
        generalize hs1 : St.mk (mergeBranchingPrecise (h.clocks e.2) (h.acts (s.loc e.1)) s.loc e.1) s.states s.forward queue
          s.next = s1 at I1 hl1 hs
        rw [hl1] at hoth hs
        have hf1 : s1.forward = s.forward := by rw [← hs1]
        have hq1 : s1.queue = queue := by rw [← hs1]
        have hm1 : ∀ x, s1.map x = s.map x := fun x => by unfold St.map; rw [hf1]
        have hvis1 : ∀ x ∈ e :: visited, (s1.map x).isSome := by
          intro x hx
          rw [hm1]
          rw [List.mem_cons] at hx
          rcases hx with rfl | hx
          · exact heq.2
          · exact hvis x hx
        have hin : ∀ x, x ∈ visited ∨ x ∈ s.queue → x ∈ e :: visited ∨ x ∈ s1.queue := by
          intro x hx
          rw [hq, List.mem_cons] at hx
          rw [List.mem_cons, hq1]
          tauto
        have hin' : ∀ x, x ∈ e :: visited ∨ x ∈ s1.queue → x ∈ visited ∨ x ∈ s.queue := by
          intro x hx
          rw [List.mem_cons, hq1] at hx
          rw [hq, List.mem_cons]
          tauto
        have hloc1 : ∀ p ∈ s.forward, s1.loc p.2 = s.loc p.2 := by
          intro p hp
          refine hoth _ fun e1 => ?_
          have h1 := hlt _ heq.1.1
          have h2 := (I.addr p hp).1
          omega
        have T1 : Tracked h loc0 e0 (e :: visited) (· ∈ visited) s1 := by
          refine ⟨by rw [hf1]; exact T.keys, fun p hp hpD a t ht => ?_, fun p hp hp0 hpV => ?_⟩
          · rw [hf1] at hp
            rw [hloc1 p hp] at ht
            exact (T.links p hp hpD a t ht).mono (by rw [hf1]; exact fun _ h => h) hin
          · rw [hf1] at hp
            rw [hloc1 p hp]
            refine MergedFor.mono (R := s.Copy) (fun o q ⟨B, hB⟩ => ⟨B, by rw [hf1]; exact hB⟩) (T.merged p hp hp0 (hin' _ hpV))
        have hmem : (e, q) ∈ s1.forward := by rw [hf1]; exact lookup_mem' hmq
        match hr : (h.acts (s1.loc q)).foldlM (fun s a => rewire h (e :: visited) e.2 q a s [] ((s.loc q).next a)) s1 with
        | .error x => rw [hr] at hs; cases hs
        | .ok s2 =>
          rw [hr] at hs
          obtain ⟨I2, X2, T2, L2⟩ := rewireAll_tracked hK hM hK0 hC hF h hlt hv0 (eq := e) List.mem_cons_self
            (D := (· ∈ visited)) (fun x hx => List.mem_cons_of_mem _ hx) hv (h.acts (s1.loc q)) s1 s2 I1 hvis1 hmem T1 hr
          have T3 : Tracked h loc0 e0 (e :: visited) (· ∈ e :: visited) s2 := by
            refine ⟨T2.keys, fun p hp hpD a t ht => ?_, T2.merged⟩
            rw [List.mem_cons] at hpD
            rcases hpD with hpe | hpD
            · have hpq : p = (e, q) :=
                (List.nodup_map_iff_inj_on (List.Nodup.of_map _ T2.keys)).1 T2.keys _ hp _ (X2.mem hmem) hpe
              subst hpq
              refine L2 a ?_ t ht
              by_cases hne : (s1.loc q).next a = []
              · right
                rw [hne]
                simp
              · exact Or.inl (hacts _ _ hne)
            · exact T2.links p hp hpD a t ht
          obtain ⟨V, i1, i2, i3, i4, i5⟩ := ih (e :: visited) s2 s' I2 (fun x hx => X2.isSome (hvis1 x hx)) (by
              intro x hx
              obtain ⟨l, hl, hP⟩ := X2.queue
              rw [hl, List.mem_append, hq1] at hx
              rcases hx with hx | hx
              · have := hqu x (by rw [hq]; exact List.mem_cons_of_mem _ hx)
                exact ⟨this.1, X2.isSome (by rw [hm1]; exact this.2)⟩
              · exact hP x hx) (Or.inl hv0) T3 hs
          refine ⟨V, i1, i2, i3, fun x hx => i4 x ?_, fun p hp => i5 p (X2.mem (by rw [hf1]; exact hp))⟩
          obtain ⟨l, hl, _⟩ := X2.queue
          rw [hl, List.mem_append]
          have := hin x (by rw [hq]; exact hx)
          tauto

/-- The whole function. -/
theorem run_tracked (h : HashEnv) (hacts : ∀ (st : TAState) a, st.next a ≠ [] → a ∈ h.acts st) {loc : ℕ → TAState}
    {states : List ℕ} {init : ℕ} (hn : states.Nodup) (hw : Wired loc states)
    (hi : init ∈ states) (hu : (loc init).usedClockSize = 1) :
    ∃ n s V, (∀ m, n ≤ m → run h m loc states init = .ok (s.loc, s.states, states.foldr max 0 + 1 + states.idxOf init)) ∧
      Inv loc states (states.foldr max 0 + 1) (init, {0}) (From loc) (Exact loc) s ∧
      ((init, {0}), states.foldr max 0 + 1 + states.idxOf init) ∈ s.forward ∧
      Tracked h loc (init, {0}) V (· ∈ V) s ∧ s.queue = [] ∧ (init, {0}) ∈ V := by
  obtain ⟨s0, h1, h2, h3, I0⟩ := start_spec (e0 := (init, {0})) loc states hn hw
  have I1 := I0.weaken (G' := From loc) (G0' := Exact loc) (fun _ _ _ h => h.from) fun _ _ _ h => h
  have I2 := I1.setQueue (From.keeps loc) (Exact.keeps loc) [(init, {0})]
  have hC := clocks_from loc states
  have hlt : ∀ p ∈ states, p < states.foldr max 0 + 1 := fun p hp => by
    have := le_foldr_max states p hp
    omega
  have hmem : (((init, {0}) : Enhanced), states.foldr max 0 + 1 + states.idxOf init) ∈ s0.forward := by
    rw [h3]
    refine List.mem_map.2 ⟨init, hi, ?_⟩
    rw [hu]
    rfl
  have hsome : (s0.map (init, {0})).isSome := by
    unfold St.map
    rw [List.lookup_isSome_iff]
    exact ⟨_, hmem, by simp⟩
  have hqu : ∀ e ∈ (St.mk s0.loc s0.states s0.forward [(init, {0})] s0.next).queue, InU states (maxClocks loc states) e ∧
      (St.map { s0 with queue := [(init, {0})] } e).isSome := by
    intro e he
    dsimp only at he
    rw [List.mem_singleton] at he
    subst he
    refine ⟨⟨hi, ?_⟩, hsome⟩
    have := le_foldr_max (states.map fun q => (loc q).usedClockSize) _ (List.mem_map.2 ⟨init, hi, rfl⟩)
    intro x hx
    simp only [Finset.mem_singleton] at hx
    rw [Finset.mem_range]
    unfold maxClocks
    omega
  obtain ⟨n, s, hs, I3, l, hl⟩ := search_total (From.keeps loc) (From.merge loc states) (Exact.keeps loc) hC h hlt _ _ []
    { s0 with queue := [(init, {0})] } (le_refl _) (le_refl _) I2 (by simp) hqu (Or.inr ⟨[], rfl⟩)
  have T0 : Tracked h loc (init, {0}) [] (· ∈ ([] : List Enhanced)) { s0 with queue := [(init, {0})] } := by
    refine ⟨?_, by simp, ?_⟩
    · dsimp only
      rw [h3, List.map_map]
      refine (List.nodup_map_iff_inj_on hn).2 fun x hx y hy e => ?_
      exact congrArg Prod.fst e
    · intro p hp hp0 hpV
      simp only [List.not_mem_nil, List.mem_singleton, false_or] at hpV
      exact absurd hpV hp0
  obtain ⟨V, I4, T4, hq4, hV4, hf4⟩ := search_tracked (From.keeps loc) (From.merge loc states) (Exact.keeps loc) hC
    (fun _ _ _ h => h) h hacts hlt n [] { s0 with queue := [(init, {0})] } s I2 (by simp) hqu (Or.inr ⟨[], rfl⟩) T0 hs
  refine ⟨n, s, V, fun m hm => ?_, I4, hf4 _ hmem, T4, hq4, hV4 _ (Or.inr (by simp))⟩
  unfold run
  rw [h1]
  show (do
    let s' ← search h m [] { s0 with queue := [(init, {0})] }
    pure (s'.loc, s'.states, states.foldr max 0 + 1 + states.idxOf init)) = _
  rw [search_mono_le h hm hs]
  rfl

end Split
end LearnTA
