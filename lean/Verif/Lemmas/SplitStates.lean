import Verif.Model.Split
import Verif.Lemmas.Merge
import Verif.Lemmas.MergeTrans
import Verif.Lemmas.BoxGuard
import Mathlib.Data.Finset.Prod
import Mathlib.Data.Finset.Powerset

/-!
# The invariant of the splitting of states
-/

namespace LearnTA

namespace Trans

/-- `y` relaxes `x` and its guard mentions no other clock. -/
def Narrows (y x : Trans) : Prop := Relaxes y x ∧ ∀ c ∈ y.guard, ∃ d ∈ x.guard, d.x = c.x

theorem Narrows.refl (x : Trans) : Narrows x x := ⟨.refl x, fun c hc => ⟨c, hc, rfl⟩⟩

theorem Narrows.trans {x y z : Trans} (h : Narrows z y) (h' : Narrows y x) : Narrows z x := by
  refine ⟨h.1.trans h'.1, fun c hc => ?_⟩
  obtain ⟨d, hd, e⟩ := h.2 c hc
  obtain ⟨d', hd', e'⟩ := h'.2 d hd
  exact ⟨d', hd', e'.trans e⟩

theorem hull_clocks {gs : List Guard} {g : Guard} (hg : g ∈ gs) {c : Constraint} (hc : c ∈ Guard.unionHull gs) :
    ∃ d ∈ g, d.x = c.x := by
  have hne : gs ≠ [] := by rintro rfl; simp at hg
  obtain ⟨d, hd, e⟩ := ((Guard.mem_unionHull hne c).1 hc).1 g hg
  exact ⟨d, hd, congrArg Prod.fst e⟩

theorem mergeTransitions_narrows (loc : ℕ → TAState) (l r : Trans) :
    Narrows (mergeTransitions loc l r) l ∨ Narrows (mergeTransitions loc l r) r := by
  unfold mergeTransitions
  split
  · exact Or.inl ⟨⟨rfl, rfl, hull_weaker_left _ _ _ _⟩, fun c hc => hull_clocks (by simp) hc⟩
  · exact Or.inr ⟨⟨rfl, rfl, hull_weaker_right _ _ _ _⟩, fun c hc => hull_clocks (by simp) hc⟩

theorem combinePrecise_narrows (iter : List ℕ) (loc : ℕ → TAState) (l r : Trans) :
    Narrows (combinePrecise iter loc l r) l ∨ Narrows (combinePrecise iter loc l r) r := by
  unfold combinePrecise
  dsimp only
  split
  · exact Or.inl (.refl _)
  split
  · exact Or.inr (.refl _)
  split
  · exact mergeTransitions_narrows _ _ _
  split
  · split
    · exact Or.inr (.refl _)
    split
    · exact mergeTransitions_narrows _ _ _
    · exact Or.inl (.refl _)
  · split
    · exact Or.inr (.refl _)
    split
    · split
      · exact Or.inr ⟨⟨rfl, rfl, hull_weaker_right _ _ _ _⟩, fun c hc => hull_clocks (by simp) hc⟩
      · exact Or.inl ⟨⟨rfl, rfl, hull_weaker_left l r l.target l.resets⟩, fun c hc => hull_clocks (by simp) hc⟩
    · exact Or.inl (.refl _)

end Trans

theorem mergeBranchingPrecise_narrows (iter : List ℕ) (acts : List Action) (loc : ℕ → TAState) (q : ℕ) :
    Trans.Relates (fun _ _ => True) Trans.Narrows loc (mergeBranchingPrecise iter acts loc q) q :=
  mergeState_relates (test := Trans.overlap) (combine := Trans.combinePrecise iter)
    (fun _ => trivial) (fun _ _ _ _ _ => trivial) .refl (fun _ _ _ h h' => h.trans h')
    (fun _ _ _ _ => ⟨trivial, trivial⟩) (fun loc t u _ => Trans.combinePrecise_narrows iter loc t u) acts loc q

namespace Split

/-- `q` is a copy of the state `o`. -/
def St.Copy (s : St) (o q : ℕ) : Prop := ∃ A, ((o, A), q) ∈ s.forward

/-- A property of the transitions of a copy, given which states are copies of which. -/
abbrev Shape := (ℕ → ℕ → Prop) → ℕ → (Action → List Trans) → Prop

/-- The property is kept when there are more copies, and when a target is replaced by another copy of the same state. -/
structure Keeps (G : Shape) : Prop where
  mono : ∀ {R R' : ℕ → ℕ → Prop} {o f}, (∀ o q, R o q → R' o q) → G R o f → G R' o f
  target : ∀ {R : ℕ → ℕ → Prop} {o : ℕ} {f : Action → List Trans} {a : Action} {t : Trans}, G R o f → t ∈ f a →
    ∃ o', R o' t.target
  retarget : ∀ {R : ℕ → ℕ → Prop} {o : ℕ} {f : Action → List Trans} {a : Action} {d ts : List Trans} {t : Trans} {n o' : ℕ},
    (∀ o o' q, R o q → R o' q → o = o') → G R o f → f a = d ++ t :: ts → R o' t.target → R o' n →
    G R o (Function.update f a (d ++ { t with target := n } :: ts))

/-- The property is kept by merging. -/
def KeepsMerge (states0 : List ℕ) (G : Shape) : Prop := ∀ {R : ℕ → ℕ → Prop} {o : ℕ} (iter : List ℕ) (acts : List Action)
  (loc : ℕ → TAState) (q : ℕ), o ∈ states0 → G R o (loc q).next → G R o (mergeBranchingPrecise iter acts loc q q).next

/-- Every transition comes from one of the original state. -/
def From (loc0 : ℕ → TAState) : Shape := fun R o f => ∀ a, ∀ t' ∈ f a, ∃ t ∈ (loc0 o).next a, R t.target t'.target ∧
  t'.resets = t.resets ∧ Trans.Weaker t' t ∧ ∀ c ∈ t'.guard, ∃ d ∈ t.guard, d.x = c.x

/-- The transitions are those of the original state. -/
def Exact (loc0 : ℕ → TAState) : Shape := fun R o f => ∀ a, List.Forall₂ (fun t' t : Trans => R t.target t'.target ∧
  t'.resets = t.resets ∧ t'.guard = t.guard) (f a) ((loc0 o).next a)

theorem From.keeps (loc0 : ℕ → TAState) : Keeps (From loc0) where
  mono h hG a t' ht' := by
    obtain ⟨t, ht, h1, h2⟩ := hG a t' ht'
    exact ⟨t, ht, h _ _ h1, h2⟩
  target hG ht := by
    obtain ⟨t, _, h1, _⟩ := hG _ _ ht
    exact ⟨_, h1⟩
  retarget := by
    intro R o f a d ts t n o' hf hG hfa ht hn b t' ht'
    rw [Function.update_apply] at ht'
    split at ht'
    · rename_i e
      subst e
      simp only [List.mem_append, List.mem_cons] at ht'
      rcases ht' with h | rfl | h
      · exact hG b t' (by rw [hfa]; simp [h])
      · obtain ⟨x, hx, h1, h2⟩ := hG b t (by rw [hfa]; simp)
        exact ⟨x, hx, by rw [hf _ _ _ h1 ht]; exact hn, h2⟩
      · exact hG b t' (by rw [hfa]; simp [h])
    · exact hG b t' ht'

theorem From.merge (loc0 : ℕ → TAState) (states0 : List ℕ) : KeepsMerge states0 (From loc0) := by
  intro R o iter acts loc q _ hG a t' ht'
  obtain ⟨x, hx, ⟨e1, e2, e3⟩, e4⟩ := (mergeBranchingPrecise_narrows iter acts loc q).origin a t' ht'
  obtain ⟨t, ht, h1, h2, h3, h4⟩ := hG a x hx
  refine ⟨t, ht, by rw [e1]; exact h1, e2.trans h2, fun v hv => e3 v (h3 v hv), fun c hc => ?_⟩
  obtain ⟨d, hd, e⟩ := e4 c hc
  obtain ⟨d', hd', e'⟩ := h4 d hd
  exact ⟨d', hd', e'.trans e⟩

theorem forall₂_append_left {α β : Type} {R : α → β → Prop} {l1 l2 : List α} : ∀ {l : List β}, List.Forall₂ R (l1 ++ l2) l →
    ∃ m1 m2, List.Forall₂ R l1 m1 ∧ List.Forall₂ R l2 m2 ∧ l = m1 ++ m2 := by
  induction l1 with
  | nil => intro l h; exact ⟨[], l, .nil, h, rfl⟩
  | cons x l1 ih =>
    intro l h
    cases h with
    | cons hx hxs =>
      obtain ⟨m1, m2, h1, h2, rfl⟩ := ih hxs
      exact ⟨_ :: m1, m2, .cons hx h1, h2, rfl⟩

theorem Exact.keeps (loc0 : ℕ → TAState) : Keeps (Exact loc0) where
  mono h hG a := (hG a).imp fun _ _ h1 => ⟨h _ _ h1.1, h1.2⟩
  target hG ht := by
    obtain ⟨t, _, h1, _⟩ := Trans.forall₂_mem_left (hG _) ht
    exact ⟨_, h1⟩
  retarget := by
    intro R o f a d ts t n o' hf hG hfa ht hn b
    rw [Function.update_apply]
    split
    · rename_i e
      subst e
      have h := hG b
      rw [hfa] at h
      obtain ⟨l1, l2, h1, h2, e⟩ := forall₂_append_left h
      rw [e]
      cases h2 with
      | cons hx hxs =>
        exact List.rel_append h1 (.cons ⟨by rw [hf _ _ _ hx.1 ht]; exact hn, hx.2⟩ hxs)
    · exact hG b

theorem Exact.from {loc0 : ℕ → TAState} {R : ℕ → ℕ → Prop} {o : ℕ} {f : Action → List Trans} (h : Exact loc0 R o f) :
    From loc0 R o f := by
  intro a t' ht'
  obtain ⟨t, ht, h1, h2, h3⟩ := Trans.forall₂_mem_left (h a) ht'
  exact ⟨t, ht, h1, h2, by intro v hv; rw [h3]; exact hv, by rw [h3]; exact fun c hc => ⟨c, hc, rfl⟩⟩

/-- A deterministic automaton: the transitions are kept by merging. -/
theorem Exact.merge {loc0 : ℕ → TAState} {states0 : List ℕ} (hs : ∀ p ∈ states0, ∀ a, ∀ t ∈ (loc0 p).next a, t.guard.Small)
    (hd : ∀ p ∈ states0, ∀ a, ((loc0 p).next a).Pairwise fun t u =>
      ∀ v : Valuation, v.Nonneg → ¬ (t.guard.Holds v ∧ u.guard.Holds v)) :
    KeepsMerge states0 (Exact loc0) := by
  intro R o iter acts loc q ho hG
  have : mergeBranchingPrecise iter acts loc q = loc := by
    refine mergeState_eq acts loc q fun a _ => Trans.disjoint_sat _ ?_ ?_
    · have h := hd o ho a
      have h2 := hG a
      unfold Trans.Disjoint
      generalize (loc0 o).next a = l at h h2
      generalize (loc q).next a = l' at h2
      induction h2 with
      | nil => exact .nil
      | @cons t' t ts' ts hx hxs ih =>
        rw [List.pairwise_cons] at h ⊢
        refine ⟨fun u' hu' v hv => ?_, ih h.2⟩
        obtain ⟨u, hu, e⟩ := Trans.forall₂_mem_left hxs hu'
        rw [hx.2.2, e.2.2]
        exact h.1 u hu v hv
    · intro t' ht'
      obtain ⟨t, ht, e⟩ := Trans.forall₂_mem_left (hG a) ht'
      rw [e.2.2]
      exact hs o ho a t ht
  rw [this]
  exact hG

variable {loc0 : ℕ → TAState} {states0 : List ℕ} {base : ℕ} {e0 : Enhanced} {G G0 : Shape} {P : Enhanced → Prop}

/-- The invariant: `G` holds of all copies, `G0` of the one for `e0`. -/
structure Inv (loc0 : ℕ → TAState) (states0 : List ℕ) (base : ℕ) (e0 : Enhanced) (G G0 : Shape) (s : St) : Prop where
  nodup : (s.forward.map Prod.snd).Nodup
  states : s.states = s.forward.map Prod.snd
  addr : ∀ p ∈ s.forward, base ≤ p.2 ∧ p.2 < s.next
  orig : ∀ p ∈ s.forward, p.1.1 ∈ states0
  isMatch : ∀ p ∈ s.forward, (s.loc p.2).isMatch = (loc0 p.1.1).isMatch
  keep : ∀ p ∈ states0, (s.loc p).isMatch = (loc0 p).isMatch
  shape : ∀ p ∈ s.forward, G s.Copy p.1.1 (s.loc p.2).next
  first : ∀ p ∈ s.forward, p.1 = e0 → G0 s.Copy p.1.1 (s.loc p.2).next
  next : base ≤ s.next

namespace Inv

variable {s : St}

theorem unique (I : Inv loc0 states0 base e0 G G0 s) {p p' : Enhanced × ℕ} (h : p ∈ s.forward) (h' : p' ∈ s.forward)
    (e : p.2 = p'.2) : p = p' :=
  (List.nodup_map_iff_inj_on (List.Nodup.of_map _ I.nodup)).1 I.nodup _ h _ h' e

theorem copy_fun (I : Inv loc0 states0 base e0 G G0 s) (o o' q : ℕ) (h : s.Copy o q) (h' : s.Copy o' q) : o = o' := by
  obtain ⟨A, h⟩ := h
  obtain ⟨B, h'⟩ := h'
  have := I.unique h h' rfl
  rw [Prod.mk.injEq, Prod.mk.injEq] at this
  exact this.1.1

theorem toOriginal (I : Inv loc0 states0 base e0 G G0 s) {o q : ℕ} (h : s.Copy o q) : s.toOriginal q = some o := by
  obtain ⟨A, h⟩ := h
  unfold St.toOriginal
  cases hf : s.forward.find? (fun p => p.2 == q) with
  | none =>
    rw [List.find?_eq_none] at hf
    exact absurd (by simp) (hf _ h)
  | some p =>
    have h1 := List.mem_of_find?_eq_some hf
    have h2 : p.2 = q := by simpa using List.find?_some hf
    rw [I.unique h1 h h2]
    rfl

end Inv

theorem lookup_mem' {α β : Type} [BEq α] [LawfulBEq α] {l : List (α × β)} {k : α} {v : β} (h : l.lookup k = some v) :
    (k, v) ∈ l := by
  induction l with
  | nil => simp at h
  | cons p l ih =>
    obtain ⟨k', v'⟩ := p
    rw [List.lookup_cons] at h
    split at h
    · rename_i e
      have := LawfulBEq.eq_of_beq e
      simp_all
    · exact List.mem_cons_of_mem _ (ih h)

theorem lookup_append' {α β : Type} [BEq α] (l l' : List (α × β)) (k : α) :
    (l ++ l').lookup k = (l.lookup k).or (l'.lookup k) := by
  induction l with
  | nil => simp
  | cons p l ih =>
    obtain ⟨k', v'⟩ := p
    rw [List.cons_append, List.lookup_cons, List.lookup_cons]
    split
    · simp
    · exact ih

/-- What one step may do: more copies, more entries of the queue. -/
structure Ext (P : Enhanced → Prop) (s s' : St) : Prop where
  forward : ∃ l, s'.forward = s.forward ++ l
  queue : ∃ l, s'.queue = s.queue ++ l ∧ ∀ e ∈ l, P e ∧ (s'.map e).isSome

theorem Ext.map {s s' : St} (h : Ext P s s') {e : Enhanced} {q : ℕ} (hm : s.map e = some q) : s'.map e = some q := by
  obtain ⟨l, e1⟩ := h.forward
  unfold St.map at *
  rw [e1, lookup_append', hm]
  rfl

theorem Ext.isSome {s s' : St} (h : Ext P s s') {e : Enhanced} (hm : (s.map e).isSome) : (s'.map e).isSome := by
  obtain ⟨q, hq⟩ := Option.isSome_iff_exists.1 hm
  rw [h.map hq]
  rfl

theorem Ext.mem {s s' : St} (h : Ext P s s') {p : Enhanced × ℕ} (hm : p ∈ s.forward) : p ∈ s'.forward := by
  obtain ⟨l, e1⟩ := h.forward
  rw [e1]
  exact List.mem_append_left _ hm

theorem Ext.copy {s s' : St} (h : Ext P s s') (o q : ℕ) : s.Copy o q → s'.Copy o q := fun ⟨A, hA⟩ => ⟨A, h.mem hA⟩

theorem Ext.refl (s : St) : Ext P s s := ⟨⟨[], by simp⟩, [], by simp, by simp⟩

theorem Ext.trans {s s' s'' : St} (h : Ext P s s') (h' : Ext P s' s'') : Ext P s s'' := by
  refine ⟨?_, ?_⟩
  · obtain ⟨l, e⟩ := h.forward
    obtain ⟨l', e'⟩ := h'.forward
    exact ⟨l ++ l', by rw [e', e, List.append_assoc]⟩
  · obtain ⟨l, e, hl⟩ := h.queue
    obtain ⟨l', e', hl'⟩ := h'.queue
    refine ⟨l ++ l', by rw [e', e, List.append_assoc], fun x hx => ?_⟩
    rw [List.mem_append] at hx
    rcases hx with hx | hx
    · exact ⟨(hl x hx).1, h'.isSome (hl x hx).2⟩
    · exact hl' x hx

/-- Making a state and giving it the transitions of another copy. -/
theorem discover_spec (hK : Keeps G) (hM : KeepsMerge states0 G) (hK0 : Keeps G0) (h : HashEnv) {s : St}
    (hlt : ∀ p ∈ states0, p < base)
    (I : Inv loc0 states0 base e0 G G0 s) {e : Enhanced} (he : e ≠ e0) (ho : e.1 ∈ states0) (hP : P e) {target : ℕ}
    (ht : s.Copy e.1 target) :
    Inv loc0 states0 base e0 G G0 (discover h s target e) ∧ Ext P s (discover h s target e) ∧
      ((discover h s target e).map e).isSome ∧
      ∀ p ∈ s.forward, p.1 ≠ e → (discover h s target e).loc p.2 = s.loc p.2 := by
  obtain ⟨A, htA⟩ := ht
  have hM' := mergeBranchingPrecise_narrows
  unfold discover St.make
  cases hm : s.map e with
  | some q =>
    dsimp only
    have hq : (e, q) ∈ s.forward := lookup_mem' hm
    generalize hloc : Function.update s.loc q { s.loc q with next := (s.loc target).next } = loc1
    have hR := hM' (h.clocks e.2) (h.acts (loc1 q)) loc1 q
    have hother : ∀ p, p ≠ q → mergeBranchingPrecise (h.clocks e.2) (h.acts (loc1 q)) loc1 q p = s.loc p := by
      intro p hp
      rw [hR.others p hp, ← hloc, Function.update_of_ne hp]
    have hmq : (mergeBranchingPrecise (h.clocks e.2) (h.acts (loc1 q)) loc1 q q).isMatch = (s.loc q).isMatch := by
      rw [hR.isMatch, ← hloc, Function.update_self]
    have hne : ∀ p ∈ states0, p ≠ q := fun p hp e1 => by
      have h1 := hlt p hp
      have h2 := (I.addr _ hq).1
      dsimp only at h2
      omega
    refine ⟨⟨I.nodup, I.states, I.addr, I.orig, ?_, ?_, ?_, ?_, I.next⟩, ⟨⟨[], by simp⟩, [e], rfl, ?_⟩, ?_, ?_⟩
    · intro p hp
      dsimp only
      by_cases e1 : p.2 = q
      · rw [e1, hmq, ← e1]; exact I.isMatch p hp
      · rw [hother _ e1]; exact I.isMatch p hp
    · intro p hp
      dsimp only
      rw [hother _ (hne p hp)]
      exact I.keep p hp
    · intro p hp
      refine hK.mono (R := s.Copy) (fun o q ⟨B, hB⟩ => ⟨B, hB⟩) ?_
      dsimp only
      by_cases e1 : p.2 = q
      · have e2 : p = (e, q) := I.unique hp hq e1
        rw [e1, e2]
        refine hM _ _ _ _ ho ?_
        rw [← hloc, Function.update_self]
        exact I.shape _ htA
      · rw [hother _ e1]; exact I.shape p hp
    · intro p hp hpe
      refine hK0.mono (R := s.Copy) (fun o q ⟨B, hB⟩ => ⟨B, hB⟩) ?_
      dsimp only
      by_cases e1 : p.2 = q
      · have e2 : p = (e, q) := I.unique hp hq e1
        exact absurd (by rw [← hpe, e2]) he
      · rw [hother _ e1]; exact I.first p hp hpe
    · intro x hx
      rw [List.mem_singleton] at hx
      subst hx
      refine ⟨hP, ?_⟩
      unfold St.map at hm ⊢
      dsimp only
      rw [hm]; rfl
    · unfold St.map at hm ⊢
      dsimp only
      rw [hm]; rfl
    · intro p hp hpe
      refine hother _ fun e1 => hpe ?_
      rw [I.unique hp hq e1]
  | none =>
    dsimp only
    have htn : target ≠ s.next := fun e1 => by
      have := (I.addr _ htA).2
      dsimp only at this
      omega
    have hne : ∀ p ∈ states0, p ≠ s.next := fun p hp e1 => by
      have h1 := hlt p hp
      have h2 := I.next
      omega
    have hen : e.1 ≠ s.next := hne _ ho
    have hfn : ∀ p ∈ s.forward, p.2 ≠ s.next := fun p hp e1 => by
      have := (I.addr _ hp).2
      omega
    have hmono : ∀ (t : St), t.forward = s.forward ++ [(e, s.next)] → ∀ o q, s.Copy o q → t.Copy o q := by
      intro t e1 o q ⟨B, hB⟩
      refine ⟨B, ?_⟩
      rw [e1]
      exact List.mem_append_left _ hB
    generalize hloc0 : Function.update s.loc s.next ⟨(s.loc e.1).isMatch, fun _ => []⟩ = loc1
    generalize hloc : Function.update loc1 s.next { loc1 s.next with next := (loc1 target).next } = loc2
    have hR := hM' (h.clocks e.2) (h.acts (loc2 s.next)) loc2 s.next
    have hother : ∀ p, p ≠ s.next → mergeBranchingPrecise (h.clocks e.2) (h.acts (loc2 s.next)) loc2 s.next p = s.loc p := by
      intro p hp
      rw [hR.others p hp, ← hloc, Function.update_of_ne hp, ← hloc0, Function.update_of_ne hp]
    have hmq : (mergeBranchingPrecise (h.clocks e.2) (h.acts (loc2 s.next)) loc2 s.next s.next).isMatch =
        (s.loc e.1).isMatch := by
      rw [hR.isMatch, ← hloc, Function.update_self, ← hloc0, Function.update_self]
    have hmap : (s.forward ++ [(e, s.next)]).lookup e = some s.next := by
      unfold St.map at hm
      rw [lookup_append', hm]
      simp [List.lookup_cons]
    refine ⟨⟨?_, ?_, ?_, ?_, ?_, ?_, ?_, ?_, ?_⟩, ⟨⟨_, rfl⟩, [e], rfl, ?_⟩, ?_, ?_⟩
    · dsimp only
      rw [List.map_append, List.nodup_append]
      refine ⟨I.nodup, by simp, ?_⟩
      intro x hx y hy e1
      simp only [List.map_cons, List.map_nil, List.mem_singleton] at hy
      obtain ⟨p, hp, rfl⟩ := List.mem_map.1 hx
      exact hfn p hp (e1.trans hy)
    · dsimp only
      rw [List.map_append, I.states]
      rfl
    · intro p hp
      dsimp only at hp ⊢
      simp only [List.mem_append, List.mem_singleton] at hp
      rcases hp with hp | rfl
      · have := I.addr p hp
        omega
      · have := I.next
        dsimp only
        omega
    · intro p hp
      dsimp only at hp
      simp only [List.mem_append, List.mem_singleton] at hp
      rcases hp with hp | rfl
      · exact I.orig p hp
      · exact ho
    · intro p hp
      dsimp only at hp ⊢
      simp only [List.mem_append, List.mem_singleton] at hp
      rcases hp with hp | rfl
      · rw [hother _ (hfn p hp)]; exact I.isMatch p hp
      · dsimp only
        rw [hmq]
        exact I.keep _ ho
    · intro p hp
      dsimp only
      rw [hother _ (hne p hp)]
      exact I.keep p hp
    · intro p hp
      dsimp only at hp
      refine hK.mono (hmono _ rfl) ?_
      dsimp only
      simp only [List.mem_append, List.mem_singleton] at hp
      rcases hp with hp | rfl
      · rw [hother _ (hfn p hp)]; exact I.shape p hp
      · refine hM _ _ _ _ ho ?_
        rw [← hloc, Function.update_self]
        dsimp only
        rw [← hloc0, Function.update_of_ne htn]
        exact I.shape _ htA
    · intro p hp hpe
      dsimp only at hp
      refine hK0.mono (hmono _ rfl) ?_
      dsimp only
      simp only [List.mem_append, List.mem_singleton] at hp
      rcases hp with hp | rfl
      · rw [hother _ (hfn p hp)]; exact I.first p hp hpe
      · exact absurd hpe he
    · have := I.next
      dsimp only
      omega
    · intro x hx
      rw [List.mem_singleton] at hx
      subst hx
      refine ⟨hP, ?_⟩
      unfold St.map
      dsimp only
      rw [hmap]; rfl
    · unfold St.map
      dsimp only
      rw [hmap]; rfl
    · intro p hp hpe
      exact hother _ (hfn p hp)

theorem Inv.setTarget (hK : Keeps G) (hK0 : Keeps G0) {s : St} (hlt : ∀ p ∈ states0, p < base)
    (I : Inv loc0 states0 base e0 G G0 s) {eq : Enhanced} {q : ℕ} (hq : (eq, q) ∈ s.forward) {a : Action}
    {d ts : List Trans} {t : Trans} (hl : (s.loc q).next a = d ++ t :: ts) {n o : ℕ} (h1 : s.Copy o t.target)
    (h2 : s.Copy o n) :
    Inv loc0 states0 base e0 G G0 { s with loc := setList s.loc q a (d ++ { t with target := n } :: ts) } := by
  have hset : ∀ p, ((setList s.loc q a (d ++ { t with target := n } :: ts)) p).next =
      if p = q then Function.update (s.loc q).next a (d ++ { t with target := n } :: ts) else (s.loc p).next := by
    intro p
    split
    · rename_i e
      subst e
      unfold setList TAState.setNext
      rw [Function.update_self]
    · rename_i e
      rw [setList_other _ e]
  refine ⟨I.nodup, I.states, I.addr, I.orig, ?_, ?_, ?_, ?_, I.next⟩
  · intro p hp
    dsimp only
    rw [setList_isMatch]
    exact I.isMatch p hp
  · intro p hp
    dsimp only
    rw [setList_isMatch]
    exact I.keep p hp
  · intro p hp
    refine hK.mono (R := s.Copy) (fun o q ⟨B, hB⟩ => ⟨B, hB⟩) ?_
    dsimp only
    rw [hset]
    split
    · rename_i e
      have := I.shape p hp
      rw [e] at this
      exact hK.retarget I.copy_fun this hl h1 h2
    · exact I.shape p hp
  · intro p hp hpe
    refine hK0.mono (R := s.Copy) (fun o q ⟨B, hB⟩ => ⟨B, hB⟩) ?_
    dsimp only
    rw [hset]
    split
    · rename_i e
      have := I.first p hp hpe
      rw [e] at this
      exact hK0.retarget I.copy_fun this hl h1 h2
    · exact I.first p hp hpe

theorem usedClockSize_le {s : TAState} {K : ℕ} (h : ∀ a, ∀ t ∈ s.next a, ∀ c ∈ t.guard, c.x < K) : s.usedClockSize ≤ K := by
  unfold TAState.usedClockSize
  have key : ∀ (l : List Trans) (m : ℕ), m ≤ K → (∀ t ∈ l, ∀ c ∈ t.guard, c.x < K) →
      l.foldl (fun m t => t.guard.foldl (fun m c => max m (c.x + 1)) m) m ≤ K := by
    intro l
    induction l with
    | nil => intro m hm _; exact hm
    | cons t l ih =>
      intro m hm hl
      rw [List.foldl_cons]
      refine ih _ ?_ fun u hu => hl u (List.mem_cons_of_mem _ hu)
      have key2 : ∀ (g : List Constraint) (m : ℕ), m ≤ K → (∀ c ∈ g, c.x < K) →
          g.foldl (fun m c => max m (c.x + 1)) m ≤ K := by
        intro g
        induction g with
        | nil => intro m hm _; exact hm
        | cons c g ih' =>
          intro m hm hg
          rw [List.foldl_cons]
          refine ih' _ ?_ fun d hd => hg d (List.mem_cons_of_mem _ hd)
          have := hg c List.mem_cons_self
          omega
      exact key2 _ m hm (hl t List.mem_cons_self)
  refine key _ 0 (Nat.zero_le _) fun t ht => ?_
  rw [List.mem_flatMap] at ht
  obtain ⟨a, _, ht⟩ := ht
  exact h a t ht

/-- An original state with a set of the clocks below `K`. -/
def InU (states0 : List ℕ) (K : ℕ) (e : Enhanced) : Prop := e.1 ∈ states0 ∧ e.2 ⊆ Finset.range K

/-- The guards of copies mention the clocks below `K` only. -/
def ClocksBelow (states0 : List ℕ) (K : ℕ) (G : Shape) : Prop := ∀ (R : ℕ → ℕ → Prop) (o : ℕ) (f : Action → List Trans),
  o ∈ states0 → G R o f → ∀ a, ∀ t ∈ f a, ∀ c ∈ t.guard, c.x < K

theorem rewire_spec (hK : Keeps G) (hM : KeepsMerge states0 G) (hK0 : Keeps G0) {K : ℕ} (hC : ClocksBelow states0 K G)
    (h : HashEnv) (hlt : ∀ p ∈ states0, p < base) {visited : List Enhanced} (hv0 : e0 ∈ visited) {eq : Enhanced}
    (hve : eq ∈ visited) (precise : Finset ℕ) {q : ℕ} (a : Action) : ∀ (ts done : List Trans) (s : St),
    Inv loc0 states0 base e0 G G0 s → (∀ e ∈ visited, (s.map e).isSome) → (eq, q) ∈ s.forward →
    (s.loc q).next a = done ++ ts →
    ∃ s', rewire h visited precise q a s done ts = .ok s' ∧ Inv loc0 states0 base e0 G G0 s' ∧ Ext (InU states0 K) s s' := by
  intro ts
  induction ts with
  | nil => intro done s I _ hq hl; exact ⟨s, rfl, I, .refl s⟩
  | cons t ts ih =>
    intro done s I hvis hq hl
    unfold rewire
    obtain ⟨o, hto⟩ := hK.target (I.shape _ hq) (a := a) (t := t) (by dsimp only; rw [hl]; simp)
    rw [I.toOriginal hto]
    dsimp only
    obtain ⟨A, htA⟩ := hto
    have ho : o ∈ states0 := I.orig _ htA
    generalize he : ((o, preciseAfterReset (s.loc t.target).usedClockSize precise t.resets) : Enhanced) = e
    have he1 : e.1 = o := by rw [← he]
    have hP : InU states0 K e := by
      refine ⟨by rw [he1]; exact ho, ?_⟩
      rw [← he]
      intro x hx
      have h1 : x < (s.loc t.target).usedClockSize := (mem_preciseAfterReset.1 hx).1
      have h2 := usedClockSize_le (hC _ _ _ ho (I.shape _ htA))
      dsimp only at h2
      exact Finset.mem_range.2 (by omega)
    have hs1 : ∃ s1, (if e ∈ visited then s else discover h s t.target e) = s1 ∧ Inv loc0 states0 base e0 G G0 s1 ∧
        Ext (InU states0 K) s s1 ∧ s1.loc q = s.loc q ∧ (e ∉ visited → (s1.map e).isSome) := by
      split
      · exact ⟨s, rfl, I, .refl s, rfl, fun hn => absurd ‹_› hn⟩
      · rename_i hn
        obtain ⟨h1, h2, h3, h4⟩ := discover_spec (P := InU states0 K) hK hM hK0 h hlt I (e := e)
          (fun e1 => hn (e1 ▸ hv0)) (by rw [he1]; exact ho) hP (target := t.target) ⟨A, by rw [he1]; exact htA⟩
        exact ⟨_, rfl, h1, h2, h4 _ hq (fun e1 => hn (e1 ▸ hve)), fun _ => h3⟩
    obtain ⟨s1, e1, I1, X1, hl1, hm1⟩ := hs1
    rw [e1]
    have hsome : (s1.map e).isSome := by
      by_cases hn : e ∈ visited
      · exact X1.isSome (hvis e hn)
      · exact hm1 hn
    obtain ⟨n, hn⟩ := Option.isSome_iff_exists.1 hsome
    rw [hn]
    dsimp only
    have hmem : (e, n) ∈ s1.forward := lookup_mem' hn
    have hl' : (s1.loc q).next a = done ++ t :: ts := by rw [hl1, hl]
    have I2 := I1.setTarget hK hK0 hlt (X1.mem hq) hl' (o := o) (n := n) ⟨A, X1.mem htA⟩ ⟨e.2, by rw [← he1]; exact hmem⟩
    have X2 : Ext (InU states0 K) s1 { s1 with loc := setList s1.loc q a (done ++ { t with target := n } :: ts) } :=
      ⟨⟨[], by simp⟩, [], by simp, by simp⟩
    obtain ⟨s', h1, h2, h3⟩ := ih (done ++ [{ t with target := n }]) _ I2
      (fun e he => X2.isSome (X1.isSome (hvis e he))) (X2.mem (X1.mem hq)) (by
        dsimp only
        rw [setList_self_next, if_pos rfl]
        simp)
    exact ⟨s', h1, h2, X1.trans (X2.trans h3)⟩

theorem rewireAll_spec (hK : Keeps G) (hM : KeepsMerge states0 G) (hK0 : Keeps G0) {K : ℕ} (hC : ClocksBelow states0 K G)
    (h : HashEnv) (hlt : ∀ p ∈ states0, p < base) {visited : List Enhanced} (hv0 : e0 ∈ visited) {eq : Enhanced}
    (hve : eq ∈ visited) (precise : Finset ℕ) {q : ℕ} : ∀ (acts : List Action) (s : St),
    Inv loc0 states0 base e0 G G0 s → (∀ e ∈ visited, (s.map e).isSome) → (eq, q) ∈ s.forward →
    ∃ s', acts.foldlM (fun s a => rewire h visited precise q a s [] ((s.loc q).next a)) s = .ok s' ∧
      Inv loc0 states0 base e0 G G0 s' ∧ Ext (InU states0 K) s s' := by
  intro acts
  induction acts with
  | nil => intro s I _ _; exact ⟨s, rfl, I, .refl s⟩
  | cons a acts ih =>
    intro s I hvis hq
    obtain ⟨s1, h1, I1, X1⟩ := rewire_spec hK hM hK0 hC h hlt hv0 hve precise a ((s.loc q).next a) [] s I hvis hq (by simp)
    obtain ⟨s', h2, I2, X2⟩ := ih s1 I1 (fun e he => X1.isSome (hvis e he)) (X1.mem hq)
    refine ⟨s', ?_, I2, X1.trans X2⟩
    rw [List.foldlM_cons, h1]
    exact h2

/-- Merging the transitions of an original state. -/
theorem Inv.mergeOriginal (hK : Keeps G) (hK0 : Keeps G0) {s : St} (hlt : ∀ p ∈ states0, p < base)
    (I : Inv loc0 states0 base e0 G G0 s) {o : ℕ} (ho : o ∈ states0) (iter : List ℕ) (acts : List Action) :
    Inv loc0 states0 base e0 G G0 { s with loc := mergeBranchingPrecise iter acts s.loc o } := by
  have hR := mergeBranchingPrecise_narrows iter acts s.loc o
  have hne : ∀ p ∈ s.forward, p.2 ≠ o := fun p hp e => by
    have h1 := hlt o ho
    have h2 := (I.addr p hp).1
    omega
  refine ⟨I.nodup, I.states, I.addr, I.orig, ?_, ?_, ?_, ?_, I.next⟩
  · intro p hp
    dsimp only
    rw [hR.others _ (hne p hp)]
    exact I.isMatch p hp
  · intro p hp
    dsimp only
    by_cases e : p = o
    · rw [e, hR.isMatch]
      exact I.keep o ho
    · rw [hR.others _ e]
      exact I.keep p hp
  · intro p hp
    refine hK.mono (R := s.Copy) (fun o q ⟨B, hB⟩ => ⟨B, hB⟩) ?_
    dsimp only
    rw [hR.others _ (hne p hp)]
    exact I.shape p hp
  · intro p hp hpe
    refine hK0.mono (R := s.Copy) (fun o q ⟨B, hB⟩ => ⟨B, hB⟩) ?_
    dsimp only
    rw [hR.others _ (hne p hp)]
    exact I.first p hp hpe

theorem Inv.setQueue (hK : Keeps G) (hK0 : Keeps G0) {s : St}
    (I : Inv loc0 states0 base e0 G G0 s) (l : List Enhanced) : Inv loc0 states0 base e0 G G0 { s with queue := l } :=
  ⟨I.nodup, I.states, I.addr, I.orig, I.isMatch, I.keep,
    fun p hp => hK.mono (R := s.Copy) (fun o q ⟨B, hB⟩ => ⟨B, hB⟩) (I.shape p hp),
    fun p hp e => hK0.mono (R := s.Copy) (fun o q ⟨B, hB⟩ => ⟨B, hB⟩) (I.first p hp e), I.next⟩

/-- The search ends. -/
theorem search_total (hK : Keeps G) (hM : KeepsMerge states0 G) (hK0 : Keeps G0) {K : ℕ} (hC : ClocksBelow states0 K G)
    (h : HashEnv) (hlt : ∀ p ∈ states0, p < base) : ∀ (m k : ℕ) (visited : List Enhanced) (s : St),
    ((states0.toFinset ×ˢ (Finset.range K).powerset).filter (· ∉ visited)).card ≤ m → s.queue.length ≤ k →
    Inv loc0 states0 base e0 G G0 s → (∀ e ∈ visited, (s.map e).isSome) →
    (∀ e ∈ s.queue, InU states0 K e ∧ (s.map e).isSome) → (e0 ∈ visited ∨ ∃ rest, s.queue = e0 :: rest) →
    ∃ n s', search h n visited s = .ok s' ∧ Inv loc0 states0 base e0 G G0 s' ∧ ∃ l, s'.forward = s.forward ++ l := by
  intro m
  induction m using Nat.strong_induction_on with
  | _ m ihm =>
    intro k
    induction k with
    | zero =>
      intro visited s hm hk I hvis hqu h0
      have : s.queue = [] := List.length_eq_zero_iff.1 (by omega)
      exact ⟨1, s, by unfold search; rw [this], I, [], by simp⟩
    | succ k ihk =>
      intro visited s hm hk I hvis hqu h0
      cases hq : s.queue with
      | nil => exact ⟨1, s, by unfold search; rw [hq], I, [], by simp⟩
      | cons e queue =>
        have heq := hqu e (by rw [hq]; simp)
        obtain ⟨q, hmq⟩ := Option.isSome_iff_exists.1 heq.2
        by_cases hv : e ∈ visited
        · obtain ⟨n, s', h1, h2, h3⟩ := ihk visited { s with queue := queue } hm (by rw [hq] at hk; simpa using hk)
            (I.setQueue hK hK0 _) hvis (fun x hx => hqu x (by rw [hq]; exact List.mem_cons_of_mem _ hx)) (by
              rcases h0 with h0 | ⟨rest, h0⟩
              · exact Or.inl h0
              · rw [hq] at h0
                simp only [List.cons.injEq] at h0
                exact Or.inl (h0.1 ▸ hv))
          refine ⟨n + 1, s', ?_, h2, h3⟩
          unfold search
          rw [hq]
          dsimp only
          rw [hmq]
          dsimp only
          rw [if_pos hv]
          exact h1
        · have hv0 : e0 ∈ e :: visited := by
            rcases h0 with h0 | ⟨rest, h0⟩
            · exact List.mem_cons_of_mem _ h0
            · rw [hq] at h0
              simp only [List.cons.injEq] at h0
              rw [h0.1]; exact List.mem_cons_self
          have Iq := I.setQueue hK hK0 queue
          have I1 := Iq.mergeOriginal hK hK0 hlt heq.1.1 (h.clocks e.2) (h.acts (s.loc e.1))
          dsimp only at I1
          generalize hs1 : St.mk (mergeBranchingPrecise (h.clocks e.2) (h.acts (s.loc e.1)) s.loc e.1) s.states s.forward queue
            s.next = s1 at I1
          have hf1 : s1.forward = s.forward := by rw [← hs1]
          have hq1 : s1.queue = queue := by rw [← hs1]
          have hm1 : ∀ x, s1.map x = s.map x := fun x => by unfold St.map; rw [hf1]
          have hvis1 : ∀ x ∈ e :: visited, (s1.map x).isSome := by
            intro x hx
            rw [hm1]
            rw [List.mem_cons] at hx
            rcases hx with rfl | hx
            · exact heq.2
            · exact hvis x hx
          obtain ⟨s2, h2, I2, X2⟩ := rewireAll_spec hK hM hK0 hC h hlt hv0 List.mem_cons_self e.2 (q := q) (h.acts (s1.loc q))
            s1 I1 hvis1 (by rw [hf1]; exact lookup_mem' hmq)
          have hcard : ((states0.toFinset ×ˢ (Finset.range K).powerset).filter (· ∉ e :: visited)).card <
              ((states0.toFinset ×ˢ (Finset.range K).powerset).filter (· ∉ visited)).card := by
            refine Finset.card_lt_card ?_
            rw [Finset.ssubset_iff_of_subset]
            · refine ⟨e, ?_, ?_⟩
              · rw [Finset.mem_filter, Finset.mem_product, Finset.mem_powerset]
                exact ⟨⟨List.mem_toFinset.2 heq.1.1, heq.1.2⟩, hv⟩
              · rw [Finset.mem_filter]
                intro hc
                exact hc.2 List.mem_cons_self
            · intro x hx
              rw [Finset.mem_filter] at hx ⊢
              exact ⟨hx.1, fun hc => hx.2 (List.mem_cons_of_mem _ hc)⟩
          obtain ⟨n, s', h3, I3, l, hl⟩ := ihm _ (lt_of_lt_of_le hcard hm) s2.queue.length (e :: visited) s2 (le_refl _)
            (le_refl _) I2 (fun x hx => X2.isSome (hvis1 x hx)) (by
              intro x hx
              obtain ⟨l, hl, hP⟩ := X2.queue
              rw [hl, List.mem_append, hq1] at hx
              rcases hx with hx | hx
              · have := hqu x (by rw [hq]; exact List.mem_cons_of_mem _ hx)
                exact ⟨this.1, X2.isSome (by rw [hm1]; exact this.2)⟩
              · exact hP x hx) (Or.inl hv0)
          refine ⟨n + 1, s', ?_, I3, ?_⟩
          · unfold search
            rw [hq]
            dsimp only
            rw [hmq]
            dsimp only
            have hl1 : mergeBranchingPrecise (h.clocks e.2) (h.acts (s.loc e.1)) s.loc e.1 = s1.loc := by rw [← hs1]
            rw [if_neg hv, hs1, hl1, h2]
            exact h3
          · obtain ⟨l', hl'⟩ := X2.forward
            exact ⟨l' ++ l, by rw [hl, hl', hf1, List.append_assoc]⟩

theorem search_mono (h : HashEnv) : ∀ (n : ℕ) (visited : List Enhanced) (s s' : St), search h n visited s = .ok s' →
    search h (n + 1) visited s = .ok s' := by
  intro n
  induction n with
  | zero => intro visited s s' hs; unfold search at hs; cases hs
  | succ n ih =>
    intro visited s s' hs
    unfold search at hs ⊢
    cases hq : s.queue with
    | nil => rw [hq] at hs; exact hs
    | cons e queue =>
      rw [hq] at hs
      dsimp only at hs ⊢
      cases hm : s.map e with
      | none => rw [hm] at hs; exact hs
      | some q =>
        rw [hm] at hs
        dsimp only at hs ⊢
        split
        · rename_i hv
          rw [if_pos hv] at hs
          exact ih _ _ _ hs
        · rename_i hv
          rw [if_neg hv] at hs
          match hf : (h.acts (mergeBranchingPrecise (h.clocks e.2) (h.acts (s.loc e.1)) s.loc e.1 q)).foldlM
            (fun s a => rewire h (e :: visited) e.2 q a s [] ((s.loc q).next a))
            (St.mk (mergeBranchingPrecise (h.clocks e.2) (h.acts (s.loc e.1)) s.loc e.1) s.states s.forward queue s.next) with
          | .error x => rw [hf] at hs; cases hs
          | .ok s2 => rw [hf] at hs; exact ih _ _ _ hs

theorem search_mono_le (h : HashEnv) {n m : ℕ} (hnm : n ≤ m) {visited : List Enhanced} {s s' : St}
    (hs : search h n visited s = .ok s') : search h m visited s = .ok s' := by
  obtain ⟨k, rfl⟩ := Nat.exists_eq_add_of_le hnm
  induction k with
  | zero => exact hs
  | succ k ih => exact search_mono h _ _ _ _ (ih (by omega))

/-! ### The start -/

theorem le_foldr_max (l : List ℕ) : ∀ p ∈ l, p ≤ l.foldr max 0 := by
  induction l with
  | nil => simp
  | cons x l ih =>
    intro p hp
    rw [List.mem_cons] at hp
    rw [List.foldr_cons]
    rcases hp with rfl | hp
    · exact le_max_left _ _
    · exact (ih p hp).trans (le_max_right _ _)

/-- What the constructor of `StateMap` needs: the targets are states and there is another state. -/
def Wired (loc : ℕ → TAState) (states : List ℕ) : Prop := ∀ q ∈ states, ∀ a, ∀ t ∈ (loc q).next a,
  t.target ∈ states ∧ ∃ p ∈ states, p ≠ t.target

theorem wired_iff (loc : ℕ → TAState) (states : List ℕ) :
    (states.all fun q => allActions.all fun a => ((loc q).next a).all fun t =>
      decide (t.target ∈ states) && states.any fun p => p != t.target) = true ↔ Wired loc states := by
  unfold Wired
  have hall : ∀ a : Action, a ∈ allActions := fun a => List.mem_finRange a
  simp only [List.all_eq_true, Bool.and_eq_true, decide_eq_true_eq, List.any_eq_true, bne_iff_ne]
  exact ⟨fun h q hq a => h q hq a (hall a), fun h q hq a _ => h q hq a⟩

theorem start_error (loc : ℕ → TAState) (states : List ℕ) (hw : ¬ Wired loc states) : start loc states = .error .undefined := by
  unfold start
  dsimp only
  rw [if_neg]
  rw [wired_iff]
  exact hw

theorem start_spec (loc : ℕ → TAState) (states : List ℕ) (hn : states.Nodup) (hw : Wired loc states) :
    ∃ s, start loc states = .ok s ∧ s.queue = [] ∧
      s.forward = states.map (fun q => ((q, Finset.range (loc q).usedClockSize), states.foldr max 0 + 1 + states.idxOf q)) ∧
      Inv loc states (states.foldr max 0 + 1) e0 (Exact loc) (Exact loc) s := by
  unfold start
  dsimp only
  rw [if_pos ((wired_iff loc states).2 hw)]
  refine ⟨_, rfl, rfl, rfl, ?_⟩
  generalize hb : states.foldr max 0 + 1 = base
  have hlt : ∀ p ∈ states, p < base := fun p hp => by
    have := le_foldr_max states p hp
    omega
  have hget : ∀ q ∈ states, states[base + states.idxOf q - base]? = some q := by
    intro q hq
    rw [Nat.add_sub_cancel_left, List.getElem?_eq_getElem (List.idxOf_lt_length_of_mem hq), List.getElem_idxOf]
  have hex : ∀ p ∈ states.map (fun q => (((q, Finset.range (loc q).usedClockSize) : Enhanced), base + states.idxOf q)),
      ∀ (R : ℕ → ℕ → Prop), (∀ q ∈ states, R q (base + states.idxOf q)) → Exact loc R p.1.1
        (match states[p.2 - base]? with
          | some q => if base ≤ p.2 then
              ({ loc q with next := fun a => ((loc q).next a).map fun t : Trans =>
                { t with target := base + states.idxOf t.target } } : TAState) else loc p.2
          | none => loc p.2).next := by
    intro p hp R hR
    obtain ⟨q, hq, rfl⟩ := List.mem_map.1 hp
    dsimp only
    rw [hget q hq]
    dsimp only
    rw [if_pos (by omega)]
    intro a
    dsimp only
    rw [List.forall₂_map_left_iff, List.forall₂_same]
    intro t ht
    exact ⟨hR _ (hw q hq a t ht).1, rfl, rfl⟩
  refine ⟨?_, ?_, ?_, ?_, ?_, ?_, fun p hp => hex p hp _ fun q hq => ⟨Finset.range (loc q).usedClockSize, List.mem_map.2 ⟨q, hq, rfl⟩⟩,
    fun p hp _ => hex p hp _ fun q hq => ⟨Finset.range (loc q).usedClockSize, List.mem_map.2 ⟨q, hq, rfl⟩⟩, ?_⟩
  · dsimp only
    rw [List.map_map]
    refine (List.nodup_map_iff_inj_on hn).2 fun x hx y hy e => ?_
    simp only [Function.comp] at e
    exact (List.idxOf_inj hx).1 (by omega)
  · dsimp only
    rw [List.map_map]
    rfl
  · intro p hp
    dsimp only at hp ⊢
    obtain ⟨q, hq, rfl⟩ := List.mem_map.1 hp
    have := List.idxOf_lt_length_of_mem hq
    dsimp only
    omega
  · intro p hp
    dsimp only at hp ⊢
    obtain ⟨q, hq, rfl⟩ := List.mem_map.1 hp
    exact hq
  · intro p hp
    dsimp only at hp ⊢
    obtain ⟨q, hq, rfl⟩ := List.mem_map.1 hp
    dsimp only
    rw [hget q hq]
    dsimp only
    rw [if_pos (by omega)]
  · intro p hp
    dsimp only
    have h1 := hlt p hp
    split
    · rw [if_neg (by omega)]
    · rfl
  · dsimp only
    omega

theorem le_usedClockSize {s : TAState} {a : Action} {t : Trans} (ht : t ∈ s.next a) {c : Constraint} (hc : c ∈ t.guard) :
    c.x < s.usedClockSize := by
  unfold TAState.usedClockSize
  have key2 : ∀ (g : List Constraint) (m : ℕ), m ≤ g.foldl (fun m c => max m (c.x + 1)) m ∧
      ∀ c ∈ g, c.x < g.foldl (fun m c => max m (c.x + 1)) m := by
    intro g
    induction g with
    | nil => intro m; simp
    | cons d g ih =>
      intro m
      rw [List.foldl_cons]
      obtain ⟨h1, h2⟩ := ih (max m (d.x + 1))
      refine ⟨by omega, fun c hc => ?_⟩
      rw [List.mem_cons] at hc
      rcases hc with rfl | hc
      · omega
      · exact h2 c hc
  have key : ∀ (l : List Trans) (m : ℕ), m ≤ l.foldl (fun m t => t.guard.foldl (fun m c => max m (c.x + 1)) m) m ∧
      ∀ t ∈ l, ∀ c ∈ t.guard, c.x < l.foldl (fun m t => t.guard.foldl (fun m c => max m (c.x + 1)) m) m := by
    intro l
    induction l with
    | nil => intro m; simp
    | cons u l ih =>
      intro m
      rw [List.foldl_cons]
      obtain ⟨h1, h2⟩ := ih (u.guard.foldl (fun m c => max m (c.x + 1)) m)
      obtain ⟨h3, h4⟩ := key2 u.guard m
      refine ⟨by omega, fun t ht c hc => ?_⟩
      rw [List.mem_cons] at ht
      rcases ht with rfl | ht
      · have := h4 c hc
        omega
      · exact h2 t ht c hc
  exact (key _ 0).2 t (List.mem_flatMap.2 ⟨a, List.mem_finRange a, ht⟩) c hc

theorem Inv.weaken {s : St} {G' G0' : Shape} (I : Inv loc0 states0 base e0 G G0 s) (h : ∀ R o f, G R o f → G' R o f)
    (h0 : ∀ R o f, G0 R o f → G0' R o f) : Inv loc0 states0 base e0 G' G0' s :=
  ⟨I.nodup, I.states, I.addr, I.orig, I.isMatch, I.keep, fun p hp => h _ _ _ (I.shape p hp),
    fun p hp e => h0 _ _ _ (I.first p hp e), I.next⟩

/-- A bound on the clocks. -/
def maxClocks (loc : ℕ → TAState) (states : List ℕ) : ℕ := (states.map fun q => (loc q).usedClockSize).foldr max 0

theorem clocks_from (loc : ℕ → TAState) (states : List ℕ) : ClocksBelow states (maxClocks loc states) (From loc) := by
  intro R o f ho hG a t' ht' c hc
  obtain ⟨t, ht, _, _, _, h4⟩ := hG a t' ht'
  obtain ⟨d, hd, e⟩ := h4 c hc
  have h1 := le_usedClockSize ht hd
  have h2 := le_foldr_max (states.map fun q => (loc q).usedClockSize) _ (List.mem_map.2 ⟨o, ho, rfl⟩)
  unfold maxClocks
  omega

/-- The whole function: it ends, with the invariant. -/
theorem run_total (h : HashEnv) {loc : ℕ → TAState} {states : List ℕ} {init : ℕ} (hn : states.Nodup) (hw : Wired loc states)
    (hi : init ∈ states) (hu : (loc init).usedClockSize = 1) (hK : Keeps G) (hM : KeepsMerge states G)
    (hE : ∀ R o f, Exact loc R o f → G R o f) (hF : ∀ R o f, G R o f → From loc R o f) :
    ∃ n s, (∀ m, n ≤ m → run h m loc states init = .ok (s.loc, s.states, states.foldr max 0 + 1 + states.idxOf init)) ∧
      Inv loc states (states.foldr max 0 + 1) (init, {0}) G (Exact loc) s ∧
      ((init, {0}), states.foldr max 0 + 1 + states.idxOf init) ∈ s.forward := by
  obtain ⟨s0, h1, h2, h3, I0⟩ := start_spec (e0 := (init, {0})) loc states hn hw
  have I1 := I0.weaken (G' := G) (G0' := Exact loc) hE fun _ _ _ h => h
  have I2 := I1.setQueue hK (Exact.keeps loc) [(init, {0})]
  have hC : ClocksBelow states (maxClocks loc states) G := fun R o f ho hG => clocks_from loc states R o f ho (hF R o f hG)
  have hlt : ∀ p ∈ states, p < states.foldr max 0 + 1 := fun p hp => by
    have := le_foldr_max states p hp
    omega
  have hmem : (((init, {0}) : Enhanced), states.foldr max 0 + 1 + states.idxOf init) ∈ s0.forward := by
    rw [h3]
    refine List.mem_map.2 ⟨init, hi, ?_⟩
    rw [hu]
    rfl
  have hsome : (s0.map (init, {0})).isSome := by
    unfold St.map
    rw [List.lookup_isSome_iff]
    exact ⟨_, hmem, by simp⟩
  obtain ⟨n, s, hs, I3, l, hl⟩ := search_total hK hM (Exact.keeps loc) hC h hlt _ _ [] { s0 with queue := [(init, {0})] }
    (le_refl _) (le_refl _) I2 (by simp) (by
      intro e he
      dsimp only at he
      rw [List.mem_singleton] at he
      subst he
      refine ⟨⟨hi, ?_⟩, hsome⟩
      have := le_foldr_max (states.map fun q => (loc q).usedClockSize) _ (List.mem_map.2 ⟨init, hi, rfl⟩)
      intro x hx
      simp only [Finset.mem_singleton] at hx
      rw [Finset.mem_range]
      unfold maxClocks
      omega) (Or.inr ⟨[], rfl⟩)
  refine ⟨n, s, fun m hm => ?_, I3, ?_⟩
  · unfold run
    rw [h1]
    show (do
      let s' ← search h m [] { s0 with queue := [(init, {0})] }
      pure (s'.loc, s'.states, states.foldr max 0 + 1 + states.idxOf init)) = _
    rw [search_mono_le h hm hs]
    rfl
  · rw [hl]
    exact List.mem_append_left _ hmem

/-- Without one clock in the initial state, or without another state, the behaviour is undefined. -/
theorem run_error (h : HashEnv) {loc : ℕ → TAState} {states : List ℕ} {init : ℕ} (hn : states.Nodup)
    (hc : ¬ Wired loc states ∨ (loc init).usedClockSize ≠ 1) (n : ℕ) : run h (n + 1) loc states init = .error .undefined := by
  unfold run
  by_cases hw : Wired loc states
  · obtain ⟨s0, h1, h2, h3, I0⟩ := start_spec (e0 := (init, {0})) loc states hn hw
    rw [h1]
    show (do
      let s' ← search h (n + 1) [] { s0 with queue := [(init, {0})] }
      pure (s'.loc, s'.states, states.foldr max 0 + 1 + states.idxOf init)) = _
    have : St.map { s0 with queue := [(init, {0})] } (init, {0}) = none := by
      cases hm : St.map { s0 with queue := [(init, {0})] } (init, {0}) with
      | none => rfl
      | some q =>
        have := lookup_mem' hm
        dsimp only at this
        rw [h3] at this
        obtain ⟨p, hp, e⟩ := List.mem_map.1 this
        simp only [Prod.mk.injEq] at e
        obtain ⟨⟨rfl, e⟩, _⟩ := e
        have h4 := congrArg Finset.card e
        simp only [Finset.card_range, Finset.card_singleton] at h4
        rcases hc with hc | hc
        · exact absurd hw hc
        · exact absurd h4 hc
    unfold search
    dsimp only
    rw [this]
    rfl
  · rw [start_error _ _ hw]
    rfl

end Split
end LearnTA
