import Verif.Lemmas.BoxGuard
import Verif.Model.Merge
import Mathlib.Data.List.Pairwise

/-!
# Merging the transitions of a state

The transitions for one action, one for each region of a line, stay deterministic and keep their effect.
-/

namespace LearnTA
open Guard

theorem pos_half (k : ℤ) : pos ((k : ℚ) / 2) = k := by
  rcases Int.even_or_odd' k with ⟨n, h | h⟩
  · rw [pos_of_eq (n := n) (by rw [h]; push_cast; ring)]; omega
  · rw [pos_of_between (n := n) (by rw [h]; push_cast; linarith) (by rw [h]; push_cast; linarith)]; omega

namespace Trans

/-- `m` is in the segment. -/
def InSeg (m : ℕ) (s : ℕ × ℕ) : Prop := s.1 ≤ m ∧ m ≤ s.2

/-- The transition is for the regions of the segment, with the effect that each of them has. -/
structure Tile (n K : ℕ) (κ : ℕ → ℕ → ℤ) (E : ℕ → ℕ × Resets) (s : ℕ × ℕ) (t : Trans) : Prop where
  le : s.1 ≤ s.2
  last : s.2 ≤ K
  seg : IsSeg n K κ s.1 s.2 t.guard
  eff : ∀ m, InSeg m s → E m = (t.target, t.resets)

/-- The segments have no region in common. -/
def Apart (s s' : ℕ × ℕ) : Prop := ∀ m, ¬ (InSeg m s ∧ InSeg m s')

theorem Apart.symm {s s' : ℕ × ℕ} (h : Apart s s') : Apart s' s := fun m hm => h m ⟨hm.2, hm.1⟩

theorem Apart.cases {s s' : ℕ × ℕ} (h : Apart s s') (h1 : s.1 ≤ s.2) (h2 : s'.1 ≤ s'.2) : s.2 < s'.1 ∨ s'.2 < s.1 := by
  by_contra hc
  refine h (max s.1 s'.1) ⟨⟨le_max_left _ _, ?_⟩, ⟨le_max_right _ _, ?_⟩⟩ <;> omega

variable {n K : ℕ} {κ : ℕ → ℕ → ℤ} {E : ℕ → ℕ × Resets}

/-- Merging two transitions gives one for both segments. -/
theorem merge_tile (hL : Line n K κ) (hn : 0 < n) (hs : LineSmall n K κ) {s s' : ℕ × ℕ} {t u : Trans}
    (ht : Tile n K κ E s t) (hu : Tile n K κ E s' u) (ha : Apart s s') (hm : t.mergeable u = true) :
    ∃ r, Tile n K κ E r (t.merge u) ∧ ∀ m, InSeg m r ↔ InSeg m s ∨ InSeg m s' := by
  unfold mergeable at hm
  split at hm
  · cases hm
  rename_i hc
  simp only [ne_eq, Bool.or_eq_true, decide_eq_true_eq, Bool.not_eq_true', not_or, Decidable.not_not,
    Bool.not_eq_false] at hc hm
  obtain ⟨e1, had⟩ := hc
  have h1 := ht.le
  have h2 := hu.le
  have h3 := ht.last
  have h4 := hu.last
  have hgs : ∀ k, k ∈ [u.guard, t.guard] ↔ k = t.guard ∨ k = u.guard := by
    intro k; simp; tauto
  have hgs' : ∀ k, k ∈ [u.guard, t.guard] ↔ k = u.guard ∨ k = t.guard := by
    intro k; simp
  rcases ha.cases h1 h2 with hlt | hlt
  · have e := adjacent_left hL hn hs h1 hlt h2 h4 ht.seg hu.seg had
    have hseg := hu.seg
    rw [e] at hseg
    refine ⟨(s.1, s'.2), ⟨by dsimp only; omega, h4, ?_, ?_⟩, ?_⟩
    · exact IsSeg.hull hL h1 (by omega) h4 ht.seg hseg hgs
    · intro m hm'
      by_cases hms : m ≤ s.2
      · rw [ht.eff m ⟨hm'.1, hms⟩]; unfold merge; dsimp only; rw [e1, hm]
      · rw [hu.eff m ⟨by omega, hm'.2⟩]; rfl
    · intro m
      unfold InSeg
      dsimp only
      omega
  · have e := adjacent_right hL hn hs h2 hlt h1 h3 hu.seg ht.seg had
    have hseg := ht.seg
    rw [e] at hseg
    refine ⟨(s'.1, s.2), ⟨by dsimp only; omega, h3, ?_, ?_⟩, ?_⟩
    · exact IsSeg.hull hL h2 (by omega) h3 hu.seg hseg hgs'
    · intro m hm'
      by_cases hms : m ≤ s'.2
      · rw [hu.eff m ⟨hm'.1, hms⟩]; rfl
      · rw [ht.eff m ⟨by omega, hm'.2⟩]; unfold merge; dsimp only; rw [e1, hm]
    · intro m
      unfold InSeg
      dsimp only
      omega

theorem absorb_tiles (hL : Line n K κ) (hn : 0 < n) (hs : LineSmall n K κ) (ts : List Trans) :
    ∀ (ss : List (ℕ × ℕ)) (s : ℕ × ℕ) (t : Trans), Tile n K κ E s t → List.Forall₂ (Tile n K κ E) ss ts →
      (s :: ss).Pairwise Apart → ∃ s' ss', Tile n K κ E s' (absorb t ts).1 ∧
        List.Forall₂ (Tile n K κ E) ss' (absorb t ts).2 ∧ (s' :: ss').Pairwise Apart ∧
        (absorb t ts).2.length ≤ ts.length ∧
        ∀ m, (∃ r ∈ s' :: ss', InSeg m r) ↔ ∃ r ∈ s :: ss, InSeg m r := by
  induction ts with
  | nil =>
    intro ss s t ht hss hp
    cases hss
    exact ⟨s, [], ht, List.Forall₂.nil, hp, le_refl _, fun m => Iff.rfl⟩
  | cons u us ih =>
    intro ss s t ht hss hp
    cases hss with | @cons su _ sus _ hu hus =>
    rw [List.pairwise_cons] at hp
    obtain ⟨hp1, hp2⟩ := hp
    rw [List.pairwise_cons] at hp2
    obtain ⟨hp2, hp3⟩ := hp2
    unfold absorb
    split
    · rename_i hm
      obtain ⟨r, hr, hrm⟩ := merge_tile hL hn hs ht hu (hp1 su (by simp)) hm
      obtain ⟨s', ss', a1, a2, a3, a4, a5⟩ := ih sus r (t.merge u) hr hus (by
        rw [List.pairwise_cons]
        refine ⟨fun x hx m hm' => ?_, hp3⟩
        rcases (hrm m).1 hm'.1 with h | h
        · exact hp1 x (by simp [hx]) m ⟨h, hm'.2⟩
        · exact hp2 x hx m ⟨h, hm'.2⟩)
      refine ⟨s', ss', a1, a2, a3, by simp only [List.length_cons]; omega, fun m => ?_⟩
      rw [a5]
      constructor
      · rintro ⟨x, hx, hxm⟩
        simp only [List.mem_cons] at hx
        rcases hx with rfl | hx
        · rcases (hrm m).1 hxm with h | h
          · exact ⟨s, by simp, h⟩
          · exact ⟨su, by simp, h⟩
        · exact ⟨x, by simp [hx], hxm⟩
      · rintro ⟨x, hx, hxm⟩
        simp only [List.mem_cons] at hx
        rcases hx with rfl | rfl | hx
        · exact ⟨r, by simp, (hrm m).2 (Or.inl hxm)⟩
        · exact ⟨r, by simp, (hrm m).2 (Or.inr hxm)⟩
        · exact ⟨x, by simp [hx], hxm⟩
    · obtain ⟨s', ss', a1, a2, a3, a4, a5⟩ := ih sus s t ht hus (by
        rw [List.pairwise_cons]
        exact ⟨fun x hx => hp1 x (by simp [hx]), hp3⟩)
      have hsu : ∀ x ∈ s' :: ss', Apart x su := by
        intro x hx m hm'
        obtain ⟨y, hy, hym⟩ := (a5 m).1 ⟨x, hx, hm'.1⟩
        simp only [List.mem_cons] at hy
        rcases hy with rfl | hy
        · exact hp1 su (by simp) m ⟨hym, hm'.2⟩
        · exact hp2 y hy m ⟨hm'.2, hym⟩
      rw [List.pairwise_cons] at a3
      refine ⟨s', su :: ss', a1, List.Forall₂.cons hu a2, ?_, ?_, fun m => ?_⟩
      · rw [List.pairwise_cons]
        refine ⟨fun x hx => ?_, ?_⟩
        · simp only [List.mem_cons] at hx
          rcases hx with rfl | hx
          · exact hsu s' (by simp)
          · exact a3.1 x hx
        · rw [List.pairwise_cons]
          exact ⟨fun x hx => (hsu x (by simp [hx])).symm, a3.2⟩
      · simp only [List.length_cons]; omega
      · have := a5 m
        simp only [List.mem_cons, exists_eq_or_imp] at this ⊢
        rw [or_left_comm, this, or_left_comm]

theorem mergeAdjacent_tiles (hL : Line n K κ) (hn : 0 < n) (hs : LineSmall n K κ) (k : ℕ) :
    ∀ (ts : List Trans) (ss : List (ℕ × ℕ)), ts.length ≤ k → List.Forall₂ (Tile n K κ E) ss ts → ss.Pairwise Apart →
      ∃ ss', List.Forall₂ (Tile n K κ E) ss' (mergeAdjacent k ts) ∧ ss'.Pairwise Apart ∧
        ∀ m, (∃ r ∈ ss', InSeg m r) ↔ ∃ r ∈ ss, InSeg m r := by
  induction k with
  | zero => intro ts ss _ h hp; exact ⟨ss, by unfold mergeAdjacent; exact h, hp, fun m => Iff.rfl⟩
  | succ k ih =>
    intro ts ss hk h hp
    cases h with
    | nil => exact ⟨[], by unfold mergeAdjacent; exact List.Forall₂.nil, hp, fun m => Iff.rfl⟩
    | @cons s t ss ts ht hts =>
      obtain ⟨s', ss', a1, a2, a3, a4, a5⟩ := absorb_tiles hL hn hs ts ss s t ht hts hp
      rw [List.pairwise_cons] at a3
      simp only [List.length_cons] at hk
      obtain ⟨ss'', b1, b2, b3⟩ := ih (absorb t ts).2 ss' (by omega) a2 a3.2
      refine ⟨s' :: ss'', by unfold mergeAdjacent; exact List.Forall₂.cons a1 b1, ?_, fun m => ?_⟩
      · rw [List.pairwise_cons]
        refine ⟨fun x hx m hm => ?_, b2⟩
        obtain ⟨y, hy, hym⟩ := (b3 m).1 ⟨x, hx, hm.2⟩
        exact a3.1 y hy m ⟨hm.1, hym⟩
      · rw [← a5 m]
        have := b3 m
        simp only [List.mem_cons, exists_eq_or_imp]
        rw [this]

/-! ### Deterministic lists -/

/-- No two transitions of the list have a valuation in common. -/
def Disjoint (l : List Trans) : Prop :=
  l.Pairwise fun t u => ∀ v : Valuation, v.Nonneg → ¬ (t.guard.Holds v ∧ u.guard.Holds v)

theorem removeWeaker_eq {l : List Trans} (h : ∀ t ∈ l, ∀ u ∈ l, t ≠ u → Guard.isWeaker u.guard t.guard = false) :
    ∀ (ts kept : List Trans), kept ++ ts = l → removeWeaker kept ts = l := by
  intro ts
  induction ts with
  | nil => intro kept e; unfold removeWeaker; simpa using e
  | cons t ts ih =>
    intro kept e
    unfold removeWeaker
    rw [if_neg]
    · exact ih (kept ++ [t]) (by simpa using e)
    · rw [e]
      simp only [List.any_eq_true, not_exists, not_and]
      intro u hu hc
      simp only [Bool.and_eq_true, decide_eq_true_eq] at hc
      rw [h t (by rw [← e]; simp) u hu hc.1.1] at hc
      simp at hc

theorem disjoint_sat (l : List Trans) (h : Disjoint l) (hsm : ∀ t ∈ l, t.guard.Small) :
    l.Pairwise fun t u => Guard.satisfiable (Guard.conjunction t.guard u.guard) = false := by
  refine List.Pairwise.imp_of_mem ?_ h
  intro t u ht hu hd
  by_contra hc
  have hsmall : (Guard.conjunction t.guard u.guard).Small := by
    intro c hc
    unfold Guard.conjunction at hc
    simp only [List.mem_append] at hc
    rcases hc with hc | hc
    · exact hsm t ht c hc
    · exact hsm u hu c hc
  obtain ⟨v, hv, hg⟩ := (Guard.satisfiable_iff _ hsmall).1 (by simpa using hc)
  unfold Guard.conjunction at hg
  rw [Guard.holds_append] at hg
  exact hd v hv hg

theorem absorbWith_eq {test : Trans → Trans → Bool} {combine : (ℕ → TAState) → Trans → Trans → Trans} {loc : ℕ → TAState}
    {q : ℕ} {a : Action} {before : List Trans} {t : Trans} : ∀ (us mid : List Trans), (∀ u ∈ us, test t u = false) →
      absorbWith test combine loc q a before t mid us = (t, mid ++ us) := by
  intro us
  induction us with
  | nil => intro mid _; simp [absorbWith]
  | cons u us ih =>
    intro mid h
    unfold absorbWith
    rw [if_neg (by rw [h u (by simp)]; decide), ih _ fun x hx => h x (by simp [hx])]
    simp

theorem mergeLoop_eq {test : Trans → Trans → Bool} {combine : (ℕ → TAState) → Trans → Trans → Trans} {loc : ℕ → TAState}
    {q : ℕ} {a : Action} (k : ℕ) : ∀ (before l : List Trans), l.Pairwise (fun t u => test t u = false) →
      mergeLoop test combine loc q a before k l = before ++ l := by
  induction k with
  | zero => intro before l _; rfl
  | succ k ih =>
    intro before l h
    cases l with
    | nil => simp [mergeLoop]
    | cons t ts =>
      rw [List.pairwise_cons] at h
      unfold mergeLoop
      dsimp only
      rw [absorbWith_eq ts [] h.1]
      dsimp only
      rw [List.nil_append, ih _ ts h.2]
      simp

theorem _root_.LearnTA.setList_self (loc : ℕ → TAState) (q : ℕ) (a : Action) : setList loc q a ((loc q).next a) = loc := by
  unfold setList TAState.setNext
  rw [Function.update_eq_self_iff]
  congr 1
  funext b
  by_cases e : b = a
  · subst e; simp
  · simp [e]

/-- Nothing is merged in a state whose transitions do not overlap. -/
theorem _root_.LearnTA.mergeState_eq {test : Trans → Trans → Bool} {combine : (ℕ → TAState) → Trans → Trans → Trans}
    (acts : List Action) (loc : ℕ → TAState) (q : ℕ)
    (h : ∀ a ∈ acts, ((loc q).next a).Pairwise fun t u => test t u = false) : mergeState test combine acts loc q = loc := by
  unfold mergeState
  induction acts with
  | nil => rfl
  | cons a acts ih =>
    rw [List.foldl_cons, mergeLoop_eq _ [] _ (h a (by simp)), List.nil_append, setList_self]
    exact ih fun b hb => h b (by simp [hb])

theorem needSplitting_go (l : List Trans)
    (h : l.Pairwise (fun t u => Guard.satisfiable (Guard.conjunction t.guard u.guard) = false)) :
    TAState.needSplitting.go l = false := by
  induction l with
  | nil => rfl
  | cons t ts ih =>
    rw [List.pairwise_cons] at h
    unfold TAState.needSplitting.go
    rw [ih h.2, Bool.or_false]
    rw [List.any_eq_false]
    intro u hu
    rw [h.1 u hu]
    simp

/-! ### The transitions for one action -/

/-- A valuation at the region `m` of a line. -/
def centre (n : ℕ) (κ : ℕ → ℕ → ℤ) (m : ℕ) : Valuation := fun x => if x < n then (κ m x : ℚ) / 2 else 0

theorem centre_at (m : ℕ) : At n K κ m (centre n κ m) := by
  intro x hx
  unfold centre
  rw [if_pos hx, pos_half]
  exact ⟨le_refl _, fun _ => le_refl _⟩

theorem centre_nonneg (hL : Line n K κ) {m : ℕ} (hm : m ≤ K) : (centre n κ m).Nonneg := by
  intro x
  unfold centre
  split
  · rename_i hx
    have := hL.nonneg m hm x hx
    have : (0 : ℚ) ≤ κ m x := by exact_mod_cast this
    linarith
  · exact le_refl _

theorem Tile.small (hL : Line n K κ) (hK : 0 < K) (hs : LineSmall n K κ) {s : ℕ × ℕ} {t : Trans}
    (h : Tile n K κ E s t) : t.guard.Small := by
  have h1 := h.le
  have h2 := h.last
  refine IsBox.small h.seg (hs.box h.last) ?_
  intro x hx
  by_cases e : s.1 = K
  · have h3 := hs (K - 1) (by omega) x hx
    have h4 := hL.step (K - 1) (by omega) x hx
    rw [show K - 1 + 1 = K by omega] at h4
    rw [e]; omega
  · have := hs s.1 (by omega) x hx; omega

theorem Tile.clocks {s : ℕ × ℕ} {t : Trans} (h : Tile n K κ E s t) : ∀ c ∈ t.guard, c.x < n :=
  fun c hc => ((h.seg c).1 hc).1

theorem tiles_disjoint (hL : Line n K κ) {ss : List (ℕ × ℕ)} {l : List Trans} (h : List.Forall₂ (Tile n K κ E) ss l)
    (hp : ss.Pairwise Apart) : Disjoint l := by
  unfold Disjoint
  induction h with
  | nil => exact List.Pairwise.nil
  | @cons s t ss ts ht hts ih =>
    rw [List.pairwise_cons] at hp ⊢
    refine ⟨fun u hu v hv => ?_, ih hp.2⟩
    obtain ⟨s', hs', hu'⟩ : ∃ s' ∈ ss, Tile n K κ E s' u := by
      clear ih hp ht
      induction hts with
      | nil => simp at hu
      | @cons a b as bs hab _ ih2 =>
        simp only [List.mem_cons] at hu
        rcases hu with rfl | hu
        · exact ⟨a, by simp, hab⟩
        · obtain ⟨s', h1, h2⟩ := ih2 hu
          exact ⟨s', by simp [h1], h2⟩
    have h1 := hu'.last
    have h2 := ht.last
    have h3 := hu'.le
    have h4 := ht.le
    rcases (hp.1 s' hs').cases ht.le hu'.le with hlt | hlt
    · exact IsSeg.disjoint hL ht.le hlt (by omega) ht.seg hu'.seg fun x _ => hv x
    · rw [and_comm]
      exact IsSeg.disjoint hL hu'.le hlt (by omega) hu'.seg ht.seg fun x _ => hv x

theorem forall₂_mem_right {α β : Type} {R : α → β → Prop} {as : List α} {bs : List β} (h : List.Forall₂ R as bs) {b : β}
    (hb : b ∈ bs) : ∃ a ∈ as, R a b := by
  induction h with
  | nil => simp at hb
  | @cons a b' as bs hab _ ih =>
    simp only [List.mem_cons] at hb
    rcases hb with rfl | hb
    · exact ⟨a, by simp, hab⟩
    · obtain ⟨a', h1, h2⟩ := ih hb
      exact ⟨a', by simp [h1], h2⟩

theorem forall₂_mem_left {α β : Type} {R : α → β → Prop} {as : List α} {bs : List β} (h : List.Forall₂ R as bs) {a : α}
    (ha : a ∈ as) : ∃ b ∈ bs, R a b := by
  induction h with
  | nil => simp at ha
  | @cons a' b as bs hab _ ih =>
    simp only [List.mem_cons] at ha
    rcases ha with rfl | ha
    · exact ⟨b, by simp, hab⟩
    · obtain ⟨b', h1, h2⟩ := ih ha
      exact ⟨b', by simp [h1], h2⟩

/-- The sorted resets. -/
def sorted (r : Resets) : Resets := r.insertionSort fun p q => p.1 ≤ q.1

/-- The list has one transition for each region of the line. -/
structure Full (n K : ℕ) (κ : ℕ → ℕ → ℤ) (E : ℕ → ℕ × Resets) (l : List Trans) : Prop where
  disjoint : Disjoint l
  small : ∀ t ∈ l, t.guard.Small
  clocks : ∀ t ∈ l, ∀ c ∈ t.guard, c.x < n
  effect : ∀ t ∈ l, ∃ m ≤ K, E m = (t.target, t.resets)
  cover : ∀ m ≤ K, ∃ t ∈ l, E m = (t.target, t.resets) ∧ ∀ v : Valuation, (∀ x < n, 0 ≤ v x) → At n K κ m v → t.guard.Holds v

theorem full_of_tiles (hL : Line n K κ) (hK : 0 < K) (hs : LineSmall n K κ) {ss : List (ℕ × ℕ)} {l : List Trans}
    (h : List.Forall₂ (Tile n K κ E) ss l) (hp : ss.Pairwise Apart) (hc : ∀ m ≤ K, ∃ r ∈ ss, InSeg m r) :
    Full n K κ E l where
  disjoint := tiles_disjoint hL h hp
  small t ht := by
    obtain ⟨s, _, hst⟩ := forall₂_mem_right h ht
    exact hst.small hL hK hs
  clocks t ht := by
    obtain ⟨s, _, hst⟩ := forall₂_mem_right h ht
    exact hst.clocks
  effect t ht := by
    obtain ⟨s, _, hst⟩ := forall₂_mem_right h ht
    exact ⟨s.1, hst.le.trans hst.last, hst.eff _ ⟨le_refl _, hst.le⟩⟩
  cover m hm := by
    obtain ⟨s, hs', hms⟩ := hc m hm
    obtain ⟨t, ht, hst⟩ := forall₂_mem_left h hs'
    refine ⟨t, ht, hst.eff m hms, fun v hv hat => ?_⟩
    exact (IsSeg.at hL hst.le hst.last hm hst.seg hv hat).2 hms

/-- The transitions before they are merged: one for each region. -/
structure Base (n K : ℕ) (κ : ℕ → ℕ → ℤ) (E : ℕ → ℕ × Resets) (l : List Trans) : Prop where
  tiles : ∃ ms : List ℕ, ms.Nodup ∧ (∀ m, m ∈ ms ↔ m ≤ K) ∧
    List.Forall₂ (fun m t => IsSeg n K κ m m t.guard ∧ E m = (t.target, t.resets)) ms l

theorem nodup_apart {ms : List ℕ} (h : ms.Nodup) : (ms.map fun m => (m, m)).Pairwise Apart := by
  rw [List.pairwise_map]
  refine List.Pairwise.imp ?_ h
  intro a b hab m hm
  unfold InSeg at hm
  dsimp only at hm
  exact hab (by omega)

theorem tiles_of_labels {E' : ℕ → ℕ × Resets} {ms : List ℕ} {l : List Trans} (g : Trans → Trans)
    (hg : ∀ t, (g t).guard = t.guard) (hm : ∀ m ∈ ms, m ≤ K)
    (hE : ∀ m t, E m = (t.target, t.resets) → E' m = ((g t).target, (g t).resets))
    (h : List.Forall₂ (fun m t => IsSeg n K κ m m t.guard ∧ E m = (t.target, t.resets)) ms l) :
    List.Forall₂ (Tile n K κ E') (ms.map fun m => (m, m)) (l.map g) := by
  induction h with
  | nil => exact List.Forall₂.nil
  | @cons m t ms l hmt _ ih =>
    refine List.Forall₂.cons ⟨le_refl _, hm m (by simp), by rw [hg]; exact hmt.1, ?_⟩ (ih fun x hx => hm x (by simp [hx]))
    intro m' hm'
    have : m' = m := by unfold InSeg at hm'; dsimp only at hm'; omega
    subst this
    exact hE _ _ hmt.2

theorem Base.full (hL : Line n K κ) (hK : 0 < K) (hs : LineSmall n K κ) {l : List Trans} (h : Base n K κ E l) :
    Full n K κ E l := by
  obtain ⟨ms, h1, h2, h3⟩ := h.tiles
  have := tiles_of_labels (E' := E) id (fun _ => rfl) (fun m hm => (h2 m).1 hm) (fun m t e => e) h3
  rw [List.map_id] at this
  exact full_of_tiles hL hK hs this (nodup_apart h1) fun m hm => ⟨(m, m), by simpa using (h2 m).2 hm, by
    unfold InSeg; dsimp only; omega⟩

/-- The last steps keep one transition for each region, and nothing is enabled twice. -/
theorem finish_full (hL : Line n K κ) (hn : 0 < n) (hK : 0 < K) (hs : LineSmall n K κ) {l : List Trans}
    (h : Base n K κ E l) :
    Full n K κ (fun m => ((E m).1, sorted (E m).2))
      (let l := l.map sortResets
       let l := mergeAdjacent l.length l
       removeWeaker [] l) := by
  obtain ⟨ms, h1, h2, h3⟩ := h.tiles
  have ht := tiles_of_labels (E' := fun m => ((E m).1, sorted (E m).2)) sortResets (fun _ => rfl)
    (fun m hm => (h2 m).1 hm) (fun m t e => by rw [e]; rfl) h3
  obtain ⟨ss, a1, a2, a3⟩ := mergeAdjacent_tiles hL hn hs (l.map sortResets).length (l.map sortResets) _ (le_refl _) ht
    (nodup_apart h1)
  have hf := full_of_tiles hL hK hs a1 a2 fun m hm => (a3 m).2 ⟨(m, m), by simpa using (h2 m).2 hm, by
    unfold InSeg; dsimp only; omega⟩
  dsimp only
  have hw : removeWeaker [] (mergeAdjacent (l.map sortResets).length (l.map sortResets)) =
      mergeAdjacent (l.map sortResets).length (l.map sortResets) := by
    refine removeWeaker_eq ?_ _ [] (by simp)
    intro t ht' u hu hne
    by_contra hc
    have hw := Guard.isWeaker_sound (by simpa using hc : Guard.isWeaker u.guard t.guard = true)
    obtain ⟨s, hs', hst⟩ := forall₂_mem_right a1 ht'
    have hh : t.guard.Holds (centre n κ s.1) :=
      (IsSeg.at hL hst.le hst.last (hst.le.trans hst.last) hst.seg
        (fun x _ => centre_nonneg hL (hst.le.trans hst.last) x) (centre_at _)).2 ⟨le_refl _, hst.le⟩
    have : Std.Symm fun t u : Trans => ∀ v : Valuation, v.Nonneg → ¬ (t.guard.Holds v ∧ u.guard.Holds v) :=
      ⟨fun a b hab v hv hc' => hab v hv ⟨hc'.2, hc'.1⟩⟩
    have hd := hf.disjoint.forall ht' hu hne
    exact hd _ (centre_nonneg hL (hst.le.trans hst.last)) ⟨hh, hw _ hh⟩
  rw [hw]
  exact hf

end Trans
end LearnTA
