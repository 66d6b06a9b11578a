import Verif.Lemmas.MergeAdjacent

/-!
# Merging of adjacent transitions keeps determinism
-/

namespace LearnTA
open IntBound Guard

namespace Trans

/-- No clock values enable both transitions. -/
def Disj (t u : Trans) : Prop := ∀ v : Valuation, v.Nonneg → ¬ (t.guard.Holds v ∧ u.guard.Holds v)

theorem Disj.symm {t u : Trans} (h : Disj t u) : Disj u t := fun v hv k => h v hv ⟨k.2, k.1⟩

theorem absorb_sublist (t : Trans) (us : List Trans) : (absorb t us).2.Sublist us := by
  induction us generalizing t with
  | nil => exact List.Sublist.refl _
  | cons u us ih =>
    unfold absorb
    split
    · exact (ih _).cons _
    · exact (ih t).cons_cons _

/-- What has been absorbed stays apart from what has not. -/
theorem absorb_disj {x : ℕ} {g : Guard} {L : List Trans} (t : Trans) (us : List Trans) (ht : Good x g L t)
    (hw : ∀ u ∈ us, Good x g L u) (z : Trans) (hz : Disj t z) (hzs : ∀ u ∈ us, Disj u z) : Disj (absorb t us).1 z := by
  induction us generalizing t with
  | nil => exact hz
  | cons u us ih =>
    unfold absorb
    split
    · rename_i h
      have hu := hw u (by simp)
      refine ih _ (ht.merge h hu) (fun y hy => hw y (by simp [hy])) ?_ (fun y hy => hzs y (by simp [hy]))
      have hn : Guard.adjacent t.guard u.guard = true := by
        unfold mergeable at h
        split at h
        · cases h
        · rename_i hn
          simp only [Bool.or_eq_true, decide_eq_true_eq, not_or, not_not, Bool.not_eq_true, Bool.not_eq_false'] at hn
          exact hn.2
      rintro v hv ⟨h1, h2⟩
      rcases Guard.hull_adjacent ht.1.1 hu.1.1 ht.1.2.1 hu.1.2.1 (ht.1.2.2.trans hu.1.2.2.symm) hn v hv h1 with k | k
      · exact hz v hv ⟨k, h2⟩
      · exact hzs u (by simp) v hv ⟨k, h2⟩
    · exact ih t ht (fun y hy => hw y (by simp [hy])) hz (fun y hy => hzs y (by simp [hy]))

theorem absorb_pairwise {x : ℕ} {g : Guard} {L : List Trans} (t : Trans) (us : List Trans) (ht : Good x g L t)
    (hw : ∀ u ∈ us, Good x g L u) (hp : (t :: us).Pairwise Disj) :
    ∀ u ∈ (absorb t us).2, Disj (absorb t us).1 u := by
  induction us generalizing t with
  | nil => intro u hu; cases hu
  | cons u us ih =>
    obtain ⟨p1, p2⟩ := List.pairwise_cons.1 hp
    obtain ⟨p3, p4⟩ := List.pairwise_cons.1 p2
    unfold absorb
    split
    · rename_i h
      have hu := hw u (by simp)
      refine ih _ (ht.merge h hu) (fun y hy => hw y (by simp [hy])) (List.pairwise_cons.2 ⟨fun y hy => ?_, p4⟩)
      -- the merged transition is what is absorbed from a list with one element
      have := absorb_disj t [u] ht (fun y hy => by rw [List.mem_singleton] at hy; rw [hy]; exact hu) y (p1 y (by simp [hy]))
        (fun w hw' => by rw [List.mem_singleton] at hw'; rw [hw']; exact p3 y hy)
      unfold absorb at this
      rw [if_pos h] at this
      exact this
    · intro y hy
      rcases List.mem_cons.1 hy with rfl | hy
      · exact absorb_disj t us ht (fun y hy => hw y (by simp [hy])) _ (p1 _ (by simp)) (fun y hy => (p3 y hy).symm)
      · exact ih t ht (fun y hy => hw y (by simp [hy])) (List.pairwise_cons.2 ⟨fun y hy => p1 y (by simp [hy]), p4⟩) y hy

theorem mergeAdjacent_pairwise {x : ℕ} {g : Guard} (n : ℕ) (ts : List Trans)
    (h : ∀ t ∈ ts, t.guard.Neat ∧ t.guard.Small ∧ Guard.SameBut x t.guard g) (hp : ts.Pairwise Disj) :
    (mergeAdjacent n ts).Pairwise Disj := by
  have good : ∀ L : List Trans, (∀ t ∈ L, t ∈ ts) → ∀ t ∈ L, Good x g L t := fun L hL t ht => ⟨h t (hL t ht), Within.self ht⟩
  induction n generalizing ts with
  | zero => exact hp
  | succ n ih =>
    cases ts with
    | nil => exact List.Pairwise.nil
    | cons t ts =>
      have hs := absorb_sublist t ts
      have hg : ∀ u ∈ t :: ts, Good x g (t :: ts) u := good _ fun _ h => h
      have hd := absorb_pairwise t ts (hg t (by simp)) (fun u hu => hg u (by simp [hu])) hp
      unfold mergeAdjacent
      dsimp only
      have hsub : ∀ u ∈ (absorb t ts).2, u ∈ t :: ts := fun u hu => List.mem_cons_of_mem _ (hs.subset hu)
      refine List.pairwise_cons.2 ⟨fun y hy => ?_, ?_⟩
      · have hy' := mergeAdjacent_good n (absorb t ts).2 (good (absorb t ts).2 hsub) y hy
        rintro v hv ⟨h1, h2⟩
        obtain ⟨u, u1, -, -, u2⟩ := hy'.2 v hv h2
        exact hd u u1 v hv ⟨h1, u2⟩
      · refine ih _ (fun u hu => h u (hsub u hu)) ((List.pairwise_cons.1 hp).2.sublist hs) fun L hL t' ht' => ?_
        exact good L (fun u hu => hsub u (hL u hu)) t' ht'

/-- A property of two transitions that their merging has too is one of all the transitions that remain. -/
theorem mergeAdjacent_all {P : Trans → Prop} (hm : ∀ t u : Trans, t.mergeable u = true → P t → P u → P (t.merge u)) (n : ℕ)
    (ts : List Trans) (h : ∀ t ∈ ts, P t) : ∀ t ∈ mergeAdjacent n ts, P t := by
  have ha : ∀ (us : List Trans) (t : Trans), P t → (∀ u ∈ us, P u) → P (absorb t us).1 := by
    intro us
    induction us with
    | nil => exact fun t ht _ => ht
    | cons u us ih =>
      intro t ht hu
      unfold absorb
      split
      · rename_i k
        exact ih _ (hm t u k ht (hu u (by simp))) fun y hy => hu y (by simp [hy])
      · exact ih t ht fun y hy => hu y (by simp [hy])
  induction n generalizing ts with
  | zero => exact h
  | succ n ih =>
    cases ts with
    | nil => exact h
    | cons t ts =>
      intro y hy
      unfold mergeAdjacent at hy
      dsimp only at hy
      rcases List.mem_cons.1 hy with rfl | hy
      · exact ha ts t (h t (by simp)) fun u hu => h u (by simp [hu])
      · exact ih _ (fun u hu => h u (List.mem_cons_of_mem _ ((absorb_sublist t ts).subset hu))) y hy

end Trans

namespace TA

theorem mergeAdjacentTransitions_all {A : TA} {p : ℕ} (hp : p ∈ A.states) {P : Trans → Prop}
    (hm : ∀ t u : Trans, t.mergeable u = true → P t → P u → P (t.merge u)) {a : Action} (h : ∀ t ∈ (A.loc p).next a, P t) :
    ∀ t ∈ (A.mergeAdjacentTransitions.loc p).next a, P t := by
  rw [mergeAdjacentTransitions_next hp]
  exact Trans.mergeAdjacent_all hm _ _ h

/-- The merged automaton is well-formed. -/
theorem mergeAdjacentTransitions_wf {A : TA} (hw : A.WF) : A.mergeAdjacentTransitions.WF where
  nodup := hw.nodup
  closed := by
    refine ⟨hw.closed.1, fun p (hp : p ∈ A.states) a => ?_⟩
    exact mergeAdjacentTransitions_all (P := fun t => t.target ∈ A.states) hp (fun t u _ _ hu => hu) (hw.closed.2 p hp a)
  clocks := by
    intro p (hp : p ∈ A.states) a
    refine mergeAdjacentTransitions_all (P := fun t => (∀ c ∈ t.guard, c.x < A.clockSize) ∧
      ∀ r ∈ t.resets, r.1 < A.clockSize ∧ ∀ y, r.2 = .clock y → y < A.clockSize) hp
      (fun t u _ h1 h2 => ⟨fun c hc => ?_, h2.2⟩) (hw.clocks p hp a)
    obtain ⟨-, -, k, hk, d, hd, e, -⟩ := (mem_unionHull (by simp) c).1 hc
    have : d.x = c.x := congrArg Prod.fst e
    simp only [List.mem_cons, List.not_mem_nil, or_false] at hk
    rcases hk with rfl | rfl
    · exact this ▸ h2.1 d hd
    · exact this ▸ h1.1 d hd
  resets := by
    intro p (hp : p ∈ A.states) a
    exact mergeAdjacentTransitions_all (P := fun t => ∀ r ∈ t.resets, ∀ q, r.2 = .const q → 0 ≤ q) hp
      (fun t u _ _ hu => hu) (hw.resets p hp a)
  small := by
    intro p (hp : p ∈ A.states) a
    refine mergeAdjacentTransitions_all (P := fun t => t.guard.Small) hp
      (fun t u _ h1 h2 => Trans.unionHull_small _ (by simp) fun k hk => ?_) (hw.small p hp a)
    simp only [List.mem_cons, List.not_mem_nil, or_false] at hk
    rcases hk with rfl | rfl
    · exact h2
    · exact h1

theorem mergeAdjacentTransitions_epsFree {A : TA} (he : A.EpsFree) : A.mergeAdjacentTransitions.EpsFree := by
  intro p (hp : p ∈ A.states)
  rw [mergeAdjacentTransitions_next hp, he p hp]
  rfl

/-- The merged automaton is deterministic if the guards differ for one clock only. -/
theorem mergeAdjacentTransitions_deterministic {A : TA} (hw : A.WF) (ho : A.OneClockApart) (hd : A.Deterministic) :
    A.mergeAdjacentTransitions.Deterministic := by
  intro p (hp : p ∈ A.states) a
  rw [mergeAdjacentTransitions_next hp]
  obtain ⟨x, hx⟩ := ho p hp a
  cases hl : (A.loc p).next a with
  | nil => exact List.Pairwise.nil
  | cons t0 ts =>
    have hmem : t0 ∈ (A.loc p).next a := by rw [hl]; simp
    have := hd p hp a
    rw [hl] at this
    refine Trans.mergeAdjacent_pairwise (x := x) (g := t0.guard) _ _ (fun u hu => ?_) this
    rw [← hl] at hu
    exact ⟨(hx u hu).1, hw.small p hp a u hu, (hx u hu).2 t0 hmem⟩

end TA
end LearnTA
