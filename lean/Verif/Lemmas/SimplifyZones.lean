import Verif.Lemmas.Ordered
import Verif.Lemmas.ZADead
import Verif.Lemmas.Micro

namespace LearnTA

namespace TA

theorem mem_charActions (a : Action) : a ∈ ZA.charActions ↔ a.val < 127 := by
  simp [ZA.charActions, mem_allActions]

theorem liveTrans_iff (z : ZA) (p : ℕ) (a : Action) (t : Trans) : liveTrans z p a t = true ↔
    a.val < 127 ∧ ∃ q ∈ z.states, (z.loc q).ta = p ∧ ∃ j, (t, j) ∈ (z.loc q).next a := by
  simp only [liveTrans, List.any_eq_true, Bool.and_eq_true, decide_eq_true_eq, mem_charActions]
  constructor
  · rintro ⟨q, hq, ⟨h1, h2⟩, ⟨t', j⟩, h3, h4⟩
    simp only at h4
    subst h4
    exact ⟨h2, q, hq, h1, j, h3⟩
  · rintro ⟨h2, q, hq, h1, j, h3⟩
    exact ⟨q, hq, ⟨h1, h2⟩, (t, j), h3, rfl⟩

/-- What the zone automaton has to be like. -/
structure Abstracts (z : ZA) (A : TA) : Prop where
  closed : z.Closed
  node : ∀ q ∈ z.states, (z.loc q).ta ∈ A.states
  edge : ∀ q ∈ z.states, ∀ a, ∀ e ∈ (z.loc q).next a, (z.loc e.2).ta = e.1.target

theorem foldl_setLoc' (f : ℕ → TAState → TAState) (l : List ℕ) (A : TA) (hn : l.Nodup) :
    l.foldl (fun B p => B.setLoc p (f p (B.loc p))) A =
      { A with loc := fun p => if p ∈ l then f p (A.loc p) else A.loc p } := by
  induction l generalizing A with
  | nil => simp
  | cons q l ih =>
    rw [List.nodup_cons] at hn
    rw [List.foldl_cons, ih _ hn.2]
    simp only [setLoc, mk.injEq, and_true]
    funext p
    by_cases hpq : p = q
    · subst hpq; simp [hn.1]
    · simp [Function.update_of_ne hpq, hpq]

section
variable {A : TA} {z : ZA}

theorem keepLive_eq (hw : A.WF) (h : Abstracts z A) :
    let live := A.states.filter fun p => decide (∃ q ∈ z.states, (z.loc q).ta = p)
    (A.keepLive z).states = live ∧
    (A.keepLive z).init = A.init.filter (fun p => decide (∃ q ∈ z.states, (z.loc q).ta = p)) ∧
    (A.keepLive z).maxC = A.maxC ∧
    (∀ p, ((A.keepLive z).loc p).isMatch = (A.loc p).isMatch) ∧
    ∀ p ∈ live, ∀ a, ((A.keepLive z).loc p).next a = ((A.loc p).next a).filter (liveTrans z p a) := by
  have hlive : ∀ p, p ∈ (z.states.map fun q => (z.loc q).ta).dedup ↔
      ∃ q ∈ z.states, (z.loc q).ta = p := by
    intro p; simp [List.mem_dedup, List.mem_map]
  have htgt : ∀ p a t, liveTrans z p a t = true → ∃ q ∈ z.states, (z.loc q).ta = t.target := by
    intro p a t ht
    obtain ⟨-, q, hq, -, j, hj⟩ := (liveTrans_iff z p a t).1 ht
    exact ⟨j, h.closed.2 q hq a _ hj, h.edge q hq a _ hj⟩
  simp only
  unfold keepLive
  simp only
  have hnd := List.nodup_dedup (z.states.map fun q => (z.loc q).ta)
  generalize (z.states.map fun q => (z.loc q).ta).dedup = live at hlive hnd
  simp only [← hlive]
  split
  · rename_i hlen
    have hnd' := hw.nodup.sublist (List.filter_sublist (l := A.states) (p := fun p => decide (p ∈ live)))
    rw [keepStates_eq _ _ hw.nodup]
    rw [foldl_setLoc' (fun p s => { s with next := fun a => (s.next a).filter (liveTrans z p a) })]
    · refine ⟨rfl, rfl, rfl, ?_, ?_⟩
      · intro p
        simp only
        split <;> rfl
      · intro p hp a
        simp only
        rw [if_pos hp, if_pos hp]
        simp only [filterTrans, List.filter_filter]
        refine List.filter_congr fun t _ => ?_
        by_cases ht : liveTrans z p a t = true
        · rw [ht]; simpa using (hlive _).2 (htgt p a t ht)
        · simp [ht]
    · exact hnd'
  · rename_i hlen
    have hall : ∀ p ∈ A.states, p ∈ live := by
      have hsub : ∀ p ∈ live, p ∈ A.states := by
        intro p hp
        obtain ⟨q, hq, rfl⟩ := (hlive p).1 hp
        exact h.node q hq
      have hperm : live.Perm A.states := (hnd.subperm hsub).perm_of_length_le (by omega)
      exact fun p hp => hperm.mem_iff.2 hp
    rw [foldl_setLoc' (fun p s => { s with next := fun a => (s.next a).filter (liveTrans z p a) })
      _ _ hw.nodup]
    refine ⟨(List.filter_eq_self.2 fun p hp => by simpa using hall p hp).symm,
      (List.filter_eq_self.2 fun p hp => by simpa using hall p (hw.closed.1 p hp)).symm, rfl, ?_, ?_⟩
    · intro p
      simp only
      split <;> rfl
    · intro p hp a
      simp only
      rw [if_pos (List.mem_filter.1 hp).1]

theorem keepLive_sub (hw : A.WF) (h : Abstracts z A) : Sub (A.keepLive z) A := by
  obtain ⟨h1, h2, -, -, h5⟩ := keepLive_eq hw h
  refine ⟨by rw [h1]; exact List.filter_sublist, fun q hq => ?_, fun p hp a => ?_⟩
  · rw [h2] at hq; exact (List.mem_filter.1 hq).1
  · rw [h1] at hp; rw [h5 p hp a]; exact List.filter_sublist

theorem keepLive_wf (hw : A.WF) (h : Abstracts z A) : (A.keepLive z).WF := by
  obtain ⟨h1, h2, h3, -, h5⟩ := keepLive_eq hw h
  refine (keepLive_sub hw h).wf hw ⟨fun q hq => ?_, fun p hp a t ht => ?_⟩ h3
  · rw [h2] at hq
    rw [h1]
    exact List.mem_filter.2 ⟨hw.closed.1 q (List.mem_filter.1 hq).1, (List.mem_filter.1 hq).2⟩
  · rw [h1] at hp
    rw [h5 p hp a] at ht
    obtain ⟨ht1, ht2⟩ := List.mem_filter.1 ht
    obtain ⟨-, q, hq, -, j, hj⟩ := (liveTrans_iff z p a t).1 ht2
    rw [h1]
    refine List.mem_filter.2 ⟨hw.closed.2 p (List.mem_filter.1 hp).1 a t ht1, ?_⟩
    simpa using ⟨j, h.closed.2 q hq a _ hj, h.edge q hq a _ hj⟩

/-- A run with a path beside it is a run of the result. -/
theorem keepLive_run (hw : A.WF) (h : Abstracts z A) {c c' : Config} {ms : List Micro}
    (hr : A.MRun c ms c') (hc : c.loc ∈ A.states) (i j : ℕ) (hi : i ∈ z.states)
    (hta : (z.loc i).ta = c.loc) (hp : z.Path i (discrete ms) j)
    (ha : ∀ x ∈ discrete ms, x.1.val < 127) : (A.keepLive z).MRun c ms c' := by
  obtain ⟨h1, -, -, -, h5⟩ := keepLive_eq hw h
  have hnext : ∀ (p i : ℕ) (a : Action) (t : Trans) (k : ℕ), p ∈ A.states → i ∈ z.states →
      (z.loc i).ta = p → a.val < 127 → (t, k) ∈ (z.loc i).next a → t ∈ (A.loc p).next a →
      t ∈ ((A.keepLive z).loc p).next a := by
    intro p i a t k hp hi hta ha hk ht
    rw [h5 p (List.mem_filter.2 ⟨hp, by simpa using ⟨i, hi, hta⟩⟩) a]
    exact List.mem_filter.2 ⟨ht, (liveTrans_iff z p a t).2 ⟨ha, i, hi, hta, k, hk⟩⟩
  induction hr generalizing i with
  | nil c => exact .nil c
  | delay d hd _ ih => exact .delay d hd (ih hc i hi hta hp ha)
  | @eps c ms c' t ht hg _ ih =>
    simp only [discrete] at hp ha
    cases hp with
    | cons a t k hk hp =>
      refine .eps t (hnext _ i _ t k hc hi hta (ha _ List.mem_cons_self) hk ht) hg
        (ih (hw.closed.2 _ hc _ t ht) k (h.closed.2 i hi _ _ hk) (h.edge i hi _ _ hk) hp
          fun x hx => ha x (List.mem_cons_of_mem _ hx))
  | @act c ms c' a hne t ht hg _ ih =>
    simp only [discrete] at hp ha
    cases hp with
    | cons a t k hk hp =>
      refine .act a hne t (hnext _ i _ t k hc hi hta (ha _ List.mem_cons_self) hk ht) hg
        (ih (hw.closed.2 _ hc _ t ht) k (h.closed.2 i hi _ _ hk) (h.edge i hi _ _ hk) hp
          fun x hx => ha x (List.mem_cons_of_mem _ hx))

/-- The result accepts nothing new. -/
theorem keepLive_accepts_of (hw : A.WF) (h : Abstracts z A) (w : TimedWord)
    (hacc : (A.keepLive z).Accepts w) : A.Accepts w := by
  obtain ⟨h1, h2, h3, h4, h5⟩ := keepLive_eq hw h
  have hs := keepLive_sub hw h
  have hcl := (keepLive_wf hw h).closed
  refine accepts_of_sim (fun c d => c = d ∧ c.loc ∈ (A.keepLive z).states) ?_ ?_ ?_ ?_ hacc
  · exact fun q hq => ⟨q, hs.init q hq, rfl, hcl.1 q hq⟩
  · rintro c d q ⟨rfl, hc⟩ _; exact ⟨rfl, hc⟩
  · rintro c d ⟨rfl, hc⟩ a t ht hg
    exact ⟨t, (hs.next _ hc a).subset ht, hg, rfl, hcl.2 _ hc a t ht⟩
  · rintro c d ⟨rfl, hc⟩ hm
    rw [← h4]; exact hm

end
end TA
end LearnTA
