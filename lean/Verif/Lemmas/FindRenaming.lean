import Verif.Model.FindRenaming
import Verif.Lemmas.Candidates
import Verif.Lemmas.Neighbor
import Mathlib.Data.List.TakeWhile

/-!
# Lemmas on the general search for a renaming
-/

namespace LearnTA.Equivalence
open RenamingRelation

theorem pairLt_iff {p q : ℕ × ℕ} : pairLt p q = true ↔ p.1 < q.1 ∨ p.1 = q.1 ∧ p.2 < q.2 := by
  unfold pairLt; simp

theorem pairLt_irrefl (p : ℕ × ℕ) : pairLt p p = false := by
  rw [Bool.eq_false_iff, Ne, pairLt_iff]; omega

theorem pairLt_asymm {p q : ℕ × ℕ} (h : pairLt p q = true) : pairLt q p = false := by
  rw [Bool.eq_false_iff, Ne, pairLt_iff]; rw [pairLt_iff] at h; omega

theorem pairLt_total {p q : ℕ × ℕ} (h : p ≠ q) (h' : pairLt p q = false) : pairLt q p = true := by
  rw [Bool.eq_false_iff, Ne, pairLt_iff] at h'
  rw [pairLt_iff]
  by_contra hc
  exact h (Prod.ext (by omega) (by omega))

/-! ### Insertion -/

/-- `e` is at its place. -/
def Pivot (r : RenamingRelation) (e : ℕ × ℕ) : Prop :=
  ∃ a b, r = a ++ e :: b ∧ (∀ p ∈ a, pairLt p e = true) ∧ ∀ p ∈ b, pairLt p e = false

theorem dropWhile_append_of {α : Type} {P : α → Bool} {a b : List α} (ha : ∀ x ∈ a, P x = true) (hb : ∀ x ∈ b.head?, P x = false) :
    (a ++ b).takeWhile P = a ∧ (a ++ b).dropWhile P = b := by
  induction a with
  | nil =>
    cases b with
    | nil => simp
    | cons x b => simp [List.takeWhile_cons, List.dropWhile_cons, hb x (by simp)]
  | cons x a ih =>
    have := ih fun y hy => ha y (by simp [hy])
    simp [ha x (by simp), this.1, this.2]

theorem insertEdge_spec {r r' : RenamingRelation} {e : ℕ × ℕ} (h : insertEdge r e = .ok (some r')) :
    ∃ a b, r = a ++ b ∧ r' = a ++ e :: b ∧ (∀ p ∈ a, pairLt p e = true) ∧ (∀ p ∈ b, pairLt p e = false) ∧ b.head? ≠ some e := by
  unfold insertEdge at h
  dsimp only at h
  split at h
  · cases h
  · rename_i h1
    split at h
    · cases h
    · rename_i h2
      cases h
      refine ⟨_, _, (List.takeWhile_append_dropWhile).symm, rfl, fun p hp => List.mem_takeWhile_imp (p := fun p => pairLt p e) hp, ?_, h2⟩
      intro p hp
      by_contra hc
      exact h1 (List.any_eq_true.2 ⟨p, hp, by simpa using hc⟩)

theorem insertEdge_mem {r r' : RenamingRelation} {e : ℕ × ℕ} (h : insertEdge r e = .ok (some r')) {p : ℕ × ℕ} :
    p ∈ r' ↔ p ∈ r ∨ p = e := by
  obtain ⟨a, b, rfl, rfl, _⟩ := insertEdge_spec h
  simp only [List.mem_append, List.mem_cons]
  tauto

theorem insertEdge_last {r : RenamingRelation} {e : ℕ × ℕ} (h : ∀ p ∈ r, pairLt p e = true) :
    insertEdge r e = .ok (some (r ++ [e])) := by
  obtain ⟨h1, h2⟩ := dropWhile_append_of (P := fun p => pairLt p e) (b := []) h (by simp)
  rw [List.append_nil] at h1 h2
  unfold insertEdge
  rw [h1, h2]
  simp

theorem Pivot.insertEdge {r : RenamingRelation} {e : ℕ × ℕ} (h : Pivot r e) : insertEdge r e = .ok none := by
  obtain ⟨a, b, rfl, ha, hb⟩ := h
  obtain ⟨h1, h2⟩ := dropWhile_append_of (P := fun p => pairLt p e) (b := e :: b) ha (by simp [pairLt_irrefl])
  unfold Equivalence.insertEdge
  rw [h1, h2]
  dsimp only
  rw [if_neg, if_pos (by simp)]
  simp only [List.any_cons, pairLt_irrefl, Bool.false_or, List.any_eq_true, not_exists, not_and]
  intro p hp; simp [hb p hp]

theorem insertEdge_pivot {r r' : RenamingRelation} {e : ℕ × ℕ} (h : insertEdge r e = .ok (some r')) : Pivot r' e := by
  obtain ⟨a, b, _, rfl, h1, h2, _⟩ := insertEdge_spec h
  exact ⟨a, b, rfl, h1, h2⟩

theorem Pivot.mono {r r' : RenamingRelation} {e q : ℕ × ℕ} (h : Equivalence.insertEdge r e = .ok (some r')) (hq : Pivot r q) :
    Pivot r' q := by
  by_cases hne : q = e
  · subst hne; exact insertEdge_pivot h
  obtain ⟨a, b, e1, rfl, h1, h2, _⟩ := insertEdge_spec h
  obtain ⟨c, d, e2, h3, h4⟩ := hq
  rw [e2] at e1
  rcases List.append_eq_append_iff.1 e1 with ⟨m, rfl, h5⟩ | ⟨m, rfl, h5⟩
  · -- `a = c ++ m`, `q :: d = m ++ b`
    cases m with
    | nil =>
      simp only [List.nil_append] at h5
      subst h5
      refine ⟨c ++ [e], d, by simp, ?_, h4⟩
      intro p hp
      rcases List.mem_append.1 hp with hp | hp
      · exact h3 p hp
      · rw [List.mem_singleton.1 hp]
        exact pairLt_total hne (h2 q (by simp))
    | cons x m =>
      simp only [List.cons_append, List.cons.injEq] at h5
      obtain ⟨rfl, rfl⟩ := h5
      refine ⟨c, m ++ e :: b, by simp, h3, ?_⟩
      intro p hp
      rcases List.mem_append.1 hp with hp | hp
      · exact h4 p (by simp [hp])
      · rcases List.mem_cons.1 hp with rfl | hp
        · exact pairLt_asymm (h1 q (by simp))
        · exact h4 p (by simp [hp])
  · -- `c = a ++ m`, `b = m ++ q :: d`
    subst h5
    refine ⟨a ++ e :: m, d, by simp, ?_, h4⟩
    intro p hp
    rcases List.mem_append.1 hp with hp | hp
    · exact h3 p (by simp [hp])
    · rcases List.mem_cons.1 hp with rfl | hp
      · exact pairLt_total hne (h2 q (by simp))
      · exact h3 p (by simp [hp])

/-! ### The search -/

theorem extendBy_spec {accept : RenamingRelation → Bool} {c : RenamingRelation} {es : List (ℕ × ℕ)} {new : List RenamingRelation}
    {x : RenamingRelation ⊕ List RenamingRelation} (h : extendBy accept c es new = .ok x) :
    (∀ r, x = .inl r → accept r = true ∧ ∃ e ∈ es, insertEdge c e = .ok (some r)) ∧
    ∀ l, x = .inr l → ∃ l', l = new ++ l' ∧ l'.length ≤ es.length ∧
      (∀ r ∈ l', ∃ e ∈ es, insertEdge c e = .ok (some r)) ∧
      ∀ e ∈ es, insertEdge c e = .ok none ∨ ∃ r ∈ l', insertEdge c e = .ok (some r) ∧ accept r = false := by
  induction es generalizing new with
  | nil =>
    cases h
    exact ⟨by simp, fun l hl => ⟨[], by simpa using hl.symm, by simp, by simp, by simp⟩⟩
  | cons e es ih =>
    unfold extendBy at h
    cases hi : insertEdge c e with
    | error f => rw [hi] at h; cases h
    | ok o =>
      rw [hi] at h
      cases o with
      | none =>
        obtain ⟨h1, h2⟩ := ih h
        refine ⟨fun r hr => ?_, fun l hl => ?_⟩
        · obtain ⟨a, e', b, d⟩ := h1 r hr
          exact ⟨a, e', by simp [b], d⟩
        · obtain ⟨l', rfl, a, b, d⟩ := h2 l hl
          refine ⟨l', rfl, by simp; omega, fun r hr => ?_, fun e' he' => ?_⟩
          · obtain ⟨e', b, d⟩ := b r hr
            exact ⟨e', by simp [b], d⟩
          · rcases List.mem_cons.1 he' with rfl | he'
            · exact .inl hi
            · exact d e' he'
      | some r0 =>
        replace h : (if accept r0 then Except.ok (.inl r0) else extendBy accept c es (new ++ [r0])) = .ok x := h
        split at h
        · rename_i ha
          cases h
          refine ⟨fun r hr => ?_, by simp⟩
          cases hr
          exact ⟨ha, e, by simp, hi⟩
        · rename_i ha
          obtain ⟨h1, h2⟩ := ih h
          refine ⟨fun r hr => ?_, fun l hl => ?_⟩
          · obtain ⟨a, e', b, d⟩ := h1 r hr
            exact ⟨a, e', by simp [b], d⟩
          · obtain ⟨l', rfl, a, b, d⟩ := h2 l hl
            refine ⟨r0 :: l', by simp, by simp; omega, fun r hr => ?_, fun e' he' => ?_⟩
            · rcases List.mem_cons.1 hr with rfl | hr
              · exact ⟨e, by simp, hi⟩
              · obtain ⟨e', b, d⟩ := b r hr
                exact ⟨e', by simp [b], d⟩
            · rcases List.mem_cons.1 he' with rfl | he'
              · exact .inr ⟨r0, by simp, hi, by simpa using ha⟩
              · rcases d e' he' with d | ⟨r, a, b⟩
                · exact .inl d
                · exact .inr ⟨r, by simp [a], b⟩

theorem extendBy_fail {accept : RenamingRelation → Bool} {c : RenamingRelation} {es : List (ℕ × ℕ)} {new : List RenamingRelation}
    {f : Fail} (h : extendBy accept c es new = .error f) : f = .undefined := by
  induction es generalizing new with
  | nil => cases h
  | cons e es ih =>
    unfold extendBy at h
    cases hi : insertEdge c e with
    | error g =>
      rw [hi] at h
      cases h
      unfold insertEdge at hi
      dsimp only at hi
      split at hi
      · cases hi; rfl
      · split at hi <;> cases hi
    | ok o =>
      rw [hi] at h
      cases o with
      | none => exact ih h
      | some r0 =>
        replace h : (if accept r0 then Except.ok (.inl r0) else extendBy accept c es (new ++ [r0])) = .error f := h
        split at h
        · cases h
        · exact ih h

/-- The candidates that the search may see. -/
inductive Found (edges : List (ℕ × ℕ)) (cs : List RenamingRelation) : RenamingRelation → Prop
  | init {c : RenamingRelation} : c ∈ cs → Found edges cs c
  | step {c r : RenamingRelation} {e : ℕ × ℕ} : Found edges cs c → e ∈ edges → insertEdge c e = .ok (some r) → Found edges cs r

theorem Found.mono {edges : List (ℕ × ℕ)} {cs cs' : List RenamingRelation} (h : ∀ c ∈ cs, Found edges cs' c) {r : RenamingRelation}
    (hr : Found edges cs r) : Found edges cs' r := by
  induction hr with
  | init hc => exact h _ hc
  | step _ he hi ih => exact .step ih he hi

theorem searchLoop_some {accept : RenamingRelation → Bool} {edges : List (ℕ × ℕ)} {n : ℕ} {cs : List RenamingRelation}
    {r : RenamingRelation} (h : searchLoop accept edges n cs = .ok (some r)) : accept r = true ∧ Found edges cs r := by
  induction n generalizing cs with
  | zero => cases h
  | succ n ih =>
    cases cs with
    | nil => cases h
    | cons c cs =>
      unfold searchLoop at h
      cases hx : extendBy accept c edges [] with
      | error f => rw [hx] at h; cases h
      | ok x =>
        rw [hx] at h
        obtain ⟨h1, h2⟩ := extendBy_spec hx
        cases x with
        | inl r0 =>
          cases h
          obtain ⟨a, e, b, d⟩ := h1 _ rfl
          exact ⟨a, .step (.init (by simp)) b d⟩
        | inr l =>
          obtain ⟨l', e, _, b, _⟩ := h2 _ rfl
          rw [List.nil_append] at e
          subst e
          obtain ⟨k1, k2⟩ := ih h
          refine ⟨k1, k2.mono fun x hx => ?_⟩
          rcases List.mem_append.1 hx with hx | hx
          · exact .init (by simp [hx])
          · obtain ⟨e, he, hi⟩ := b x hx
            exact .step (.init (by simp)) he hi

theorem searchLoop_none {accept : RenamingRelation → Bool} {edges : List (ℕ × ℕ)} {n : ℕ} {cs : List RenamingRelation}
    (h : searchLoop accept edges n cs = .ok none) :
    ∃ H : List RenamingRelation, (∀ c ∈ cs, c ∈ H) ∧ (∀ c ∈ H, ∀ e ∈ edges, insertEdge c e = .ok none ∨
      ∃ r ∈ H, insertEdge c e = .ok (some r) ∧ accept r = false) := by
  induction n generalizing cs with
  | zero => cases h
  | succ n ih =>
    cases cs with
    | nil => exact ⟨[], by simp, by simp⟩
    | cons c cs =>
      unfold searchLoop at h
      cases hx : extendBy accept c edges [] with
      | error f => rw [hx] at h; cases h
      | ok x =>
        rw [hx] at h
        obtain ⟨h1, h2⟩ := extendBy_spec hx
        cases x with
        | inl r0 => cases h
        | inr l =>
          obtain ⟨l', e, _, _, d⟩ := h2 _ rfl
          rw [List.nil_append] at e
          subst e
          obtain ⟨H, k1, k2⟩ := ih h
          refine ⟨c :: H, fun x hx => ?_, fun x hx e he => ?_⟩
          · rcases List.mem_cons.1 hx with rfl | hx
            · simp
            · simp [k1 x (by simp [hx])]
          · rcases List.mem_cons.1 hx with rfl | hx
            · rcases d e he with d | ⟨r, a, b⟩
              · exact .inl d
              · exact .inr ⟨r, by simp [k1 r (by simp [a])], b⟩
            · rcases k2 x hx e he with d | ⟨r, a, b⟩
              · exact .inl d
              · exact .inr ⟨r, by simp [a], b⟩

/-- If the search fails, it has rejected all ascending lists of edges. -/
theorem searchLoop_complete {accept : RenamingRelation → Bool} {edges : List (ℕ × ℕ)} {n : ℕ} {cs : List RenamingRelation}
    (h : searchLoop accept edges n cs = .ok none) (h0 : [] ∈ cs) (r : RenamingRelation)
    (hs : r.Pairwise fun p q => pairLt p q = true) (he : ∀ p ∈ r, p ∈ edges) (hne : r ≠ []) : accept r = false := by
  obtain ⟨H, h1, h2⟩ := searchLoop_none h
  have key : ∀ r : RenamingRelation, (r.Pairwise fun p q => pairLt p q = true) → (∀ p ∈ r, p ∈ edges) →
      r ∈ H ∧ (r ≠ [] → accept r = false) := by
    intro r
    induction r using List.reverseRecOn with
    | nil => exact fun _ _ => ⟨h1 _ h0, fun h => absurd rfl h⟩
    | append_singleton r e ih =>
      intro hs he
      rw [List.pairwise_append] at hs
      obtain ⟨i1, _⟩ := ih hs.1 fun p hp => he p (by simp [hp])
      have hi := insertEdge_last (r := r) (e := e) fun p hp => hs.2.2 p hp e (by simp)
      rcases h2 r i1 e (he e (by simp)) with k | ⟨r', k1, k2, k3⟩
      · rw [hi] at k; cases k
      · rw [hi] at k2
        obtain rfl : r ++ [e] = r' := by injection k2 with k2; exact Option.some.inj k2
        exact ⟨k1, fun _ => k3⟩
  exact (key r hs he).2 hne

open Classical in
/-- The number of edges that are not in place. -/
noncomputable def missing (edges : List (ℕ × ℕ)) (r : RenamingRelation) : ℕ := (edges.filter fun e => ¬ Pivot r e).length

theorem missing_lt {edges : List (ℕ × ℕ)} {c r : RenamingRelation} {e : ℕ × ℕ} (he : e ∈ edges)
    (h : insertEdge c e = .ok (some r)) : missing edges r < missing edges c := by
  classical
  have key : ∀ l : List (ℕ × ℕ), (l.filter fun e => ¬ Pivot r e).length ≤ (l.filter fun e => ¬ Pivot c e).length ∧
      (e ∈ l → (l.filter fun e => ¬ Pivot r e).length < (l.filter fun e => ¬ Pivot c e).length) := by
    intro l
    induction l with
    | nil => simp
    | cons x l ih =>
      by_cases hc : Pivot c x
      · have hr := hc.mono h
        rw [List.filter_cons_of_neg (by simpa using hr), List.filter_cons_of_neg (by simpa using hc)]
        refine ⟨ih.1, fun hx => ih.2 ?_⟩
        rcases List.mem_cons.1 hx with rfl | hx
        · rw [hc.insertEdge] at h; cases h
        · exact hx
      · rw [List.filter_cons_of_pos (p := fun e => decide (¬ Pivot c e)) (by simpa using hc)]
        by_cases hr : Pivot r x
        · rw [List.filter_cons_of_neg (by simpa using hr), List.length_cons]
          have := ih.1
          exact ⟨by omega, fun _ => by omega⟩
        · rw [List.filter_cons_of_pos (p := fun e => decide (¬ Pivot r e)) (by simpa using hr), List.length_cons, List.length_cons]
          refine ⟨by have := ih.1; omega, fun hx => ?_⟩
          rcases List.mem_cons.1 hx with rfl | hx
          · exact absurd (insertEdge_pivot h) hr
          · have := ih.2 hx; omega
  unfold missing
  have := (key edges).2 he
  convert this using 2

/-- A bound for the number of iterations. -/
noncomputable def weight (edges : List (ℕ × ℕ)) (cs : List RenamingRelation) : ℕ :=
  (cs.map fun c => (edges.length + 1) ^ missing edges c).sum

theorem searchLoop_returns {accept : RenamingRelation → Bool} {edges : List (ℕ × ℕ)} {n : ℕ} {cs : List RenamingRelation}
    (hn : weight edges cs < n) : searchLoop accept edges n cs ≠ .error .fuel := by
  induction n generalizing cs with
  | zero => omega
  | succ n ih =>
    cases cs with
    | nil => intro h; cases h
    | cons c cs =>
      unfold searchLoop
      cases hx : extendBy accept c edges [] with
      | error f => rw [extendBy_fail hx]; intro h; cases h
      | ok x =>
        cases x with
        | inl r => intro h; cases h
        | inr l =>
          obtain ⟨l0, e, hlen, b, _⟩ := (extendBy_spec hx).2 _ rfl
          rw [List.nil_append] at e
          subst e
          clear hx
          refine ih ?_
          have hw : weight edges l < (edges.length + 1) ^ missing edges c := by
            have key : ∀ l : List RenamingRelation, (∀ r ∈ l, missing edges r < missing edges c) →
                weight edges l ≤ l.length * (edges.length + 1) ^ (missing edges c - 1) := by
              intro l
              induction l with
              | nil => simp [weight]
              | cons r l ih =>
                intro hl
                have h1 := ih fun r hr => hl r (by simp [hr])
                have h2 := hl r (by simp)
                have h3 : (edges.length + 1) ^ missing edges r ≤ (edges.length + 1) ^ (missing edges c - 1) :=
                  Nat.pow_le_pow_right (by omega) (by omega)
                unfold weight at h1 ⊢
                rw [List.map_cons, List.sum_cons, List.length_cons, Nat.succ_mul]
                omega
            have h1 := key l fun r hr => by
              obtain ⟨e, he, hi⟩ := b r hr
              exact missing_lt he hi
            cases l with
            | nil => simpa [weight] using Nat.pos_of_ne_zero (by positivity)
            | cons r l' =>
              obtain ⟨e, he, hi⟩ := b r (by simp)
              have h2 := missing_lt he hi
              obtain ⟨k, hk⟩ : ∃ k, missing edges c = k + 1 := ⟨missing edges c - 1, by omega⟩
              rw [hk] at h1 ⊢
              rw [Nat.add_sub_cancel] at h1
              have h3 : (r :: l').length * (edges.length + 1) ^ k ≤ edges.length * (edges.length + 1) ^ k :=
                Nat.mul_le_mul_right _ hlen
              have h4 : 0 < (edges.length + 1) ^ k := Nat.pow_pos (by omega)
              rw [pow_succ, Nat.mul_add, Nat.mul_one, Nat.mul_comm _ edges.length]
              omega
          unfold weight at hn hw ⊢
          rw [List.map_cons, List.sum_cons] at hn
          rw [List.map_append, List.sum_append]
          omega

/-! ### The generated candidates -/

theorem candidateLoop_good {g1 g2 : List (List ℕ)} {c1 c2 : List ℕ} {N M : ℕ} (h1 : ∀ i, ∀ j ∈ g1.getD i [], j < M)
    (h2 : ∀ j, ∀ i ∈ g2.getD j [], i < N) (n i1 i2 : ℕ) (cs : List RenamingRelation) (h0 : [] ∈ cs)
    (hr : ∀ c ∈ cs, ∀ p ∈ c, p.1 < N ∧ p.2 < M) :
    [] ∈ candidateLoop g1 g2 c1 c2 n i1 i2 cs ∧ ∀ c ∈ candidateLoop g1 g2 c1 c2 n i1 i2 cs, ∀ p ∈ c, p.1 < N ∧ p.2 < M := by
  induction n generalizing i1 i2 cs with
  | zero => exact ⟨h0, hr⟩
  | succ n ih =>
    unfold candidateLoop
    split
    · dsimp only
      split
      · exact ih _ _ _ h0 hr
      · rename_i e1
        split
        · exact ih _ _ _ h0 hr
        · rename_i e2
          split
          · split <;> exact ih _ _ _ h0 hr
          · split
            · split <;> exact ih _ _ _ h0 hr
            · refine ih _ _ _ ?_ ?_
              · unfold combine
                rw [List.isEmpty_iff] at e1 e2
                obtain ⟨x, hx⟩ := List.exists_mem_of_ne_nil _ e1
                obtain ⟨y, hy⟩ := List.exists_mem_of_ne_nil _ e2
                exact List.mem_flatMap.2 ⟨y, hy, List.mem_flatMap.2 ⟨x, hx, List.mem_flatMap.2 ⟨[], h0, by simp⟩⟩⟩
              · intro c hc p hp
                unfold combine at hc
                obtain ⟨y, hy, hc⟩ := List.mem_flatMap.1 hc
                obtain ⟨x, hx, hc⟩ := List.mem_flatMap.1 hc
                obtain ⟨d, hd, hc⟩ := List.mem_flatMap.1 hc
                simp only [List.mem_cons, List.not_mem_nil, or_false] at hc
                rcases hc with rfl | rfl | rfl
                · exact hr _ hd p hp
                · rcases List.mem_append.1 hp with hp | hp
                  · exact hr _ hd p hp
                  · rw [List.mem_singleton.1 hp]; exact ⟨h2 _ _ hy, h1 _ _ hx⟩
                · rw [List.mem_singleton.1 hp]; exact ⟨h2 _ _ hy, h1 _ _ hx⟩
    · exact ⟨h0, hr⟩

theorem getLastD_ge {l : List ℕ} (hs : l.Pairwise (· < ·)) {x : ℕ} (hx : x ∈ l) : x ≤ l.getLastD 0 := by
  induction l using List.reverseRecOn with
  | nil => cases hx
  | append_singleton l y _ =>
    have e : (l ++ [y]).getLastD 0 = y := by rw [List.getLastD_eq_getLast?]; simp
    rw [e]
    rcases List.mem_append.1 hx with hx | hx
    · exact ((List.pairwise_append.1 hs).2.2 x hx y (by simp)).le
    · rw [List.mem_singleton.1 hx]

theorem skipTo_gt {l : List ℕ} {i b : ℕ} (hi : i < l.length) (hb : l[i] ≤ b) : i < skipTo l i b := by
  unfold skipTo
  rw [List.drop_eq_getElem_cons hi, List.takeWhile_cons, if_pos (by simpa using hb), List.length_cons]
  omega

theorem skipTo_le {l : List ℕ} {i b : ℕ} : i ≤ skipTo l i b := Nat.le_add_right _ _

/-- The number of constrained variables is enough fuel: more does not change the candidates. -/
theorem candidateLoop_fuel {g1 g2 : List (List ℕ)} {c1 c2 : List ℕ} (h2 : ∀ j, (g2.getD j []).Pairwise (· < ·)) (n i1 i2 : ℕ)
    (cs : List RenamingRelation) (hn : c1.length + c2.length ≤ n + i1 + i2) :
    candidateLoop g1 g2 c1 c2 (n + 1) i1 i2 cs = candidateLoop g1 g2 c1 c2 n i1 i2 cs := by
  induction n generalizing i1 i2 cs with
  | zero =>
    unfold candidateLoop
    rw [dif_neg (by omega)]
  | succ n ih =>
    unfold candidateLoop
    split
    · rename_i hlt
      dsimp only
      split
      · exact ih _ _ _ (by omega)
      · split
        · exact ih _ _ _ (by omega)
        · split
          · split <;> exact ih _ _ _ (by omega)
          · split
            · split <;> exact ih _ _ _ (by omega)
            · rename_i hc
              refine ih _ _ _ ?_
              have hm : c1[i1] ∈ g2.getD c2[i2] [] := by simpa using hc
              have a1 := skipTo_gt hlt.1 (getLastD_ge (h2 _) hm)
              have a2 := skipTo_le (l := c2) (i := i2) (b := (g1.getD c1[i1] []).getLastD 0)
              omega
    · rfl

end LearnTA.Equivalence
