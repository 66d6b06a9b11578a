import Verif.Lemmas.Regional

/-!
# The regions form a tree: successors determine what they are successors of
-/

namespace LearnTA
namespace ForwardRegional
open TimedCondition Zone Bound

theorem Of.predVars_nodup {L : ForwardRegional} {n : ℕ} {v : Valuation} (h : L.Of n v) :
    L.frac.predecessorVariables.Nodup := by
  have hg : L.frac.predecessorVariables ∈ L.frac.order := by
    rcases h.part.shape (by rw [h.size]; exact h.pos) with ⟨g, gs, ho, hg⟩ | ⟨r, l, ho, hl⟩
    · rw [(FractionalOrder.predecessor_front ho hg).2, ho]; simp
    · obtain ⟨g, gs, eo⟩ : ∃ g gs, r ++ [l] = g :: gs := by
        cases r with
        | nil => exact ⟨l, [], rfl⟩
        | cons a r => exact ⟨a, r ++ [l], rfl⟩
      rw [eo] at ho
      rw [(FractionalOrder.predecessor_back ho).2, ho]; simp
  exact (h.nodup hg).1

theorem beq_back {L L' : ForwardRegional} {n : ℕ} {v : Valuation} (h : L.Of n v)
    (hb : L.beq L' = true) : L.back.beq L'.back = true := by
  rw [beq_iff] at hb ⊢
  obtain ⟨h1, h2, h3, h4⟩ := hb
  have hd1 : L.back.cond.zone.dim = L.cond.zone.dim := by
    show (L.cond.prefixT _).zone.dim = _
    rw [prefixT_eq]; simp
  have hd2 : L'.back.cond.zone.dim = L'.cond.zone.dim := by
    show (L'.cond.prefixT _).zone.dim = _
    rw [prefixT_eq]; simp
  refine ⟨h1, ?_, ?_, ?_⟩
  · unfold TimedCondition.size at *; rw [hd1, hd2, h2]
  · intro i hi j hj hij
    rw [hd1] at hi hj
    show (L.cond.prefixT _).zone.val i j = (L'.cond.prefixT _).zone.val i j
    rw [prefixT_eq, prefixT_eq, ← h4]
    exact updatePairs_congr _ (frontPairs_good h.predVars_nodup) (h3 i hi j hj hij) (h3 j hj i hi (Ne.symm hij))
  · show L.frac.predecessor = L'.frac.predecessor
    rw [h4]

theorem Reach.beq_refl {L : ForwardRegional} (h : L.Reach) : L.beq L = true := by
  obtain ⟨n, v, ho, _⟩ := h.of
  exact ho.beq ho rfl

theorem Reach.beq_symm {A B : ForwardRegional} (ha : A.Reach) (hb : B.Reach) (h : A.beq B = true) :
    B.beq A = true := by
  obtain ⟨n, v, h1, _⟩ := ha.of
  obtain ⟨m, v', h2, _⟩ := hb.of
  exact ForwardRegional.beq_symm h1 h2 h

theorem Reach.beq_trans {A B C : ForwardRegional} (ha : A.Reach) (hb : B.Reach) (hc : C.Reach) (h : A.beq B = true)
    (h' : B.beq C = true) : A.beq C = true := by
  obtain ⟨n, v, h1, _⟩ := ha.of
  obtain ⟨m, v', h2, _⟩ := hb.of
  obtain ⟨k, v'', h3, _⟩ := hc.of
  obtain ⟨rfl, g⟩ := h1.of_beq h2 h
  obtain ⟨rfl, g'⟩ := g.of_beq h3 h'
  exact h1.beq g' (((beq_iff _ _).1 h).1.trans ((beq_iff _ _).1 h').1)

/-- Equal time successors. -/
theorem successor_inj {A B : ForwardRegional} (ha : A.Reach) (hb : B.Reach) (h : A.successor.beq B.successor = true) :
    A.beq B = true := by
  obtain ⟨n, v, h1, _⟩ := ha.of
  obtain ⟨m, v', h2, _⟩ := hb.of
  obtain ⟨δ, _, h3, _⟩ := h1.successor
  have := beq_back h3 h
  rwa [h1.back_successor, h2.back_successor] at this

/-- Equal successors by actions. -/
theorem successorAction_inj {A B : ForwardRegional} (ha : A.Reach) (hb : B.Reach) {a b : Action}
    (h : (A.successorAction a).beq (B.successorAction b) = true) : A.beq B = true ∧ a = b := by
  obtain ⟨n, v, h1, _⟩ := ha.of
  obtain ⟨m, v', h2, _⟩ := hb.of
  have hp := h1.pos
  have hw : A.word ++ [a] = B.word ++ [b] := ((beq_iff _ _).1 h).1
  obtain ⟨e1, e2⟩ := List.append_inj' hw rfl
  refine ⟨?_, by simpa using e2⟩
  have hA := h1.successorAction a
  obtain ⟨em, hB⟩ := hA.of_beq (h2.successorAction b) h
  have em : m = n := by omega
  subst em
  have e0 : (fun i => if i < m then v i else 0) m = 0 := by simp
  have cB := (hB.chop hp e0).1
  have cB' := ((h2.successorAction b).chop hp (by simp)).1
  -- the chopped region is the region
  have q1 : (B.successorAction b).chop.beq B = true := by
    refine (cB'.congr (v' := v') fun i hi => by simp [hi]).beq h2 ?_
    show (B.word ++ [b]).dropLast = B.word
    simp
  obtain ⟨_, cB2⟩ := cB.of_beq h2 q1
  exact h1.beq (cB2.congr fun i hi => by simp [hi]) e1

/-- A time successor is no successor by an action. -/
theorem successor_ne_action {A B : ForwardRegional} (ha : A.Reach) (hb : B.Reach) {a : Action} :
    A.successor.beq (B.successorAction a) ≠ true := by
  intro h
  obtain ⟨n, v, h1, hm⟩ := ha.of
  obtain ⟨m, v', h2, _⟩ := hb.of
  obtain ⟨δ, hδ, h3, _⟩ := h1.successor
  have hB := h2.successorAction a
  have e1 := h3.hasPrefix_iff
  obtain ⟨em, hB'⟩ := h3.of_beq hB h
  subst em
  have e3 := hB.hasPrefix_iff
  have e2 := hB'.hasPrefix_iff
  rw [e3] at e2
  have hp := hm.2
  simp only [Nat.add_sub_cancel, lt_irrefl, if_false, ne_eq, not_true_eq_false, false_iff, not_not] at e2 hp
  linarith

/-- The empty word without delay is no successor. -/
theorem init_ne_successor {A : ForwardRegional} (ha : A.Reach) : A.successor.beq init ≠ true := by
  intro h
  obtain ⟨n, v, h1, hm⟩ := ha.of
  obtain ⟨m, v', h2, hm'⟩ := Reach.init.of
  obtain ⟨δ, hδ, h3, _⟩ := h1.successor
  obtain ⟨em, h4⟩ := h3.of_beq h2 h
  subst em
  have e2 := h4.hasPrefix_iff
  have hp := hm.2
  have e : init.cond.hasPrefix = false := by decide +kernel
  rw [e] at e2
  simp only [Bool.false_eq_true, ne_eq, false_iff, not_not] at e2
  linarith

theorem init_ne_action {A : ForwardRegional} {a : Action} : (A.successorAction a).beq init ≠ true := by
  intro h
  have hw : A.word ++ [a] = [] := ((beq_iff _ _).1 h).1
  simp at hw

end ForwardRegional
end LearnTA
