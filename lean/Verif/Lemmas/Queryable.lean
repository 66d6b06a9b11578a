import Verif.Lemmas.Symbolic
import Verif.Lemmas.ElementaryAppend
import Verif.Lemmas.RegionSucc
import Verif.Lemmas.Backward
import Verif.Lemmas.Equivalence

/-!
# Which languages are queryable: regions, words, and their concatenations
-/

namespace LearnTA
open Bound Zone TimedCondition

theorem isInt_incr {b : Bound} (s : Bool) : IsInt b →
    IsInt (match b with | .fin c _ => .fin (c + 1) s | .inf => .inf) := by
  intro h
  cases b with
  | inf => trivial
  | fin c t => obtain ⟨n, rfl⟩ := h; exact ⟨n + 1, by push_cast; rfl⟩

theorem isInt_decr {b : Bound} (s : Bool) : IsInt b →
    IsInt (match b with | .fin c _ => .fin (c - 1) s | .inf => .inf) := by
  intro h
  cases b with
  | inf => trivial
  | fin c t => obtain ⟨n, rfl⟩ := h; exact ⟨n - 1, by push_cast; rfl⟩

theorem isInt_str {b : Bound} (s : Bool) : IsInt b →
    IsInt (match b with | .fin c _ => .fin c s | .inf => .inf) := by
  intro h
  cases b with
  | inf => trivial
  | fin c t => exact h

namespace TimedCondition

theorem succStep_intZ {z : Zone} (h : z.IntZ) {i : ℕ} (hi : i + 1 < z.dim) : (succStep z i).IntZ := by
  have h1 := h (i + 1) hi 0 (by omega)
  have h2 := h 0 (by omega) (i + 1) hi
  unfold succStep
  split
  · exact set_intZ (set_intZ h (isInt_incr false h1)) (isInt_str false h2)
  · refine set_intZ (set_intZ h (isInt_str true h1)) ?_
    exact isInt_decr true h2

@[simp] theorem succStep_dim (z : Zone) (i : ℕ) : (succStep z i).dim = z.dim := by
  unfold succStep; split <;> rfl

theorem successor_integral {c : TimedCondition} (h : c.Integral) {vars : List ℕ}
    (hv : ∀ i ∈ vars, i + 1 < c.zone.dim) : (c.successor vars).Integral := by
  unfold successor
  have : ∀ (l : List ℕ) (z : Zone), z.IntZ → (∀ i ∈ l, i + 1 < z.dim) → (l.foldl succStep z).IntZ := by
    intro l
    induction l with
    | nil => intro z h _; exact h
    | cons a l ih =>
      intro z h hl
      exact ih _ (succStep_intZ h (hl a (by simp))) (fun i hi => by simpa using hl i (by simp [hi]))
  exact this vars c.zone h hv

theorem growBounds_isInt {u l : Bound} (hu : IsInt u) (hl : IsInt l) :
    IsInt (growBounds u l).1 ∧ IsInt (growBounds u l).2 := by
  unfold growBounds
  split
  · exact ⟨isInt_incr false hu, isInt_str false hl⟩
  · exact ⟨isInt_str true hu, isInt_decr true hl⟩

theorem predecessor_integral {c : TimedCondition} (h : c.Integral) (h2 : 2 ≤ c.zone.dim) (vars : List ℕ) :
    (c.predecessor vars).Integral := by
  unfold predecessor
  have : ∀ (l : List ℕ) (z : Zone), z.IntZ → 2 ≤ z.dim →
      (l.foldl (fun z i => updatePair growBounds z 1 ((i + 2) % z.dim)) z).IntZ := by
    intro l
    induction l with
    | nil => intro z h _; exact h
    | cons a l ih =>
      intro z h hz
      have hm : (a + 2) % z.dim < z.dim := Nat.mod_lt _ (by omega)
      have g := growBounds_isInt (h 1 (by omega) _ hm) (h _ hm 1 (by omega))
      exact ih _ (set_intZ (set_intZ h g.1) g.2) hz
  exact this vars c.zone h h2

theorem extendN_integral {c : TimedCondition} (h : c.Integral) (hd : 1 ≤ c.zone.dim) : c.extendN.Integral := by
  intro i hi j hj
  simp only [extendN] at hi hj ⊢
  have z0 : IsInt (.fin 0 true) := ⟨0, by simp⟩
  split_ifs
  · exact h _ (by omega) _ (by omega)
  · exact z0
  · exact h _ (by omega) _ (by omega)
  · exact z0
  · exact h _ (by omega) _ (by omega)
  · exact h _ (by omega) _ (by omega)

theorem extendZero_integral {c : TimedCondition} (h : c.Integral) (hd : 2 ≤ c.zone.dim) : c.extendZero.Integral := by
  intro i hi j hj
  simp only [extendZero] at hi hj ⊢
  have z0 : IsInt (.fin 0 true) := ⟨0, by simp⟩
  by_cases e1 : i = 0 ∧ j = 0
  · rw [if_pos e1]; trivial
  rw [if_neg e1]
  by_cases e2 : i = 1 ∧ j = 2
  · rw [if_pos e2]; exact z0
  rw [if_neg e2]
  by_cases e3 : i = 2 ∧ j = 1
  · rw [if_pos e3]; exact z0
  rw [if_neg e3]
  have hs : ∀ i < c.zone.dim + 1, (if i = 0 then 0 else if i = 1 then 1 else i - 1) < c.zone.dim := by
    intro i hi; split_ifs <;> omega
  exact h _ (hs i hi) _ (hs j hj)

theorem empty_integral : TimedCondition.empty.Integral := by
  intro i _ j _
  simp only [TimedCondition.empty, Zone.zero]
  exact ⟨0, by simp⟩

theorem append_bounded {a b : TimedCondition} (ha : a.Canonical) (hb : b.Canonical) (ba : a.Bounded)
    (bb : b.Bounded) : (a.append b).Bounded := by
  have ha2 := ha.1
  have hb2 := hb.1
  have hN : a.size + 1 = a.zone.dim := by unfold size; omega
  have hM : b.size + 1 = b.zone.dim := by unfold size; omega
  have hadd : ∀ x y : Bound, x ≠ .inf → y ≠ .inf → x + y ≠ .inf := by
    intro x y hx hy; cases x <;> cases y <;> simp_all
  have hle : ∀ x y : Bound, x ≤ y → y ≠ .inf → x ≠ .inf := by
    rintro x y h hy rfl
    cases y with
    | inf => exact hy rfl
    | fin c s => simp at h
  intro i hi j hj hij
  rw [append_dim] at hi hj
  rw [append_eq]
  refine hle _ _ (canonize_le _ i j) ?_
  rw [appendZone_val a b i j hij]
  by_cases hi' : isA a.size i <;> by_cases hj' : isA a.size j <;> simp only [hi', hj', if_true, if_false] <;>
    unfold isA at hi' hj' <;> (try unfold bidx) <;> (try split_ifs) <;> first
    | (apply ba <;> omega)
    | (apply bb <;> omega)
    | (apply hadd <;> first | (apply ba <;> omega) | (apply bb <;> omega))

theorem append_integral {a b : TimedCondition} (ha : a.Canonical) (hb : b.Canonical) (ia : a.Integral)
    (ib : b.Integral) : (a.append b).Integral := by
  have ha2 := ha.1
  have hb2 := hb.1
  have hN : a.size + 1 = a.zone.dim := by unfold size; omega
  have hM : b.size + 1 = b.zone.dim := by unfold size; omega
  rw [append_eq]
  apply canonize_intZ
  intro i hi j hj
  simp only [appendZone] at hi hj ⊢
  split_ifs <;> first
    | (apply ia <;> omega)
    | (apply ib <;> omega)
    | (apply IsInt.add <;> first | (apply ia <;> omega) | (apply ib <;> omega))

end TimedCondition

namespace ElementaryLanguage

theorem Queryable.proper {e : ElementaryLanguage} (h : e.Queryable) : e.Proper := ⟨h.wf, h.canonical⟩

theorem append_queryable {a b : ElementaryLanguage} (ha : a.Queryable) (hb : b.Queryable) :
    (a.append b).Queryable := by
  have hp := Equivalence.append_proper ha.proper hb.proper
  refine ⟨hp.wf, hp.canonical, append_bounded ha.canonical hb.canonical ha.bounded hb.bounded,
    append_integral ha.canonical hb.canonical ha.integral hb.integral, ?_⟩
  intro x hx
  rcases List.mem_append.1 (show x ∈ a.word ++ b.word from hx) with h | h
  · exact ha.observable x h
  · exact hb.observable x h

end ElementaryLanguage

theorem mem_flatten_headD {l : List (List ℕ)} {i : ℕ} (h : i ∈ l.headD []) : i ∈ l.flatten := by
  cases l with
  | nil => simp at h
  | cons a l => simp only [List.headD_cons] at h; simp [h]

theorem mem_flatten_getLastD {l : List (List ℕ)} {i : ℕ} (h : i ∈ l.getLastD []) : i ∈ l.flatten := by
  rw [List.getLastD_eq_getLast?] at h
  cases e : l.getLast? with
  | none => simp [e] at h
  | some g =>
    rw [e] at h
    exact List.mem_flatten.2 ⟨g, List.mem_of_getLast? e, h⟩

theorem ForwardRegional.Reach.integral {L : ForwardRegional} (h : L.Reach) : L.cond.Integral := by
  induction h with
  | init => exact empty_integral
  | action a h ih =>
    obtain ⟨n, v, ho, _⟩ := h.of
    exact extendN_integral ih (by rw [ho.dim]; omega)
  | @time L h ih =>
    obtain ⟨n, v, ho, _⟩ := h.of
    refine successor_integral ih ?_
    intro i hi
    rw [ho.dim]
    have hm : i ∈ L.frac.order.flatten := by
      unfold FractionalOrder.successorVariables at hi
      split at hi
      · exact mem_flatten_getLastD hi
      · exact mem_flatten_headD hi
    have := ho.part.perm.mem_iff.1 hm
    rw [List.mem_range, ho.size] at this
    omega

theorem ForwardRegional.Reach.queryable {L : ForwardRegional} (h : L.Reach)
    (ho : ∀ a ∈ L.word, a ≠ unobservable) : L.toElementaryLanguage.Queryable := by
  obtain ⟨n, v, hof, _⟩ := h.of
  refine ⟨?_, hof.canonical, bounded_of_isRegion hof.region, h.integral, ho⟩
  show L.word.length + 1 = L.cond.size
  rw [hof.csize]; exact hof.word

/-- The region of a word (as used for suffixes). -/
theorem ofAccumulated_queryable (w : TimedWord) (hw : w.WF) (ho : w.Observable) :
    (BackwardRegional.fromTimedWord w).toElementaryLanguage.Queryable := by
  have h4 := ForwardRegional.fromTimedWord_of w hw
  refine ⟨?_, h4.canonical, bounded_of_isRegion h4.region, ?_, ho⟩
  · have := h4.csize
    show w.word.length + 1 = _
    rw [show (BackwardRegional.fromTimedWord w).cond.size = _ from this]; exact hw.symm
  · exact (ofAccumulated_isRegion _).2.1

end LearnTA
