import Verif.Lemmas.Micro
import Verif.Lemmas.Resets
import Verif.Model.Intersection

namespace LearnTA
namespace TA

theorem intersection_loc (A B : TA) {p q : ℕ} (hp : p ∈ A.states) (hq : q ∈ B.states) :
    (A.intersection B).loc (prodAddr A B p q) = prodState A B p q := by
  have h1 : A.states.idxOf p < A.states.length := List.idxOf_lt_length_iff.2 hp
  have h2 : B.states.idxOf q < B.states.length := List.idxOf_lt_length_iff.2 hq
  have hpos : 0 < B.states.length := by omega
  have e1 : prodAddr A B p q / B.states.length = A.states.idxOf p := by
    unfold prodAddr
    rw [mul_comm, Nat.mul_add_div hpos, Nat.div_eq_of_lt h2, add_zero]
  have e2 : prodAddr A B p q % B.states.length = B.states.idxOf q := by
    unfold prodAddr
    rw [mul_comm, Nat.mul_add_mod, Nat.mod_eq_of_lt h2]
  simp only [intersection, e1, e2]
  simp [List.getD, List.getElem?_eq_getElem h1, List.getElem?_eq_getElem h2]

/-- The clocks of the product hold the clocks of the two automata. -/
structure VR (A : TA) (v v1 v2 : Valuation) : Prop where
  v1 : ∀ x < A.clockSize, v1 x = v x
  v2 : ∀ x, v2 x = v (x + A.clockSize)

theorem VR.shift {A : TA} {v v1 v2 : Valuation} (h : VR A v v1 v2) (d : ℚ) :
    VR A (v.shift d) (v1.shift d) (v2.shift d) :=
  ⟨fun x hx => by simp [Valuation.shift, h.v1 x hx], fun x => by simp [Valuation.shift, h.v2 x]⟩

theorem holds_congr {c : Constraint} {x : ℕ} {v w : Valuation} (h : w x = v c.x) :
    ({ c with x := x } : Constraint).Holds w ↔ c.Holds v := by
  obtain ⟨y, o, k⟩ := c
  cases o <;> simp only [Constraint.Holds] <;> rw [h]

theorem prodTrans_guard {A B : TA} {v v1 v2 : Valuation} (h : VR A v v1 v2) (p' q' : ℕ)
    (e1 e2 : Trans) (hc : ∀ c ∈ e1.guard, c.x < A.clockSize) :
    (prodTrans A B p' q' e1 e2).guard.Holds v ↔ e1.guard.Holds v1 ∧ e2.guard.Holds v2 := by
  simp only [prodTrans, shiftGuard, Guard.Holds, List.mem_append, List.mem_map]
  constructor
  · intro hg
    refine ⟨fun c hcm => ?_, fun c hcm => ?_⟩
    · exact (holds_congr (x := c.x) (h.v1 _ (hc c hcm)).symm).1 (hg c (.inl hcm))
    · exact (holds_congr (h.v2 _).symm).1 (hg _ (.inr ⟨c, hcm, rfl⟩))
  · rintro ⟨h1, h2⟩ c (hcm | ⟨c', hcm, rfl⟩)
    · exact (holds_congr (x := c.x) (h.v1 _ (hc c hcm)).symm).2 (h1 c hcm)
    · exact (holds_congr (h.v2 _).symm).2 (h2 c' hcm)

theorem upd_shift_lt (k : ℕ) (r : Resets) (x : ℕ) (hx : x < k) :
    Resets.upd (shiftResets k r) x = none := by
  have := Resets.upd_isSome (shiftResets k r) x
  cases h : Resets.upd (shiftResets k r) x with
  | none => rfl
  | some u =>
    rw [h] at this
    have this := List.any_eq_true.1 this.symm
    simp only [shiftResets, List.mem_map] at this
    obtain ⟨q, ⟨p, hp, rfl⟩, hq⟩ := this
    simp at hq
    omega

theorem upd_lt (k : ℕ) (r : Resets) (x : ℕ) (hr : ∀ p ∈ r, p.1 < k) (hx : k ≤ x) :
    Resets.upd r x = none := by
  have := Resets.upd_isSome r x
  cases h : Resets.upd r x with
  | none => rfl
  | some u =>
    rw [h] at this
    have this := List.any_eq_true.1 this.symm
    obtain ⟨q, hq, he⟩ := this
    have := hr q hq
    simp at he
    omega

theorem upd_shift (k : ℕ) (r : Resets) (x : ℕ) :
    Resets.upd (shiftResets k r) (x + k) = (Resets.upd r x).map fun u => match u with
      | .clock y => .clock (y + k)
      | .const c => .const c := by
  induction r with
  | nil => rfl
  | cons p r ih =>
    rw [show shiftResets k (p :: r) = _ :: shiftResets k r from rfl, Resets.upd_cons, ih,
      Resets.upd_cons]
    cases Resets.upd r x
    · by_cases h : p.1 = x
      · simp [h]; cases p.2 <;> rfl
      · simp [h]
    · simp

theorem upd_mem (r : Resets) (x : ℕ) (u : Upd) (h : Resets.upd r x = some u) : (x, u) ∈ r := by
  induction r with
  | nil => simp [Resets.upd_nil] at h
  | cons p r ih =>
    rw [Resets.upd_cons] at h
    cases hr : Resets.upd r x with
    | some u' => rw [hr] at h; simp at h; subst h; exact .tail _ (ih hr)
    | none =>
      rw [hr] at h
      by_cases hp : p.1 = x
      · simp [hp] at h; subst hp; subst h; exact .head _
      · simp [hp] at h

theorem prodTrans_resets {A B : TA} {v v1 v2 : Valuation} (h : VR A v v1 v2) (p' q' : ℕ)
    (e1 e2 : Trans) (hr : ∀ r ∈ e1.resets, r.1 < A.clockSize ∧ ∀ y, r.2 = .clock y → y < A.clockSize) :
    VR A ((prodTrans A B p' q' e1 e2).resets.apply v) (e1.resets.apply v1) (e2.resets.apply v2) := by
  constructor
  · intro x hx
    simp only [prodTrans, Resets.apply_eq, Resets.upd_append, upd_shift_lt _ _ x hx]
    cases hu : Resets.upd e1.resets x with
    | none => simpa using h.v1 x hx
    | some u =>
      simp only [Option.none_or, Option.map_some, Option.getD_some]
      have := upd_mem _ _ _ hu
      cases u with
      | const c => rfl
      | clock y => exact h.v1 y ((hr _ this).2 y rfl)
  · intro x
    simp only [prodTrans, Resets.apply_eq, Resets.upd_append, upd_shift,
      upd_lt A.clockSize e1.resets (x + A.clockSize) (fun p hp => (hr p hp).1) (by omega)]
    cases hu : Resets.upd e2.resets x with
    | none => simpa using h.v2 x
    | some u =>
      cases u with
      | const c => rfl
      | clock y => exact h.v2 y

/-- The relation between configurations of the product and of the automata. -/
structure PR (A B : TA) (c c1 c2 : Config) : Prop where
  l1 : c1.loc ∈ A.states
  l2 : c2.loc ∈ B.states
  loc : c.loc = prodAddr A B c1.loc c2.loc
  val : VR A c.val c1.val c2.val

theorem PR.shift {A B : TA} {c c1 c2 : Config} (h : PR A B c c1 c2) (d : ℚ) :
    PR A B ⟨c.loc, c.val.shift d⟩ ⟨c1.loc, c1.val.shift d⟩ ⟨c2.loc, c2.val.shift d⟩ :=
  ⟨h.l1, h.l2, h.loc, h.val.shift d⟩

theorem apply_nil (v : Valuation) : Resets.apply [] v = v := rfl

theorem mem_prodNext {A B : TA} {c c1 c2 : Config} (h : PR A B c c1 c2) (a : Action) (t : Trans) :
    t ∈ ((A.intersection B).loc c.loc).next a ↔
      (a = unobservable ∧ ∃ e1 ∈ (A.loc c1.loc).next unobservable,
        prodTrans A B e1.target c2.loc e1 ⟨0, [], []⟩ = t) ∨
      (a = unobservable ∧ ∃ e2 ∈ (B.loc c2.loc).next unobservable,
        prodTrans A B c1.loc e2.target ⟨0, [], []⟩ e2 = t) ∨
      (∃ e1 ∈ (A.loc c1.loc).next a, ∃ e2 ∈ (B.loc c2.loc).next a,
        prodTrans A B e1.target e2.target e1 e2 = t) := by
  rw [h.loc, intersection_loc A B h.l1 h.l2]
  simp only [prodState, List.mem_append, List.mem_flatMap, List.mem_map]
  by_cases ha : a = unobservable
  · simp [ha, or_assoc]
  · simp [ha]

section
variable {A B : TA} (hA : A.Closed) (hB : B.Closed) (hcA : A.ClocksExist)
include hA hB hcA

theorem PR.joint {c c1 c2 : Config} (h : PR A B c c1 c2) {a : Action} {e1 e2 : Trans}
    (h1 : e1 ∈ (A.loc c1.loc).next a) (h2 : e2 ∈ (B.loc c2.loc).next a) :
    ((prodTrans A B e1.target e2.target e1 e2).guard.Holds c.val ↔
      e1.guard.Holds c1.val ∧ e2.guard.Holds c2.val) ∧
    PR A B ⟨(prodTrans A B e1.target e2.target e1 e2).target,
        (prodTrans A B e1.target e2.target e1 e2).resets.apply c.val⟩
      ⟨e1.target, e1.resets.apply c1.val⟩ ⟨e2.target, e2.resets.apply c2.val⟩ :=
  ⟨prodTrans_guard h.val _ _ _ _ (hcA _ h.l1 _ _ h1).1, hA.2 _ h.l1 _ _ h1, hB.2 _ h.l2 _ _ h2, rfl,
    prodTrans_resets h.val _ _ _ _ (hcA _ h.l1 _ _ h1).2⟩

theorem PR.left {c c1 c2 : Config} (h : PR A B c c1 c2) {a : Action} {e1 : Trans}
    (h1 : e1 ∈ (A.loc c1.loc).next a) :
    ((prodTrans A B e1.target c2.loc e1 ⟨0, [], []⟩).guard.Holds c.val ↔ e1.guard.Holds c1.val) ∧
    PR A B ⟨(prodTrans A B e1.target c2.loc e1 ⟨0, [], []⟩).target,
        (prodTrans A B e1.target c2.loc e1 ⟨0, [], []⟩).resets.apply c.val⟩
      ⟨e1.target, e1.resets.apply c1.val⟩ c2 := by
  refine ⟨?_, hA.2 _ h.l1 _ _ h1, h.l2, rfl,
    prodTrans_resets h.val _ _ e1 ⟨0, [], []⟩ (hcA _ h.l1 _ _ h1).2⟩
  rw [prodTrans_guard h.val _ _ _ _ (hcA _ h.l1 _ _ h1).1]
  simp [Guard.Holds]

theorem PR.right {c c1 c2 : Config} (h : PR A B c c1 c2) {a : Action} {e2 : Trans}
    (h2 : e2 ∈ (B.loc c2.loc).next a) :
    ((prodTrans A B c1.loc e2.target ⟨0, [], []⟩ e2).guard.Holds c.val ↔ e2.guard.Holds c2.val) ∧
    PR A B ⟨(prodTrans A B c1.loc e2.target ⟨0, [], []⟩ e2).target,
        (prodTrans A B c1.loc e2.target ⟨0, [], []⟩ e2).resets.apply c.val⟩
      c1 ⟨e2.target, e2.resets.apply c2.val⟩ := by
  refine ⟨?_, h.l1, hB.2 _ h.l2 _ _ h2, rfl,
    prodTrans_resets h.val _ _ ⟨0, [], []⟩ e2 (by simp)⟩
  rw [prodTrans_guard h.val _ _ ⟨0, [], []⟩ _ (by simp)]
  simp [Guard.Holds]

theorem prod_project {c c' : Config} {es : List Event} (hs : (A.intersection B).Steps c es c') :
    ∀ c1 c2, PR A B c c1 c2 → ∃ c1' c2', A.Steps c1 es c1' ∧ B.Steps c2 es c2' ∧ PR A B c' c1' c2' := by
  induction hs with
  | nil c => intro c1 c2 h; exact ⟨c1, c2, .nil _, .nil _, h⟩
  | eps t ht hg hs ih =>
    intro c1 c2 h
    rcases (mem_prodNext h _ t).1 ht with ⟨-, e1, h1, rfl⟩ | ⟨-, e2, h2, rfl⟩ | ⟨e1, h1, e2, h2, rfl⟩
    · obtain ⟨hgi, hR⟩ := h.left hA hB hcA h1
      obtain ⟨c1', c2', s1, s2, hR'⟩ := ih _ _ hR
      exact ⟨c1', c2', .eps e1 h1 (hgi.1 hg) s1, s2, hR'⟩
    · obtain ⟨hgi, hR⟩ := h.right hA hB hcA h2
      obtain ⟨c1', c2', s1, s2, hR'⟩ := ih _ _ hR
      exact ⟨c1', c2', s1, .eps e2 h2 (hgi.1 hg) s2, hR'⟩
    · obtain ⟨hgi, hR⟩ := h.joint hA hB hcA h1 h2
      obtain ⟨c1', c2', s1, s2, hR'⟩ := ih _ _ hR
      exact ⟨c1', c2', .eps e1 h1 (hgi.1 hg).1 s1, .eps e2 h2 (hgi.1 hg).2 s2, hR'⟩
  | delay d hd hs ih =>
    intro c1 c2 h
    obtain ⟨c1', c2', s1, s2, hR'⟩ := ih _ _ (h.shift d)
    exact ⟨c1', c2', .delay d hd s1, .delay d hd s2, hR'⟩
  | split d1 d2 h1 h2 hs ih =>
    intro c1 c2 h
    obtain ⟨c1', c2', s1, s2, hR'⟩ := ih _ _ h
    exact ⟨c1', c2', .split d1 d2 h1 h2 s1, .split d1 d2 h1 h2 s2, hR'⟩
  | act a ha t ht hg hs ih =>
    intro c1 c2 h
    rcases (mem_prodNext h _ t).1 ht with ⟨e, -⟩ | ⟨e, -⟩ | ⟨e1, h1, e2, h2, rfl⟩
    · exact absurd e ha
    · exact absurd e ha
    · obtain ⟨hgi, hR⟩ := h.joint hA hB hcA h1 h2
      obtain ⟨c1', c2', s1, s2, hR'⟩ := ih _ _ hR
      exact ⟨c1', c2', .act a ha e1 h1 (hgi.1 hg).1 s1, .act a ha e2 h2 (hgi.1 hg).2 s2, hR'⟩

theorem prod_combine (n : ℕ) : ∀ {c c1 c2 c1' c2' : Config} {ms1 ms2 : List Micro},
    ms1.length + ms2.length ≤ n → A.MRun c1 ms1 c1' → B.MRun c2 ms2 c2' → obsM ms1 = obsM ms2 →
    PR A B c c1 c2 → ∃ c' ms, (A.intersection B).MRun c ms c' ∧ obsM ms = obsM ms1 ∧
      PR A B c' c1' c2' := by
  have zeroOf : ∀ {x y : ℚ}, 0 ≤ x → 0 ≤ y → x + y = 0 → x = 0 ∧ y = 0 := by
    intro x y hx hy h; constructor <;> linarith
  induction n with
  | zero =>
    intro c c1 c2 c1' c2' ms1 ms2 hn r1 r2 ho hR
    have e1 : ms1 = [] := List.length_eq_zero_iff.1 (by omega)
    have e2 : ms2 = [] := List.length_eq_zero_iff.1 (by omega)
    subst e1; subst e2
    cases r1; cases r2
    exact ⟨c, [], .nil _, rfl, hR⟩
  | succ n ih =>
    intro c c1 c2 c1' c2' ms1 ms2 hn r1 r2 ho hR
    cases r1 with
    | eps t ht hg h =>
      obtain ⟨hgi, hR'⟩ := hR.left hA hB hcA ht
      obtain ⟨c', ms, hm, ho', hR''⟩ := ih (by simp at hn; omega) h r2 ho hR'
      exact ⟨c', .eps _ :: ms, .eps _ ((mem_prodNext hR _ _).2 (.inl ⟨rfl, t, ht, rfl⟩)) (hgi.2 hg) hm,
        ho', hR''⟩
    | nil =>
      cases r2 with
      | eps t ht hg h =>
        obtain ⟨hgi, hR'⟩ := hR.right hA hB hcA ht
        obtain ⟨c', ms, hm, ho', hR''⟩ := ih (by simp at hn ⊢; omega) (.nil _) h ho hR'
        exact ⟨c', .eps _ :: ms,
          .eps _ ((mem_prodNext hR _ _).2 (.inr (.inl ⟨rfl, t, ht, rfl⟩))) (hgi.2 hg) hm, ho', hR''⟩
      | nil => exact ⟨c, [], .nil _, rfl, hR⟩
      | @delay _ ms2 _ d hd h =>
        simp only [obsM, Prod.mk.injEq] at ho
        obtain ⟨e1, e2⟩ := zeroOf hd h.obs_nonneg ho.1.symm
        subst e1
        rw [Valuation.shift_zero] at h
        refine ih (ms2 := ms2) (by simp at hn ⊢; omega) (.nil _) h ?_ hR
        simp only [obsM]
        exact Prod.ext e2.symm ho.2
      | act a ha t ht hg h => simp [obsM] at ho
    | @delay _ ms1 _ d1 hd1 h1 =>
      cases r2 with
      | eps t ht hg h =>
        obtain ⟨hgi, hR'⟩ := hR.right hA hB hcA ht
        obtain ⟨c', ms, hm, ho', hR''⟩ := ih (by simp at hn ⊢; omega) (.delay d1 hd1 h1) h ho hR'
        exact ⟨c', .eps _ :: ms,
          .eps _ ((mem_prodNext hR _ _).2 (.inr (.inl ⟨rfl, t, ht, rfl⟩))) (hgi.2 hg) hm, ho', hR''⟩
      | nil =>
        simp only [obsM, Prod.mk.injEq] at ho
        obtain ⟨e1, e2⟩ := zeroOf hd1 h1.obs_nonneg ho.1
        subst e1
        rw [Valuation.shift_zero] at h1
        obtain ⟨c', ms, hm, ho', hR''⟩ := ih (by simp at hn ⊢; omega) h1 (.nil _)
          (Prod.ext e2 ho.2) hR
        exact ⟨c', ms, hm, by rw [ho']; simp [obsM], hR''⟩
      | act a ha t ht hg h =>
        simp only [obsM, Prod.mk.injEq] at ho
        obtain ⟨e1, e2⟩ := zeroOf hd1 h1.obs_nonneg ho.1
        subst e1
        rw [Valuation.shift_zero] at h1
        obtain ⟨c', ms, hm, ho', hR''⟩ := ih (by simp at hn ⊢; omega) h1 (.act a ha t ht hg h)
          (Prod.ext e2 ho.2) hR
        exact ⟨c', ms, hm, by rw [ho']; simp [obsM], hR''⟩
      | @delay _ ms2 _ d2 hd2 h2 =>
        simp only [obsM, Prod.mk.injEq] at ho
        rcases le_total d1 d2 with hle | hle
        · have h2' : B.MRun ⟨c2.loc, c2.val.shift d1⟩ (.delay (d2 - d1) :: ms2) c2' := by
            refine .delay _ (by linarith) ?_
            simp only [Valuation.shift_shift]
            rw [show d1 + (d2 - d1) = d2 by ring]; exact h2
          obtain ⟨c', ms, hm, ho', hR''⟩ := ih (by simp at hn ⊢; omega) h1 h2'
            (by simp only [obsM]; exact Prod.ext (by simp only; linarith [ho.1]) ho.2) (hR.shift d1)
          exact ⟨c', .delay d1 :: ms, .delay d1 hd1 hm, by simp [obsM, ho'], hR''⟩
        · have h1' : A.MRun ⟨c1.loc, c1.val.shift d2⟩ (.delay (d1 - d2) :: ms1) c1' := by
            refine .delay _ (by linarith) ?_
            simp only [Valuation.shift_shift]
            rw [show d2 + (d1 - d2) = d1 by ring]; exact h1
          obtain ⟨c', ms, hm, ho', hR''⟩ := ih (by simp at hn ⊢; omega) h1' h2
            (by simp only [obsM]; exact Prod.ext (by simp only; linarith [ho.1]) ho.2) (hR.shift d2)
          exact ⟨c', .delay d2 :: ms, .delay d2 hd2 hm, by simp [obsM, ho']; ring, hR''⟩
    | @act _ ms1 _ a ha t ht hg h1 =>
      cases r2 with
      | eps t' ht' hg' h =>
        obtain ⟨hgi, hR'⟩ := hR.right hA hB hcA ht'
        obtain ⟨c', ms, hm, ho', hR''⟩ := ih (by simp at hn ⊢; omega) (.act a ha t ht hg h1) h ho hR'
        exact ⟨c', .eps _ :: ms,
          .eps _ ((mem_prodNext hR _ _).2 (.inr (.inl ⟨rfl, t', ht', rfl⟩))) (hgi.2 hg') hm, ho', hR''⟩
      | nil => simp [obsM] at ho
      | @delay _ ms2 _ d hd h =>
        simp only [obsM, Prod.mk.injEq] at ho
        obtain ⟨e1, e2⟩ := zeroOf hd h.obs_nonneg ho.1.symm
        subst e1
        rw [Valuation.shift_zero] at h
        exact ih (ms2 := ms2) (by simp at hn ⊢; omega) (.act a ha t ht hg h1) h
          (Prod.ext e2.symm ho.2) hR
      | @act _ ms2 _ b hb u hu hgu h2 =>
        simp only [obsM, Prod.mk.injEq, List.cons.injEq, true_and] at ho
        obtain ⟨⟨e, ho1⟩, ho2⟩ := ho
        subst e
        obtain ⟨hgi, hR'⟩ := hR.joint hA hB hcA ht hu
        obtain ⟨c', ms, hm, ho', hR''⟩ := ih (by simp at hn ⊢; omega) h1 h2 (Prod.ext ho1 ho2) hR'
        exact ⟨c', .act a _ :: ms,
          .act a ha _ ((mem_prodNext hR _ _).2 (.inr (.inr ⟨t, ht, u, hu, rfl⟩))) (hgi.2 ⟨hg, hgu⟩) hm,
          by simp [obsM, ho'], hR''⟩

theorem intersection_accepts (w : TimedWord) (hwf : w.WF) :
    (A.intersection B).Accepts w ↔ A.Accepts w ∧ B.Accepts w := by
  have h0 : ∀ q1 ∈ A.init, ∀ q2 ∈ B.init,
      PR A B ⟨prodAddr A B q1 q2, Valuation.zero⟩ ⟨q1, Valuation.zero⟩ ⟨q2, Valuation.zero⟩ :=
    fun q1 h1 q2 h2 => ⟨hA.1 _ h1, hB.1 _ h2, rfl, fun _ _ => rfl, fun _ => rfl⟩
  have hm : ∀ {c c1 c2}, PR A B c c1 c2 → (((A.intersection B).loc c.loc).isMatch = true ↔
      (A.loc c1.loc).isMatch = true ∧ (B.loc c2.loc).isMatch = true) := by
    intro c c1 c2 h
    rw [h.loc, intersection_loc A B h.l1 h.l2]
    simp [prodState]
  constructor
  · rintro ⟨q, hq, c, hs, hacc⟩
    simp only [intersection, List.mem_flatMap, List.mem_map] at hq
    obtain ⟨q1, h1, q2, h2, rfl⟩ := hq
    obtain ⟨c1, c2, s1, s2, hR⟩ := prod_project hA hB hcA hs _ _ (h0 q1 h1 q2 h2)
    exact ⟨⟨q1, h1, c1, s1, ((hm hR).1 hacc).1⟩, ⟨q2, h2, c2, s2, ((hm hR).1 hacc).2⟩⟩
  · rintro ⟨ha, hb⟩
    obtain ⟨q1, h1, c1, ms1, r1, o1, a1⟩ := (accepts_iff_micro A w hwf).1 ha
    obtain ⟨q2, h2, c2, ms2, r2, o2, a2⟩ := (accepts_iff_micro B w hwf).1 hb
    obtain ⟨c', ms, r, o, hR⟩ := prod_combine hA hB hcA _ (le_refl _) r1 r2 (by rw [o1, o2])
      (h0 q1 h1 q2 h2)
    refine (accepts_iff_micro _ w hwf).2 ⟨_, ?_, c', ms, r, by rw [o, o1], (hm hR).2 ⟨a1, a2⟩⟩
    simp only [intersection, List.mem_flatMap, List.mem_map]
    exact ⟨q1, h1, q2, h2, rfl⟩

end

theorem mem_intersection_states (A B : TA) (n : ℕ) :
    n ∈ (A.intersection B).states ↔ ∃ p ∈ A.states, ∃ q ∈ B.states, prodAddr A B p q = n := by
  simp [intersection]

theorem prodAddr_inj (A B : TA) {p q p' q' : ℕ} (hp : p ∈ A.states) (hq : q ∈ B.states)
    (hp' : p' ∈ A.states) (hq' : q' ∈ B.states) (h : prodAddr A B p q = prodAddr A B p' q') :
    p = p' ∧ q = q' := by
  have h2 : B.states.idxOf q < B.states.length := List.idxOf_lt_length_iff.2 hq
  have h2' : B.states.idxOf q' < B.states.length := List.idxOf_lt_length_iff.2 hq'
  have hpos : 0 < B.states.length := by omega
  have key : ∀ {p q}, q ∈ B.states → prodAddr A B p q / B.states.length = A.states.idxOf p ∧
      prodAddr A B p q % B.states.length = B.states.idxOf q := by
    intro p q hq
    have h2 : B.states.idxOf q < B.states.length := List.idxOf_lt_length_iff.2 hq
    unfold prodAddr
    rw [mul_comm, Nat.mul_add_div hpos, Nat.div_eq_of_lt h2, add_zero, Nat.mul_add_mod,
      Nat.mod_eq_of_lt h2]
    exact ⟨rfl, rfl⟩
  obtain ⟨a1, a2⟩ := key (p := p) hq
  obtain ⟨b1, b2⟩ := key (p := p') hq'
  rw [h, b1] at a1
  rw [h, b2] at a2
  exact ⟨(List.idxOf_inj hp).1 a1.symm, (List.idxOf_inj hq).1 a2.symm⟩

theorem intersection_next {A B : TA} {p q : ℕ} (hp : p ∈ A.states) (hq : q ∈ B.states) (a : Action)
    {t : Trans} (ht : t ∈ ((A.intersection B).loc (prodAddr A B p q)).next a) :
    ∃ e1 e2 p' q', t = prodTrans A B p' q' e1 e2 ∧
      (e1 ∈ (A.loc p).next a ∧ p' = e1.target ∨ e1 = ⟨0, [], []⟩ ∧ p' = p) ∧
      (e2 ∈ (B.loc q).next a ∧ q' = e2.target ∨ e2 = ⟨0, [], []⟩ ∧ q' = q) := by
  rw [intersection_loc A B hp hq] at ht
  simp only [prodState, List.mem_append, List.mem_flatMap, List.mem_map] at ht
  rcases ht with ht | ⟨e1, h1, e2, h2, rfl⟩
  · by_cases ha : a = unobservable
    · subst ha
      simp only [if_true, List.mem_append, List.mem_map] at ht
      rcases ht with ⟨e1, h1, rfl⟩ | ⟨e2, h2, rfl⟩
      · exact ⟨e1, _, _, _, rfl, .inl ⟨h1, rfl⟩, .inr ⟨rfl, rfl⟩⟩
      · exact ⟨_, e2, _, _, rfl, .inr ⟨rfl, rfl⟩, .inl ⟨h2, rfl⟩⟩
    · simp [ha] at ht
  · exact ⟨e1, e2, _, _, rfl, .inl ⟨h1, rfl⟩, .inl ⟨h2, rfl⟩⟩

theorem intersection_wf {A B : TA} (hA : A.WF) (hB : B.WF) : (A.intersection B).WF := by
  have hk : (A.intersection B).clockSize = A.clockSize + B.clockSize := by
    simp [clockSize, intersection]
  refine ⟨?_, ⟨?_, ?_⟩, ?_, ?_, ?_⟩
  · simp only [intersection]
    rw [List.nodup_flatMap]
    refine ⟨fun p hp => ?_, ?_⟩
    · refine hB.nodup.map_on fun q hq q' hq' h => (prodAddr_inj A B hp hq hp hq' h).2
    · refine hA.nodup.imp_of_mem ?_
      intro p p' hp hp' hne
      rw [Function.onFun, List.disjoint_left]
      intro n hn hn'
      simp only [List.mem_map] at hn hn'
      obtain ⟨q, hq, rfl⟩ := hn
      obtain ⟨q', hq', h⟩ := hn'
      exact hne (prodAddr_inj A B hp hq hp' hq' h.symm).1
  · intro n hn
    simp only [intersection, List.mem_flatMap, List.mem_map] at hn ⊢
    obtain ⟨p, hp, q, hq, rfl⟩ := hn
    exact ⟨p, hA.closed.1 _ hp, q, hB.closed.1 _ hq, rfl⟩
  · intro n hn a t ht
    obtain ⟨p, hp, q, hq, rfl⟩ := (mem_intersection_states A B n).1 hn
    obtain ⟨e1, e2, p', q', rfl, h1, h2⟩ := intersection_next hp hq a ht
    refine (mem_intersection_states A B _).2 ⟨p', ?_, q', ?_, rfl⟩
    · rcases h1 with ⟨h1, rfl⟩ | ⟨-, rfl⟩
      · exact hA.closed.2 _ hp _ _ h1
      · exact hp
    · rcases h2 with ⟨h2, rfl⟩ | ⟨-, rfl⟩
      · exact hB.closed.2 _ hq _ _ h2
      · exact hq
  · intro n hn a t ht
    obtain ⟨p, hp, q, hq, rfl⟩ := (mem_intersection_states A B n).1 hn
    obtain ⟨e1, e2, p', q', rfl, h1, h2⟩ := intersection_next hp hq a ht
    have k1 : (∀ c ∈ e1.guard, c.x < A.clockSize) ∧
        (∀ r ∈ e1.resets, r.1 < A.clockSize ∧ ∀ y, r.2 = .clock y → y < A.clockSize) := by
      rcases h1 with ⟨h1, -⟩ | ⟨rfl, -⟩
      · exact hA.clocks _ hp _ _ h1
      · simp
    have k2 : (∀ c ∈ e2.guard, c.x < B.clockSize) ∧
        (∀ r ∈ e2.resets, r.1 < B.clockSize ∧ ∀ y, r.2 = .clock y → y < B.clockSize) := by
      rcases h2 with ⟨h2, -⟩ | ⟨rfl, -⟩
      · exact hB.clocks _ hq _ _ h2
      · simp
    rw [hk]
    simp only [prodTrans, shiftGuard, shiftResets, List.mem_append, List.mem_map]
    refine ⟨?_, ?_⟩
    · rintro c (hc | ⟨c, hc, rfl⟩)
      · have := k1.1 c hc; omega
      · have := k2.1 c hc; simp only; omega
    · rintro r (hr | ⟨r, hr, rfl⟩)
      · refine ⟨by have := (k1.2 r hr).1; omega, fun y hy => ?_⟩
        have := (k1.2 r hr).2 y hy; omega
      · refine ⟨by have := (k2.2 r hr).1; simp only; omega, fun y hy => ?_⟩
        obtain ⟨x, u⟩ := r
        cases u with
        | const c => simp at hy
        | clock z =>
          simp only [Upd.clock.injEq] at hy
          have := (k2.2 _ hr).2 z rfl; omega
  · intro n hn a t ht r hr c hc
    obtain ⟨p, hp, q, hq, rfl⟩ := (mem_intersection_states A B n).1 hn
    obtain ⟨e1, e2, p', q', rfl, h1, h2⟩ := intersection_next hp hq a ht
    simp only [prodTrans, shiftResets, List.mem_append, List.mem_map] at hr
    rcases hr with hr | ⟨⟨x, u⟩, hr, rfl⟩
    · rcases h1 with ⟨h1, -⟩ | ⟨rfl, -⟩
      · exact hA.resets _ hp _ _ h1 _ hr _ hc
      · simp at hr
    · rcases h2 with ⟨h2, -⟩ | ⟨rfl, -⟩
      · cases u with
        | clock z => simp at hc
        | const d => exact hB.resets _ hq _ _ h2 _ hr _ (by simpa using hc)
      · simp at hr
  · intro n hn a t ht c hc
    obtain ⟨p, hp, q, hq, rfl⟩ := (mem_intersection_states A B n).1 hn
    obtain ⟨e1, e2, p', q', rfl, h1, h2⟩ := intersection_next hp hq a ht
    simp only [prodTrans, shiftGuard, List.mem_append, List.mem_map] at hc
    rcases hc with hc | ⟨c, hc, rfl⟩
    · rcases h1 with ⟨h1, -⟩ | ⟨rfl, -⟩
      · exact hA.small _ hp _ _ h1 _ hc
      · simp at hc
    · rcases h2 with ⟨h2, -⟩ | ⟨rfl, -⟩
      · exact hB.small _ hq _ _ h2 c hc
      · simp at hc

theorem intersection_epsFree {A B : TA} (hA : A.EpsFree) (hB : B.EpsFree) :
    (A.intersection B).EpsFree := by
  intro n hn
  obtain ⟨p, hp, q, hq, rfl⟩ := (mem_intersection_states A B n).1 hn
  rw [intersection_loc A B hp hq]
  simp [prodState, hA p hp, hB q hq]

end TA
end LearnTA
