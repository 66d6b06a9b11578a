import Verif.Lemmas.RegionTree
import Verif.Lemmas.BoxGuard

/-!
# The time successors of a region as a line of positions
-/

namespace LearnTA
open Bound

theorem pos_of_reg {p q : ℚ} (h : reg p = reg q) : pos p = pos q := by
  rcases cases_pos p with ⟨n, e, hp⟩ | ⟨n, h1, h2, hp⟩ <;> rcases cases_pos q with ⟨m, e', hq⟩ | ⟨m, h1', h2', hq⟩
  · rw [reg_of_int e, reg_of_int e'] at h
    simp only [Bound.fin.injEq, and_true, Int.cast_inj] at h
    omega
  · rw [reg_of_int e, reg_of_between h1' h2'] at h; simp at h
  · rw [reg_of_int e', reg_of_between h1 h2] at h; simp at h
  · rw [reg_of_between h1 h2, reg_of_between h1' h2'] at h
    simp only [Bound.fin.injEq, and_true, add_left_inj, Int.cast_inj] at h
    omega

theorem reg_of_pos {p q : ℚ} (h : pos p = pos q) : reg p = reg q := by
  rcases cases_pos p with ⟨n, e, hp⟩ | ⟨n, h1, h2, hp⟩ <;> rcases cases_pos q with ⟨m, e', hq⟩ | ⟨m, h1', h2', hq⟩
  · have : n = m := by omega
    subst this
    rw [reg_of_int e, reg_of_int e']
  · omega
  · omega
  · have : n = m := by omega
    subst this
    rw [reg_of_between h1 h2, reg_of_between h1' h2']

namespace ForwardRegional

/-- The time successors. -/
def chain (L : ForwardRegional) : ℕ → ForwardRegional
  | 0 => L
  | m + 1 => (L.chain m).successor

@[simp] theorem chain_zero (L : ForwardRegional) : L.chain 0 = L := rfl
theorem chain_succ (L : ForwardRegional) (m : ℕ) : L.chain (m + 1) = (L.chain m).successor := rfl

theorem chain_word (L : ForwardRegional) (m : ℕ) : (L.chain m).word = L.word := by
  induction m with
  | zero => rfl
  | succ m ih => exact ih

/-- The valuation after a delay. -/
def after (v : Valuation) (e : ℚ) : Valuation := fun i => v i + e

theorem after_after (v : Valuation) (d e : ℚ) : after (after v d) e = after v (d + e) := by
  funext i; unfold after; ring

theorem after_zero (v : Valuation) : after v 0 = v := by funext i; simp [after]

/-- The delays after which the time successors are reached. -/
structure Delays (L : ForwardRegional) (n : ℕ) (v : Valuation) (D : ℕ → ℚ) : Prop where
  zero : D 0 = 0
  lt : ∀ m, D m < D (m + 1)
  of : ∀ m, (L.chain m).Of n (after v (D m))
  between : ∀ m e, D m ≤ e → e ≤ D (m + 1) → (L.chain m).Of n (after v e) ∨ (L.chain (m + 1)).Of n (after v e)

theorem Of.delays {L : ForwardRegional} {n : ℕ} {v : Valuation} (h : L.Of n v) : ∃ D, L.Delays n v D := by
  have step : ∀ m d, (L.chain m).Of n (after v d) → ∃ d', d < d' ∧ (L.chain (m + 1)).Of n (after v d') ∧
      ∀ e, d ≤ e → e ≤ d' → (L.chain m).Of n (after v e) ∨ (L.chain (m + 1)).Of n (after v e) := by
    intro m d hd
    obtain ⟨δ, h0, h1, h2⟩ := hd.successor
    refine ⟨d + δ, by linarith, ?_, ?_⟩
    · rw [← after_after]; exact h1
    · intro e he1 he2
      have := h2 (e - d) (by linarith) (by linarith)
      have e' : (fun i => after v d i + (e - d)) = after v e := by funext i; unfold after; ring
      rw [e'] at this
      exact this
  let S : (m : ℕ) → {d : ℚ // (L.chain m).Of n (after v d)} := fun m =>
    Nat.rec ⟨0, by rw [after_zero]; exact h⟩ (fun m p => ⟨(step m p.1 p.2).choose, (step m p.1 p.2).choose_spec.2.1⟩) m
  refine ⟨fun m => (S m).1, ⟨rfl, fun m => (step m (S m).1 (S m).2).choose_spec.1, fun m => (S m).2, fun m => ?_⟩⟩
  exact (step m (S m).1 (S m).2).choose_spec.2.2

/-- Values of one region have the same positions. -/
theorem Of.pos_eq {L : ForwardRegional} {n : ℕ} {v v' : Valuation} (h : L.Of n v) (h' : L.Of n v') {x : ℕ} (hx : x < n) :
    LearnTA.pos (v x) = LearnTA.pos (v' x) :=
  pos_of_reg ((Of.reg_eq (L' := L) h.region h'.region h.dim).1 x hx)

/-- The positions of the clocks in the time successors. -/
def posOf (v : Valuation) (D : ℕ → ℚ) (m x : ℕ) : ℤ := LearnTA.pos (v x + D m)

theorem successor_frac_ne {L : ForwardRegional} {n : ℕ} {v : Valuation} (h : L.Of n v) : L.frac.successor ≠ L.frac := by
  intro e
  have el := congrArg (fun g => g.order.length) e
  rcases h.part.shape (by rw [h.size]; exact h.pos) with ⟨g, gs, ho, hg⟩ | ⟨r, l, ho, hl⟩
  · rw [(FractionalOrder.successor_front ho hg).1, ho] at el; simp at el
  · rw [(FractionalOrder.successor_back ho).1, ho] at el; simp at el

theorem Delays.step {L : ForwardRegional} {n : ℕ} {v : Valuation} {D : ℕ → ℚ} (h : L.Delays n v D) (m : ℕ) {x : ℕ}
    (hx : x < n) : posOf v D (m + 1) x = posOf v D m x ∨ posOf v D (m + 1) x = posOf v D m x + 1 := by
  have hlt := h.lt m
  have hle : posOf v D m x ≤ posOf v D (m + 1) x := pos_mono (by linarith)
  by_contra hc
  push Not at hc
  have hex : ∃ e, D m ≤ e ∧ e ≤ D (m + 1) ∧ LearnTA.pos (v x + e) = posOf v D m x + 1 := by
    rcases cases_pos (v x + D m) with ⟨k, e, hp⟩ | ⟨k, h1, h2, hp⟩
    · refine ⟨D m + 1 / 2, by linarith, ?_, ?_⟩
      · by_contra hgt
        have := pos_mono (show v x + D (m + 1) ≤ v x + (D m + 1 / 2) by linarith)
        rw [pos_of_between (q := v x + (D m + 1 / 2)) (n := k) (by linarith) (by linarith)] at this
        unfold posOf at *
        omega
      · rw [pos_of_between (q := v x + (D m + 1 / 2)) (n := k) (by linarith) (by linarith)]
        unfold posOf; omega
    · refine ⟨D m + (k + 1 - (v x + D m)), by linarith, ?_, ?_⟩
      · by_contra hgt
        have := pos_mono (show v x + D (m + 1) ≤ v x + (D m + (k + 1 - (v x + D m))) by linarith)
        rw [pos_of_eq (q := v x + (D m + (k + 1 - (v x + D m)))) (n := k + 1) (by push_cast; ring)] at this
        unfold posOf at *
        omega
      · rw [pos_of_eq (q := v x + (D m + (k + 1 - (v x + D m)))) (n := k + 1) (by push_cast; ring)]
        unfold posOf; omega
  obtain ⟨e, he1, he2, hp⟩ := hex
  rcases h.between m e he1 he2 with ho | ho
  · have := ho.pos_eq (h.of m) hx
    unfold after at this
    unfold posOf at *
    omega
  · have := ho.pos_eq (h.of (m + 1)) hx
    unfold after at this
    unfold posOf at *
    omega

theorem Delays.line {L : ForwardRegional} {n : ℕ} {v : Valuation} {D : ℕ → ℚ} (h : L.Delays n v D)
    (hv : ∀ x < n, 0 ≤ v x) (K : ℕ) : Line n K (posOf v D) where
  nonneg := by
    intro m _ x hx
    refine pos_nonneg (add_nonneg (hv x hx) ?_)
    clear * - h
    induction m with
    | zero => rw [h.zero]
    | succ m ih => exact ih.trans (h.lt m).le
  step := fun m _ x hx => h.step m hx
  move := by
    intro m _
    by_contra hc
    push Not at hc
    have heq : ∀ x < n, posOf v D (m + 1) x = posOf v D m x := fun x hx => (h.step m hx).resolve_right (hc x hx)
    have hof : (L.chain m).Of n (after v (D (m + 1))) := by
      refine (h.of m).transfer ?_
      refine Zone.IsRegion.sat ?_ (h.of m).diag
      have hr := (h.of m).region
      intro i hi j hj hij
      rw [hr i hi j hj hij]
      rw [(h.of m).dim] at hi hj
      cases i with
      | zero =>
        cases j with
        | zero => exact absurd rfl hij
        | succ j =>
          have e := heq j (by omega)
          unfold posOf at e
          show reg (0 - (v j + D m)) = reg (0 - (v j + D (m + 1)))
          rw [zero_sub, zero_sub]
          rcases cases_pos (v j + D m) with ⟨a, ea, hp⟩ | ⟨a, h1, h2, hp⟩ <;>
            rcases cases_pos (v j + D (m + 1)) with ⟨b, eb, hq⟩ | ⟨b, h1', h2', hq⟩
          · have : a = b := by omega
            rw [ea, eb, this]
          · omega
          · omega
          · have : a = b := by omega
            subst this
            rw [reg_neg_of_between h1 h2, reg_neg_of_between h1' h2']
      | succ i =>
        cases j with
        | zero =>
          have e := heq i (by omega)
          unfold posOf at e
          show reg (v i + D m - 0) = reg (v i + D (m + 1) - 0)
          rw [sub_zero, sub_zero]
          exact reg_of_pos e.symm
        | succ j =>
          show reg (v i + D m - (v j + D m)) = reg (v i + D (m + 1) - (v j + D (m + 1)))
          congr 1; ring
    have hb := hof.beq (h.of (m + 1)) rfl
    rw [beq_iff] at hb
    exact successor_frac_ne (h.of m) hb.2.2.2.symm
  point := by
    intro m _ x hx hxe y hy
    have hlt := h.lt m
    obtain ⟨a, ha⟩ := (pos_even_iff _).1 hxe
    constructor
    · intro hmv
      by_contra hyo
      -- the middle of the delay
      have hy2 : posOf v D (m + 1) y % 2 = 0 := by omega
      obtain ⟨b, hb⟩ := (pos_even_iff _).1 hy2
      have hp1 : posOf v D (m + 1) y = 2 * b := pos_of_eq hb
      have hmid : LearnTA.pos (v y + (D m + D (m + 1)) / 2) ≠ posOf v D (m + 1) y := by
        intro e
        rw [hp1] at e
        obtain ⟨c, hc⟩ := (pos_even_iff _).1 (show LearnTA.pos (v y + (D m + D (m + 1)) / 2) % 2 = 0 by omega)
        rw [pos_of_eq hc] at e
        have : c = b := by omega
        subst this
        linarith
      rcases h.between m ((D m + D (m + 1)) / 2) (by linarith) (by linarith) with ho | ho
      · have e := ho.pos_eq (h.of m) hx
        unfold after at e
        have e2 : LearnTA.pos (v x + D m) = 2 * a := pos_of_eq ha
        obtain ⟨c, hc⟩ := (pos_even_iff _).1 (show LearnTA.pos (v x + (D m + D (m + 1)) / 2) % 2 = 0 by omega)
        rw [pos_of_eq hc] at e
        have : c = a := by omega
        subst this
        linarith
      · exact hmid (ho.pos_eq (h.of (m + 1)) hy)
    · intro hye
      refine (h.step m hy).resolve_left fun e => ?_
      obtain ⟨b, hb⟩ := (pos_even_iff _).1 hye
      have e2 : posOf v D m y = 2 * b := pos_of_eq hb
      obtain ⟨c, hc⟩ := (pos_even_iff _).1 (show posOf v D (m + 1) y % 2 = 0 by omega)
      have e3 : posOf v D (m + 1) y = 2 * c := pos_of_eq hc
      have : c = b := by omega
      subst this
      linarith
  par := by
    have key : ∀ m l x y : ℕ, posOf v D m x % 2 = 0 → posOf v D m y % 2 = 0 → posOf v D l x % 2 = 0 →
        posOf v D l y % 2 = 0 := by
      intro m l x y h1 h2 h3
      obtain ⟨a, ha⟩ := (pos_even_iff _).1 h1
      obtain ⟨b, hb⟩ := (pos_even_iff _).1 h2
      obtain ⟨c, hc⟩ := (pos_even_iff _).1 h3
      refine (pos_even_iff _).2 ⟨c - a + b, ?_⟩
      push_cast; linarith
    intro m _ x _ y _ h1 h2 l _
    exact ⟨key m l x y h1 h2, key m l y x h2 h1⟩

/-! ### Guards -/

theorem Of.isBox {L : ForwardRegional} {n : ℕ} {v : Valuation} (h : L.Of n v) (hv : ∀ x < n, 0 ≤ v x) :
    Guard.IsBox n (fun x => LearnTA.pos (v x)) (some fun x => LearnTA.pos (v x)) L.cond.toGuard ∧
      Guard.IsBox n (fun x => LearnTA.pos (v x)) none L.cond.removeUpperBound.toGuard := by
  have hlow : ∀ x < n, L.cond.zone.val 0 (x + 1) = reg (-(v x)) := by
    intro x hx
    rw [h.region 0 (by rw [h.dim]; omega) (x + 1) (by rw [h.dim]; omega) (by omega)]
    show reg (0 - v x) = _
    rw [zero_sub]
  have hup : ∀ x < n, L.cond.zone.val (x + 1) 0 = reg (v x) := by
    intro x hx
    rw [h.region (x + 1) (by rw [h.dim]; omega) 0 (by rw [h.dim]; omega) (by omega)]
    show reg (v x - 0) = _
    rw [sub_zero]
  -- the lower constraint of a clock
  have lowC : ∀ x < n, ∀ c : Constraint, (c ∈ (match reg (-(v x)) with
      | .inf => []
      | .fin l ls => if Bound.fin l ls = Bound.fin 0 true then [] else [(⟨x, if ls then .ge else .gt, -⌈l⌉⟩ : Constraint)])) ↔
      c.x = x ∧ c.isUpperBound = false ∧ LearnTA.pos (v x) ≠ 0 ∧ c.toBound = lowOf (LearnTA.pos (v x)) := by
    intro x hx c
    have hcl : ∀ k : ℤ, -⌈(-(k : ℚ))⌉ = k := by
      intro k; rw [Int.ceil_neg, neg_neg, Int.floor_intCast]
    have hc : ∀ b, (c.x = x ∧ c.isUpperBound = false ∧ c.toBound = b) ↔ c = Constraint.ofBound x false b := by
      intro b
      constructor
      · rintro ⟨e1, e2, e3⟩; rw [← Constraint.ofBound_self c, e1, e2, e3]
      · rintro rfl; exact ⟨rfl, Constraint.ofBound_isUpper _ _ _, Constraint.ofBound_toBound _ _ _⟩
    rcases cases_pos (v x) with ⟨k, e, hp⟩ | ⟨k, h1, h2, hp⟩
    · have hr : reg (-(v x)) = .fin ((-k : ℤ) : ℚ) true := by rw [e]; exact reg_of_int (by push_cast; rfl)
      rw [hr, hp]
      dsimp only
      by_cases hk : k = 0
      · subst hk; simp
      · rw [if_neg (by simp [hk])]
        have h3 : (2 * k) / 2 = k := by omega
        have h4 : (2 * k) % 2 = 0 := by omega
        have := hc (lowOf (2 * k))
        unfold lowOf at this ⊢
        rw [h3, decide_eq_true h4] at this ⊢
        constructor
        · intro hmem
          have e1 : c = Constraint.ofBound x false (IntBound.mk k true) := by
            simpa [Constraint.ofBound, hcl] using hmem
          obtain ⟨q1, q2, q3⟩ := this.2 e1
          exact ⟨q1, q2, by omega, q3⟩
        · rintro ⟨q1, q2, _, q3⟩
          have := this.1 ⟨q1, q2, q3⟩
          rw [this]
          simp [Constraint.ofBound, hcl]
    · have hr : reg (-(v x)) = .fin ((-k : ℤ) : ℚ) false := by
        rw [reg_neg_of_between h1 h2]; push_cast; rfl
      rw [hr, hp]
      dsimp only
      rw [if_neg (by simp)]
      have h3 : (2 * k + 1) / 2 = k := by omega
      have h4 : ¬ (2 * k + 1) % 2 = 0 := by omega
      have := hc (lowOf (2 * k + 1))
      unfold lowOf at this ⊢
      rw [h3, decide_eq_false h4] at this ⊢
      constructor
      · intro hmem
        have e1 : c = Constraint.ofBound x false (IntBound.mk k false) := by
          simpa [Constraint.ofBound, hcl] using hmem
        obtain ⟨q1, q2, q3⟩ := this.2 e1
        exact ⟨q1, q2, by omega, q3⟩
      · rintro ⟨q1, q2, _, q3⟩
        have := this.1 ⟨q1, q2, q3⟩
        rw [this]
        simp [Constraint.ofBound, hcl]
  have upC : ∀ x < n, ∀ c : Constraint, (c ∈ (match reg (v x) with
      | .inf => []
      | .fin u us => [(⟨x, if us then .le else .lt, ⌊u⌋⟩ : Constraint)])) ↔
      c.x = x ∧ c.isUpperBound = true ∧ c.toBound = upOf (LearnTA.pos (v x)) := by
    intro x hx c
    have hc : ∀ b, (c.x = x ∧ c.isUpperBound = true ∧ c.toBound = b) ↔ c = Constraint.ofBound x true b := by
      intro b
      constructor
      · rintro ⟨e1, e2, e3⟩; rw [← Constraint.ofBound_self c, e1, e2, e3]
      · rintro rfl; exact ⟨rfl, Constraint.ofBound_isUpper _ _ _, Constraint.ofBound_toBound _ _ _⟩
    rw [hc]
    rcases cases_pos (v x) with ⟨k, e, hp⟩ | ⟨k, h1, h2, hp⟩
    · rw [reg_of_int e, hp]
      dsimp only
      unfold upOf
      rw [show (2 * k + 1) / 2 = k by omega, decide_eq_true (show (2 * k) % 2 = 0 by omega)]
      simp [Constraint.ofBound]
    · rw [reg_of_between h1 h2, hp]
      dsimp only
      unfold upOf
      rw [show (2 * k + 1 + 1) / 2 = k + 1 by omega, decide_eq_false (show ¬ (2 * k + 1) % 2 = 0 by omega)]
      have : ⌊((k : ℚ) + 1)⌋ = k + 1 := by rw [← Int.cast_one, ← Int.cast_add, Int.floor_intCast]
      simp [Constraint.ofBound, this]
  constructor
  · intro c
    unfold TimedCondition.toGuard
    rw [h.csize]
    simp only [List.mem_flatMap, List.mem_range, List.mem_append]
    unfold TimedCondition.lower TimedCondition.upper
    simp only [h.csize, if_true]
    constructor
    · rintro ⟨x, hx, hm | hm⟩
      · rw [hlow x hx] at hm
        obtain ⟨rfl, h2, h3, h4⟩ := (lowC x hx c).1 hm
        exact ⟨hx, by rw [if_neg (by rw [h2]; decide)]; exact ⟨h3, h4⟩⟩
      · rw [hup x hx] at hm
        obtain ⟨rfl, h2, h3⟩ := (upC x hx c).1 hm
        exact ⟨hx, by rw [if_pos h2]; exact ⟨_, rfl, h3⟩⟩
    · rintro ⟨hx, hm⟩
      refine ⟨c.x, hx, ?_⟩
      by_cases hu : c.isUpperBound = true
      · right
        rw [if_pos hu] at hm
        obtain ⟨u, e, e'⟩ := hm
        cases e
        rw [hup _ hx]
        exact (upC _ hx c).2 ⟨rfl, hu, e'⟩
      · left
        rw [if_neg hu] at hm
        rw [hlow _ hx]
        exact (lowC _ hx c).2 ⟨rfl, by simpa using hu, hm.1, hm.2⟩
  · intro c
    unfold TimedCondition.toGuard
    have hsz : L.cond.removeUpperBound.size = n := h.csize
    rw [hsz]
    simp only [List.mem_flatMap, List.mem_range, List.mem_append]
    unfold TimedCondition.lower TimedCondition.upper
    simp only [hsz, if_true]
    have hu' : ∀ x, L.cond.removeUpperBound.zone.val (x + 1) 0 = .inf := by
      intro x; unfold TimedCondition.removeUpperBound; simp
    have hl' : ∀ x, L.cond.removeUpperBound.zone.val 0 (x + 1) = L.cond.zone.val 0 (x + 1) := by
      intro x; unfold TimedCondition.removeUpperBound; simp
    simp only [hu', hl', List.not_mem_nil, or_false]
    constructor
    · rintro ⟨x, hx, hm⟩
      rw [hlow x hx] at hm
      obtain ⟨rfl, h2, h3, h4⟩ := (lowC x hx c).1 hm
      exact ⟨hx, by rw [if_neg (by rw [h2]; decide)]; exact ⟨h3, h4⟩⟩
    · rintro ⟨hx, hm⟩
      refine ⟨c.x, hx, ?_⟩
      by_cases hu : c.isUpperBound = true
      · rw [if_pos hu] at hm
        obtain ⟨u, e, e'⟩ := hm
        cases e
      · rw [if_neg hu] at hm
        rw [hlow _ hx]
        exact (lowC _ hx c).2 ⟨rfl, by simpa using hu, hm.1, hm.2⟩

/-! ### Passing of time -/

/-- Any delay leads to one of the time successors, or beyond the last one of interest. -/
theorem Of.pass {L : ForwardRegional} {n : ℕ} (K : ℕ) : ∀ (k m : ℕ) (u : Valuation) (t : ℚ), m + k = K → 0 ≤ t →
    (L.chain m).Of n u → ∃ m' t', m ≤ m' ∧ m' ≤ K ∧ 0 ≤ t' ∧ t' ≤ t ∧ (L.chain m').Of n (after u t') ∧ (m' < K → t' = t) := by
  intro k
  induction k with
  | zero =>
    intro m u t hm ht hu
    exact ⟨m, 0, le_refl _, by omega, le_refl _, ht, by rw [after_zero]; exact hu, fun h => by omega⟩
  | succ k ih =>
    intro m u t hm ht hu
    obtain ⟨δ, h0, h1, h2⟩ := hu.successor
    by_cases htd : t ≤ δ
    · rcases h2 t ht htd with ho | ho
      · exact ⟨m, t, le_refl _, by omega, ht, le_refl _, ho, fun _ => rfl⟩
      · exact ⟨m + 1, t, by omega, by omega, ht, le_refl _, ho, fun _ => rfl⟩
    · obtain ⟨m', t', a1, a2, a3, a4, a5, a6⟩ := ih (m + 1) (after u δ) (t - δ) (by omega) (by linarith) h1
      refine ⟨m', δ + t', by omega, a2, by linarith, by linarith, by rw [← after_after]; exact a5, fun h => ?_⟩
      have := a6 h
      linarith

theorem Delays.at {L : ForwardRegional} {n : ℕ} {v : Valuation} {D : ℕ → ℚ} (h : L.Delays n v D) {K m : ℕ}
    {u : Valuation} {t t' : ℚ} (ht : t' ≤ t) (hu : (L.chain m).Of n (after u t')) (he : m < K → t' = t) (hm : m ≤ K) :
    Guard.At n K (posOf v D) m (after u t) := by
  intro x hx
  have e := (h.of m).pos_eq hu hx
  constructor
  · have : LearnTA.pos (after u t' x) ≤ LearnTA.pos (after u t x) := pos_mono (by unfold after; linarith)
    unfold posOf
    unfold after at e this ⊢
    omega
  · intro hne
    rw [he (by omega)] at e
    unfold posOf
    unfold after at e ⊢
    omega

end ForwardRegional
end LearnTA
