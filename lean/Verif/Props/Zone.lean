import Verif.Lemmas.ZoneSample
import Mathlib.Tactic.IntervalCases

/-!
# Properties of zones (C09–C18)
-/

namespace LearnTA.Props

open LearnTA

/-- The example zone used below: two clocks, all clocks equal, any non-negative value. -/
def exZone : Zone := (Zone.zero 3).elapse

theorem exZone_closed : exZone.Closed :=
  Zone.elapse_closed (fun _ _ _ _ _ _ => by simp [Zone.zero])

theorem exZone_mem : exZone.Mem (fun _ => 5) := by
  have := Zone.elapse_sound (Zone.zero 3) (fun _ => 0) 5 (by norm_num)
    (by intro i _ j _; cases i <;> cases j <;> simp [Zone.zero, Valuation.ext])
  have e : Valuation.shift (fun _ => 0) 5 = fun _ => 5 := by
    funext i; simp [Valuation.shift]
  rw [e] at this; exact this

/-! ## C09 -/

/-- C09: the satisfiability test (which first canonises) is true exactly if some valuation meets all
the difference bounds: for every size and every matrix. -/
theorem C09_isSatisfiable_exact (z : Zone) : z.isSatisfiable = true ↔ ∃ v : Valuation, z.Mem v :=
  Zone.isSatisfiable_iff z

/-- C09: on an already canonical zone the cheap test without canonisation is exact too. -/
theorem C09_noCanonize_exact (z : Zone) (hc : z.Closed) :
    z.isSatisfiableNoCanonize = true ↔ ∃ v : Valuation, z.Mem v :=
  Zone.isSatisfiableNoCanonize_closed z hc

example : exZone.isSatisfiable = true := (C09_isSatisfiable_exact _).2 ⟨_, exZone_mem⟩
example : ((exZone.set 1 0 (.fin 1 true)).set 0 2 (.fin (-2) true)).isSatisfiable = false := by
  decide +kernel

/-! ## C10 -/

/-- C10: canonisation keeps the set of valuations. -/
theorem C10_canonize_mem (z : Zone) (v : Valuation) : z.canonize.Mem v ↔ z.Mem v :=
  Zone.canonize_mem z v

/-- C10: the canonical form of a non-empty zone satisfies all triangle inequalities. -/
theorem C10_canonize_closed (z : Zone) (v : Valuation) (h : z.Mem v) : z.canonize.Closed :=
  Zone.canonize_closed_of_mem h

/-- C10: in the canonical form of a non-empty zone no bound on the difference of two distinct
indices can be strengthened without losing a valuation of the zone. -/
theorem C10_canonize_tight (z : Zone) (u : Valuation) (hu : z.Mem u) (i j : ℕ) (hi : i < z.dim)
    (hj : j < z.dim) (hij : i ≠ j) (b : Bound) (hb : b < z.canonize.val i j) :
    ∃ v, z.Mem v ∧ ¬ Bound.Sat (v.ext i - v.ext j) b := by
  by_contra hcon
  push Not at hcon
  have hc := Zone.canonize_closed_of_mem hu
  have hd : z.canonize.DiagNN := ((Zone.canonize_mem z u).2 hu).diagNN
  apply absurd hb
  rw [not_lt]
  apply Bound.le_of_sat_imp
  intro q hq
  obtain ⟨v, hv, hle⟩ := Zone.realize_above _ hc hd (by simpa using hi) (by simpa using hj) hij q hq
  have := hcon v ((Zone.canonize_mem z v).1 hv)
  rw [Bound.sat_iff] at this ⊢
  refine le_trans ?_ this
  rw [Bound.fin_le_fin]
  rcases lt_or_eq_of_le hle with h | h
  · exact Or.inl h
  · exact Or.inr ⟨h, le_refl _⟩

/-- C10: canonising a canonical zone changes no entry. -/
theorem C10_canonize_idempotent (z : Zone) (hc : z.Closed) : z.canonize.Same z :=
  Zone.canonize_same_of_closed z hc

example : exZone.canonize.Same exZone := C10_canonize_idempotent _ exZone_closed
example : (exZone.set 1 0 (.fin 1 true)).canonize.val 2 0 = .fin 1 true := by decide +kernel

/-! ## C11 -/

/-- C11: `tighten(x, y, c)` keeps exactly the valuations that also meet the new bound. -/
theorem C11_tighten_exact (z : Zone) (x y : ℕ) (hx : x < z.dim) (hy : y < z.dim) (c : Bound)
    (v : Valuation) : (z.tighten x y c).Mem v ↔ z.Mem v ∧ Bound.Sat (v.ext x - v.ext y) c :=
  Zone.tighten_sat z x y hx hy c v.ext

/-- C11: `tighten` on a canonical zone is canonical again when non-empty. -/
theorem C11_tighten_canonical (z : Zone) (hc : z.Closed) (x y : ℕ) (hx : x < z.dim)
    (hy : y < z.dim) (hxy : x ≠ y) (c : Bound) (v : Valuation) (hv : (z.tighten x y c).Mem v) :
    (z.tighten x y c).Closed :=
  Zone.tighten_closed z hc x y hx hy hxy c v hv

/-- C11: after tightening a canonical non-empty zone, the test without canonisation is exact. -/
theorem C11_tighten_test (z : Zone) (hc : z.Closed) (hne : ∃ v, z.Mem v) (x y : ℕ) (hx : x < z.dim)
    (hy : y < z.dim) (hxy : x ≠ y) (c : Bound) :
    (z.tighten x y c).isSatisfiableNoCanonize = true ↔
      ∃ v : Valuation, z.Mem v ∧ Bound.Sat (v.ext x - v.ext y) c := by
  obtain ⟨u, hu⟩ := hne
  constructor
  · intro h
    obtain ⟨v, hv⟩ := Zone.tighten_two_cycle z hc hu.diagNN x y hx hy hxy c h
    exact ⟨v, (C11_tighten_exact z x y hx hy c v).1 hv⟩
  · rintro ⟨v, hv⟩
    have hm := (C11_tighten_exact z x y hx hy c v).2 hv
    exact (C09_noCanonize_exact _ (Zone.tighten_closed z hc x y hx hy hxy c v hm)).2 ⟨v, hm⟩

/-- C11: tightening by a guard keeps exactly the valuations that satisfy the guard (and the result
is canonical if it is not empty). -/
theorem C11_tighten_guard (z : Zone) (g : Guard) (hg : ∀ c ∈ g, c.x + 1 < z.dim) :
    (∀ v, (z.tightenG g).Mem v ↔ z.Mem v ∧ g.Holds v) ∧
    (z.Closed → ∀ v, (z.tightenG g).Mem v → (z.tightenG g).Closed) :=
  ⟨Zone.tightenG_mem z g hg, fun hc v hv => Zone.tightenG_closed z hc g hg v hv⟩

example : (exZone.tighten 1 0 (.fin 3 false)).isSatisfiableNoCanonize = true ∧
    (exZone.tighten 1 0 (.fin 3 false)).val 2 0 = .fin 3 false ∧
    ((exZone.tighten 1 0 (.fin 3 false)).tighten 0 2 (.fin (-3) true)).isSatisfiableNoCanonize
      = false := by decide +kernel
example : (exZone.tightenG [⟨0, .ge, 5⟩, ⟨1, .lt, 7⟩]).Mem (fun _ => 5) :=
  ((C11_tighten_guard exZone _ (by decide)).1 _).2
    ⟨exZone_mem, by intro c hc; simp at hc; rcases hc with rfl | rfl <;> simp [Constraint.Holds] <;> norm_num⟩

/-! ## C12 -/

/-- C12: `elapse` on a canonical non-empty zone: exactly the time successors; still canonical. -/
theorem C12_elapse_exact (z : Zone) (hc : z.Closed) (hne : ∃ u, z.Mem u) :
    (∀ v : Valuation, z.elapse.Mem v ↔ ∃ u d, 0 ≤ d ∧ z.Mem u ∧ v = u.shift d) ∧
    z.elapse.Closed := by
  refine ⟨fun v => ?_, Zone.elapse_closed hc⟩
  rw [Zone.elapse_mem z hc hne]
  constructor
  · rintro ⟨d, hd, h⟩
    exact ⟨_, d, hd, h, by funext i; simp [Valuation.shift]⟩
  · rintro ⟨u, d, hd, h, rfl⟩
    refine ⟨d, hd, ?_⟩
    have : (u.shift d).shift (-d) = u := by funext i; simp [Valuation.shift]
    rw [this]; exact h

/-- C12: `elapse` never loses a time successor, canonical or not. -/
theorem C12_elapse_sound (z : Zone) (v : Valuation) (d : ℚ) (hd : 0 ≤ d) (h : z.Mem v) :
    z.elapse.Mem (v.shift d) := Zone.elapse_sound z v d hd h

/-- C12: `reverseElapse` on a canonical non-empty zone: exactly the non-negative valuations from
which the zone is reached by waiting. -/
theorem C12_reverseElapse_exact (z : Zone) (hc : z.Closed) (hne : ∃ u, z.Mem u) (v : Valuation) :
    z.reverseElapse.Mem v ↔ (∀ i, i + 1 < z.dim → 0 ≤ v i) ∧ ∃ d, 0 ≤ d ∧ z.Mem (v.shift d) :=
  Zone.reverseElapse_mem z hc hne v

example : (Zone.zero 3).elapse.Mem (fun _ => 5) := exZone_mem
example : ¬ (Zone.zero 3).elapse.Mem (fun i => i) := by
  intro h
  have := h 2 (by decide) 1 (by decide)
  simp [Zone.zero, Zone.elapse, Valuation.ext, Bound.Sat] at this
  norm_num at this
example : exZone.reverseElapse.Mem (fun _ => 2) :=
  (C12_reverseElapse_exact exZone exZone_closed ⟨_, exZone_mem⟩ _).2
    ⟨fun _ _ => by norm_num, 3, by norm_num, by
      have : Valuation.shift (fun _ => 2) 3 = fun _ => 5 := by
        funext i; simp [Valuation.shift]; norm_num
      rw [this]; exact exZone_mem⟩

/-! ## C13 -/

/-- C13: `reset(x)` contains exactly the valuations of the zone with `x` set to 0. -/
theorem C13_reset_exact (z : Zone) (hc : z.Closed) (hne : ∃ u, z.Mem u) (x : ℕ)
    (hx : x + 1 < z.dim) (v : Valuation) :
    (z.reset x).Mem v ↔ ∃ u, z.Mem u ∧ v = Function.update u x 0 := by
  rw [Zone.reset_mem z hc hne x hx]
  constructor
  · rintro ⟨h0, q, h⟩
    refine ⟨_, h, ?_⟩
    rw [Function.update_idem, ← h0, Function.update_eq_self]
  · rintro ⟨u, h, rfl⟩
    refine ⟨by simp, u x, ?_⟩
    rw [Function.update_idem, Function.update_eq_self]; exact h

/-- C13: `unconstrain(x)` contains exactly the valuations of the zone with `x` changed
arbitrarily. -/
theorem C13_unconstrain_exact (z : Zone) (hc : z.Closed) (hne : ∃ u, z.Mem u) (x : ℕ)
    (v : Valuation) :
    (z.unconstrain x).Mem v ↔ ∃ u q, z.Mem u ∧ v = Function.update u x q := by
  rw [Zone.unconstrain_mem z hc hne]
  constructor
  · rintro ⟨q, h⟩
    exact ⟨_, v x, h, by rw [Function.update_idem, Function.update_eq_self]⟩
  · rintro ⟨u, q, h, rfl⟩
    exact ⟨u x, by rw [Function.update_idem, Function.update_eq_self]; exact h⟩

example : (exZone.reset 0).Mem (Function.update (fun _ => 5) 0 0) :=
  (C13_reset_exact exZone exZone_closed ⟨_, exZone_mem⟩ 0 (by decide) _).2 ⟨_, exZone_mem, rfl⟩
example : (exZone.reset 0).val 2 1 = .inf ∧ (exZone.reset 0).val 1 2 = .fin 0 true := by
  decide +kernel
example : (exZone.unconstrain 1).Mem (Function.update (fun _ => 5) 1 77) :=
  (C13_unconstrain_exact exZone exZone_closed ⟨_, exZone_mem⟩ 1 _).2 ⟨_, _, exZone_mem, rfl⟩

/-! ## C14 -/

/-- C14: a positive answer of `includes` means inclusion, for all matrices of equal size. -/
theorem C14_includes_sound (z z' : Zone) (hdim : z.dim = z'.dim) (h : z.includes z' = true)
    (v : Valuation) (hv : z'.Mem v) : z.Mem v :=
  Zone.Mem.of_le hdim ((Zone.includes_iff z z').1 h) hv

/-- C14: `includes` is exact if the included zone is canonical and non-empty and has the diagonal
`(0, ≤)` that the code uses for zones it builds. -/
theorem C14_includes_exact (z z' : Zone) (hdim : z.dim = z'.dim) (hc : z'.Closed)
    (hne : ∃ v, z'.Mem v) (hdiag : ∀ i < z'.dim, z'.val i i = .fin 0 true) :
    z.includes z' = true ↔ ∀ v : Valuation, z'.Mem v → z.Mem v := by
  constructor
  · exact fun h v hv => C14_includes_sound z z' hdim h v hv
  · intro h
    obtain ⟨u, hu⟩ := hne
    rw [Zone.includes_iff]
    intro i hi j hj
    by_cases hij : i = j
    · subst hij
      rw [hdiag i (hdim ▸ hi)]
      exact (h u hu).diagNN i hi
    · exact Zone.bound_le_of_incl z z' hdim hc hu.diagNN h hi hj hij

/-- C14: all that `includes` says about a canonical, non-empty zone: the sets are included, and the diagonals are in order. -/
theorem C14_includes_iff (z z' : Zone) (hdim : z.dim = z'.dim) (hc : z'.Closed) (hne : ∃ v, z'.Mem v) :
    z.includes z' = true ↔ (∀ v : Valuation, z'.Mem v → z.Mem v) ∧ ∀ i < z.dim, z'.val i i ≤ z.val i i := by
  constructor
  · exact fun h => ⟨fun v hv => C14_includes_sound z z' hdim h v hv, fun i hi => (Zone.includes_iff z z').1 h i hi i hi⟩
  · rintro ⟨h, hd⟩
    obtain ⟨u, hu⟩ := hne
    rw [Zone.includes_iff]
    intro i hi j hj
    by_cases hij : i = j
    · subst hij; exact hd i hi
    · exact Zone.bound_le_of_incl z z' hdim hc hu.diagNN h hi hj hij

/-- C14: for two canonical, non-empty zones `==` says that the sets and the diagonals are equal. -/
theorem C14_eq_iff (z z' : Zone) (hc : z.Closed) (hc' : z'.Closed) (hne : ∃ v, z.Mem v) (hne' : ∃ v, z'.Mem v) :
    z.beq z' = true ↔ z.dim = z'.dim ∧ (∀ v : Valuation, z.Mem v ↔ z'.Mem v) ∧ ∀ i < z.dim, z.val i i = z'.val i i := by
  have key : z.beq z' = true ↔ z.dim = z'.dim ∧ ∀ i < z.dim, ∀ j < z.dim, z.val i j = z'.val i j := by
    simp [Zone.beq]
  rw [key]
  constructor
  · rintro ⟨hd, h⟩
    refine ⟨hd, fun v => ⟨fun hv i hi j hj => ?_, fun hv i hi j hj => ?_⟩, fun i hi => h i hi i hi⟩
    · rw [← h i (hd ▸ hi) j (hd ▸ hj)]; exact hv i (hd ▸ hi) j (hd ▸ hj)
    · rw [h i hi j hj]; exact hv i (hd ▸ hi) j (hd ▸ hj)
  · rintro ⟨hd, h, hg⟩
    obtain ⟨u, hu⟩ := hne
    obtain ⟨u', hu'⟩ := hne'
    refine ⟨hd, fun i hi j hj => ?_⟩
    by_cases hij : i = j
    · subst hij; exact hg i hi
    · exact le_antisymm
        (Zone.bound_le_of_incl z' z hd.symm hc hu.diagNN (fun v hv => (h v).1 hv) (hd ▸ hi) (hd ▸ hj) hij)
        (Zone.bound_le_of_incl z z' hd hc' hu'.diagNN (fun v hv => (h v).2 hv) hi hj hij)

/-- C14: without the condition on the diagonal, a negative answer may be wrong: the two zones below
are canonical and contain the same valuations. -/
theorem C14_diagonal_witness :
    ∃ z z' : Zone, z.dim = z'.dim ∧ z.Closed ∧ z'.Closed ∧ (∃ v, z.Mem v) ∧
      (∀ v, z'.Mem v ↔ z.Mem v) ∧ z.includes z' = false := by
  refine ⟨Zone.zero 1, Zone.top 1, rfl, ?_, ?_, ⟨fun _ => 0, ?_⟩, ?_, by decide +kernel⟩
  · intro i _ j _ k _; simp [Zone.zero]
  · intro i _ j _ k _; simp [Zone.top]
  · intro i hi j hj
    have : i = 0 := by simp [Zone.zero] at hi; omega
    have : j = 0 := by simp [Zone.zero] at hj; omega
    subst i; subst j; simp [Zone.zero, Valuation.ext]
  · intro v
    constructor
    · intro _ i hi j hj
      have : i = 0 := by simp [Zone.zero] at hi; omega
      have : j = 0 := by simp [Zone.zero] at hj; omega
      subst i; subst j; simp [Zone.zero, Valuation.ext]
    · intro _ i _ j _; simp [Zone.top]

/-- C14: `strictEqual` on canonical non-empty zones decides equality of the sets. -/
theorem C14_strictEqual_exact (z z' : Zone) (hdim : z.dim = z'.dim) (hc : z.Closed) (hc' : z'.Closed)
    (hne : ∃ v, z.Mem v) (hne' : ∃ v, z'.Mem v) :
    z.strictEqual z' = true ↔ ∀ v : Valuation, z.Mem v ↔ z'.Mem v := by
  obtain ⟨u, hu⟩ := hne
  obtain ⟨u', hu'⟩ := hne'
  rw [Zone.strictEqual]
  simp only [List.all_eq_true, List.mem_range, decide_eq_true_eq]
  constructor
  · intro h v
    constructor
    · intro hv i hi j hj
      rcases h i (hdim ▸ hi) j (hdim ▸ hj) with e | e
      · subst e; rw [sub_self]; exact Bound.sat_self_zero.2 (hu'.diagNN i hi)
      · rw [← e]; exact hv i (hdim ▸ hi) j (hdim ▸ hj)
    · intro hv i hi j hj
      rcases h i hi j hj with e | e
      · subst e; rw [sub_self]; exact Bound.sat_self_zero.2 (hu.diagNN i hi)
      · rw [e]; exact hv i (hdim ▸ hi) j (hdim ▸ hj)
  · intro h i hi j hj
    by_cases hij : i = j
    · exact Or.inl hij
    · right
      exact le_antisymm
        (Zone.bound_le_of_incl z' z hdim.symm hc hu.diagNN (fun v hv => (h v).1 hv) (hdim ▸ hi)
          (hdim ▸ hj) hij)
        (Zone.bound_le_of_incl z z' hdim hc' hu'.diagNN (fun v hv => (h v).2 hv) hi hj hij)

example : exZone.includes (Zone.zero 3) = true ∧ (Zone.zero 3).includes exZone = false := by
  decide +kernel

/-! ## C15 -/

/-- C15: `z1 && z2` contains exactly the common valuations, and is canonical if not empty. -/
theorem C15_inter_exact (z z' : Zone) (hdim : z.dim = z'.dim) (v : Valuation) :
    ((z.inter z').Mem v ↔ z.Mem v ∧ z'.Mem v) ∧ ((z.inter z').Mem v → (z.inter z').Closed) := by
  refine ⟨Zone.inter_mem z z' hdim v, fun h => ?_⟩
  unfold Zone.inter at h ⊢
  exact Zone.canonize_closed_of_mem ((Zone.canonize_mem _ _).1 h)

example : (exZone.inter (Zone.zero 3)).isSatisfiable = true ∧
    (exZone.inter (Zone.zero 3)).val 1 0 = .fin 0 true := by decide +kernel

/-! ## C16 -/

/-- C16: `extrapolate` never loses a valuation. -/
theorem C16_extrapolate_superset (z : Zone) (maxC : ℕ → ℚ) (v : Valuation) (hv : z.Mem v) :
    (z.extrapolate maxC).Mem v := (Zone.extrapolate_weaker z maxC).mem hv

/-- C16: `abstractize` never loses a valuation. -/
theorem C16_abstractize_superset (z : Zone) (m : ℚ) (v : Valuation) (hv : z.Mem v) :
    (z.abstractize m).Mem v :=
  Zone.Mem.of_le (z := z.abstractize m) (z' := z) rfl
    (fun i _ j _ => Zone.abstractize_ge z m i j) hv

/-- C16: `extrapolate` leaves a zone alone whose bounds are within the maximal constants. -/
theorem C16_extrapolate_keeps (z : Zone) (maxC : ℕ → ℚ)
    (hu : ∀ i j, i + 1 < z.dim → j < z.dim → ∃ c s, z.val (i + 1) j = .fin c s ∧ c ≤ maxC i)
    (hl : ∀ i, i + 1 < z.dim → ∀ c s, z.val 0 (i + 1) = .fin c s → -c ≤ maxC i) : z.extrapolate maxC = z := by
  have f : ∀ i j, i + 1 < z.dim → j < z.dim → Zone.firstGt (z.val (i + 1) j) (maxC i) = false := by
    intro i j hi hj
    obtain ⟨c, s, e, h⟩ := hu i j hi hj
    rw [e]; simpa [Zone.firstGt] using h
  have g : ∀ i, i + 1 < z.dim → Zone.negFirstGt (z.val 0 (i + 1)) (maxC i) = false := by
    intro i hi
    cases e : z.val 0 (i + 1) with
    | fin c s => simpa [Zone.negFirstGt] using hl i hi c s e
    | inf => rfl
  have inner : ∀ i, i + 1 < z.dim → ∀ l : List ℕ, (∀ j ∈ l, j + 1 < z.dim) → l.foldl (Zone.extrapolateInner maxC i) z = z := by
    intro i hi l
    induction l with
    | nil => intro _; rfl
    | cons j l ih =>
      intro h
      have hj := h j (by simp)
      rw [List.foldl_cons]
      have : z.extrapolateInner maxC i j = z := by
        unfold Zone.extrapolateInner
        simp [f i (j + 1) hi hj, g i hi, g j hj]
      rw [this]; exact ih fun q hq => h q (by simp [hq])
  unfold Zone.extrapolate
  have outer : ∀ l : List ℕ, (∀ i ∈ l, i + 1 < z.dim) → l.foldl (Zone.extrapolateOuter maxC (z.dim - 1)) z = z := by
    intro l
    induction l with
    | nil => intro _; rfl
    | cons i l ih =>
      intro h
      have hi := h i (by simp)
      rw [List.foldl_cons]
      have : z.extrapolateOuter maxC (z.dim - 1) i = z := by
        unfold Zone.extrapolateOuter
        simp only [f i 0 hi (by omega), g i hi, Bool.false_eq_true, if_false]
        exact inner i hi _ fun j hj => by rw [List.mem_range] at hj; omega
      rw [this]; exact ih fun q hq => h q (by simp [hq])
  exact outer _ fun i hi => by rw [List.mem_range] at hi; omega

/-- C16: `abstractize` leaves a zone alone whose bounds are within the threshold. -/
theorem C16_abstractize_keeps (z : Zone) (m : ℚ)
    (h : ∀ i j, ∃ c s, z.val i j = .fin c s ∧ c ≤ m ∧ -m ≤ c) : z.abstractize m = z := by
  unfold Zone.abstractize
  obtain ⟨n, val⟩ := z
  simp only [Zone.mk.injEq, true_and]
  funext i j
  obtain ⟨c, s, e, h1, h2⟩ := h i j
  dsimp only at e
  rw [e, if_neg, if_neg]
  · rw [not_lt]
    rcases lt_or_eq_of_le h2 with h | h
    · exact Bound.fin_le_fin.2 (Or.inl h)
    · exact Bound.fin_le_fin.2 (Or.inr ⟨h, by simp⟩)
  · rw [gt_iff_lt, not_lt]
    rcases lt_or_eq_of_le h1 with h | h
    · exact Bound.fin_le_fin.2 (Or.inl h)
    · exact Bound.fin_le_fin.2 (Or.inr ⟨h, by cases s <;> simp⟩)

example : ((Zone.zero 3).set 1 0 (.fin 4 true)).extrapolate (fun _ => 4) = (Zone.zero 3).set 1 0 (.fin 4 true) ∧
    ((Zone.zero 3).set 1 0 (.fin 4 true)).abstractize 4 = (Zone.zero 3).set 1 0 (.fin 4 true) := by
  have h : ∀ i j, ∃ c s, ((Zone.zero 3).set 1 0 (.fin 4 true)).val i j = .fin c s ∧ c ≤ 4 ∧ (0 : ℚ) ≤ c := by
    intro i j
    simp only [Zone.set, Zone.zero]
    split
    · exact ⟨4, true, rfl, by norm_num, by norm_num⟩
    · exact ⟨0, true, rfl, by norm_num, by norm_num⟩
  refine ⟨C16_extrapolate_keeps _ _ (fun i j _ _ => ?_) (fun i _ c s e => ?_), C16_abstractize_keeps _ _ fun i j => ?_⟩
  · obtain ⟨c, s, e, h1, -⟩ := h (i + 1) j; exact ⟨c, s, e, h1⟩
  · obtain ⟨c', s', e', -, h2⟩ := h 0 (i + 1)
    rw [e] at e'; injection e' with e1 _; rw [e1]; linarith
  · obtain ⟨c, s, e, h1, h2⟩ := h i j; exact ⟨c, s, e, h1, by linarith⟩

example : ((exZone.tighten 1 0 (.fin 9 true)).extrapolate (fun _ => 4)).val 1 0 = .inf ∧
    ((exZone.tighten 1 0 (.fin 9 true)).abstractize 4).val 1 0 = .inf := by decide +kernel

/-! ## C17 -/

/-- C17, partial: `sample` of a satisfiable zone of non-negative valuations returns one of its
valuations, provided that in the canonical zone a clock that is not fixed, with a non-strict own lower bound, has only
non-strict lower bounds relative to the clocks before it.  Missing: the other satisfiable zones, for
which the claim is false of the code (see `C17_outside_witness`). -/
theorem C17_sample_mem_partial (z : Zone) (hne : ∃ v, z.Mem v)
    (hnn : ∀ v, z.Mem v → ∀ i, i + 1 < z.dim → 0 ≤ v i)
    (hstrict : ∀ i j, j < i → i + 1 < z.dim →
      Bound.isPoint (z.canonize.val (i + 1) 0) (z.canonize.val 0 (i + 1)) = false →
      Zone.secondOf (z.canonize.val 0 (i + 1)) = true →
      ∀ c s, z.canonize.val (j + 1) (i + 1) = .fin c s → s = true) :
    z.Mem (fun i => z.sample.getD i 0) ∧ z.sample.length = z.dim - 1 :=
  Zone.sample_mem z hne hnn hstrict

/-- A zone with `0 < x0`, `x0 < x1`, `1 ≤ x2` and `x1 < x2`. -/
def badSample : Zone :=
  ⟨4, fun i j => if i = j then .fin 0 true else if j = 0 then .inf else
    match i, j with
    | 0, 1 => .fin 0 false
    | 0, 2 => .fin 0 false
    | 0, 3 => .fin (-1) true
    | 1, 2 => .fin 0 false
    | 1, 3 => .fin 0 false
    | 2, 3 => .fin 0 false
    | _, _ => .inf⟩

/-- C17: the claim is false of the code in general.  The zone below is canonical and satisfiable and
the code samples `(0.5, 1, 1)` from it, which violates `x1 < x2`. -/
theorem C17_outside_witness :
    badSample.isSatisfiable = true ∧ badSample.sample = [1 / 2, 1, 1] ∧
      ¬ badSample.Mem (fun i => badSample.sample.getD i 0) := by
  have h : badSample.sample = [1 / 2, 1, 1] := by decide +kernel
  refine ⟨by decide +kernel, h, ?_⟩
  rw [h]
  intro hm
  have := hm 2 (by decide) 3 (by decide)
  simp [badSample, Valuation.ext, Bound.Sat] at this

example : (exZone.tighten 0 1 (.fin (-2) false)).sample = [5 / 2, 5 / 2] := by decide +kernel

/-! ## C18 -/

/-- C18, partial: on a canonical non-empty zone `applyResets` contains exactly the valuations that
the concrete simultaneous update of the runner produces, for update lists with one entry per clock
in which no renaming reads a clock that an earlier renaming overwrites.  Missing: the other update
lists, for which the claim is false of the code (see `C18_swap_witness`). -/
theorem C18_applyResets_exact_partial (z : Zone) (hc : z.Closed) (hne : ∃ u, z.Mem u) (r : Resets)
    (hr : ∀ p ∈ r, p.1 + 1 < z.dim ∧ ∀ y, p.2 = .clock y → y + 1 < z.dim)
    (hn : (r.map Prod.fst).Nodup) (hraw : Zone.NoReadAfterWrite r) (v : Valuation) :
    (z.applyResets r).Mem v ↔ ∃ u, z.Mem u ∧ v = r.apply u := by
  obtain ⟨_, _, h⟩ := Zone.applyResets_spec z hc r (by
    intro p hp
    obtain ⟨h1, h2⟩ := hr p hp
    refine ⟨by omega, ?_⟩
    split
    · rename_i y e; have := h2 y e; omega
    · trivial) hne
  rw [h v]
  simp only [Zone.seqApply_eq_apply r hn hraw]

example : Zone.NoReadAfterWrite [(0, .clock 1), (1, .const 3)] ∧
    ([(0, Upd.clock 1), (1, .const 3)].map Prod.fst).Nodup := by
  refine ⟨⟨?_, ?_, trivial⟩, by decide⟩
  · intro y _ _ p' hp'; simp at hp'; subst hp'; simp
  · intro y h; simp at h

/-- The zone with the single valuation `x0 = 1`, `x1 = 2`. -/
def pointZone : Zone :=
  ⟨3, fun i j =>
    let p : ℕ → ℚ := fun k => match k with | 0 => 0 | 1 => 1 | _ => 2
    .fin (p i - p j) true⟩

/-- C18: the claim is false of the code for a swap `x0 := x1, x1 := x0`: the runner maps `(1, 2)` to
`(2, 1)`, the zone operation produces a zone that does not contain that valuation. -/
theorem C18_swap_witness :
    pointZone.Mem (fun i => if i = 0 then 1 else 2) ∧
    ¬ (pointZone.applyResets [(0, .clock 1), (1, .clock 0)]).Mem
      (Resets.apply [(0, .clock 1), (1, .clock 0)] (fun i => if i = 0 then 1 else 2)) := by
  constructor
  · intro i hi j hj
    simp [pointZone] at hi hj
    interval_cases i <;> interval_cases j <;> simp [pointZone, Valuation.ext] <;> norm_num
  · intro h
    have h1 := h 1 (by decide +kernel) 2 (by decide +kernel)
    have e : (pointZone.applyResets [(0, .clock 1), (1, .clock 0)]).val 1 2 = .fin 0 true := by
      decide +kernel
    rw [e] at h1
    simp [Resets.apply, Upd.eval, Valuation.ext, Bound.Sat, Function.update] at h1

end LearnTA.Props
