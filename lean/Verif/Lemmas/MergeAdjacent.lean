import Verif.Lemmas.BoxGuard
import Verif.Lemmas.TA
import Verif.Lemmas.Merge
import Verif.Props.Constraint
import Verif.Model.MergeAdjacent
import Verif.Spec.MergeAdjacent

/-!
# Merging of adjacent transitions
-/

namespace LearnTA
open IntBound Guard

namespace Guard

theorem SameBut.symm {x : ℕ} {g h : Guard} (e : SameBut x g h) : SameBut x h g := fun c hc => (e c hc).symm
theorem SameBut.trans {x : ℕ} {g h k : Guard} (e : SameBut x g h) (e' : SameBut x h k) : SameBut x g k :=
  fun c hc => (e c hc).trans (e' c hc)

theorem Neat.tidy {g : Guard} (h : Neat g) : Tidy g := by
  intro c hc d hd hk
  simp only [ckey, Prod.mk.injEq] at hk
  exact h.2 c hc d hd hk.1 hk.2

/-- If a value of the clock `x` breaks an upper bound of the guard, it breaks the upper bound computed for `x`. -/
theorem broken_upper {g : Guard} (hs : g.Small) {w : Valuation} (hw : w.Nonneg) (hg : g.Holds w) {c : Constraint} (hc : c ∈ g)
    (hu : c.isUpperBound = true) {v : Valuation} (hv : v.Nonneg) (hn : ¬ c.Holds v) :
    w c.x < v c.x ∧ LowSat (w c.x) ((toBounds g).lower c.x) ∧ (toBounds g).upper c.x ≠ IntBound.mk intMax false ∧
      ¬ UpSat (v c.x) ((toBounds g).upper c.x) := by
  have hw1 := hg c hc
  have h1 : w c.x < v c.x := by
    by_contra hle
    refine hn ?_
    rw [Constraint.holds_iff_bound, if_pos hu] at hw1 ⊢
    exact UpSat.anti hw1 (not_lt.1 hle)
  have hS := (toBounds_sem g w hs).2 ⟨hw, hg⟩
  refine ⟨h1, (hS c.x).1, ?_⟩
  have hw' : Valuation.Nonneg (Function.update w c.x (v c.x)) := by
    intro i
    by_cases hi : i = c.x
    · subst hi; rw [Function.update_self]; exact hv _
    · rw [Function.update_of_ne hi]; exact hw _
  have hnS : ¬ (toBounds g).Sem (Function.update w c.x (v c.x)) := by
    rw [toBounds_sem g _ hs]
    rintro ⟨-, h⟩
    refine hn ?_
    have := h c hc
    rw [Constraint.holds_iff_bound, if_pos hu] at this ⊢
    rwa [Function.update_self] at this
  by_contra hcon
  refine hnS fun i => ?_
  by_cases hi : i = c.x
  · subst hi
    rw [Function.update_self]
    refine ⟨?_, ?_⟩
    · have := (hS c.x).1
      rw [lowSat_iff] at this ⊢
      exact UpSat.anti this (by linarith)
    · by_contra h
      exact hcon ⟨fun e => h (.inl e), fun e => h (.inr e)⟩
  · rw [Function.update_of_ne hi]
    exact hS i

theorem broken_lower {g : Guard} (hs : g.Small) {w : Valuation} (hw : w.Nonneg) (hg : g.Holds w) {c : Constraint} (hc : c ∈ g)
    (hu : c.isUpperBound = false) {v : Valuation} (hv : v.Nonneg) (hn : ¬ c.Holds v) :
    v c.x < w c.x ∧ ¬ LowSat (v c.x) ((toBounds g).lower c.x) ∧ LowSat (w c.x) ((toBounds g).lower c.x) ∧
      ((toBounds g).upper c.x = IntBound.mk intMax false ∨ UpSat (w c.x) ((toBounds g).upper c.x)) := by
  have hu' : ¬ c.isUpperBound = true := by rw [hu]; decide
  have hw1 := hg c hc
  have h1 : v c.x < w c.x := by
    by_contra hle
    refine hn ?_
    rw [Constraint.holds_iff_bound, if_neg hu', lowSat_iff] at hw1 ⊢
    exact UpSat.anti hw1 (by linarith [not_lt.1 hle])
  have hS := (toBounds_sem g w hs).2 ⟨hw, hg⟩
  refine ⟨h1, ?_, (hS c.x).1, (hS c.x).2⟩
  have hw' : Valuation.Nonneg (Function.update w c.x (v c.x)) := by
    intro i
    by_cases hi : i = c.x
    · subst hi; rw [Function.update_self]; exact hv _
    · rw [Function.update_of_ne hi]; exact hw _
  have hnS : ¬ (toBounds g).Sem (Function.update w c.x (v c.x)) := by
    rw [toBounds_sem g _ hs]
    rintro ⟨-, h⟩
    refine hn ?_
    have := h c hc
    rw [Constraint.holds_iff_bound, if_neg hu'] at this ⊢
    rwa [Function.update_self] at this
  intro hcon
  refine hnS fun i => ?_
  by_cases hi : i = c.x
  · subst hi
    rw [Function.update_self]
    exact ⟨hcon, (hS c.x).2.imp id fun h => UpSat.anti h h1.le⟩
  · rw [Function.update_of_ne hi]
    exact hS i

/-- One of two intervals ends where the other begins. -/
def Touch (lu ll ru rl : IntBound) : Prop := (lu.fst = rl.fst ∧ lu.snd ≠ rl.snd) ∨ (ru.fst = ll.fst ∧ ru.snd ≠ ll.snd)

theorem touch_of {a b c d : IntBound} (h : touching a b c d = true) : Touch a b c d := by
  unfold touching at h
  split at h
  · rename_i e
    exact .inl ⟨e, bne_iff_ne.1 h⟩
  · split at h
    · rename_i e
      exact .inr ⟨e, bne_iff_ne.1 h⟩
    · cases h

/-- No value lies above the one and below the other of two adjacent guards. -/
theorem no_gap {g h : Guard} (hgs : g.Small) (hhs : h.Small)
    (ht : ∀ x < (toBounds g).size, ¬ (fillUpper (toBounds g) (toBounds h) x = fillUpper (toBounds h) (toBounds g) x ∧
        (toBounds g).lower x = (toBounds h).lower x) →
      Touch (fillUpper (toBounds g) (toBounds h) x) ((toBounds g).lower x) (fillUpper (toBounds h) (toBounds g) x) ((toBounds h).lower x))
    (hsz : (toBounds g).size = (toBounds h).size)
    {w w' v : Valuation} (hw : w.Nonneg) (hg : g.Holds w) (hw' : w'.Nonneg) (hh : h.Holds w') (hv : v.Nonneg)
    {c d : Constraint} (hc : c ∈ g) (hd : d ∈ h) (hx : c.x = d.x) (hcu : c.isUpperBound = true) (hdu : d.isUpperBound = false)
    (hcn : ¬ c.Holds v) (hdn : ¬ d.Holds v) : False := by
  obtain ⟨a1, a2, a3, a4⟩ := broken_upper hgs hw hg hc hcu hv hcn
  obtain ⟨b1, b2, b3, b4⟩ := broken_lower hhs hw' hh hd hdu hv hdn
  rw [← hx] at b1 b2 b3 b4
  generalize c.x = x at *
  have hlt : x < (toBounds g).size := by
    by_contra hle
    obtain ⟨e, -⟩ := toBounds_default h x (by omega)
    rw [e] at b2
    exact b2 (by simpa [LowSat] using hv x)
  have hl : fillUpper (toBounds g) (toBounds h) x = (toBounds g).upper x := by
    unfold fillUpper
    exact if_neg fun k => a3 k.1
  have hr : ((toBounds h).lower x).fst ≤ (fillUpper (toBounds h) (toBounds g) x).fst := by
    unfold fillUpper
    split
    · split
      · exact le_rfl
      · rw [fst_mk]; omega
    · rename_i k
      rcases b4 with b4 | b4
      · exact absurd ⟨b4, a3⟩ k
      · have h1 : (((toBounds h).lower x).fst : ℚ) ≤ w' x := by
          unfold LowSat at b3; split at b3 <;> linarith
        have h2 : w' x ≤ (((toBounds h).upper x).fst : ℚ) := by
          unfold UpSat at b4; split at b4 <;> linarith
        exact_mod_cast h1.trans h2
  have l1 : (((toBounds g).lower x).fst : ℚ) < v x := by
    have : (((toBounds g).lower x).fst : ℚ) ≤ w x := by
      unfold LowSat at a2; split at a2 <;> linarith
    linarith
  have r1 : v x ≤ (((toBounds h).lower x).fst : ℚ) := by
    unfold LowSat at b2; split at b2 <;> linarith
  have lr : ((toBounds g).lower x).fst < ((toBounds h).lower x).fst := by exact_mod_cast l1.trans_le r1
  have := ht x hlt (fun k => by rw [k.2] at lr; exact lt_irrefl _ lr)
  rw [hl] at this
  rcases this with ⟨e, this⟩ | ⟨e, -⟩
  · unfold LowSat at b2
    unfold UpSat at a4
    rw [e] at a4
    cases h1 : ((toBounds g).upper x).snd <;> cases h2 : ((toBounds h).lower x).snd <;> simp only [h1, h2] at this a4 b2
    · exact this rfl
    · simp at a4 b2; linarith
    · simp at a4 b2; linarith
    · exact this rfl
  · omega

/-- What adjacency says of the two bounds of each clock. -/
theorem adjacent_iff_touching {g h : Guard} (ha : adjacent g h = true) : (toBounds g).size = (toBounds h).size ∧
    ∀ x < (toBounds g).size, ¬ (fillUpper (toBounds g) (toBounds h) x = fillUpper (toBounds h) (toBounds g) x ∧
        (toBounds g).lower x = (toBounds h).lower x) →
      Touch (fillUpper (toBounds g) (toBounds h) x) ((toBounds g).lower x) (fillUpper (toBounds h) (toBounds g) x) ((toBounds h).lower x) := by
  refine ⟨?_, fun x hx hd => touch_of (adjacent_touching ha rfl hx hd)⟩
  unfold adjacent at ha
  dsimp only at ha
  split at ha
  · cases ha
  · rename_i h
    exact not_not.1 h

/-- The hull of adjacent guards that differ for one clock only is their union. -/
theorem hull_adjacent {g h : Guard} (hg : Neat g) (hh : Neat h) (hgs : g.Small) (hhs : h.Small) {x : ℕ} (hx : SameBut x g h)
    (ha : adjacent g h = true) (v : Valuation) (hv : v.Nonneg) (hu : (unionHull [h, g]).Holds v) : g.Holds v ∨ h.Holds v := by
  by_contra hcon
  rw [not_or] at hcon
  obtain ⟨n1, n2⟩ := hcon
  unfold Guard.Holds at n1 n2
  push Not at n1 n2
  obtain ⟨c, hc, hcn⟩ := n1
  obtain ⟨d, hd, hdn⟩ := n2
  have strongest : ∀ e : Constraint, (∀ w : Valuation, w.Nonneg → g.Holds w → e.Holds w) →
      (∀ w : Valuation, w.Nonneg → h.Holds w → e.Holds w) → e.Holds v := by
    intro e e1 e2
    refine Props.C06_unionHull_strongest [h, g] (by simp) ?_ ?_ e ?_ v hv hu
    · intro k hk
      simp only [List.mem_cons, List.not_mem_nil, or_false] at hk
      rcases hk with rfl | rfl
      · exact hh.1
      · exact hg.1
    · intro k hk
      simp only [List.mem_cons, List.not_mem_nil, or_false] at hk
      rcases hk with rfl | rfl
      · exact hh.2
      · exact hg.2
    · intro k hk
      simp only [List.mem_cons, List.not_mem_nil, or_false] at hk
      rcases hk with rfl | rfl
      · exact e2
      · exact e1
  have hcx : c.x = x := by
    by_contra hne
    exact hcn (strongest c (fun w _ hw => hw c hc) (fun w _ hw => hw c ((hx c hne).1 hc)))
  have hdx : d.x = x := by
    by_contra hne
    exact hdn (strongest d (fun w _ hw => hw d ((hx d hne).2 hd)) (fun w _ hw => hw d hd))
  have hcd : c.x = d.x := hcx.trans hdx.symm
  obtain ⟨hsz, ht⟩ := adjacent_iff_touching ha
  obtain ⟨w, hw, hgw⟩ := hg.1
  obtain ⟨w', hw', hhw⟩ := hh.1
  cases hcu : c.isUpperBound with
  | true =>
    cases hdu : d.isUpperBound with
    | true =>
      rcases le_total c.toBound d.toBound with hle | hle
      · refine hdn (strongest d (fun u _ hu => ?_) (fun u _ hu => hu d hd))
        have := hu c hc
        rw [Constraint.holds_iff_bound, if_pos hcu] at this
        rw [Constraint.holds_iff_bound, if_pos hdu, ← hcd]
        exact this.mono hle
      · refine hcn (strongest c (fun u _ hu => hu c hc) (fun u _ hu => ?_))
        have := hu d hd
        rw [Constraint.holds_iff_bound, if_pos hdu] at this
        rw [Constraint.holds_iff_bound, if_pos hcu, hcd]
        exact this.mono hle
    | false => exact no_gap hgs hhs ht hsz hw hgw hw' hhw hv hc hd hcd hcu hdu hcn hdn
  | false =>
    have hcu' : ¬ c.isUpperBound = true := by rw [hcu]; decide
    cases hdu : d.isUpperBound with
    | true =>
      refine no_gap hhs hgs (fun y hy hdy => ?_) hsz.symm hw' hhw hw hgw hv hd hc hcd.symm hdu hcu hdn hcn
      exact (ht y (by omega) (fun k => hdy ⟨k.1.symm, k.2.symm⟩)).symm
    | false =>
      have hdu' : ¬ d.isUpperBound = true := by rw [hdu]; decide
      rcases le_total c.toBound.neg d.toBound.neg with hle | hle
      · refine hdn (strongest d (fun u _ hu => ?_) (fun u _ hu => hu d hd))
        have := hu c hc
        rw [Constraint.holds_iff_bound, if_neg hcu', lowSat_iff] at this
        rw [Constraint.holds_iff_bound, if_neg hdu', lowSat_iff, ← hcd]
        exact this.mono hle
      · refine hcn (strongest c (fun u _ hu => hu c hc) (fun u _ hu => ?_))
        have := hu d hd
        rw [Constraint.holds_iff_bound, if_neg hdu', lowSat_iff] at this
        rw [Constraint.holds_iff_bound, if_neg hcu', lowSat_iff, hcd]
        exact this.mono hle

theorem SameBut.hull {x : ℕ} {g h : Guard} (hg : Neat g) (hx : SameBut x g h) : SameBut x (unionHull [h, g]) g := by
  intro c hne
  rw [mem_unionHull (by simp)]
  constructor
  · rintro ⟨-, -, k, hk, d, hd, e1, e2⟩
    have hdc : d = c := by
      obtain ⟨y, o, z⟩ := d
      obtain ⟨y', o', z'⟩ := c
      simp only [ckey, Prod.mk.injEq, Constraint.isUpperBound] at e1
      cases o <;> cases o' <;> simp_all [Constraint.toDBMBound]
    subst hdc
    simp only [List.mem_cons, List.not_mem_nil, or_false] at hk
    rcases hk with rfl | rfl
    · exact (hx d hne).2 hd
    · exact hd
  · intro hc
    refine ⟨fun k hk => ?_, fun k hk d hd e => ?_, g, by simp, c, hc, rfl, rfl⟩
    · simp only [List.mem_cons, List.not_mem_nil, or_false] at hk
      rcases hk with rfl | rfl
      · exact ⟨c, (hx c hne).1 hc, rfl⟩
      · exact ⟨c, hc, rfl⟩
    · simp only [List.mem_cons, List.not_mem_nil, or_false] at hk
      have hd' : d ∈ g := by
        rcases hk with rfl | rfl
        · refine (hx d ?_).2 hd
          have : d.x = c.x := congrArg Prod.fst e
          rwa [this]
        · exact hd
      rw [hg.tidy d hd' c hc e]

theorem Neat.hull {g h : Guard} (hg : Neat g) : Neat (unionHull [h, g]) := by
  obtain ⟨v, hv, hgv⟩ := hg.1
  refine ⟨⟨v, hv, Props.C06_unionHull_contains _ g (by simp) v hgv⟩, fun c hc d hd e1 e2 => ?_⟩
  have hk : ckey c = ckey d := by simp [ckey, e1, e2]
  obtain ⟨-, c2, c3⟩ := (mem_unionHull (by simp) c).1 hc
  obtain ⟨-, d2, d3⟩ := (mem_unionHull (by simp) d).1 hd
  have hb : c.toDBMBound = d.toDBMBound := by
    refine le_antisymm ?_ ?_
    · obtain ⟨k, hk', y, hy, z1, z2⟩ := c3
      rw [← z2]
      exact d2 k hk' y hy (z1.trans hk)
    · obtain ⟨k, hk', y, hy, z1, z2⟩ := d3
      rw [← z2]
      exact c2 k hk' y hy (z1.trans hk.symm)
  obtain ⟨y, o, z⟩ := d
  obtain ⟨y', o', z'⟩ := c
  simp only [Constraint.isUpperBound] at e1 e2
  cases o <;> cases o' <;> simp_all [Constraint.toDBMBound]

end Guard

namespace Trans

/-- The transition does what another one does, and is enabled whenever that one is. -/
def Above (t' t : Trans) : Prop := t'.target = t.target ∧ t'.resets = t.resets ∧ ∀ v, t.guard.Holds v → t'.guard.Holds v

theorem merge_above {t u : Trans} (h : t.mergeable u = true) : Above (t.merge u) t ∧ Above (t.merge u) u := by
  unfold mergeable at h
  split at h
  · cases h
  · rename_i hn
    simp only [Bool.or_eq_true, decide_eq_true_eq, not_or, not_not, Bool.not_eq_true, Bool.not_eq_false'] at hn
    have hr := of_decide_eq_true h
    exact ⟨⟨hn.1.symm, hr.symm, fun v hv => Props.C06_unionHull_contains _ t.guard (by simp) v hv⟩,
      ⟨rfl, rfl, fun v hv => Props.C06_unionHull_contains _ u.guard (by simp) v hv⟩⟩

theorem Above.trans {a b c : Trans} (h : Above a b) (h' : Above b c) : Above a c :=
  ⟨h.1.trans h'.1, h.2.1.trans h'.2.1, fun v hv => h.2.2 v (h'.2.2 v hv)⟩

theorem Above.refl (a : Trans) : Above a a := ⟨rfl, rfl, fun _ h => h⟩

theorem absorb_above (t : Trans) (us : List Trans) :
    Above (absorb t us).1 t ∧ ∀ u ∈ us, ∃ u' ∈ (absorb t us).1 :: (absorb t us).2, Above u' u := by
  induction us generalizing t with
  | nil => exact ⟨Above.refl t, fun u hu => by cases hu⟩
  | cons u us ih =>
    unfold absorb
    split
    · rename_i h
      obtain ⟨m1, m2⟩ := merge_above h
      obtain ⟨i1, i2⟩ := ih (t.merge u)
      refine ⟨i1.trans m1, fun u0 hu0 => ?_⟩
      rcases List.mem_cons.1 hu0 with rfl | hu0
      · exact ⟨_, List.mem_cons_self .., i1.trans m2⟩
      · exact i2 u0 hu0
    · obtain ⟨i1, i2⟩ := ih t
      refine ⟨i1, fun u0 hu0 => ?_⟩
      rcases List.mem_cons.1 hu0 with rfl | hu0
      · exact ⟨_, by simp, Above.refl _⟩
      · obtain ⟨u', h1, h2⟩ := i2 u0 hu0
        refine ⟨u', ?_, h2⟩
        simp only [List.mem_cons] at h1 ⊢
        tauto

theorem mergeAdjacent_above (n : ℕ) (ts : List Trans) : ∀ t ∈ ts, ∃ t' ∈ mergeAdjacent n ts, Above t' t := by
  induction n generalizing ts with
  | zero => intro t ht; exact ⟨t, ht, Above.refl t⟩
  | succ n ih =>
    cases ts with
    | nil => intro t ht; cases ht
    | cons t ts =>
      obtain ⟨i1, i2⟩ := absorb_above t ts
      have key : ∀ u' ∈ (absorb t ts).1 :: (absorb t ts).2, ∃ t' ∈ mergeAdjacent (n + 1) (t :: ts), Above t' u' := by
        intro u' hu'
        unfold mergeAdjacent
        dsimp only
        rcases List.mem_cons.1 hu' with rfl | hu'
        · exact ⟨_, List.mem_cons_self .., Above.refl _⟩
        · obtain ⟨t', h1, h2⟩ := ih _ u' hu'
          exact ⟨t', List.mem_cons_of_mem _ h1, h2⟩
      intro u hu
      rcases List.mem_cons.1 hu with rfl | hu
      · obtain ⟨t', h1, h2⟩ := key _ (List.mem_cons_self ..)
        exact ⟨t', h1, h2.trans i1⟩
      · obtain ⟨u', h1, h2⟩ := i2 u hu
        obtain ⟨t', h3, h4⟩ := key u' h1
        exact ⟨t', h3, h4.trans h2⟩

/-- `t` does what some transition of the list does, and is enabled only if one of these is. -/
def Within (ts : List Trans) (t : Trans) : Prop :=
  ∀ v : Valuation, v.Nonneg → t.guard.Holds v → ∃ u ∈ ts, t.target = u.target ∧ t.resets = u.resets ∧ u.guard.Holds v

theorem Within.self {ts : List Trans} {t : Trans} (h : t ∈ ts) : Within ts t := fun _ _ hv => ⟨t, h, rfl, rfl, hv⟩

/-- A neat guard that differs from `g` for the clock `x` only. -/
def Good (x : ℕ) (g : Guard) (L : List Trans) (t : Trans) : Prop :=
  (t.guard.Neat ∧ t.guard.Small ∧ Guard.SameBut x t.guard g) ∧ Within L t

theorem Good.merge {x : ℕ} {g : Guard} {L : List Trans} {t u : Trans} (h : t.mergeable u = true) (ht : Good x g L t)
    (hu : Good x g L u) : Good x g L (t.merge u) := by
  obtain ⟨⟨t1, t2, t3⟩, t4⟩ := ht
  obtain ⟨⟨u1, u2, u3⟩, u4⟩ := hu
  have hx := t3.trans u3.symm
  unfold mergeable at h
  split at h
  · cases h
  · rename_i hn
    simp only [Bool.or_eq_true, decide_eq_true_eq, not_or, not_not, Bool.not_eq_true, Bool.not_eq_false'] at hn
    have hr := of_decide_eq_true h
    refine ⟨⟨Guard.Neat.hull t1, unionHull_small _ (by simp) ?_, (Guard.SameBut.hull t1 hx).trans t3⟩, fun v hv hg => ?_⟩
    · intro g hg
      simp only [List.mem_cons, List.not_mem_nil, or_false] at hg
      rcases hg with rfl | rfl
      · exact u2
      · exact t2
    · rcases Guard.hull_adjacent t1 u1 t2 u2 hx hn.2 v hv hg with k | k
      · obtain ⟨y, y1, y2, y3, y4⟩ := t4 v hv k
        exact ⟨y, y1, hn.1.symm.trans y2, hr.symm.trans y3, y4⟩
      · exact u4 v hv k

theorem absorb_good {x : ℕ} {g : Guard} {L : List Trans} (t : Trans) (us : List Trans) (ht : Good x g L t)
    (hw : ∀ u ∈ us, Good x g L u) : Good x g L (absorb t us).1 ∧ ∀ u ∈ (absorb t us).2, Good x g L u := by
  induction us generalizing t with
  | nil => exact ⟨ht, hw⟩
  | cons u us ih =>
    unfold absorb
    split
    · rename_i h
      exact ih _ (ht.merge h (hw u (by simp))) (fun y hy => hw y (by simp [hy]))
    · obtain ⟨i1, i2⟩ := ih t ht (fun y hy => hw y (by simp [hy]))
      refine ⟨i1, fun y hy => ?_⟩
      rcases List.mem_cons.1 hy with rfl | hy
      · exact hw _ (by simp)
      · exact i2 y hy

theorem mergeAdjacent_good {x : ℕ} {g : Guard} {L : List Trans} (n : ℕ) (ts : List Trans) (h : ∀ t ∈ ts, Good x g L t) :
    ∀ t ∈ mergeAdjacent n ts, Good x g L t := by
  induction n generalizing ts with
  | zero => exact h
  | succ n ih =>
    cases ts with
    | nil => intro t ht; cases ht
    | cons t ts =>
      obtain ⟨i1, i2⟩ := absorb_good t ts (h t (by simp)) (fun u hu => h u (by simp [hu]))
      intro y hy
      unfold mergeAdjacent at hy
      dsimp only at hy
      rcases List.mem_cons.1 hy with rfl | hy
      · exact i1
      · exact ih _ i2 y hy

end Trans

namespace TA

theorem mergeAdjacentTransitions_next {A : TA} {p : ℕ} (hp : p ∈ A.states) (a : Action) :
    (A.mergeAdjacentTransitions.loc p).next a = Trans.mergeAdjacent ((A.loc p).next a).length ((A.loc p).next a) := by
  simp [mergeAdjacentTransitions, hp]

theorem mergeAdjacentTransitions_match (A : TA) (p : ℕ) : (A.mergeAdjacentTransitions.loc p).isMatch = (A.loc p).isMatch := by
  unfold mergeAdjacentTransitions
  dsimp only
  split <;> rfl

/-- No word is lost. -/
theorem mergeAdjacentTransitions_keeps {A : TA} {w : TimedWord} (h : A.Accepts w) : A.mergeAdjacentTransitions.Accepts w := by
  refine accepts_of_sim (A := A) (B := A.mergeAdjacentTransitions) (fun c d => c = d) (fun q hq => ⟨q, hq, rfl⟩) (fun c d q h _ => by rw [h]) ?_ ?_ h
  · rintro c _ rfl a t ht hg
    by_cases hp : c.loc ∈ A.states
    · rw [mergeAdjacentTransitions_next hp]
      obtain ⟨t', h1, h2, h3, h4⟩ := Trans.mergeAdjacent_above ((A.loc c.loc).next a).length _ t ht
      exact ⟨t', h1, h4 _ hg, by rw [h2, h3]⟩
    · refine ⟨t, ?_, hg, rfl⟩
      simpa [mergeAdjacentTransitions, hp] using ht
  · rintro c _ rfl hm
    rw [mergeAdjacentTransitions_match]; exact hm

/-- No word is added if the guards of a state and an action differ for one clock only. -/
theorem mergeAdjacentTransitions_exact {A : TA} (hw : A.WF) (ho : A.OneClockApart) {w : TimedWord}
    (h : A.mergeAdjacentTransitions.Accepts w) : A.Accepts w := by
  refine accepts_of_sim (A := A.mergeAdjacentTransitions) (B := A) (fun c d => c = d ∧ c.loc ∈ A.states ∧ c.val.Nonneg)
    (fun q hq => ⟨q, hq, rfl, hw.closed.1 q hq, fun _ => le_rfl⟩) ?_ ?_ ?_ h
  · rintro c _ q ⟨rfl, h1, h2⟩ hq
    exact ⟨rfl, h1, h2.shift hq⟩
  · rintro c _ ⟨rfl, h1, h2⟩ a t ht hg
    rw [mergeAdjacentTransitions_next h1] at ht
    obtain ⟨x, hx⟩ := ho c.loc h1 a
    cases hl : (A.loc c.loc).next a with
    | nil => rw [hl] at ht; cases ht
    | cons t0 ts =>
      have hmem : t0 ∈ (A.loc c.loc).next a := by rw [hl]; simp
      have hgood : ∀ u ∈ (A.loc c.loc).next a, Trans.Good x t0.guard ((A.loc c.loc).next a) u := fun u hu =>
        ⟨⟨(hx u hu).1, hw.small c.loc h1 a u hu, (hx u hu).2 t0 hmem⟩, Trans.Within.self hu⟩
      obtain ⟨u, u1, u2, u3, u4⟩ := (Trans.mergeAdjacent_good _ _ hgood t ht).2 c.val h2 hg
      refine ⟨u, by rw [← hl]; exact u1, u4, ?_⟩
      rw [u2, u3]
      exact ⟨rfl, hw.closed.2 _ h1 _ u u1, Resets.apply_nonneg _ _ h2 (hw.resets _ h1 _ u u1)⟩
  · rintro c _ ⟨rfl, -, -⟩ hm
    rw [mergeAdjacentTransitions_match] at hm; exact hm

end TA
end LearnTA
