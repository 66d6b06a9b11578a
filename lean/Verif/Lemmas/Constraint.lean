import Verif.Spec.Constraint
import Mathlib.Tactic.Linarith
import Mathlib.Tactic.NormNum
import Mathlib.Data.List.Basic
import Mathlib.Algebra.Order.Floor.Defs

namespace LearnTA

theorem Constraint.satisfy_iff (g : Constraint) (v : Valuation) :
    g.satisfy v = true ↔ g.Holds v := by
  rcases g with ⟨x, o, c⟩
  cases o <;> simp [Constraint.satisfy, Constraint.satisfyD, Constraint.Holds]

theorem Guard.satisfy_iff (g : Guard) (v : Valuation) :
    g.satisfy v = true ↔ g.Holds v := by
  simp [Guard.satisfy, Guard.Holds, Constraint.satisfy_iff]

instance (g : Constraint) (v : Valuation) : Decidable (g.Holds v) :=
  decidable_of_iff _ (Constraint.satisfy_iff g v)

instance (g : Guard) (v : Valuation) : Decidable (g.Holds v) :=
  decidable_of_iff _ (Guard.satisfy_iff g v)

@[simp] theorem Guard.holds_nil (v : Valuation) : Guard.Holds [] v := by simp [Guard.Holds]
theorem Guard.holds_cons (c : Constraint) (g : Guard) (v : Valuation) :
    Guard.Holds (c :: g) v ↔ c.Holds v ∧ Guard.Holds g v := by simp [Guard.Holds]
theorem Guard.holds_append (g h : Guard) (v : Valuation) :
    Guard.Holds (g ++ h) v ↔ Guard.Holds g v ∧ Guard.Holds h v := by
  simp [Guard.Holds, or_imp, forall_and]

namespace IntBound
@[simp] theorem fst_mk (c s) : (mk c s).fst = c := rfl
@[simp] theorem snd_mk (c s) : (mk c s).snd = s := rfl
@[simp] theorem neg_mk (c s) : (mk c s).neg = mk (-c) s := rfl
theorem eta (b : IntBound) : mk b.fst b.snd = b := rfl

@[elab_as_elim] theorem rec' {P : IntBound → Prop} (h : ∀ c s, P (mk c s)) (b : IntBound) : P b :=
  h b.fst b.snd

@[simp] theorem mk_le_mk {c d : ℤ} {s t : Bool} :
    mk c s ≤ mk d t ↔ c < d ∨ (c = d ∧ s ≤ t) := by simp [mk, Prod.Lex.le_iff]
@[simp] theorem mk_lt_mk {c d : ℤ} {s t : Bool} :
    mk c s < mk d t ↔ c < d ∨ (c = d ∧ s < t) := by simp [mk, Prod.Lex.lt_iff]
@[simp] theorem mk_inj {c d : ℤ} {s t : Bool} : mk c s = mk d t ↔ c = d ∧ s = t := by
  simp [mk]

/-- `d` respects the upper bound. -/
def UpSat (d : ℚ) (b : IntBound) : Prop := if b.snd then d ≤ b.fst else d < b.fst
/-- `d` respects the lower bound. -/
def LowSat (d : ℚ) (b : IntBound) : Prop := if b.snd then (b.fst : ℚ) ≤ d else (b.fst : ℚ) < d

theorem UpSat.mono {d : ℚ} {a b : IntBound} (h : UpSat d a) (hab : a ≤ b) : UpSat d b := by
  induction a using rec' with | h c s
  induction b using rec' with | h c' s'
  simp only [mk_le_mk] at hab
  rcases hab with h1 | ⟨rfl, h1⟩
  · have : (c : ℚ) < c' := by exact_mod_cast h1
    cases s <;> cases s' <;> simp [UpSat] at h ⊢ <;> linarith
  · cases s <;> cases s' <;> simp [UpSat] at h h1 ⊢ <;>
      first | linarith | exact absurd h1 (by decide)

theorem lowSat_iff {d : ℚ} {b : IntBound} : LowSat d b ↔ UpSat (-d) b.neg := by
  induction b using rec' with | h c s
  cases s <;> simp [LowSat, UpSat]

end IntBound

open IntBound

namespace Constraint

theorem holds_iff_bound (g : Constraint) (v : Valuation) :
    g.Holds v ↔ if g.isUpperBound then UpSat (v g.x) g.toBound else LowSat (v g.x) g.toBound := by
  rcases g with ⟨x, o, c⟩
  cases o <;> simp [Holds, isUpperBound, toBound, UpSat, LowSat]

theorem holds_iff_dbm (g : Constraint) (v : Valuation) :
    g.Holds v ↔ if g.isUpperBound then UpSat (v g.x) g.toDBMBound
      else UpSat (- v g.x) g.toDBMBound := by
  rcases g with ⟨x, o, c⟩
  cases o <;> simp [Holds, isUpperBound, toDBMBound, UpSat]

theorem negate_holds (g : Constraint) (v : Valuation) : g.negate.Holds v ↔ ¬ g.Holds v := by
  rcases g with ⟨x, o, c⟩
  cases o <;> simp [Holds, negate]

theorem isWeaker_iff (a b : Constraint) : a.isWeaker b = true ↔
    a.x = b.x ∧ a.isUpperBound = b.isUpperBound ∧ b.toDBMBound ≤ a.toDBMBound := by
  unfold isWeaker
  by_cases h : a.x = b.x <;> simp [h]

theorem isWeaker_sound {a b : Constraint} (h : a.isWeaker b = true) (v : Valuation)
    (hb : b.Holds v) : a.Holds v := by
  rw [isWeaker_iff] at h
  rcases h with ⟨hx, hu, hle⟩
  rw [holds_iff_dbm] at *
  rw [hu, hx]
  split at hb <;> rename_i h' <;> simp only [h', if_true, if_false] <;> exact hb.mono hle

end Constraint

namespace Guard

theorem isWeaker_sound {a b : Guard} (h : isWeaker a b = true) (v : Valuation)
    (hb : b.Holds v) : a.Holds v := by
  intro c hc
  simp only [isWeaker, List.all_eq_true, List.any_eq_true] at h
  obtain ⟨r, hr, hw⟩ := h c hc
  exact Constraint.isWeaker_sound hw v (hb r hr)

theorem isWeaker_refl (a : Guard) : isWeaker a a = true := by
  simp only [isWeaker, List.all_eq_true, List.any_eq_true]
  intro c hc
  exact ⟨c, hc, by rw [Constraint.isWeaker_iff]; simp⟩

/-- Meaning of the vectors of `toBounds`. -/
def BoundsVec.Sem (b : BoundsVec) (v : Valuation) : Prop :=
  ∀ i, LowSat (v i) (b.lower i) ∧ (b.upper i = IntBound.mk intMax false ∨ UpSat (v i) (b.upper i))

theorem BoundsVec.step_lower (b : BoundsVec) (g : Constraint) (v : Valuation) (i : ℕ)
   : LowSat (v i) ((b.step g).lower i) ↔
      LowSat (v i) (b.lower i) ∧ (g.x = i → g.isUpperBound = false → g.Holds v) := by
  rw [Constraint.holds_iff_bound]
  unfold BoundsVec.step
  by_cases hu : g.isUpperBound = true
  · simp only [hu, if_true]
    split <;> simp
  · simp only [Bool.not_eq_true] at hu
    simp only [hu, Bool.false_eq_true, if_false]
    by_cases hi : g.x = i
    · subst hi
      split
      · rename_i hlt
        simp only [Function.update_self, true_implies]
        refine ⟨fun h => ⟨?_, h⟩, fun h => h.2⟩
        rw [lowSat_iff] at *
        exact h.mono (le_of_lt hlt)
      · rename_i hlt
        simp only [true_implies]
        refine ⟨fun h => ⟨h, ?_⟩, fun h => h.1⟩
        rw [lowSat_iff] at *
        exact h.mono (not_lt.1 hlt)
    · split
      · simp [hi, Function.update_of_ne (Ne.symm hi)]
      · simp [hi]

theorem BoundsVec.step_upper (b : BoundsVec) (g : Constraint) (v : Valuation) (i : ℕ)
    (hg : g.c < intMax) : ((b.step g).upper i = IntBound.mk intMax false ∨ UpSat (v i) ((b.step g).upper i)) ↔
      (b.upper i = IntBound.mk intMax false ∨ UpSat (v i) (b.upper i)) ∧
        (g.x = i → g.isUpperBound = true → g.Holds v) := by
  rw [Constraint.holds_iff_bound]
  have hlt0 : g.toBound < IntBound.mk intMax false := by
    rcases g with ⟨x, o, c⟩
    cases o <;> simp_all [Constraint.toBound]
  unfold BoundsVec.step
  by_cases hu : g.isUpperBound = true
  · simp only [hu, if_true]
    by_cases hi : g.x = i
    · subst hi
      split
      · rename_i hlt
        simp only [Function.update_self, true_implies]
        have hne : g.toBound ≠ IntBound.mk intMax false := ne_of_lt hlt0
        simp only [hne, false_or]
        refine ⟨fun h => ⟨Or.inr (h.mono (le_of_lt hlt)), h⟩, fun h => h.2⟩
      · rename_i hlt
        have hle := not_lt.1 hlt
        have hne : b.upper g.x ≠ IntBound.mk intMax false := ne_of_lt (lt_of_le_of_lt hle hlt0)
        simp only [hne, false_or, true_implies]
        exact ⟨fun h => ⟨h, h.mono hle⟩, fun h => h.1⟩
    · split
      · simp [hi, Function.update_of_ne (Ne.symm hi)]
      · simp [hi]
  · simp only [Bool.not_eq_true] at hu
    simp only [hu, Bool.false_eq_true, if_false]
    split <;> simp

theorem BoundsVec.step_sem (b : BoundsVec) (g : Constraint) (v : Valuation) (hg : g.c < intMax) :
    (b.step g).Sem v ↔ b.Sem v ∧ g.Holds v := by
  unfold BoundsVec.Sem
  simp only [step_lower, step_upper _ _ _ _ hg]
  constructor
  · intro h
    refine ⟨fun i => ⟨(h i).1.1, (h i).2.1⟩, ?_⟩
    cases hu : g.isUpperBound with
    | true => exact (h g.x).2.2 rfl hu
    | false => exact (h g.x).1.2 rfl hu
  · intro h i
    exact ⟨⟨(h.1 i).1, fun _ _ => h.2⟩, ⟨(h.1 i).2, fun _ _ => h.2⟩⟩

theorem foldl_sem (g : Guard) (b : BoundsVec) (v : Valuation) (hg : g.Small) :
    (g.foldl BoundsVec.step b).Sem v ↔ b.Sem v ∧ g.Holds v := by
  induction g generalizing b with
  | nil => simp
  | cons c g ih =>
    have h1 : c.c < intMax := hg c (by simp)
    have h2 : Small g := fun c' hc' => hg c' (by simp [hc'])
    simp only [List.foldl_cons]
    rw [ih _ h2, BoundsVec.step_sem _ _ _ h1, holds_cons, and_assoc]

theorem init_sem (v : Valuation) : BoundsVec.init.Sem v ↔ v.Nonneg := by
  simp [BoundsVec.Sem, BoundsVec.init, LowSat, Valuation.Nonneg]

theorem toBounds_sem (g : Guard) (v : Valuation) (hg : g.Small) :
    (toBounds g).Sem v ↔ v.Nonneg ∧ g.Holds v := by
  unfold toBounds; rw [foldl_sem _ _ _ hg, init_sem]

/-- Entries beyond the size keep their defaults. -/
def BoundsVec.Default (b : BoundsVec) : Prop :=
  ∀ i, b.size ≤ i → b.lower i = IntBound.mk 0 true ∧ b.upper i = IntBound.mk intMax false

theorem BoundsVec.step_default (b : BoundsVec) (g : Constraint) (h : b.Default) :
    (b.step g).Default := by
  have key : ∀ i, max b.size (g.x + 1) ≤ i → b.size ≤ i ∧ g.x ≠ i := by
    intro i hi; omega
  unfold BoundsVec.step
  intro i
  dsimp only
  split <;> split <;> intro hi <;> obtain ⟨h1, h2⟩ := key i hi <;>
    simp [Function.update_of_ne (Ne.symm h2), h i h1]

theorem toBounds_default (g : Guard) : (toBounds g).Default := by
  unfold toBounds
  have : ∀ b : BoundsVec, b.Default → (g.foldl BoundsVec.step b).Default := by
    induction g with
    | nil => intro b h; exact h
    | cons c g ih => intro b h; exact ih _ (b.step_default c h)
  exact this _ (fun i _ => ⟨rfl, rfl⟩)

/-- The non-emptiness test for one clock. -/
theorem interval_nonempty (l u : IntBound) :
    (!(decide (l.fst > u.fst) || (decide (l.fst = u.fst) && !(l.snd && u.snd)))) = true ↔
      ∃ d, LowSat d l ∧ UpSat d u := by
  induction l using rec' with | h c s
  induction u using rec' with | h c' s'
  simp only [fst_mk, snd_mk, LowSat, UpSat]
  constructor
  · intro h
    simp only [Bool.not_eq_true', Bool.or_eq_false_iff, decide_eq_false_iff_not, not_lt,
      Bool.and_eq_false_iff, Bool.not_eq_false', gt_iff_lt] at h
    rcases h with ⟨h1, h2⟩
    rcases h2 with h2 | h2
    · have : (c : ℚ) < c' := by
        have : c < c' := lt_of_le_of_ne h1 (of_decide_eq_false h2)
        exact_mod_cast this
      refine ⟨((c : ℚ) + c') / 2, ?_, ?_⟩ <;> cases s <;> cases s' <;> simp <;> linarith
    · have hs : s = true ∧ s' = true := by simpa using h2
      rcases hs with ⟨rfl, rfl⟩
      have : (c : ℚ) ≤ c' := by exact_mod_cast h1
      exact ⟨c, by simp, by simpa using this⟩
  · rintro ⟨d, h1, h2⟩
    by_contra hcon
    simp only [Bool.not_eq_true', Bool.not_eq_false, Bool.or_eq_true,
      Bool.and_eq_true, Bool.not_eq_true'] at hcon
    rcases hcon with h3 | ⟨h3, h4⟩
    · have h3' : c' < c := of_decide_eq_true h3
      have : (c' : ℚ) < c := by exact_mod_cast h3'
      cases s <;> cases s' <;> simp at h1 h2 <;> linarith
    · have h3' : c = c' := of_decide_eq_true h3
      subst h3'
      cases s <;> cases s' <;> simp at h1 h2 h4 <;> linarith

theorem satisfiable_iff (g : Guard) (hg : g.Small) :
    satisfiable g = true ↔ ∃ v : Valuation, v.Nonneg ∧ g.Holds v := by
  simp only [← toBounds_sem _ _ hg]
  unfold satisfiable
  simp only [List.all_eq_true, List.mem_range, interval_nonempty]
  constructor
  · intro h
    have hall : ∀ i, ∃ d, LowSat d ((toBounds g).lower i) ∧
        ((toBounds g).upper i = IntBound.mk intMax false ∨ UpSat d ((toBounds g).upper i)) := by
      intro i
      by_cases hi : i < (toBounds g).size
      · obtain ⟨d, h1, h2⟩ := h i hi
        exact ⟨d, h1, Or.inr h2⟩
      · obtain ⟨h1, h2⟩ := toBounds_default g i (not_lt.1 hi)
        exact ⟨0, by simp [h1, LowSat], Or.inl h2⟩
    choose v hv using hall
    exact ⟨v, hv⟩
  · rintro ⟨v, hv⟩ i _
    obtain ⟨h1, h2⟩ := hv i
    rcases h2 with h2 | h2
    · -- only the lower bound matters; it is below `INT_MAX`
      rw [← interval_nonempty, h2]
      have hlow : ((toBounds g).lower i).fst < intMax := by
        have : ∀ (g : Guard) (b : BoundsVec), g.Small → (∀ j, (b.lower j).fst < intMax) →
            ∀ j, ((g.foldl BoundsVec.step b).lower j).fst < intMax := by
          intro g
          induction g with
          | nil => intro b _ h j; exact h j
          | cons c g ih =>
            intro b hs hb
            apply ih _ (fun c' hc' => hs c' (by simp [hc']))
            intro j
            have hc : c.c < intMax := hs c (by simp)
            have hcb : c.toBound.fst = c.c := by
              rcases c with ⟨x, o, c⟩; cases o <;> rfl
            unfold BoundsVec.step
            dsimp only
            split
            · split <;> exact hb j
            · split
              · by_cases hj : j = c.x
                · subst hj; simpa [hcb] using hc
                · simpa [Function.update_of_ne hj] using hb j
              · exact hb j
        exact this g _ hg (by intro j; simp [BoundsVec.init, intMax]) i
      have h3 : ¬ ((toBounds g).lower i).fst > intMax := by omega
      have h4 : ¬ ((toBounds g).lower i).fst = intMax := by omega
      simp [h4]; omega
    · exact ⟨v i, h1, h2⟩

theorem simplify_holds (g : Guard) (v : Valuation) (hg : g.Small) (hv : v.Nonneg) :
    (simplify g).Holds v ↔ g.Holds v := by
  have hsem := toBounds_sem g v hg
  simp only [hv, true_and] at hsem
  rw [← hsem]
  unfold simplify BoundsVec.Sem
  simp only [holds_append]
  unfold Holds
  simp only [List.mem_filterMap, List.mem_range]
  constructor
  · rintro ⟨h1, h2⟩ i
    by_cases hi : i < (toBounds g).size
    · constructor
      · by_cases hl : (toBounds g).lower i = IntBound.mk 0 true
        · rw [hl]; simpa [LowSat] using hv i
        · have := h1 _ ⟨i, hi, by rw [if_pos hl]⟩
          unfold LowSat
          split at this <;> rename_i hs <;> simp only [hs] <;> exact this
      · by_cases hl : (toBounds g).upper i = IntBound.mk intMax false
        · exact Or.inl hl
        · right
          have := h2 _ ⟨i, hi, by rw [if_pos hl]⟩
          unfold UpSat
          split at this <;> rename_i hs <;> simp only [hs] <;> exact this
    · obtain ⟨e1, e2⟩ := toBounds_default g i (not_lt.1 hi)
      exact ⟨by rw [e1]; simpa [LowSat] using hv i, Or.inl e2⟩
  · intro h
    constructor
    · rintro c ⟨i, _, hc⟩
      have := (h i).1
      unfold LowSat at this
      split at hc
      · simp only [Option.some.injEq] at hc
        subst hc
        split <;> rename_i hs <;> simp only [hs] at this <;> exact this
      · simp at hc
    · rintro c ⟨i, _, hc⟩
      have := (h i).2
      split at hc
      · rename_i hne
        simp only [Option.some.injEq] at hc
        rcases this with this | this
        · exact absurd this hne
        · unfold UpSat at this
          subst hc
          split <;> rename_i hs <;> simp only [hs] at this <;> exact this
      · simp at hc

/-- Every constraint of the bounds stays small under `simplify`. -/
theorem simplify_small (g : Guard) (hg : g.Small) : (simplify g).Small := by
  have key : ∀ (g : Guard) (b : BoundsVec), g.Small →
      (∀ j, (b.lower j).fst < intMax ∧ (b.upper j = IntBound.mk intMax false ∨ (b.upper j).fst < intMax)) →
      ∀ j, ((g.foldl BoundsVec.step b).lower j).fst < intMax ∧
        ((g.foldl BoundsVec.step b).upper j = IntBound.mk intMax false ∨
          ((g.foldl BoundsVec.step b).upper j).fst < intMax) := by
    intro g
    induction g with
    | nil => intro b _ h j; exact h j
    | cons c g ih =>
      intro b hs hb
      apply ih _ (fun c' hc' => hs c' (by simp [hc']))
      intro j
      have hc : c.c < intMax := hs c (by simp)
      have hcb : c.toBound.fst = c.c := by
        rcases c with ⟨x, o, c⟩; cases o <;> rfl
      unfold BoundsVec.step
      dsimp only
      split
      · split
        · by_cases hj : j = c.x
          · subst hj; simp only [Function.update_self, hcb]
            exact ⟨(hb _).1, Or.inr hc⟩
          · simpa [Function.update_of_ne hj] using hb j
        · exact hb j
      · split
        · by_cases hj : j = c.x
          · subst hj; simp only [Function.update_self, hcb]
            exact ⟨hc, (hb _).2⟩
          · simpa [Function.update_of_ne hj] using hb j
        · exact hb j
  have hb := key g BoundsVec.init hg (fun j => ⟨by simp [BoundsVec.init, intMax], Or.inl rfl⟩)
  intro c hc
  unfold simplify at hc
  simp only [List.mem_append, List.mem_filterMap, List.mem_range] at hc
  rcases hc with ⟨i, _, hc⟩ | ⟨i, _, hc⟩
  · split at hc
    · simp only [Option.some.injEq] at hc
      subst hc
      split <;> exact (hb i).1
    · simp at hc
  · split at hc
    · rename_i hne
      simp only [Option.some.injEq] at hc
      have := (hb i).2.resolve_left hne
      subst hc
      split <;> exact this
    · simp at hc

/-! ### DNF negation -/

theorem pruneWeaker_holds (kept rest : List Guard) (v : Valuation) :
    DNF.Holds (pruneWeaker kept rest) v ↔ DNF.Holds (kept ++ rest) v := by
  induction rest generalizing kept with
  | nil => simp [pruneWeaker]
  | cons it rest ih =>
    unfold pruneWeaker
    split
    · rename_i h
      rw [ih]
      simp only [Bool.or_eq_true, List.any_eq_true] at h
      constructor
      · rintro ⟨g, hg, hv⟩
        exact ⟨g, by simp only [List.mem_append, List.mem_cons] at *; tauto, hv⟩
      · rintro ⟨g, hg, hv⟩
        simp only [List.mem_append, List.mem_cons] at hg
        by_cases hgi : g = it
        · subst hgi
          rcases h with ⟨g', hg', hw⟩ | ⟨g', hg', hw⟩
          · exact ⟨g', by simp [hg'], isWeaker_sound hw v hv⟩
          · exact ⟨g', by simp [hg'], isWeaker_sound hw v hv⟩
        · exact ⟨g, by simp only [List.mem_append]; tauto, hv⟩
    · rw [ih]; simp

theorem mem_pruneWeaker {kept rest : List Guard} {g : Guard} (h : g ∈ pruneWeaker kept rest) :
    g ∈ kept ∨ g ∈ rest := by
  induction rest generalizing kept with
  | nil => simpa [pruneWeaker] using h
  | cons it rest ih =>
    unfold pruneWeaker at h
    split at h
    · rcases ih h with h | h <;> simp [h]
    · rcases ih h with h | h
      · simp only [List.mem_append, List.mem_singleton] at h
        rcases h with h | h <;> simp [h]
      · simp [h]

/-- Meaning of a CNF clause. -/
def Clause.Holds (d : List Constraint) (v : Valuation) : Prop := ∃ c ∈ d, c.Holds v

theorem negateStep_noninit (acc : List Guard) (d : List Constraint) (v : Valuation)
    (hd : d ≠ []) (hds : Small d) (hacc : ∀ g ∈ acc, Small g) (hv : v.Nonneg) :
    (negateStep (false, acc) d).1 = false ∧
    (∀ g ∈ (negateStep (false, acc) d).2, Small g) ∧
    (DNF.Holds (negateStep (false, acc) d).2 v ↔ DNF.Holds acc v ∧ Clause.Holds d v) := by
  unfold negateStep
  have hd' : d.isEmpty = false := by cases d <;> simp_all
  simp only [hd', Bool.false_eq_true, if_false]
  have hsm : ∀ c ∈ d, ∀ g ∈ acc, Small (g ++ [c]) := by
    intro c hc g hg c' hc'
    simp only [List.mem_append, List.mem_singleton] at hc'
    rcases hc' with h | h
    · exact hacc g hg c' h
    · subst h; exact hds c' hc
  refine ⟨trivial, ?_, ?_⟩
  · intro g hg
    rcases mem_pruneWeaker hg with h | h
    · simp at h
    · simp only [List.mem_flatMap, List.mem_filterMap] at h
      obtain ⟨c, hc, conj, hconj, h⟩ := h
      split at h
      · simp only [Option.some.injEq] at h; subst h
        exact simplify_small _ (hsm c hc conj hconj)
      · simp at h
  · rw [pruneWeaker_holds]
    simp only [List.nil_append]
    constructor
    · rintro ⟨g, hg, hgv⟩
      simp only [List.mem_flatMap, List.mem_filterMap] at hg
      obtain ⟨c, hc, conj, hconj, h⟩ := hg
      split at h
      · simp only [Option.some.injEq] at h; subst h
        rw [simplify_holds _ _ (hsm c hc conj hconj) hv, holds_append, holds_cons] at hgv
        exact ⟨⟨conj, hconj, hgv.1⟩, ⟨c, hc, hgv.2.1⟩⟩
      · simp at h
    · rintro ⟨⟨conj, hconj, h1⟩, ⟨c, hc, h2⟩⟩
      have hh : Holds (conj ++ [c]) v := by rw [holds_append, holds_cons]; simp [h1, h2]
      refine ⟨simplify (conj ++ [c]), ?_, ?_⟩
      · simp only [List.mem_flatMap, List.mem_filterMap]
        refine ⟨c, hc, conj, hconj, ?_⟩
        rw [if_pos]
        rw [satisfiable_iff _ (hsm c hc conj hconj)]
        exact ⟨v, hv, hh⟩
      · rwa [simplify_holds _ _ (hsm c hc conj hconj) hv]

theorem negateFold (ds : List (List Constraint)) (acc : List Guard) (v : Valuation)
    (hd : ∀ d ∈ ds, d ≠ []) (hds : ∀ d ∈ ds, Small d) (hacc : ∀ g ∈ acc, Small g)
    (hv : v.Nonneg) :
    DNF.Holds (ds.foldl negateStep (false, acc)).2 v ↔
      DNF.Holds acc v ∧ ∀ d ∈ ds, Clause.Holds d v := by
  induction ds generalizing acc with
  | nil => simp
  | cons d ds ih =>
    obtain ⟨h1, h2, h3⟩ := negateStep_noninit acc d v (hd d (by simp)) (hds d (by simp)) hacc hv
    simp only [List.foldl_cons]
    have : negateStep (false, acc) d = (false, (negateStep (false, acc) d).2) :=
      Prod.ext h1 rfl
    rw [this, ih _ (fun d' h' => hd d' (by simp [h'])) (fun d' h' => hds d' (by simp [h'])) h2, h3]
    simp [and_assoc]

theorem negateAll_small (g : Guard) (hg : g.Small) : Small (negateAll g) := by
  intro c hc
  simp only [negateAll, List.mem_map] at hc
  obtain ⟨c', hc', rfl⟩ := hc
  have := hg c' hc'
  rcases c' with ⟨x, o, c⟩
  cases o <;> simpa [Constraint.negate] using this

theorem negateAll_clause (g : Guard) (v : Valuation) :
    Clause.Holds (negateAll g) v ↔ ¬ g.Holds v := by
  simp only [Clause.Holds, negateAll, List.mem_map, Holds]
  push Not
  constructor
  · rintro ⟨c, ⟨c', hc', rfl⟩, h⟩
    exact ⟨c', hc', (Constraint.negate_holds _ _).1 h⟩
  · rintro ⟨c, hc, h⟩
    exact ⟨_, ⟨c, hc, rfl⟩, (Constraint.negate_holds _ _).2 h⟩

theorem negateDNF_holds (dnf : List Guard) (v : Valuation) (hne : dnf ≠ [])
    (hd : ∀ g ∈ dnf, g ≠ []) (hs : ∀ g ∈ dnf, g.Small) (hv : v.Nonneg) :
    DNF.Holds (negateDNF dnf) v ↔ ¬ DNF.Holds dnf v := by
  cases dnf with
  | nil => exact absurd rfl hne
  | cons g dnf =>
    unfold negateDNF
    simp only [List.map_cons, List.foldl_cons]
    have hg := hd g (by simp)
    have hn : (negateAll g).isEmpty = false := by cases g <;> simp_all [negateAll]
    have : negateStep (true, []) (negateAll g) = (false, (negateAll g).map fun c => [c]) := by
      simp [negateStep, hn]
    rw [this, negateFold]
    · have h1 : DNF.Holds (List.map (fun c => [c]) (negateAll g)) v ↔ ¬ g.Holds v := by
        rw [← negateAll_clause]
        simp [DNF.Holds, Clause.Holds, holds_cons]
      rw [h1]
      simp only [List.mem_map, forall_exists_index, and_imp, forall_apply_eq_imp_iff₂,
        negateAll_clause, DNF.Holds, List.mem_cons]
      push Not
      simp
    · intro d hd'
      simp only [List.mem_map] at hd'
      obtain ⟨g', hg', rfl⟩ := hd'
      have := hd g' (by simp [hg'])
      cases g' <;> simp_all [negateAll]
    · intro d hd'
      simp only [List.mem_map] at hd'
      obtain ⟨g', hg', rfl⟩ := hd'
      exact negateAll_small _ (hs g' (by simp [hg']))
    · intro g' hg'
      simp only [List.mem_map] at hg'
      obtain ⟨c, hc, rfl⟩ := hg'
      intro c' hc'
      simp only [List.mem_singleton] at hc'
      subst hc'
      exact negateAll_small g (hs g (by simp)) c' hc
    · exact hv

end Guard
end LearnTA
