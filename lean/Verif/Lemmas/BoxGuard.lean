import Verif.Lemmas.Position
import Verif.Lemmas.UnionHull
import Verif.Model.Hypothesis

/-!
# Guards made of positions, their hulls, and adjacency
-/

namespace LearnTA
open IntBound

namespace Constraint

/-- The constraint with the given clock, direction and bound. -/
def ofBound (x : ℕ) (u : Bool) (b : IntBound) : Constraint :=
  ⟨x, if u then (if b.snd then .le else .lt) else (if b.snd then .ge else .gt), b.fst⟩

theorem ofBound_x (x u b) : (ofBound x u b).x = x := rfl
theorem ofBound_isUpper (x u b) : (ofBound x u b).isUpperBound = u := by
  unfold ofBound isUpperBound
  cases u <;> cases b.snd <;> rfl
theorem ofBound_toBound (x u b) : (ofBound x u b).toBound = b := by
  induction b using IntBound.rec' with | h c s
  unfold ofBound toBound
  cases u <;> cases s <;> rfl
theorem ofBound_self (c : Constraint) : ofBound c.x c.isUpperBound c.toBound = c := by
  obtain ⟨x, o, k⟩ := c
  cases o <;> rfl

theorem toDBM_of_upper {c : Constraint} (h : c.isUpperBound = true) : c.toDBMBound = c.toBound := by
  obtain ⟨x, o, k⟩ := c
  cases o <;> first | rfl | simp [isUpperBound] at h
theorem toDBM_of_lower {c : Constraint} (h : c.isUpperBound = false) : c.toDBMBound = c.toBound.neg := by
  obtain ⟨x, o, k⟩ := c
  cases o <;> first | rfl | simp [isUpperBound] at h

end Constraint

namespace IntBound
theorem neg_neg' (b : IntBound) : b.neg.neg = b := by
  induction b using rec' with | h c s
  simp
theorem neg_inj {a b : IntBound} (h : a.neg = b.neg) : a = b := by
  rw [← neg_neg' a, h, neg_neg']
end IntBound

namespace Guard

/-! ### `toBounds` for at most one bound per clock and direction -/

theorem fold_size (g : Guard) (b : BoundsVec) (n : ℕ) (hb : b.size ≤ n) (h : ∀ c ∈ g, c.x < n) :
    (g.foldl BoundsVec.step b).size ≤ n := by
  induction g generalizing b with
  | nil => exact hb
  | cons c g ih =>
    rw [List.foldl_cons]
    refine ih _ ?_ fun d hd => h d (by simp [hd])
    have := h c (by simp)
    have hs : (b.step c).size = max b.size (c.x + 1) := by
      unfold BoundsVec.step; dsimp only; split <;> split <;> rfl
    rw [hs]; omega

theorem step_size (b : BoundsVec) (c : Constraint) : (b.step c).size = max b.size (c.x + 1) := by
  unfold BoundsVec.step; dsimp only; split <;> split <;> rfl

theorem fold_size_ge (g : Guard) (b : BoundsVec) : b.size ≤ (g.foldl BoundsVec.step b).size ∧
    ∀ c ∈ g, c.x < (g.foldl BoundsVec.step b).size := by
  induction g generalizing b with
  | nil => exact ⟨le_refl _, by simp⟩
  | cons c g ih =>
    rw [List.foldl_cons]
    obtain ⟨h1, h2⟩ := ih (b.step c)
    rw [step_size] at h1
    refine ⟨by omega, ?_⟩
    intro d hd
    simp only [List.mem_cons] at hd
    rcases hd with rfl | hd
    · omega
    · exact h2 d hd

theorem fold_upper (g : Guard) (b : BoundsVec) (i : ℕ) (u : IntBound)
    (hall : ∀ c ∈ g, c.x = i → c.isUpperBound = true → c.toBound = u) (hb : b.upper i = u ∨ u < b.upper i) :
    ((∃ c ∈ g, c.x = i ∧ c.isUpperBound = true) → (g.foldl BoundsVec.step b).upper i = u) ∧
    ((¬ ∃ c ∈ g, c.x = i ∧ c.isUpperBound = true) → (g.foldl BoundsVec.step b).upper i = b.upper i) := by
  induction g generalizing b with
  | nil => simp
  | cons c g ih =>
    rw [List.foldl_cons]
    have hall' : ∀ c ∈ g, c.x = i → c.isUpperBound = true → c.toBound = u := fun d hd => hall d (by simp [hd])
    by_cases hc : c.x = i ∧ c.isUpperBound = true
    · have e := hall c (by simp) hc.1 hc.2
      have hs : (b.step c).upper i = u := by
        unfold BoundsVec.step
        dsimp only
        rw [if_pos hc.2, hc.1, e]
        rcases hb with hb | hb
        · rw [if_neg (by rw [hb]; exact lt_irrefl _)]; exact hb
        · rw [if_pos hb]; simp
      obtain ⟨h1, h2⟩ := ih (b.step c) hall' (Or.inl hs)
      refine ⟨fun _ => ?_, fun h => absurd ⟨c, by simp, hc⟩ h⟩
      by_cases hg : ∃ c ∈ g, c.x = i ∧ c.isUpperBound = true
      · exact h1 hg
      · rw [h2 hg, hs]
    · have hs : (b.step c).upper i = b.upper i := by
        unfold BoundsVec.step
        dsimp only
        split
        · rename_i hu
          split
          · have : i ≠ c.x := fun h => hc ⟨h.symm, hu⟩
            simp [Function.update_of_ne this]
          · rfl
        · split <;> rfl
      obtain ⟨h1, h2⟩ := ih (b.step c) hall' (by rw [hs]; exact hb)
      rw [hs] at h2
      refine ⟨fun ⟨d, hd, h⟩ => ?_, fun h => h2 fun ⟨d, hd, h'⟩ => h ⟨d, by simp [hd], h'⟩⟩
      simp only [List.mem_cons] at hd
      rcases hd with rfl | hd
      · exact absurd h hc
      · exact h1 ⟨d, hd, h⟩

theorem fold_lower (g : Guard) (b : BoundsVec) (i : ℕ) (u : IntBound)
    (hall : ∀ c ∈ g, c.x = i → c.isUpperBound = false → c.toBound = u)
    (hb : b.lower i = u ∨ u.neg < (b.lower i).neg) :
    ((∃ c ∈ g, c.x = i ∧ c.isUpperBound = false) → (g.foldl BoundsVec.step b).lower i = u) ∧
    ((¬ ∃ c ∈ g, c.x = i ∧ c.isUpperBound = false) → (g.foldl BoundsVec.step b).lower i = b.lower i) := by
  induction g generalizing b with
  | nil => simp
  | cons c g ih =>
    rw [List.foldl_cons]
    have hall' : ∀ c ∈ g, c.x = i → c.isUpperBound = false → c.toBound = u := fun d hd => hall d (by simp [hd])
    by_cases hc : c.x = i ∧ c.isUpperBound = false
    · have e := hall c (by simp) hc.1 hc.2
      have hs : (b.step c).lower i = u := by
        unfold BoundsVec.step
        dsimp only
        rw [if_neg (by rw [hc.2]; decide), hc.1, e]
        rcases hb with hb | hb
        · rw [if_neg (by rw [hb]; exact lt_irrefl _)]; exact hb
        · rw [if_pos hb]; simp
      obtain ⟨h1, h2⟩ := ih (b.step c) hall' (Or.inl hs)
      refine ⟨fun _ => ?_, fun h => absurd ⟨c, by simp, hc⟩ h⟩
      by_cases hg : ∃ c ∈ g, c.x = i ∧ c.isUpperBound = false
      · exact h1 hg
      · rw [h2 hg, hs]
    · have hs : (b.step c).lower i = b.lower i := by
        unfold BoundsVec.step
        dsimp only
        split
        · split <;> rfl
        · rename_i hu
          split
          · have : i ≠ c.x := fun h => hc ⟨h.symm, by simpa using hu⟩
            simp [Function.update_of_ne this]
          · rfl
      obtain ⟨h1, h2⟩ := ih (b.step c) hall' (by rw [hs]; exact hb)
      rw [hs] at h2
      refine ⟨fun ⟨d, hd, h⟩ => ?_, fun h => h2 fun ⟨d, hd, h'⟩ => h ⟨d, by simp [hd], h'⟩⟩
      simp only [List.mem_cons] at hd
      rcases hd with rfl | hd
      · exact absurd h hc
      · exact h1 ⟨d, hd, h⟩

/-! ### The hull -/

theorem mem_unionHull {gs : List Guard} (hne : gs ≠ []) (c : Constraint) :
    c ∈ unionHull gs ↔ EntryOK gs (ckey c) c.toDBMBound := by
  have hself : hullConstraint (ckey c, c.toDBMBound) = c := by
    obtain ⟨x, o, k⟩ := c
    cases o <;> simp [hullConstraint, ckey, Constraint.isUpperBound, Constraint.toDBMBound]
  constructor
  · intro h
    unfold unionHull at h
    simp only [List.mem_map] at h
    obtain ⟨⟨k, b⟩, hkb, rfl⟩ := h
    rw [hullConstraint_key, hullConstraint_bound]
    exact (hullMap_lookup gs hne k).1 b (mem_lookup (hullMap_nodup gs) hkb)
  · intro h
    obtain ⟨b, hb⟩ := (hullMap_lookup gs hne (ckey c)).2 h.1
    have h' := (hullMap_lookup gs hne (ckey c)).1 b hb
    have : b = c.toDBMBound := by
      refine le_antisymm ?_ ?_
      · obtain ⟨g, hg, d, hd, hk, e⟩ := h'.2.2
        rw [← e]; exact h.2.1 g hg d hd hk
      · obtain ⟨g, hg, d, hd, hk, e⟩ := h.2.2
        rw [← e]; exact h'.2.1 g hg d hd hk
    rw [this] at hb
    exact List.mem_map.2 ⟨_, lookup_mem hb, hself⟩

/-! ### Guards made of positions -/

/-- The guard says that the positions of the `n` clocks are from `lo` to `up`. -/
def IsBox (n : ℕ) (lo : ℕ → ℤ) (up : Option (ℕ → ℤ)) (g : Guard) : Prop :=
  ∀ c, c ∈ g ↔ c.x < n ∧ if c.isUpperBound then ∃ u, up = some u ∧ c.toBound = upOf (u c.x)
    else lo c.x ≠ 0 ∧ c.toBound = lowOf (lo c.x)

variable {n : ℕ} {lo : ℕ → ℤ} {up : Option (ℕ → ℤ)} {g : Guard}

theorem IsBox.congr {lo' : ℕ → ℤ} {up' : Option (ℕ → ℤ)} (h : IsBox n lo up g) (hl : ∀ x < n, lo x = lo' x)
    (hu : ∀ u, up = some u → ∃ u', up' = some u' ∧ ∀ x < n, u x = u' x) (hn : up = none → up' = none) :
    IsBox n lo' up' g := by
  intro c
  rw [h c]
  refine and_congr_right fun hx => ?_
  by_cases hu' : c.isUpperBound = true
  · rw [if_pos hu', if_pos hu']
    constructor
    · rintro ⟨u, e, e'⟩
      obtain ⟨u', e1, e2⟩ := hu u e
      exact ⟨u', e1, by rw [e', e2 _ hx]⟩
    · rintro ⟨u', e, e'⟩
      cases hup : up with
      | none => rw [hn hup] at e; cases e
      | some u =>
        obtain ⟨u'', e1, e2⟩ := hu u hup
        rw [e] at e1; cases e1
        exact ⟨u, rfl, by rw [e', e2 _ hx]⟩
  · rw [if_neg hu', if_neg hu', hl _ hx]

theorem IsBox.lower_mem (h : IsBox n lo up g) {x : ℕ} (hx : x < n) (hl : lo x ≠ 0) :
    Constraint.ofBound x false (lowOf (lo x)) ∈ g := by
  rw [h]
  rw [Constraint.ofBound_x, Constraint.ofBound_isUpper, Constraint.ofBound_toBound]
  exact ⟨hx, by rw [if_neg (by decide)]; exact ⟨hl, rfl⟩⟩

theorem IsBox.upper_mem {u : ℕ → ℤ} (h : IsBox n lo (some u) g) {x : ℕ} (hx : x < n) :
    Constraint.ofBound x true (upOf (u x)) ∈ g := by
  rw [h]
  rw [Constraint.ofBound_x, Constraint.ofBound_isUpper, Constraint.ofBound_toBound]
  exact ⟨hx, by rw [if_pos rfl]; exact ⟨u, rfl, rfl⟩⟩

theorem IsBox.holds (h : IsBox n lo up g) (hlo : ∀ x < n, 0 ≤ lo x) {v : Valuation} (hv : ∀ x < n, 0 ≤ v x) :
    g.Holds v ↔ ∀ x < n, lo x ≤ pos (v x) ∧ ∀ u, up = some u → pos (v x) ≤ u x := by
  constructor
  · intro hg x hx
    refine ⟨?_, ?_⟩
    · by_cases hl : lo x = 0
      · rw [hl]; exact pos_nonneg (hv x hx)
      · have := hg _ (h.lower_mem hx hl)
        rw [Constraint.holds_iff_bound, Constraint.ofBound_isUpper, Constraint.ofBound_toBound,
          Constraint.ofBound_x] at this
        rw [← lowSat_lowOf]
        simpa using this
    · rintro u rfl
      have := hg _ (h.upper_mem hx)
      rw [Constraint.holds_iff_bound, Constraint.ofBound_isUpper, Constraint.ofBound_toBound,
        Constraint.ofBound_x] at this
      rw [← upSat_upOf]
      simpa using this
  · intro hp c hc
    rw [h] at hc
    obtain ⟨hx, hc⟩ := hc
    rw [Constraint.holds_iff_bound]
    obtain ⟨h1, h2⟩ := hp c.x hx
    by_cases hu : c.isUpperBound = true
    · rw [if_pos hu] at hc ⊢
      obtain ⟨u, e, e'⟩ := hc
      rw [e', upSat_upOf]; exact h2 u e
    · rw [if_neg hu] at hc ⊢
      rw [hc.2, lowSat_lowOf]; exact h1

theorem lowOf_zero : lowOf 0 = IntBound.mk 0 true := rfl

theorem lowOf_lt {k : ℤ} (h : 0 < k) : (lowOf k).neg < (IntBound.mk 0 true).neg := by
  unfold lowOf
  simp only [neg_mk, mk_lt_mk]
  by_cases h1 : k = 1
  · subst h1; right; decide
  · left; omega

/-- The bounds are below `INT_MAX`. -/
def BoxSmall (n : ℕ) (up : Option (ℕ → ℤ)) : Prop := ∀ u, up = some u → ∀ x < n, u x < 2 * intMax - 1

theorem upOf_lt {k : ℤ} (h : k < 2 * intMax - 1) : upOf k < IntBound.mk intMax false := by
  unfold upOf
  simp only [mk_lt_mk]
  left; omega

theorem IsBox.toBounds (h : IsBox n lo up g) (hlo : ∀ x < n, 0 ≤ lo x) (hs : BoxSmall n up) {x : ℕ} (hx : x < n) :
    (toBounds g).lower x = lowOf (lo x) ∧
      (toBounds g).upper x = match up with
        | some u => upOf (u x)
        | none => IntBound.mk intMax false := by
  unfold Guard.toBounds
  constructor
  · have hd : BoundsVec.init.lower x = IntBound.mk 0 true := rfl
    obtain ⟨h1, h2⟩ := fold_lower g BoundsVec.init x (lowOf (lo x))
      (by
        intro c hc hcx hcu
        rw [h] at hc
        rw [if_neg (by rw [hcu]; decide)] at hc
        rw [hc.2.2, hcx])
      (by
        rw [hd]
        by_cases e : lo x = 0
        · left; rw [e]; exact lowOf_zero.symm
        · right; exact lowOf_lt (lt_of_le_of_ne (hlo x hx) (Ne.symm e)))
    by_cases e : lo x = 0
    · rw [h2, hd, e, lowOf_zero]
      rintro ⟨c, hc, hcx, hcu⟩
      rw [h] at hc
      rw [if_neg (by rw [hcu]; decide), hcx] at hc
      exact hc.2.1 e
    · exact h1 ⟨_, h.lower_mem hx e, rfl, Constraint.ofBound_isUpper _ _ _⟩
  · cases up with
    | none =>
      have := (fold_upper g BoundsVec.init x (IntBound.mk intMax false)
        (by
          intro c hc hcx hcu
          rw [h, if_pos hcu] at hc
          obtain ⟨_, u, e, _⟩ := hc
          cases e) (Or.inl rfl)).2
        (by
          rintro ⟨c, hc, hcx, hcu⟩
          rw [h, if_pos hcu] at hc
          obtain ⟨_, u, e, _⟩ := hc
          cases e)
      rw [this]; rfl
    | some u =>
      refine (fold_upper g BoundsVec.init x (upOf (u x)) ?_ (Or.inr (upOf_lt (hs u rfl x hx)))).1
        ⟨_, h.upper_mem hx, rfl, Constraint.ofBound_isUpper _ _ _⟩
      intro c hc hcx hcu
      rw [h, if_pos hcu] at hc
      obtain ⟨_, u', e, e'⟩ := hc
      cases e
      rw [e', hcx]

theorem IsBox.size (h : IsBox n lo up g) (hn : 0 < n) (hp : up.isSome = true ∨ lo (n - 1) ≠ 0) :
    (Guard.toBounds g).size = n := by
  refine le_antisymm (fold_size g _ n (Nat.zero_le _) fun c hc => ((h c).1 hc).1) ?_
  have hge := (fold_size_ge g BoundsVec.init).2
  by_cases hl : lo (n - 1) = 0
  · rcases hp with hp | hp
    · obtain ⟨u, rfl⟩ := Option.isSome_iff_exists.1 hp
      have := hge _ (h.upper_mem (show n - 1 < n by omega))
      rw [Constraint.ofBound_x] at this
      exact Nat.le_of_pred_lt this
    · exact absurd hl hp
  · have := hge _ (h.lower_mem (show n - 1 < n by omega) hl)
    rw [Constraint.ofBound_x] at this
    exact Nat.le_of_pred_lt this

theorem IsBox.small (h : IsBox n lo up g) (hs : BoxSmall n up) (hl : ∀ x < n, lo x < 2 * intMax) : g.Small := by
  intro c hc
  rw [h] at hc
  obtain ⟨hx, hc⟩ := hc
  have hb : c.toBound.fst = c.c := by
    obtain ⟨x, o, k⟩ := c
    cases o <;> rfl
  split at hc
  · obtain ⟨u, e, e'⟩ := hc
    have := hs u e c.x hx
    rw [← hb, e']
    unfold upOf; rw [fst_mk]; omega
  · have := hl c.x hx
    rw [← hb, hc.2]
    unfold lowOf; rw [fst_mk]; omega

/-- The hull of two boxes, the first of which has the smaller lower bounds. -/
theorem IsBox.hull {lo' : ℕ → ℤ} {up' up'' : Option (ℕ → ℤ)} {g' : Guard} (h : IsBox n lo up g) (h' : IsBox n lo' up' g')
    (hlo : ∀ x < n, 0 ≤ lo x) (hl : ∀ x < n, lo x ≤ lo' x)
    (hu : ∀ u, up'' = some u → ∃ a, up = some a ∧ ∃ b, up' = some b ∧ ∀ x < n, u x = max (a x) (b x))
    (hn : up'' = none → up = none ∨ up' = none) {gs : List Guard} (hgs : ∀ k, k ∈ gs ↔ k = g ∨ k = g') :
    IsBox n lo up'' (unionHull gs) := by
  have hne : gs ≠ [] := by
    intro e
    have := (hgs g).2 (Or.inl rfl)
    rw [e] at this; simp at this
  intro c
  rw [mem_unionHull hne]
  have hb : ∀ {d : Constraint}, ckey d = ckey c ↔ d.x = c.x ∧ d.isUpperBound = c.isUpperBound := by
    intro d; simp [ckey]
  have hex : (∀ k ∈ gs, hasKey k (ckey c)) ↔ hasKey g (ckey c) ∧ hasKey g' (ckey c) := by
    constructor
    · intro hh; exact ⟨hh g ((hgs g).2 (Or.inl rfl)), hh g' ((hgs g').2 (Or.inr rfl))⟩
    · rintro ⟨h1, h2⟩ k hk
      rcases (hgs k).1 hk with rfl | rfl <;> assumption
  have hle : (∀ k ∈ gs, ∀ d ∈ k, ckey d = ckey c → d.toDBMBound ≤ c.toDBMBound) ↔
      (∀ d ∈ g, ckey d = ckey c → d.toDBMBound ≤ c.toDBMBound) ∧
      (∀ d ∈ g', ckey d = ckey c → d.toDBMBound ≤ c.toDBMBound) := by
    constructor
    · intro hh; exact ⟨hh g ((hgs g).2 (Or.inl rfl)), hh g' ((hgs g').2 (Or.inr rfl))⟩
    · rintro ⟨h1, h2⟩ k hk
      rcases (hgs k).1 hk with rfl | rfl <;> assumption
  have hat : (∃ k ∈ gs, ∃ d ∈ k, ckey d = ckey c ∧ d.toDBMBound = c.toDBMBound) ↔
      (∃ d ∈ g, ckey d = ckey c ∧ d.toDBMBound = c.toDBMBound) ∨
      (∃ d ∈ g', ckey d = ckey c ∧ d.toDBMBound = c.toDBMBound) := by
    constructor
    · rintro ⟨k, hk, hh⟩
      rcases (hgs k).1 hk with rfl | rfl
      · exact Or.inl hh
      · exact Or.inr hh
    · rintro (hh | hh)
      · exact ⟨g, (hgs g).2 (Or.inl rfl), hh⟩
      · exact ⟨g', (hgs g').2 (Or.inr rfl), hh⟩
  unfold EntryOK
  rw [hex, hle, hat]
  by_cases hcu : c.isUpperBound = true
  · rw [if_pos hcu, Constraint.toDBM_of_upper hcu]
    constructor
    · rintro ⟨⟨⟨d, hd, hdk⟩, ⟨d', hd', hdk'⟩⟩, ⟨h1, h2⟩, h3⟩
      obtain ⟨dx, du⟩ := hb.1 hdk
      obtain ⟨dx', du'⟩ := hb.1 hdk'
      rw [hcu] at du du'
      have m1 := h1 d hd hdk
      have m2 := h2 d' hd' hdk'
      rw [Constraint.toDBM_of_upper du] at m1
      rw [Constraint.toDBM_of_upper du'] at m2
      rw [h, if_pos du] at hd
      rw [h', if_pos du'] at hd'
      obtain ⟨hx, a, ea, ea'⟩ := hd
      obtain ⟨_, b, eb, eb'⟩ := hd'
      rw [dx] at hx ea'
      rw [dx'] at eb'
      refine ⟨hx, ?_⟩
      cases hup : up'' with
      | none => rcases hn hup with e | e <;> simp_all
      | some u =>
        obtain ⟨a2, ea2, b2, eb2, hm⟩ := hu u hup
        rw [ea] at ea2; cases ea2
        rw [eb] at eb2; cases eb2
        refine ⟨u, rfl, ?_⟩
        rw [hm _ hx]
        rw [ea'] at m1
        rw [eb'] at m2
        have hmax : upOf (max (a c.x) (b c.x)) ≤ c.toBound := by
          rcases max_choice (a c.x) (b c.x) with e | e <;> rw [e] <;> assumption
        refine le_antisymm ?_ hmax
        rcases h3 with ⟨k, hk, hkk, hke⟩ | ⟨k, hk, hkk, hke⟩
        · obtain ⟨kx, ku⟩ := hb.1 hkk
          rw [hcu] at ku
          rw [Constraint.toDBM_of_upper ku] at hke
          rw [h, if_pos ku, ea, kx] at hk
          obtain ⟨_, a', e1, e2⟩ := hk
          cases e1
          rw [← hke, e2]; exact upOf_le (le_max_left _ _)
        · obtain ⟨kx, ku⟩ := hb.1 hkk
          rw [hcu] at ku
          rw [Constraint.toDBM_of_upper ku] at hke
          rw [h', if_pos ku, eb, kx] at hk
          obtain ⟨_, a', e1, e2⟩ := hk
          cases e1
          rw [← hke, e2]; exact upOf_le (le_max_right _ _)
    · rintro ⟨hx, u, e, e'⟩
      obtain ⟨a, rfl, b, rfl, hm⟩ := hu u e
      rw [hm _ hx] at e'
      have k1 : ckey (Constraint.ofBound c.x true (upOf (a c.x))) = ckey c :=
        hb.2 ⟨rfl, by rw [Constraint.ofBound_isUpper, hcu]⟩
      have k2 : ckey (Constraint.ofBound c.x true (upOf (b c.x))) = ckey c :=
        hb.2 ⟨rfl, by rw [Constraint.ofBound_isUpper, hcu]⟩
      have t1 : ∀ k, (Constraint.ofBound c.x true k).toDBMBound = k := fun k => by
        rw [Constraint.toDBM_of_upper (Constraint.ofBound_isUpper _ _ _), Constraint.ofBound_toBound]
      refine ⟨⟨⟨_, h.upper_mem hx, k1⟩, ⟨_, h'.upper_mem hx, k2⟩⟩, ⟨?_, ?_⟩, ?_⟩
      · intro d hd hdk
        obtain ⟨dx, du⟩ := hb.1 hdk
        rw [hcu] at du
        rw [h, if_pos du, dx] at hd
        obtain ⟨_, a', e1, e2⟩ := hd
        cases e1
        rw [Constraint.toDBM_of_upper du, e2, e']
        exact upOf_le (le_max_left _ _)
      · intro d hd hdk
        obtain ⟨dx, du⟩ := hb.1 hdk
        rw [hcu] at du
        rw [h', if_pos du, dx] at hd
        obtain ⟨_, a', e1, e2⟩ := hd
        cases e1
        rw [Constraint.toDBM_of_upper du, e2, e']
        exact upOf_le (le_max_right _ _)
      · rcases max_choice (a c.x) (b c.x) with em | em
        · exact Or.inl ⟨_, h.upper_mem hx, k1, by rw [t1, e', em]⟩
        · exact Or.inr ⟨_, h'.upper_mem hx, k2, by rw [t1, e', em]⟩
  · have hcl : c.isUpperBound = false := by simpa using hcu
    rw [if_neg hcu, Constraint.toDBM_of_lower hcl]
    have lowmem : ∀ {lo : ℕ → ℤ} {up : Option (ℕ → ℤ)} {k : Guard} {d : Constraint}, IsBox n lo up k → d ∈ k →
        ckey d = ckey c → c.x < n ∧ lo c.x ≠ 0 ∧ d.toDBMBound = (lowOf (lo c.x)).neg := by
      intro lo up k d hk hd hdk
      obtain ⟨dx, du⟩ := hb.1 hdk
      rw [hcl] at du
      rw [hk, if_neg (by rw [du]; decide), dx] at hd
      exact ⟨hd.1, hd.2.1, by rw [Constraint.toDBM_of_lower du, hd.2.2]⟩
    constructor
    · rintro ⟨⟨⟨d, hd, hdk⟩, ⟨d', hd', hdk'⟩⟩, ⟨h1, h2⟩, h3⟩
      obtain ⟨hx, n1, e1⟩ := lowmem h hd hdk
      refine ⟨hx, n1, ?_⟩
      have m1 := h1 d hd hdk
      rw [e1] at m1
      refine neg_inj (le_antisymm ?_ m1)
      rcases h3 with ⟨k, hk, hkk, hke⟩ | ⟨k, hk, hkk, hke⟩
      · rw [← hke, (lowmem h hk hkk).2.2]
      · rw [← hke, (lowmem h' hk hkk).2.2]
        exact lowOf_le (hl _ hx)
    · rintro ⟨hx, n1, e1⟩
      have n2 : lo' c.x ≠ 0 := by
        have := hl _ hx
        have := hlo _ hx
        omega
      have k1 : ∀ b, ckey (Constraint.ofBound c.x false b) = ckey c := fun b =>
        hb.2 ⟨rfl, by rw [Constraint.ofBound_isUpper, hcl]⟩
      have t1 : ∀ k, (Constraint.ofBound c.x false k).toDBMBound = k.neg := fun k => by
        rw [Constraint.toDBM_of_lower (Constraint.ofBound_isUpper _ _ _), Constraint.ofBound_toBound]
      refine ⟨⟨⟨_, h.lower_mem hx n1, k1 _⟩, ⟨_, h'.lower_mem hx n2, k1 _⟩⟩, ⟨?_, ?_⟩, ?_⟩
      · intro d hd hdk
        rw [(lowmem h hd hdk).2.2, e1]
      · intro d hd hdk
        rw [(lowmem h' hd hdk).2.2, e1]
        exact lowOf_le (hl _ hx)
      · exact Or.inl ⟨_, h.lower_mem hx n1, k1 _, by rw [t1, e1]⟩


/-! ### Segments of a line -/

/-- The end of a segment as upper positions; there is none for the last one. -/
def endOf (K : ℕ) (κ : ℕ → ℕ → ℤ) (j : ℕ) : Option (ℕ → ℤ) := if j = K then none else some (κ j)

/-- The guard of the regions `i … j` of a line. -/
def IsSeg (n K : ℕ) (κ : ℕ → ℕ → ℤ) (i j : ℕ) (g : Guard) : Prop := IsBox n (κ i) (endOf K κ j) g

/-- The positions but the last are below `INT_MAX`. -/
def LineSmall (n K : ℕ) (κ : ℕ → ℕ → ℤ) : Prop := ∀ m < K, ∀ x < n, κ m x < 2 * intMax - 1

variable {K : ℕ} {κ : ℕ → ℕ → ℤ}

theorem LineSmall.box (hs : LineSmall n K κ) {j : ℕ} (hj : j ≤ K) : BoxSmall n (endOf K κ j) := by
  intro u e
  unfold endOf at e
  split at e
  · cases e
  · cases e
    exact hs j (by omega)

/-- The bounds of a segment in a comparison with one that does not contain the last region. -/
theorem fill_last {lo lo' : ℕ → ℤ} {u' : ℕ → ℤ} {g g' : Guard} (h : IsBox n lo none g) (h' : IsBox n lo' (some u') g')
    (hlo : ∀ x < n, 0 ≤ lo x) (hlo' : ∀ x < n, 0 ≤ lo' x) (hs : BoxSmall n (some u')) {x : ℕ} (hx : x < n) :
    fillUpper (toBounds g) (toBounds g') x = upOf (lo x) := by
  obtain ⟨l1, u1⟩ := h.toBounds hlo (by intro u e; cases e) hx
  obtain ⟨l2, u2⟩ := h'.toBounds hlo' hs hx
  unfold fillUpper
  rw [if_pos ⟨u1, by rw [u2]; exact ne_of_lt (upOf_lt (hs u' rfl x hx))⟩, l1]
  unfold lowOf upOf
  simp only [snd_mk, fst_mk, decide_eq_true_eq]
  split
  · rename_i he
    rw [mk_inj]; exact ⟨by omega, rfl⟩
  · rename_i he
    rw [mk_inj]; exact ⟨by omega, rfl⟩

theorem fill_same {lo : ℕ → ℤ} {u : ℕ → ℤ} {g g' : Guard} (h : IsBox n lo (some u) g)
    (hlo : ∀ x < n, 0 ≤ lo x) (hs : BoxSmall n (some u)) {x : ℕ} (hx : x < n) :
    fillUpper (toBounds g) (toBounds g') x = upOf (u x) := by
  obtain ⟨l1, u1⟩ := h.toBounds hlo hs hx
  unfold fillUpper
  rw [if_neg, u1]
  rintro ⟨e, _⟩
  rw [u1] at e
  exact ne_of_lt (upOf_lt (hs u rfl x hx)) e

/-- The upper positions `d` of the later segment that `adjacent` computes. -/
theorem adjacent_aux (hL : Line n K κ) (hn : 0 < n) (hs : LineSmall n K κ) {i j i' j' : ℕ} (hij : i ≤ j) (hji : j < i')
    (hij' : i' ≤ j') (hj' : j' ≤ K) {g g' : Guard} (h : IsSeg n K κ i j g) (h' : IsSeg n K κ i' j' g') :
    (toBounds g).size = n ∧ (toBounds g').size = n ∧ ∃ d : ℕ → ℤ, (∀ x < n, κ i' x ≤ d x) ∧
      (∀ x < n, (toBounds g).lower x = lowOf (κ i x) ∧ (toBounds g').lower x = lowOf (κ i' x) ∧
        fillUpper (toBounds g) (toBounds g') x = upOf (κ j x) ∧ fillUpper (toBounds g') (toBounds g) x = upOf (d x)) := by
  have hnn : ∀ m ≤ K, ∀ x < n, 0 ≤ κ m x := hL.nonneg
  have hj : IsBox n (κ i) (some (κ j)) g := by
    have := h
    unfold IsSeg endOf at this
    rwa [if_neg (by omega)] at this
  have hsj : BoxSmall n (some (κ j)) := by
    have := hs.box (show j ≤ K by omega)
    unfold endOf at this
    rwa [if_neg (by omega)] at this
  refine ⟨hj.size hn (Or.inl rfl), h'.size hn (Or.inr ?_), ?_⟩
  · have := hL.pos_of (show 0 < i' by omega) (by omega) (show n - 1 < n by omega)
    omega
  · have l1 := fun x hx => (hj.toBounds (hnn i (by omega)) hsj (x := x) hx).1
    have l2 := fun x hx => (IsBox.toBounds h' (hnn i' (by omega)) (hs.box hj') (x := x) hx).1
    have u1 := fun x (hx : x < n) => fill_same (g' := g') hj (hnn i (by omega)) hsj hx
    by_cases hK : j' = K
    · have h'' : IsBox n (κ i') none g' := by
        have := h'
        unfold IsSeg endOf at this
        rwa [if_pos hK] at this
      exact ⟨κ i', fun x _ => le_refl _, fun x hx => ⟨l1 x hx, l2 x hx, u1 x hx,
        fill_last h'' hj (hnn i' (by omega)) (hnn i (by omega)) hsj hx⟩⟩
    · have h'' : IsBox n (κ i') (some (κ j')) g' := by
        have := h'
        unfold IsSeg endOf at this
        rwa [if_neg hK] at this
      have hsj' : BoxSmall n (some (κ j')) := by
        have := hs.box hj'
        unfold endOf at this
        rwa [if_neg hK] at this
      exact ⟨κ j', fun x hx => hL.mono hij' hj' hx, fun x hx => ⟨l1 x hx, l2 x hx, u1 x hx,
        fill_same h'' (hnn i' (by omega)) hsj' hx⟩⟩

theorem sameKind_eq {ks : List Kind} (h : sameKind ks = true) {a b : Kind} (ha : a ∈ ks) (hb : b ∈ ks) : a = b := by
  cases ks with
  | nil => simp at ha
  | cons k ks =>
    simp only [sameKind, List.all_eq_true, beq_iff_eq] at h
    simp only [List.mem_cons] at ha hb
    rcases ha with rfl | ha <;> rcases hb with rfl | hb
    · rfl
    · exact (h b hb).symm
    · exact h a ha
    · rw [h a ha, h b hb]

/-- What `adjacent` checks. -/
theorem adjacent_spec {g g' : Guard} (h : adjacent g g' = true) (hn : (toBounds g).size = n) {x y : ℕ} (hx : x < n)
    (hy : y < n) (hxy : x ≠ y)
    (dx : ¬ (fillUpper (toBounds g) (toBounds g') x = fillUpper (toBounds g') (toBounds g) x ∧
      (toBounds g).lower x = (toBounds g').lower x))
    (dy : ¬ (fillUpper (toBounds g) (toBounds g') y = fillUpper (toBounds g') (toBounds g) y ∧
      (toBounds g).lower y = (toBounds g').lower y)) {a b : Kind}
    (ka : kindOf (fillUpper (toBounds g) (toBounds g') x) ((toBounds g).lower x)
      (fillUpper (toBounds g') (toBounds g) x) ((toBounds g').lower x) = some a)
    (kb : kindOf (fillUpper (toBounds g) (toBounds g') y) ((toBounds g).lower y)
      (fillUpper (toBounds g') (toBounds g) y) ((toBounds g').lower y) = some b) : a = b := by
  unfold adjacent at h
  dsimp only at h
  split at h
  · cases h
  split at h
  swap
  · cases h
  rw [Bool.or_eq_true] at h
  have hmem : ∀ z < n, ¬ (fillUpper (toBounds g) (toBounds g') z = fillUpper (toBounds g') (toBounds g) z ∧
      (toBounds g).lower z = (toBounds g').lower z) → z ∈ (List.range (toBounds g).size).filter fun i =>
        !(decide (fillUpper (toBounds g) (toBounds g') i = fillUpper (toBounds g') (toBounds g) i) &&
          decide ((toBounds g).lower i = (toBounds g').lower i)) := by
    intro z hz hd
    rw [List.mem_filter, List.mem_range, hn]
    refine ⟨hz, ?_⟩
    rw [← Bool.decide_and, Bool.not_eq_true', decide_eq_false_iff_not]
    exact hd
  have mx := hmem x hx dx
  have my := hmem y hy dy
  rcases h with h | h
  · exfalso
    rw [decide_eq_true_eq] at h
    generalize ((List.range (toBounds g).size).filter _) = l at mx my h
    match l, h with
    | [], _ => simp at mx
    | [z], _ => simp at mx my; exact hxy (mx.trans my.symm)
  · exact sameKind_eq h (List.mem_filterMap.2 ⟨x, mx, ka⟩) (List.mem_filterMap.2 ⟨y, my, kb⟩)

theorem adjacent_touching {g g' : Guard} (h : adjacent g g' = true) (hn : (toBounds g).size = n) {x : ℕ} (hx : x < n)
    (dx : ¬ (fillUpper (toBounds g) (toBounds g') x = fillUpper (toBounds g') (toBounds g) x ∧
      (toBounds g).lower x = (toBounds g').lower x)) :
    touching (fillUpper (toBounds g) (toBounds g') x) ((toBounds g).lower x)
      (fillUpper (toBounds g') (toBounds g) x) ((toBounds g').lower x) = true := by
  unfold adjacent at h
  dsimp only at h
  split at h
  · cases h
  split at h
  swap
  · cases h
  rename_i ht
  rw [List.all_eq_true] at ht
  refine ht x ?_
  rw [List.mem_filter, List.mem_range, hn]
  refine ⟨hx, ?_⟩
  rw [← Bool.decide_and, Bool.not_eq_true', decide_eq_false_iff_not]
  exact dx

theorem touching_left {a b c d : ℤ} (hab : a ≤ b) (hbc : b ≤ c) (hcd : c ≤ d) (had : a < d)
    (h : touching (upOf b) (lowOf a) (upOf d) (lowOf c) = true) : c = b + 1 := by
  unfold touching at h
  split at h
  · rename_i h1
    unfold upOf lowOf at h h1
    rw [bne_iff_ne, ne_eq, snd_mk, snd_mk, decide_eq_decide] at h
    rw [fst_mk, fst_mk] at h1
    omega
  · split at h
    · rename_i h1
      unfold upOf lowOf at h1
      rw [fst_mk, fst_mk] at h1
      omega
    · cases h

theorem touching_right {a b c d : ℤ} (hab : a ≤ b) (hbc : b ≤ c) (hcd : c ≤ d) (had : a < d)
    (h : touching (upOf d) (lowOf c) (upOf b) (lowOf a) = true) : c = b + 1 := by
  unfold touching at h
  split at h
  · rename_i h1
    unfold upOf lowOf at h1
    rw [fst_mk, fst_mk] at h1
    omega
  · split at h
    · rename_i h1
      unfold upOf lowOf at h h1
      rw [bne_iff_ne, ne_eq, snd_mk, snd_mk, decide_eq_decide] at h
      rw [fst_mk, fst_mk] at h1
      omega
    · cases h

theorem kindOf_left_x {a b c d : ℤ} (hb : b % 2 = 0) (hc : c % 2 = 1) :
    kindOf (upOf b) (lowOf a) (upOf d) (lowOf c) = some (if a % 2 = 0 then .leftLower else .leftUpper) := by
  unfold kindOf upOf lowOf
  simp only [snd_mk, decide_eq_true_eq]
  by_cases h : a % 2 = 0
  · simp [h]
  · have : ¬ c % 2 = 0 := by omega
    simp [h, this, hb]

theorem kindOf_left_y {a b c d : ℤ} (hc : c % 2 = 0) :
    kindOf (upOf b) (lowOf a) (upOf d) (lowOf c) = some (if a % 2 = 0 then .leftLower else .rightLower) := by
  unfold kindOf upOf lowOf
  simp only [snd_mk, decide_eq_true_eq]
  by_cases h : a % 2 = 0
  · simp [h]
  · simp [h, hc]

theorem kindOf_right_y {a b c d : ℤ} (hc : c % 2 = 0) :
    kindOf (upOf d) (lowOf c) (upOf b) (lowOf a) = some .leftLower := by
  unfold kindOf upOf lowOf
  simp only [snd_mk, decide_eq_true_eq]
  simp [hc]

theorem kindOf_right_x {a b c d : ℤ} (hb : b % 2 = 0) (hc : c % 2 = 1) :
    ∃ k, kindOf (upOf d) (lowOf c) (upOf b) (lowOf a) = some k ∧ k ≠ .leftLower := by
  unfold kindOf upOf lowOf
  simp only [snd_mk, decide_eq_true_eq]
  have : ¬ c % 2 = 0 := by omega
  rw [if_neg this]
  split
  · exact ⟨_, rfl, by decide⟩
  · split
    · exact ⟨_, rfl, by decide⟩
    · exact ⟨_, rfl, by decide⟩

/-- Adjacent segments are next to each other. -/
theorem adjacent_left (hL : Line n K κ) (hn : 0 < n) (hs : LineSmall n K κ) {i j i' j' : ℕ} (hij : i ≤ j) (hji : j < i')
    (hij' : i' ≤ j') (hj' : j' ≤ K) {g g' : Guard} (h : IsSeg n K κ i j g) (h' : IsSeg n K κ i' j' g')
    (ha : adjacent g g' = true) : i' = j + 1 := by
  obtain ⟨s1, s2, d, hd, hb⟩ := adjacent_aux hL hn hs hij hji hij' hj' h h'
  have hm : ∀ x < n, κ i x ≤ κ j x ∧ κ j x ≤ κ i' x := fun x hx =>
    ⟨hL.mono hij (by omega) hx, hL.mono (by omega) (by omega) hx⟩
  have hdiff : ∀ x < n, κ i x < d x → ¬ (fillUpper (toBounds g) (toBounds g') x = fillUpper (toBounds g') (toBounds g) x ∧
      (toBounds g).lower x = (toBounds g').lower x) := by
    rintro x hx hlt ⟨e1, e2⟩
    obtain ⟨b1, b2, b3, b4⟩ := hb x hx
    rw [b3, b4] at e1
    rw [b1, b2] at e2
    have := upOf_inj e1
    have := lowOf_inj e2
    have := hm x hx
    omega
  have hle : ∀ x < n, κ i' x ≤ κ j x + 1 := by
    intro x hx
    have h1 := hm x hx
    have h2 := hd x hx
    by_cases hlt : κ i x < d x
    · have ht := adjacent_touching ha s1 hx (hdiff x hx hlt)
      obtain ⟨b1, b2, b3, b4⟩ := hb x hx
      rw [b1, b2, b3, b4] at ht
      have := touching_left h1.1 h1.2 h2 hlt ht
      omega
    · omega
  rcases hL.close hji (by omega) hle with e | ⟨x, hx, y, hy, ex, ey, mx, my⟩
  · exact e
  exfalso
  have hxy : x ≠ y := by rintro rfl; omega
  obtain ⟨b1, b2, b3, b4⟩ := hb x hx
  obtain ⟨c1, c2, c3, c4⟩ := hb y hy
  have hx1 := hm x hx
  have hy1 := hm y hy
  have hx2 := hd x hx
  have hy2 := hd y hy
  have kx := kindOf_left_x (a := κ i x) (d := d x) ex (show κ i' x % 2 = 1 by omega)
  have ky := kindOf_left_y (a := κ i y) (b := κ j y) (d := d y) (show κ i' y % 2 = 0 by omega)
  have := adjacent_spec ha s1 hx hy hxy (hdiff x hx (by omega)) (hdiff y hy (by omega))
    (by rw [b1, b2, b3, b4]; exact kx) (by rw [c1, c2, c3, c4]; exact ky)
  by_cases px : κ i x % 2 = 0 <;> by_cases py : κ i y % 2 = 0
  · have := (hL.par i (by omega) x hx y hy px py j (by omega)).1 ex
    omega
  all_goals simp [px, py] at this

theorem adjacent_right (hL : Line n K κ) (hn : 0 < n) (hs : LineSmall n K κ) {i j i' j' : ℕ} (hij : i ≤ j) (hji : j < i')
    (hij' : i' ≤ j') (hj' : j' ≤ K) {g g' : Guard} (h : IsSeg n K κ i j g) (h' : IsSeg n K κ i' j' g')
    (ha : adjacent g' g = true) : i' = j + 1 := by
  obtain ⟨s1, s2, d, hd, hb⟩ := adjacent_aux hL hn hs hij hji hij' hj' h h'
  have hm : ∀ x < n, κ i x ≤ κ j x ∧ κ j x ≤ κ i' x := fun x hx =>
    ⟨hL.mono hij (by omega) hx, hL.mono (by omega) (by omega) hx⟩
  have hdiff : ∀ x < n, κ i x < d x → ¬ (fillUpper (toBounds g') (toBounds g) x = fillUpper (toBounds g) (toBounds g') x ∧
      (toBounds g').lower x = (toBounds g).lower x) := by
    rintro x hx hlt ⟨e1, e2⟩
    obtain ⟨b1, b2, b3, b4⟩ := hb x hx
    rw [b3, b4] at e1
    rw [b1, b2] at e2
    have := upOf_inj e1
    have := lowOf_inj e2
    have := hm x hx
    omega
  have hle : ∀ x < n, κ i' x ≤ κ j x + 1 := by
    intro x hx
    have h1 := hm x hx
    have h2 := hd x hx
    by_cases hlt : κ i x < d x
    · have ht := adjacent_touching ha s2 hx (hdiff x hx hlt)
      obtain ⟨b1, b2, b3, b4⟩ := hb x hx
      rw [b1, b2, b3, b4] at ht
      have := touching_right h1.1 h1.2 h2 hlt ht
      omega
    · omega
  rcases hL.close hji (by omega) hle with e | ⟨x, hx, y, hy, ex, ey, mx, my⟩
  · exact e
  exfalso
  have hxy : x ≠ y := by rintro rfl; omega
  obtain ⟨b1, b2, b3, b4⟩ := hb x hx
  obtain ⟨c1, c2, c3, c4⟩ := hb y hy
  have hx1 := hm x hx
  have hy1 := hm y hy
  have hx2 := hd x hx
  have hy2 := hd y hy
  obtain ⟨k, kx, hk⟩ := kindOf_right_x (a := κ i x) (d := d x) ex (show κ i' x % 2 = 1 by omega)
  have ky := kindOf_right_y (a := κ i y) (b := κ j y) (d := d y) (show κ i' y % 2 = 0 by omega)
  exact hk (adjacent_spec ha s2 hx hy hxy (hdiff x hx (by omega)) (hdiff y hy (by omega))
    (by rw [b1, b2, b3, b4]; exact kx) (by rw [c1, c2, c3, c4]; exact ky))

/-- The hull of two segments that are next to each other is the segment of both. -/
theorem IsSeg.hull (hL : Line n K κ) {i j j' : ℕ} (hij : i ≤ j) (hij' : j + 1 ≤ j') (hj' : j' ≤ K) {g g' : Guard}
    (h : IsSeg n K κ i j g) (h' : IsSeg n K κ (j + 1) j' g') {gs : List Guard} (hgs : ∀ k, k ∈ gs ↔ k = g ∨ k = g') :
    IsSeg n K κ i j' (unionHull gs) := by
  refine IsBox.hull h h' (fun x hx => hL.nonneg i (by omega) x hx) (fun x hx => hL.mono (by omega) (by omega) hx) ?_ ?_ hgs
  · intro u e
    unfold endOf at e ⊢
    split at e
    · cases e
    · cases e
      rename_i hne
      rw [if_neg (by omega), if_neg hne]
      exact ⟨_, rfl, _, rfl, fun x hx => (max_eq_right (hL.mono (by omega) (by omega) hx)).symm⟩
  · intro e; exact Or.inr e

/-- A segment holds exactly on the positions from its first to its last region. -/
theorem IsSeg.holds (hL : Line n K κ) {i j : ℕ} (hi : i ≤ K) {g : Guard} (h : IsSeg n K κ i j g)
    {v : Valuation} (hv : ∀ x < n, 0 ≤ v x) :
    g.Holds v ↔ ∀ x < n, κ i x ≤ pos (v x) ∧ (j ≠ K → pos (v x) ≤ κ j x) := by
  rw [IsBox.holds h (fun x hx => hL.nonneg i hi x hx) hv]
  refine forall_congr' fun x => imp_congr_right fun hx => and_congr_right fun _ => ?_
  unfold endOf
  constructor
  · intro hh hj
    exact hh _ (if_neg hj)
  · intro hh u e
    split at e
    · cases e
    · cases e; exact hh (by assumption)

/-- Segments that have no region in common have no valuation in common. -/
theorem IsSeg.disjoint (hL : Line n K κ) {i j i' j' : ℕ} (hij : i ≤ j) (hji : j < i') (hi' : i' ≤ K) {g g' : Guard}
    (h : IsSeg n K κ i j g) (h' : IsSeg n K κ i' j' g') {v : Valuation} (hv : ∀ x < n, 0 ≤ v x) :
    ¬ (g.Holds v ∧ g'.Holds v) := by
  rintro ⟨h1, h2⟩
  rw [h.holds hL (by omega) hv] at h1
  rw [h'.holds hL (by omega) hv] at h2
  obtain ⟨x, hx, hlt⟩ := hL.strict hji hi'
  have := (h1 x hx).2 (by omega)
  have := (h2 x hx).1
  omega

/-- The valuation is in the region `m` of the line as far as single clocks tell, or above the last one. -/
def At (n K : ℕ) (κ : ℕ → ℕ → ℤ) (m : ℕ) (v : Valuation) : Prop :=
  ∀ x < n, κ m x ≤ pos (v x) ∧ (m ≠ K → pos (v x) ≤ κ m x)

theorem IsSeg.at (hL : Line n K κ) {i j m : ℕ} (hij : i ≤ j) (hj : j ≤ K) (hm : m ≤ K) {g : Guard}
    (h : IsSeg n K κ i j g) {v : Valuation} (hv : ∀ x < n, 0 ≤ v x) (hat : At n K κ m v) :
    g.Holds v ↔ i ≤ m ∧ m ≤ j := by
  rw [h.holds hL (by omega) hv]
  constructor
  · intro hh
    constructor
    · by_contra hlt
      obtain ⟨x, hx, e⟩ := hL.strict (show m < i by omega) (by omega)
      have := (hh x hx).1
      have := (hat x hx).2 (by omega)
      omega
    · by_contra hlt
      obtain ⟨x, hx, e⟩ := hL.strict (show j < m by omega) (by omega)
      have := (hh x hx).2 (by omega)
      have := (hat x hx).1
      omega
  · rintro ⟨h1, h2⟩ x hx
    refine ⟨(hL.mono h1 hm hx).trans (hat x hx).1, fun hne => ?_⟩
    exact ((hat x hx).2 (by omega)).trans (hL.mono h2 hj hx)

end Guard
end LearnTA
