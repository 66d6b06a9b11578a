import Verif.Lemmas.Constraint
import Mathlib.Data.List.Nodup

namespace LearnTA
open IntBound

namespace Guard

/-- The key of a constraint in the map of `unionHull`. -/
def ckey (c : Constraint) : ℕ × Bool := (c.x, c.isUpperBound)

/-- Effect of one constraint on the entry of its key. -/
def optIns (initial : Bool) (b : IntBound) : Option IntBound → Option IntBound
  | none => if initial then some b else none
  | some a => some (max a b)

theorem lookup_append' (m m' : HullMap) (k : ℕ × Bool) :
    (m ++ m').lookup k = (m.lookup k).or (m'.lookup k) := by
  induction m with
  | nil => simp
  | cons p m ih =>
    rcases p with ⟨k', b⟩
    simp only [List.cons_append, List.lookup_cons]
    split <;> simp [ih]

theorem lookup_map_update (m : HullMap) (k k' : ℕ × Bool) (b : IntBound) :
    (m.map fun p => if p.1 = k' then (p.1, max p.2 b) else p).lookup k =
      if k = k' then (m.lookup k).map (max · b) else m.lookup k := by
  induction m with
  | nil => simp
  | cons p m ih =>
    rcases p with ⟨k'', a⟩
    simp only [List.map_cons]
    by_cases h : k'' = k'
    · subst h
      simp only [if_true, List.lookup_cons]
      by_cases hk : k = k''
      · subst hk; simp
      · have : (k == k'') = false := by simpa using hk
        simp [this, hk, ih]
    · simp only [h, if_false, List.lookup_cons]
      by_cases hk : k = k''
      · subst hk; simp [h]
      · have : (k == k'') = false := by simpa using hk
        simp [this, ih]

theorem lookup_hullInsert (initial : Bool) (m : HullMap) (c : Constraint) (k : ℕ × Bool) :
    (hullInsert initial m c).lookup k =
      if ckey c = k then optIns initial c.toDBMBound (m.lookup k) else m.lookup k := by
  unfold hullInsert
  dsimp only
  have hkey : (c.x, c.isUpperBound) = ckey c := rfl
  rw [hkey]
  cases hl : m.lookup (ckey c) with
  | none =>
    dsimp only
    by_cases hk : ckey c = k
    · subst hk
      simp only [if_true, hl, optIns]
      split
      · rw [lookup_append', hl]; simp
      · exact hl
    · simp only [hk, if_false]
      split
      · rw [lookup_append']
        have : (k == ckey c) = false := by simpa using fun e : k = ckey c => hk e.symm
        simp [List.lookup_cons, this]
      · rfl
  | some a =>
    dsimp only
    rw [lookup_map_update]
    by_cases hk : ckey c = k
    · subst hk; simp [hl, optIns]
    · rw [if_neg hk, if_neg (fun e => hk e.symm)]

/-- Effect of a whole guard on the entry of a key. -/
def optScan (initial : Bool) (g : Guard) (k : ℕ × Bool) (o : Option IntBound) : Option IntBound :=
  g.foldl (fun o c => if ckey c = k then optIns initial c.toDBMBound o else o) o

theorem lookup_fold (initial : Bool) (g : Guard) (m : HullMap) (k : ℕ × Bool) :
    (g.foldl (hullInsert initial) m).lookup k = optScan initial g k (m.lookup k) := by
  unfold optScan
  induction g generalizing m with
  | nil => rfl
  | cons c g ih => simp only [List.foldl_cons, ih, lookup_hullInsert]

theorem lookup_filter_key (m : HullMap) (f : ℕ × Bool → Bool) (k : ℕ × Bool) :
    (m.filter fun p => f p.1).lookup k = if f k then m.lookup k else none := by
  induction m with
  | nil => simp
  | cons p m ih =>
    rcases p with ⟨k', b⟩
    simp only [List.filter_cons]
    by_cases hk : k = k'
    · subst hk
      by_cases hf : f k = true <;> simp [hf, ih]
    · have : (k == k') = false := by simpa using hk
      split <;> simp [List.lookup_cons, this, ih]

/-- Membership of a key in a guard. -/
def hasKey (g : Guard) (k : ℕ × Bool) : Prop := ∃ c ∈ g, ckey c = k

theorem lookup_hullStep (s : Bool × HullMap) (g : Guard) (k : ℕ × Bool) :
    (hullStep s g).2.lookup k =
      if g.any (fun c => decide (ckey c = k)) then optScan s.1 g k (s.2.lookup k) else none := by
  unfold hullStep
  dsimp only
  have := lookup_filter_key (g.foldl (hullInsert s.1) s.2)
    (fun k => g.any fun c => decide (ckey c = k)) k
  rw [← lookup_fold]
  exact this

theorem optScan_some (initial : Bool) (g : Guard) (k : ℕ × Bool) (a : IntBound) :
    ∃ b, optScan initial g k (some a) = some b ∧ a ≤ b ∧
      (∀ c ∈ g, ckey c = k → c.toDBMBound ≤ b) ∧
      (b = a ∨ ∃ c ∈ g, ckey c = k ∧ c.toDBMBound = b) := by
  unfold optScan
  induction g generalizing a with
  | nil => exact ⟨a, rfl, le_refl _, by simp, Or.inl rfl⟩
  | cons c g ih =>
    simp only [List.foldl_cons]
    by_cases hk : ckey c = k
    · rw [if_pos hk]
      simp only [optIns]
      obtain ⟨b, h1, h2, h3, h4⟩ := ih (max a c.toDBMBound)
      refine ⟨b, h1, (le_max_left _ _).trans h2, ?_, ?_⟩
      · intro c' hc' hk'
        simp only [List.mem_cons] at hc'
        rcases hc' with rfl | hc'
        · exact (le_max_right _ _).trans h2
        · exact h3 c' hc' hk'
      · rcases h4 with h4 | ⟨c', hc', h⟩
        · rcases le_total a c.toDBMBound with hle | hle
          · rw [max_eq_right hle] at h4
            exact Or.inr ⟨c, by simp, hk, h4.symm⟩
          · rw [max_eq_left hle] at h4
            exact Or.inl h4
        · exact Or.inr ⟨c', by simp [hc'], h⟩
    · rw [if_neg hk]
      obtain ⟨b, h1, h2, h3, h4⟩ := ih a
      refine ⟨b, h1, h2, ?_, ?_⟩
      · intro c' hc' hk'
        simp only [List.mem_cons] at hc'
        rcases hc' with rfl | hc'
        · exact absurd hk' hk
        · exact h3 c' hc' hk'
      · rcases h4 with h4 | ⟨c', hc', h⟩
        · exact Or.inl h4
        · exact Or.inr ⟨c', by simp [hc'], h⟩

theorem optScan_none_false (g : Guard) (k : ℕ × Bool) : optScan false g k none = none := by
  unfold optScan
  induction g with
  | nil => rfl
  | cons c g ih =>
    simp only [List.foldl_cons]
    have : (if ckey c = k then optIns false c.toDBMBound none else none) = none := by
      split <;> rfl
    rw [this]; exact ih

theorem optScan_none_true (g : Guard) (k : ℕ × Bool) (h : hasKey g k) :
    ∃ b, optScan true g k none = some b ∧
      (∀ c ∈ g, ckey c = k → c.toDBMBound ≤ b) ∧
      (∃ c ∈ g, ckey c = k ∧ c.toDBMBound = b) := by
  induction g with
  | nil => obtain ⟨c, hc, _⟩ := h; simp at hc
  | cons c g ih =>
    by_cases hk : ckey c = k
    · obtain ⟨b, h1, h2, h3, h4⟩ := optScan_some true g k c.toDBMBound
      refine ⟨b, ?_, ?_, ?_⟩
      · simpa [optScan, hk, optIns] using h1
      · intro c' hc' hk'
        simp only [List.mem_cons] at hc'
        rcases hc' with rfl | hc'
        · exact h2
        · exact h3 c' hc' hk'
      · rcases h4 with h4 | ⟨c', hc', h⟩
        · exact ⟨c, by simp, hk, h4.symm⟩
        · exact ⟨c', by simp [hc'], h⟩
    · have h' : hasKey g k := by
        obtain ⟨c', hc', hk'⟩ := h
        simp only [List.mem_cons] at hc'
        rcases hc' with rfl | hc'
        · exact absurd hk' hk
        · exact ⟨c', hc', hk'⟩
      obtain ⟨b, h1, h2, h3⟩ := ih h'
      refine ⟨b, by simpa [optScan, hk] using h1, ?_, ?_⟩
      · intro c' hc' hk'
        simp only [List.mem_cons] at hc'
        rcases hc' with rfl | hc'
        · exact absurd hk' hk
        · exact h2 c' hc' hk'
      · obtain ⟨c', hc', h⟩ := h3
        exact ⟨c', by simp [hc'], h⟩

/-- Characterisation of an entry with respect to a list of guards. -/
def EntryOK (gs : List Guard) (k : ℕ × Bool) (b : IntBound) : Prop :=
  (∀ g ∈ gs, hasKey g k) ∧ (∀ g ∈ gs, ∀ c ∈ g, ckey c = k → c.toDBMBound ≤ b) ∧
    ∃ g ∈ gs, ∃ c ∈ g, ckey c = k ∧ c.toDBMBound = b

theorem any_key_iff (g : Guard) (k : ℕ × Bool) :
    (g.any (fun c => decide (ckey c = k))) = true ↔ hasKey g k := by
  simp [hasKey]

theorem hullFold_lookup (gs : List Guard) (done : List Guard) (m : HullMap)
    (hm : ∀ k b, m.lookup k = some b → EntryOK done k b)
    (hm' : ∀ k, (∀ g ∈ done, hasKey g k) → ∃ b, m.lookup k = some b) (k : ℕ × Bool) :
    (∀ b, (gs.foldl hullStep (false, m)).2.lookup k = some b → EntryOK (done ++ gs) k b) ∧
    ((∀ g ∈ done ++ gs, hasKey g k) → ∃ b, (gs.foldl hullStep (false, m)).2.lookup k = some b) := by
  induction gs generalizing done m with
  | nil => rw [List.append_nil]; exact ⟨hm k, hm' k⟩
  | cons g gs ih =>
    simp only [List.foldl_cons]
    have hs : hullStep (false, m) g = (false, (hullStep (false, m) g).2) := rfl
    rw [hs]
    have := ih (done ++ [g]) (hullStep (false, m) g).2 ?_ ?_
    · simpa using this
    · intro k b hb
      rw [lookup_hullStep] at hb
      split at hb
      · rename_i hk
        rw [any_key_iff] at hk
        cases hl : m.lookup k with
        | none => rw [show (false, m).2.lookup k = none from hl, optScan_none_false] at hb; simp at hb
        | some a =>
          obtain ⟨e1, e2, e3⟩ := hm k a hl
          obtain ⟨b', h1, h2, h3, h4⟩ := optScan_some false g k a
          rw [show (false, m).2.lookup k = some a from hl, h1] at hb
          simp only [Option.some.injEq] at hb
          subst hb
          refine ⟨?_, ?_, ?_⟩
          · intro g' hg'
            simp only [List.mem_append, List.mem_singleton] at hg'
            rcases hg' with hg' | rfl
            · exact e1 g' hg'
            · exact hk
          · intro g' hg' c hc hck
            simp only [List.mem_append, List.mem_singleton] at hg'
            rcases hg' with hg' | rfl
            · exact (e2 g' hg' c hc hck).trans h2
            · exact h3 c hc hck
          · rcases h4 with h4 | ⟨c, hc, h⟩
            · obtain ⟨g', hg', c, hc, hck, hcb⟩ := e3
              exact ⟨g', by simp [hg'], c, hc, hck, by rw [h4, hcb]⟩
            · exact ⟨g, by simp, c, hc, h⟩
      · simp at hb
    · intro k hk
      have h1 : hasKey g k := hk g (by simp)
      obtain ⟨a, ha⟩ := hm' k (fun g' hg' => hk g' (by simp [hg']))
      rw [lookup_hullStep, if_pos ((any_key_iff g k).2 h1)]
      obtain ⟨b', h1, _⟩ := optScan_some false g k a
      exact ⟨b', by rw [show (false, m).2.lookup k = some a from ha, h1]⟩

/-- The map computed by `unionHull`. -/
def hullMap (gs : List Guard) : HullMap := (gs.foldl hullStep (true, [])).2

theorem hullMap_lookup (gs : List Guard) (hne : gs ≠ []) (k : ℕ × Bool) :
    (∀ b, (hullMap gs).lookup k = some b → EntryOK gs k b) ∧
    ((∀ g ∈ gs, hasKey g k) → ∃ b, (hullMap gs).lookup k = some b) := by
  cases gs with
  | nil => exact absurd rfl hne
  | cons g gs =>
    unfold hullMap
    simp only [List.foldl_cons]
    have hs : hullStep (true, []) g = (false, (hullStep (true, []) g).2) := rfl
    rw [hs]
    refine hullFold_lookup gs [g] _ ?_ ?_ k
    · intro k b hb
      rw [lookup_hullStep] at hb
      split at hb
      · rename_i hk
        rw [any_key_iff] at hk
        obtain ⟨b', h1, h2, h3⟩ := optScan_none_true g k hk
        rw [show ((true, []) : Bool × HullMap).2.lookup k = none from rfl, h1] at hb
        simp only [Option.some.injEq] at hb
        subst hb
        exact ⟨by simpa using hk, by simpa using h2, by simpa using h3⟩
      · simp at hb
    · intro k hk
      have h1 : hasKey g k := hk g (by simp)
      rw [lookup_hullStep, if_pos ((any_key_iff g k).2 h1)]
      obtain ⟨b', h1, _⟩ := optScan_none_true g k h1
      exact ⟨b', h1⟩

/-- Keys are unique. -/
def KeysNodup (m : HullMap) : Prop := (m.map Prod.fst).Nodup

theorem lookup_none_not_mem {m : HullMap} {k : ℕ × Bool} (h : m.lookup k = none) :
    k ∉ m.map Prod.fst := by
  induction m with
  | nil => simp
  | cons p m ih =>
    rcases p with ⟨k', b⟩
    rw [List.lookup_cons] at h
    split at h
    · simp at h
    · rename_i hk
      have : k ≠ k' := by simpa using hk
      simp [this]
      simpa using ih h

theorem hullInsert_nodup (initial : Bool) (m : HullMap) (c : Constraint) (h : KeysNodup m) :
    KeysNodup (hullInsert initial m c) := by
  unfold hullInsert KeysNodup
  dsimp only
  split
  · rename_i hl
    split
    · rw [List.map_append, List.nodup_append]
      refine ⟨h, by simp, ?_⟩
      intro a ha b hb
      simp only [List.map_cons, List.map_nil, List.mem_singleton] at hb
      rintro rfl
      exact lookup_none_not_mem hl (hb ▸ ha)
    · exact h
  · rw [List.map_map]
    have : (Prod.fst ∘ fun p : (ℕ × Bool) × IntBound =>
        if p.1 = (c.x, c.isUpperBound) then (p.1, max p.2 c.toDBMBound) else p) = Prod.fst := by
      funext p; simp only [Function.comp]; split <;> rfl
    rw [this]; exact h

theorem hullStep_nodup (s : Bool × HullMap) (g : Guard) (h : KeysNodup s.2) :
    KeysNodup (hullStep s g).2 := by
  have : ∀ m, KeysNodup m → KeysNodup (g.foldl (hullInsert s.1) m) := by
    induction g with
    | nil => intro m h; exact h
    | cons c g ih => intro m h; exact ih _ (hullInsert_nodup _ _ _ h)
  have h' := this _ h
  unfold hullStep KeysNodup
  dsimp only
  exact List.Nodup.sublist (List.Sublist.map _ List.filter_sublist) h'

theorem hullMap_nodup (gs : List Guard) : KeysNodup (hullMap gs) := by
  have : ∀ s : Bool × HullMap, KeysNodup s.2 → KeysNodup (gs.foldl hullStep s).2 := by
    induction gs with
    | nil => intro s h; exact h
    | cons g gs ih => intro s h; exact ih _ (hullStep_nodup _ _ h)
  exact this _ (by simp [KeysNodup])

theorem mem_lookup {m : HullMap} (h : KeysNodup m) {k : ℕ × Bool} {b : IntBound}
    (hm : (k, b) ∈ m) : m.lookup k = some b := by
  induction m with
  | nil => simp at hm
  | cons p m ih =>
    rcases p with ⟨k', b'⟩
    simp only [KeysNodup, List.map_cons, List.nodup_cons] at h
    simp only [List.mem_cons, Prod.mk.injEq] at hm
    rcases hm with ⟨rfl, rfl⟩ | hm
    · simp
    · have : k ≠ k' := by
        rintro rfl
        exact h.1 (List.mem_map.2 ⟨_, hm, rfl⟩)
      have : (k == k') = false := by simpa using this
      rw [List.lookup_cons, this]
      exact ih h.2 hm

theorem lookup_mem {m : HullMap} {k : ℕ × Bool} {b : IntBound} (h : m.lookup k = some b) :
    (k, b) ∈ m := by
  induction m with
  | nil => simp at h
  | cons p m ih =>
    rcases p with ⟨k', b'⟩
    rw [List.lookup_cons] at h
    split at h
    · rename_i hk
      have : k = k' := by simpa using hk
      simp at h
      simp [this, h]
    · simp [ih h]

theorem hullConstraint_key (k : ℕ × Bool) (b : IntBound) : ckey (hullConstraint (k, b)) = k := by
  rcases k with ⟨x, u⟩
  unfold hullConstraint ckey
  cases u <;> simp <;> split <;> simp [Constraint.isUpperBound]

theorem hullConstraint_bound (k : ℕ × Bool) (b : IntBound) :
    (hullConstraint (k, b)).toDBMBound = b := by
  rcases k with ⟨x, u⟩
  induction b using rec' with | h c s
  unfold hullConstraint
  cases u <;> cases s <;> simp [Constraint.toDBMBound]

/-- The hull is weaker (in the sense of the code) than each of the guards. -/
theorem unionHull_weaker (gs : List Guard) (g : Guard) (hg : g ∈ gs) :
    isWeaker (unionHull gs) g = true := by
  have hne : gs ≠ [] := List.ne_nil_of_mem hg
  simp only [isWeaker, List.all_eq_true, List.any_eq_true]
  intro c hc
  unfold unionHull at hc
  simp only [List.mem_map] at hc
  obtain ⟨⟨k, b⟩, hkb, rfl⟩ := hc
  have hl := mem_lookup (hullMap_nodup gs) hkb
  obtain ⟨e1, e2, _⟩ := (hullMap_lookup gs hne k).1 b hl
  obtain ⟨c, hc, hck⟩ := e1 g hg
  refine ⟨c, hc, ?_⟩
  rw [Constraint.isWeaker_iff, hullConstraint_bound]
  have h1 := hullConstraint_key k b
  have h2 : ckey (hullConstraint (k, b)) = ckey c := h1.trans hck.symm
  simp only [ckey, Prod.mk.injEq] at h2
  exact ⟨h2.1, h2.2, e2 g hg c hc hck⟩

/-! ### The hull is the strongest -/

/-- A guard is *tidy* if it has at most one upper and one lower bound for each clock. -/
def Tidy (g : Guard) : Prop := ∀ c ∈ g, ∀ d ∈ g, ckey c = ckey d → c = d

theorem exists_sep {a b : IntBound} (h : a < b) : ∃ d, UpSat d b ∧ ¬ UpSat d a := by
  induction a using rec' with | h c s
  induction b using rec' with | h c' s'
  simp only [mk_lt_mk] at h
  rcases h with h | ⟨rfl, h⟩
  · have h' : (c : ℚ) < c' := by exact_mod_cast h
    refine ⟨((c : ℚ) + c') / 2, ?_, ?_⟩ <;> cases s <;> cases s' <;> simp [UpSat] <;> linarith
  · have : s = false ∧ s' = true := by revert h; cases s <;> cases s' <;> simp
    obtain ⟨rfl, rfl⟩ := this
    exact ⟨c, by simp [UpSat], by simp [UpSat]⟩

theorem UpSat.anti {d e : ℚ} {b : IntBound} (h : UpSat d b) (hed : e ≤ d) : UpSat e b := by
  unfold UpSat at *
  split at h <;> rename_i hs <;> simp only [hs, if_true, if_false]
  · linarith
  · simp; linarith

/-- The value compared with the DBM bound: the clock for upper, its opposite for lower bounds. -/
def sgn (u : Bool) (d : ℚ) : ℚ := if u then d else -d

theorem holds_iff_sgn (c : Constraint) (v : Valuation) :
    c.Holds v ↔ UpSat (sgn c.isUpperBound (v c.x)) c.toDBMBound := by
  rw [Constraint.holds_iff_dbm]; unfold sgn; split <;> rfl

/-- If a tidy guard, satisfiable by a non-negative valuation, implies a constraint on all
non-negative valuations, then it contains a stronger constraint, or the implied constraint is
trivial. -/
theorem implied_iff (g : Guard) (ht : Tidy g) (h : Constraint)
    (hsat : ∃ v : Valuation, v.Nonneg ∧ g.Holds v)
    (himp : ∀ v : Valuation, v.Nonneg → g.Holds v → h.Holds v) :
    (∃ c ∈ g, h.isWeaker c = true) ∨ ∀ v : Valuation, v.Nonneg → h.Holds v := by
  by_contra hcon
  push Not at hcon
  obtain ⟨h1, v0, hv0, hn0⟩ := hcon
  obtain ⟨v, hv, hgv⟩ := hsat
  have hhv := himp v hv hgv
  -- a value of clock `h.x` violating `h`, satisfying the same-direction constraint of `g`
  have key : ∃ d : ℚ, ¬ UpSat (sgn h.isUpperBound d) h.toDBMBound ∧
      ∀ c ∈ g, ckey c = ckey h → UpSat (sgn h.isUpperBound d) c.toDBMBound := by
    by_cases hk : hasKey g (ckey h)
    · obtain ⟨c, hc, hck⟩ := hk
      have hw := h1 c hc
      rw [Ne, Constraint.isWeaker_iff] at hw
      simp only [ckey, Prod.mk.injEq] at hck
      have hlt : h.toDBMBound < c.toDBMBound := by
        by_contra hle
        exact hw ⟨hck.1.symm, hck.2.symm, not_lt.1 hle⟩
      obtain ⟨e, he1, he2⟩ := exists_sep hlt
      refine ⟨sgn h.isUpperBound e, ?_, ?_⟩
      · have : sgn h.isUpperBound (sgn h.isUpperBound e) = e := by unfold sgn; split <;> simp
        rwa [this]
      · intro c' hc' hck'
        have : c' = c := ht c' hc' c hc (hck'.trans (by simp [ckey, hck.1, hck.2]))
        subst this
        have : sgn h.isUpperBound (sgn h.isUpperBound e) = e := by unfold sgn; split <;> simp
        rwa [this]
    · refine ⟨sgn h.isUpperBound (h.toDBMBound.fst + 1), ?_, ?_⟩
      · have : sgn h.isUpperBound (sgn h.isUpperBound (h.toDBMBound.fst + 1 : ℚ))
            = h.toDBMBound.fst + 1 := by unfold sgn; split <;> simp
        rw [this]; unfold UpSat; split <;> simp
      · intro c hc hck
        exact absurd ⟨c, hc, hck⟩ hk
  obtain ⟨d, hd1, hd2⟩ := key
  rw [holds_iff_sgn] at hhv hn0
  -- make it non-negative
  let d' := if h.isUpperBound then d else max d 0
  have hord : sgn h.isUpperBound (v h.x) < sgn h.isUpperBound d := by
    by_contra hle; exact hd1 (UpSat.anti hhv (not_lt.1 hle))
  have hd'0 : 0 ≤ d' := by
    have := hv h.x
    simp only [d']
    unfold sgn at hord
    split at hord <;> rename_i hu <;> simp only [hu, if_true, if_false]
    · linarith
    · simp
  have hd'1 : ¬ UpSat (sgn h.isUpperBound d') h.toDBMBound := by
    simp only [d']
    cases hu : h.isUpperBound with
    | true => simpa [hu] using hd1
    | false =>
      simp only [hu, Bool.false_eq_true, if_false] at *
      rcases le_total d 0 with hle | hle
      · rw [max_eq_right hle]
        intro hcon
        apply hn0
        refine UpSat.anti hcon ?_
        have := hv0 h.x
        simp [sgn]; linarith
      · rw [max_eq_left hle]; exact hd1
  have hd'2 : ∀ c ∈ g, ckey c = ckey h → UpSat (sgn h.isUpperBound d') c.toDBMBound := by
    intro c hc hck
    refine UpSat.anti (hd2 c hc hck) ?_
    simp only [d']
    unfold sgn; split <;> simp
  have hord' : sgn h.isUpperBound (v h.x) < sgn h.isUpperBound d' := by
    by_contra hle; exact hd'1 (UpSat.anti hhv (not_lt.1 hle))
  let w : Valuation := Function.update v h.x d'
  have hw : w.Nonneg := by
    intro i
    by_cases hi : i = h.x
    · subst hi; simpa [w] using hd'0
    · simpa [w, Function.update_of_ne hi] using hv i
  have hgw : g.Holds w := by
    intro c hc
    by_cases hx : c.x = h.x
    · by_cases hck : ckey c = ckey h
      · rw [holds_iff_sgn]
        have h2 : c.isUpperBound = h.isUpperBound := by
          simp only [ckey, Prod.mk.injEq] at hck; exact hck.2
        rw [h2, hx]
        simpa [w] using hd'2 c hc hck
      · -- opposite direction: moved the safe way
        have hcv := hgv c hc
        rw [holds_iff_sgn] at hcv ⊢
        refine UpSat.anti hcv ?_
        have hne : c.isUpperBound ≠ h.isUpperBound := by
          intro e; exact hck (by simp [ckey, hx, e])
        rw [hx]
        simp only [w, Function.update_self]
        unfold sgn at hord' ⊢
        cases hcu : c.isUpperBound <;> cases hhu : h.isUpperBound <;>
          simp [hcu, hhu] at hne hord' ⊢ <;> linarith
    · have hcv := hgv c hc
      rw [holds_iff_sgn] at hcv ⊢
      simpa [w, Function.update_of_ne hx] using hcv
  have := himp w hw hgw
  rw [holds_iff_sgn] at this
  exact hd'1 (by simpa [w] using this)

theorem unionHull_strongest (gs : List Guard) (hne : gs ≠ []) (ht : ∀ g ∈ gs, Tidy g)
    (h : Constraint) (hw : ∀ g ∈ gs, ∃ c ∈ g, h.isWeaker c = true) :
    ∃ c ∈ unionHull gs, h.isWeaker c = true := by
  have hk : ∀ g ∈ gs, hasKey g (ckey h) := by
    intro g hg
    obtain ⟨c, hc, hcw⟩ := hw g hg
    rw [Constraint.isWeaker_iff] at hcw
    exact ⟨c, hc, by simp [ckey, hcw.1, hcw.2.1]⟩
  obtain ⟨b, hb⟩ := (hullMap_lookup gs hne (ckey h)).2 hk
  obtain ⟨_, _, g, hg, c, hc, hck, hcb⟩ := (hullMap_lookup gs hne (ckey h)).1 b hb
  refine ⟨hullConstraint (ckey h, b), List.mem_map.2 ⟨_, lookup_mem hb, rfl⟩, ?_⟩
  rw [Constraint.isWeaker_iff, hullConstraint_bound]
  have h1 := hullConstraint_key (ckey h) b
  simp only [ckey, Prod.mk.injEq] at h1
  refine ⟨h1.1.symm, h1.2.symm, ?_⟩
  obtain ⟨c', hc', hcw⟩ := hw g hg
  rw [Constraint.isWeaker_iff] at hcw
  have : c' = c := ht g hg c' hc' c hc (by rw [hck]; simp [ckey, hcw.1, hcw.2.1])
  subst this
  rw [← hcb]; exact hcw.2.2

end Guard
end LearnTA
