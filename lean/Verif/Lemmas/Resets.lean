import Verif.Model.Resets
import Mathlib.Data.List.Nodup
import Mathlib.Data.List.Perm.Basic

namespace LearnTA
namespace Resets

/-- The last entry for the clock `x`. -/
def upd (r : Resets) (x : ℕ) : Option Upd :=
  r.foldl (fun acc p => if p.1 = x then some p.2 else acc) none

theorem upd_foldl (r : Resets) (x : ℕ) (acc : Option Upd) :
    r.foldl (fun acc p => if p.1 = x then some p.2 else acc) acc = (upd r x).or acc := by
  unfold upd
  induction r generalizing acc with
  | nil => simp
  | cons p r ih =>
    simp only [List.foldl_cons]
    rw [ih]
    conv_rhs => rw [ih]
    split
    · cases (List.foldl (fun acc p => if p.1 = x then some p.2 else acc) none r) <;> rfl
    · cases (List.foldl (fun acc p => if p.1 = x then some p.2 else acc) none r) <;> rfl

theorem upd_nil (x : ℕ) : upd [] x = none := rfl

theorem upd_cons (p : ℕ × Upd) (r : Resets) (x : ℕ) :
    upd (p :: r) x = (upd r x).or (if p.1 = x then some p.2 else none) := by
  conv_lhs => unfold upd
  rw [List.foldl_cons, upd_foldl]

theorem upd_append (r s : Resets) (x : ℕ) : upd (r ++ s) x = (upd s x).or (upd r x) := by
  conv_lhs => unfold upd
  rw [List.foldl_append, upd_foldl]
  rfl

theorem upd_isSome (r : Resets) (x : ℕ) : (upd r x).isSome = r.any fun q => q.1 == x := by
  induction r with
  | nil => rfl
  | cons p r ih =>
    rw [upd_cons, List.any_cons, ← ih]
    cases upd r x
    · by_cases h : p.1 = x <;> simp [h]
    · simp

theorem apply_eq (r : Resets) (v : Valuation) (x : ℕ) :
    r.apply v x = ((upd r x).map (·.eval v)).getD (v x) := by
  unfold apply
  have : ∀ (r : Resets) (w : Valuation),
      r.foldl (fun (w : Valuation) p => Function.update w p.1 (p.2.eval v)) w x =
        ((upd r x).map (·.eval v)).getD (w x) := by
    intro r
    induction r with
    | nil => intro w; rfl
    | cons p r ih =>
      intro w
      rw [List.foldl_cons, ih, upd_cons]
      cases upd r x with
      | some u => rfl
      | none =>
        simp only [Option.map_none, Option.getD_none, Option.or, Function.update_apply]
        by_cases h : x = p.1
        · subst h; simp
        · rw [if_neg h, if_neg (fun e => h e.symm)]; rfl
  exact this r v

theorem upd_mapInsert (m : Resets) (p : ℕ × Upd) (x : ℕ) :
    upd (mapInsert m p) x = if p.1 = x then some p.2 else upd m x := by
  unfold mapInsert
  split
  · rename_i h
    have key : ∀ m : Resets, upd (m.map fun q => if q.1 = p.1 then p else q) x =
        if p.1 = x ∧ (m.any fun q => q.1 == p.1) = true then some p.2 else upd m x := by
      intro m
      induction m with
      | nil => simp [upd]
      | cons q m ih =>
        rw [List.map_cons, upd_cons, upd_cons, ih, List.any_cons]
        by_cases h1 : p.1 = x
        · subst h1
          by_cases h2 : q.1 = p.1
          · simp only [h2, true_and, beq_self_eq_true, Bool.true_or, if_true]
            split
            · rfl
            · rename_i hn
              have : (upd m p.1) = none := by
                have := upd_isSome m p.1
                cases hu : upd m p.1 with
                | none => rfl
                | some u => rw [hu] at this; simp only [Option.isSome_some] at this
                            exact absurd this.symm hn
              rw [this]; simp
          · have hb : (q.1 == p.1) = false := by simp [h2]
            rw [hb, Bool.false_or, if_neg h2]; simp [h2]
        · by_cases h2 : q.1 = p.1
          · have : q.1 ≠ x := by rw [h2]; exact h1
            simp [h1, h2]
          · simp [h1, h2]
    rw [key, h]; simp
  · rw [upd_append]
    simp only [upd, List.foldl_cons, List.foldl_nil]
    split <;> rfl

theorem upd_asMap (r : Resets) (x : ℕ) : upd (asMap r) x = upd r x := by
  unfold asMap
  have : ∀ (r m : Resets), upd (r.foldl mapInsert m) x = (upd r x).or (upd m x) := by
    intro r
    induction r with
    | nil => intro m; simp [upd_nil]
    | cons p r ih =>
      intro m
      rw [List.foldl_cons, ih, upd_mapInsert, upd_cons]
      cases upd r x with
      | some u => rfl
      | none => split <;> rfl
  rw [this]; simp [upd_nil]

theorem keys_mapInsert (m : Resets) (p : ℕ × Upd) (h : (m.map Prod.fst).Nodup) :
    ((mapInsert m p).map Prod.fst).Nodup := by
  unfold mapInsert
  split
  · rw [List.map_map]
    have : (Prod.fst ∘ fun q : ℕ × Upd => if q.1 = p.1 then p else q) = Prod.fst := by
      funext q
      simp only [Function.comp]
      split
      · rename_i h; exact h.symm
      · rfl
    rw [this]; exact h
  · rename_i hn
    rw [List.map_append, List.nodup_append]
    refine ⟨h, by simp, ?_⟩
    intro a ha b hb
    simp only [List.map_cons, List.map_nil, List.mem_singleton] at hb
    subst hb
    rw [List.mem_map] at ha
    obtain ⟨q, hq, rfl⟩ := ha
    intro e
    apply hn
    rw [List.any_eq_true]
    exact ⟨q, hq, by simp [e]⟩

theorem keys_asMap (r : Resets) : ((asMap r).map Prod.fst).Nodup := by
  unfold asMap
  have : ∀ (r m : Resets), (m.map Prod.fst).Nodup → ((r.foldl mapInsert m).map Prod.fst).Nodup := by
    intro r
    induction r with
    | nil => intro m h; exact h
    | cons p r ih => intro m h; exact ih _ (keys_mapInsert m p h)
  exact this r [] (by simp)

theorem upd_of_mem {m : Resets} (h : (m.map Prod.fst).Nodup) {p : ℕ × Upd} (hp : p ∈ m) :
    upd m p.1 = some p.2 := by
  induction m with
  | nil => simp at hp
  | cons q m ih =>
    rw [List.map_cons, List.nodup_cons] at h
    rw [upd_cons]
    simp only [List.mem_cons] at hp
    rcases hp with rfl | hp
    · have : upd m p.1 = none := by
        have hs := upd_isSome m p.1
        cases hu : upd m p.1 with
        | none => rfl
        | some u =>
          rw [hu] at hs
          have := List.any_eq_true.1 hs.symm
          obtain ⟨q, hq, e⟩ := this
          exact absurd (List.mem_map.2 ⟨q, hq, by simpa using e⟩) h.1
      rw [this]; simp
    · rw [ih h.2 hp]; rfl

/-- With one entry per clock the order does not matter. -/
theorem apply_perm {r s : Resets} (h : r.Perm s) (hn : (r.map Prod.fst).Nodup) (v : Valuation) :
    s.apply v = r.apply v := by
  have hn' : (s.map Prod.fst).Nodup := (h.map Prod.fst).nodup_iff.1 hn
  funext x
  rw [apply_eq, apply_eq]
  suffices upd s x = upd r x by rw [this]
  cases hr : upd r x with
  | some u =>
    have := upd_isSome r x
    rw [hr] at this
    obtain ⟨p, hp, e⟩ := List.any_eq_true.1 this.symm
    have e' : p.1 = x := by simpa using e
    subst e'
    rw [upd_of_mem hn hp] at hr
    rw [upd_of_mem hn' (h.mem_iff.1 hp), hr]
  | none =>
    have h1 := upd_isSome r x
    have h2 := upd_isSome s x
    rw [hr] at h1
    cases hs : upd s x with
    | none => rfl
    | some u =>
      rw [hs] at h2
      obtain ⟨p, hp, e⟩ := List.any_eq_true.1 h2.symm
      have : (r.any fun q => q.1 == x) = true := List.any_eq_true.2 ⟨p, h.mem_iff.2 hp, e⟩
      rw [this] at h1; simp at h1

theorem find_asMap (r : Resets) (x : ℕ) :
    ((asMap r).find? (fun q => q.1 == x)).map Prod.snd = upd r x := by
  rw [← upd_asMap]
  cases hf : (asMap r).find? (fun q => q.1 == x) with
  | some q =>
    have hq := List.mem_of_find?_eq_some hf
    have e : q.1 = x := by simpa using List.find?_some hf
    subst e
    rw [upd_of_mem (keys_asMap r) hq]; rfl
  | none =>
    have h1 := upd_isSome (asMap r) x
    have : ((asMap r).any fun q => q.1 == x) = false := by
      rw [Bool.eq_false_iff]
      intro h
      obtain ⟨q, hq, e⟩ := List.any_eq_true.1 h
      exact List.find?_eq_none.1 hf q hq e
    rw [this] at h1
    cases hu : upd (asMap r) x with
    | none => rfl
    | some u => rw [hu] at h1; simp at h1

/-- What `composition` does to one value of the left map. -/
def compose (r : Resets) : Upd → Upd
  | .const q => .const q
  | .clock y => (upd r y).getD (.clock y)

theorem composition_eq (l r : Resets) : composition l r =
    (asMap l).map (fun p => (p.1, compose r p.2)) ++
      (asMap r).filter fun p => !(asMap l).any fun q => q.1 == p.1 := by
  unfold composition
  simp only
  congr 1
  refine List.map_congr_left ?_
  rintro ⟨k, u⟩ _
  cases u with
  | const q => rfl
  | clock y =>
    simp only [compose]
    rw [← find_asMap]
    cases (asMap r).find? (fun q => q.1 == y) <;> rfl

theorem compose_eval (r : Resets) (u : Upd) (v : Valuation) :
    (compose r u).eval v = u.eval (r.apply v) := by
  cases u with
  | const q => rfl
  | clock y =>
    simp only [compose, Upd.eval]
    rw [apply_eq]
    cases upd r y <;> rfl

theorem upd_map (m : Resets) (g : Upd → Upd) (x : ℕ) :
    upd (m.map fun p => (p.1, g p.2)) x = (upd m x).map g := by
  induction m with
  | nil => rfl
  | cons p m ih =>
    rw [List.map_cons, upd_cons, upd_cons, ih]
    cases upd m x with
    | some u => rfl
    | none => simp only [Option.map_none, Option.or]; split <;> rfl

theorem upd_filter (m : Resets) (f : ℕ → Bool) (x : ℕ) :
    upd (m.filter fun p => f p.1) x = if f x then upd m x else none := by
  induction m with
  | nil => simp [upd_nil]
  | cons p m ih =>
    rw [List.filter_cons, upd_cons]
    by_cases hp : f p.1 = true
    · rw [if_pos hp, upd_cons, ih]
      by_cases hx : f x = true
      · rw [if_pos hx]; simp [hx]
      · have : p.1 ≠ x := by rintro rfl; exact hx hp
        simp [hx, this]
    · rw [if_neg hp, ih]
      by_cases hx : f x = true
      · have : p.1 ≠ x := by rintro rfl; exact hp hx
        simp [hx, this]
      · simp [hx]

theorem composition_apply (l r : Resets) (v : Valuation) :
    (composition l r).apply v = l.apply (r.apply v) := by
  funext x
  rw [apply_eq, apply_eq, composition_eq, upd_append, upd_map,
    upd_filter (asMap r) (fun k => !(asMap l).any fun q => q.1 == k), upd_asMap, upd_asMap]
  have hs := upd_isSome (asMap l) x
  rw [upd_asMap] at hs
  rw [← hs]
  cases hl : upd l x with
  | some u => simp [compose_eval]
  | none => simp [apply_eq]

theorem keys_composition (l r : Resets) : ((composition l r).map Prod.fst).Nodup := by
  rw [composition_eq, List.map_append, List.nodup_append, List.map_map]
  refine ⟨keys_asMap l, (keys_asMap r).sublist (List.filter_sublist.map _), ?_⟩
  intro a ha b hb
  simp only [List.mem_map, List.mem_filter, Function.comp] at ha hb
  obtain ⟨p, hp, rfl⟩ := ha
  obtain ⟨q, ⟨hq, hn⟩, rfl⟩ := hb
  intro e
  simp only [Bool.not_eq_true', List.any_eq_false] at hn
  exact hn p hp (by simp [e])

theorem addDefault_apply (r d : Resets) (v : Valuation) (x : ℕ) :
    (addDefault r d).apply v x =
      if (∃ p ∈ r, p.1 = x) then r.apply v x else d.apply v x := by
  unfold addDefault
  rw [apply_eq, upd_append, upd_filter d (fun k => !(asMap r).any fun q => q.1 == k),
    ← upd_isSome, upd_asMap, apply_eq, apply_eq]
  have hs := upd_isSome r x
  by_cases h : ∃ p ∈ r, p.1 = x
  · have : (r.any fun q => q.1 == x) = true := by
      obtain ⟨p, hp, e⟩ := h; exact List.any_eq_true.2 ⟨p, hp, by simp [e]⟩
    rw [this] at hs
    rw [if_pos h]
    simp [hs]
  · have : (r.any fun q => q.1 == x) = false := by
      rw [List.any_eq_false]; intro p hp e; exact h ⟨p, hp, by simpa using e⟩
    rw [this] at hs
    have hn : upd r x = none := by cases hu : upd r x <;> simp_all
    rw [if_neg h]
    simp [hn]

theorem clean_apply (r : Resets) (hn : (r.map Prod.fst).Nodup) (v : Valuation) :
    (clean r).apply v = r.apply v := by
  have hn' : ((clean r).map Prod.fst).Nodup := hn.sublist (List.filter_sublist.map _)
  funext x
  rw [apply_eq, apply_eq]
  have h1 := upd_isSome r x
  have h2 := upd_isSome (clean r) x
  cases hr : upd r x with
  | none =>
    have : upd (clean r) x = none := by
      cases hc : upd (clean r) x with
      | none => rfl
      | some u =>
        rw [hc] at h2
        obtain ⟨p, hp, e⟩ := List.any_eq_true.1 h2.symm
        have : (r.any fun q => q.1 == x) = true :=
          List.any_eq_true.2 ⟨p, (List.mem_filter.1 hp).1, e⟩
        rw [hr, this] at h1; simp at h1
    rw [this]
  | some u =>
    rw [hr] at h1
    obtain ⟨p, hp, e⟩ := List.any_eq_true.1 h1.symm
    have e' : p.1 = x := by simpa using e
    subst e'
    rw [upd_of_mem hn hp] at hr
    simp only [Option.some.injEq] at hr
    by_cases hk : p.2 = .clock p.1
    · have : upd (clean r) p.1 = none := by
        cases hc : upd (clean r) p.1 with
        | none => rfl
        | some u' =>
          rw [hc] at h2
          obtain ⟨q, hq, e2⟩ := List.any_eq_true.1 h2.symm
          have e2' : q.1 = p.1 := by simpa using e2
          obtain ⟨hq1, hq2⟩ := List.mem_filter.1 hq
          have : q.2 = p.2 := by
            have a1 := upd_of_mem hn hq1
            have a2 := upd_of_mem hn hp
            rw [e2', a2] at a1
            simpa using a1.symm
          rw [this, e2'] at hq2
          simp [hk] at hq2
      rw [this, ← hr, hk]; rfl
    · have hpc : p ∈ clean r := List.mem_filter.2 ⟨hp, by simp [hk]⟩
      rw [upd_of_mem hn' hpc, hr]

end Resets
end LearnTA
