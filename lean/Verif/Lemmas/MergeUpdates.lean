import Verif.Lemmas.Resets
import Verif.Lemmas.TAClocks
import Verif.Model.Merge

/-!
# Updates of merged transitions
-/

namespace LearnTA
namespace Trans
open Resets

/-- The integer that the updates assign to the clock. -/
def fixedAt (r : Resets) (x : ℕ) : Option Upd :=
  (upd r x).filter fun u => match u with
    | .const q => isIntegral q
    | .clock _ => false

theorem lookup_upd {m : Resets} (h : (m.map Prod.fst).Nodup) (x : ℕ) : m.lookup x = upd m x := by
  induction m with
  | nil => rfl
  | cons p m ih =>
    rw [List.map_cons, List.nodup_cons] at h
    rw [List.lookup_cons, upd_cons, ih h.2]
    by_cases e : p.1 = x
    · subst e
      have : upd m p.1 = none := by
        have h1 := upd_isSome m p.1
        cases hu : upd m p.1 with
        | none => rfl
        | some u =>
          rw [hu] at h1
          obtain ⟨q, hq, hq'⟩ := List.any_eq_true.1 h1.symm
          exact absurd (List.mem_map.2 ⟨q, hq, by simpa using hq'⟩) h.1
      simp [this]
    · rw [if_neg e, show (x == p.1) = false by simpa using fun h => e h.symm]
      cases upd m x <;> rfl

theorem addPrecise_upd (own other : Resets) (ho : (other.map Prod.fst).Nodup) (x : ℕ) :
    upd (addPreciseConstants own other) x = ((fixedAt own x).or (fixedAt other x)).or (upd own x) := by
  unfold addPreciseConstants
  have key : ∀ (other : Resets) (m : Resets), (other.map Prod.fst).Nodup → (m.map Prod.fst).Nodup →
      upd (other.foldl (fun m p =>
        let done := match m.lookup p.1 with
          | some (.const q) => isIntegral q
          | _ => false
        if done then m
        else match p.2 with
          | .const q => if isIntegral q then Resets.mapInsert m p else m
          | .clock _ => m) m) x = ((fixedAt m x).or (fixedAt other x)).or (upd m x) := by
    intro other
    induction other with
    | nil =>
      intro m _ _
      simp only [List.foldl_nil, fixedAt, upd_nil, Option.filter_none, Option.or_none]
      cases h : upd m x with
      | none => rfl
      | some u =>
        cases u with
        | clock y => rfl
        | const q => cases h' : isIntegral q <;> simp [Option.filter, h']
    | cons p other ih =>
      intro m hn hm
      rw [List.map_cons, List.nodup_cons] at hn
      rw [List.foldl_cons]
      have hpo : upd other p.1 = none := by
        have h1 := upd_isSome other p.1
        cases hu : upd other p.1 with
        | none => rfl
        | some u =>
          rw [hu] at h1
          obtain ⟨q, hq, hq'⟩ := List.any_eq_true.1 h1.symm
          exact absurd (List.mem_map.2 ⟨q, hq, by simpa using hq'⟩) hn.1
      rw [lookup_upd hm]
      have hdone : (match upd m p.1 with
          | some (.const q) => isIntegral q
          | _ => false) = (fixedAt m p.1).isSome := by
        unfold fixedAt
        cases upd m p.1 with
        | none => rfl
        | some u =>
          cases u with
          | clock y => rfl
          | const q => cases h : isIntegral q <;> simp [Option.filter, h]
      rw [hdone]
      dsimp only
      obtain ⟨y, u⟩ := p
      dsimp only at *
      cases hf : (fixedAt m y).isSome with
      | true =>
        rw [if_pos rfl, ih _ hn.2 hm]
        by_cases e : y = x
        · subst e
          obtain ⟨a, ha⟩ := Option.isSome_iff_exists.1 hf
          rw [ha]; rfl
        · have : fixedAt ((y, u) :: other) x = fixedAt other x := by
            unfold fixedAt; rw [upd_cons, if_neg e]; simp
          rw [this]
      | false =>
        rw [if_neg (by simp)]
        have hnone : fixedAt m y = none := by simpa using hf
        have hskip : (∀ q, u = .const q → isIntegral q = false) →
            fixedAt ((y, u) :: other) x = fixedAt other x := by
          intro hu
          unfold fixedAt
          rw [upd_cons]
          by_cases e : y = x
          · subst e
            rw [hpo]
            cases u with
            | clock z => simp [Option.filter]
            | const q => simp [Option.filter, hu q rfl]
          · rw [if_neg e]; simp
        cases u with
        | clock z =>
          dsimp only
          rw [ih _ hn.2 hm, hskip (by simp)]
        | const q =>
          dsimp only
          cases hq : isIntegral q with
          | false =>
            rw [if_neg (by simp), ih _ hn.2 hm, hskip (by rintro _ ⟨⟩; exact hq)]
          | true =>
            rw [if_pos rfl, ih _ hn.2 (keys_mapInsert m _ hm)]
            by_cases e : y = x
            · subst e
              have h1 : fixedAt (mapInsert m (y, .const q)) y = some (.const q) := by
                unfold fixedAt; rw [upd_mapInsert]; simp [Option.filter, hq]
              have h2 : fixedAt ((y, .const q) :: other) y = some (.const q) := by
                unfold fixedAt; rw [upd_cons, hpo]; simp [Option.filter, hq]
              rw [h1, hnone, h2]; rfl
            · have h1 : fixedAt (mapInsert m (y, .const q)) x = fixedAt m x := by
                unfold fixedAt; rw [upd_mapInsert, if_neg e]
              have h2 : fixedAt ((y, .const q) :: other) x = fixedAt other x := by
                unfold fixedAt; rw [upd_cons, if_neg e]; simp
              rw [h1, h2, upd_mapInsert, if_neg e]
  refine (key other _ ho (keys_asMap own)).trans ?_
  have : fixedAt (asMap own) x = fixedAt own x := by unfold fixedAt; rw [upd_asMap]
  rw [this, upd_asMap]

theorem isIntegral_iff (q : ℚ) : isIntegral q = true ↔ ∃ n : ℤ, q = n := by
  unfold isIntegral
  rw [decide_eq_true_iff]
  exact ⟨fun h => ⟨_, h⟩, by rintro ⟨n, rfl⟩; simp⟩

theorem fixedAt_iff {r : Resets} (hr : (r.map Prod.fst).Nodup) (x : ℕ) (u : Upd) :
    fixedAt r x = some u ↔ ∃ n : ℤ, u = .const n ∧ (x, u) ∈ r := by
  have hu : ∀ u, upd r x = some u ↔ (x, u) ∈ r := by
    intro u
    constructor
    · intro h
      have h1 := upd_isSome r x
      rw [h] at h1
      obtain ⟨q, hq, hq'⟩ := List.any_eq_true.1 h1.symm
      have e : q.1 = x := by simpa using hq'
      have := upd_of_mem hr hq
      rw [e, h] at this
      obtain rfl := Option.some.inj this
      rw [← e]; exact hq
    · intro h; exact upd_of_mem hr h
  unfold fixedAt
  rw [Option.filter_eq_some_iff, hu]
  constructor
  · rintro ⟨h1, h2⟩
    cases u with
    | clock y => simp at h2
    | const q =>
      obtain ⟨n, rfl⟩ := (isIntegral_iff q).1 h2
      exact ⟨n, rfl, h1⟩
  · rintro ⟨n, rfl, h⟩
    exact ⟨h, (isIntegral_iff _).2 ⟨n, rfl⟩⟩

theorem impreciseConstants_eq (r : Resets) :
    impreciseConstants r = (r.filter fun p => match p.2 with | .const q => q.den != 1 | .clock _ => false).length := by
  unfold impreciseConstants
  rw [List.countP_eq_length_filter]
  congr 1
  apply List.filter_congr
  rintro ⟨x, u⟩ _
  cases u with
  | clock y => rfl
  | const q =>
    have : isIntegral q = (q.den == 1) := by
      rw [Bool.eq_iff_iff, isIntegral_iff, beq_iff_eq]
      constructor
      · rintro ⟨n, rfl⟩; rfl
      · intro h; exact ⟨q.num, (Rat.den_eq_one_iff q).1 h |>.symm⟩
    simp only [this, bne]

end Trans
end LearnTA
