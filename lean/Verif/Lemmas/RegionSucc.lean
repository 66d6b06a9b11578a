import Verif.Lemmas.RegionStep
import Verif.Lemmas.Elementary

/-!
# Successor and predecessor of regional elementary languages
-/

namespace LearnTA
open Bound Zone
namespace TimedCondition

/-! ### Updating pairs of entries -/

@[simp] theorem updatePair_dim (f z p q) : (updatePair f z p q).dim = z.dim := rfl

theorem updatePair_val (f : Bound → Bound → Bound × Bound) (z : Zone) {p q : ℕ} (hpq : p ≠ q) (a b : ℕ) :
    (updatePair f z p q).val a b =
      if a = p ∧ b = q then (f (z.val a b) (z.val b a)).1
      else if b = p ∧ a = q then (f (z.val b a) (z.val a b)).2 else z.val a b := by
  unfold updatePair
  rw [set_val, set_val]
  by_cases h1 : a = p ∧ b = q
  · obtain ⟨rfl, rfl⟩ := h1
    rw [if_neg (by rintro ⟨h, _⟩; exact hpq h), if_pos ⟨rfl, rfl⟩, if_pos ⟨rfl, rfl⟩]
  · by_cases h2 : b = p ∧ a = q
    · obtain ⟨rfl, rfl⟩ := h2
      rw [if_pos ⟨rfl, rfl⟩, if_neg h1, if_pos ⟨rfl, rfl⟩]
    · rw [if_neg (by rintro ⟨h, h'⟩; exact h2 ⟨h', h⟩), if_neg h1, if_neg h1, if_neg h2]

/-- Updating the pairs of a list. -/
def updatePairs (f : Bound → Bound → Bound × Bound) (ps : List (ℕ × ℕ)) (z : Zone) : Zone :=
  ps.foldl (fun z p => updatePair f z p.1 p.2) z

@[simp] theorem updatePairs_dim (f ps z) : (updatePairs f ps z).dim = z.dim := by
  unfold updatePairs
  induction ps generalizing z with
  | nil => rfl
  | cons p ps ih => rw [List.foldl_cons, ih]; rfl

/-- The pairs are different, and no pair occurs in both directions. -/
structure GoodPairs (ps : List (ℕ × ℕ)) : Prop where
  nodup : ps.Nodup
  ne : ∀ p ∈ ps, p.1 ≠ p.2
  flip : ∀ p ∈ ps, (p.2, p.1) ∉ ps

theorem updatePairs_val (f : Bound → Bound → Bound × Bound) {ps : List (ℕ × ℕ)} (h : GoodPairs ps)
    (z : Zone) (a b : ℕ) : (updatePairs f ps z).val a b =
      if (a, b) ∈ ps then (f (z.val a b) (z.val b a)).1
      else if (b, a) ∈ ps then (f (z.val b a) (z.val a b)).2 else z.val a b := by
  unfold updatePairs
  induction ps generalizing z with
  | nil => simp
  | cons p ps ih =>
    have h' : GoodPairs ps := ⟨(List.nodup_cons.1 h.nodup).2, fun q hq => h.ne q (by simp [hq]),
      fun q hq hm => h.flip q (by simp [hq]) (by simp [hm])⟩
    have hne := h.ne p (by simp)
    have hp := (List.nodup_cons.1 h.nodup).1
    have hf : (p.2, p.1) ∉ ps := fun hm => h.flip p (by simp) (by simp [hm])
    rw [List.foldl_cons, ih h', updatePair_val _ _ hne, updatePair_val _ _ hne]
    obtain ⟨x, y⟩ := p
    simp only at hne hf ⊢
    by_cases h1 : a = x ∧ b = y
    · obtain ⟨rfl, rfl⟩ := h1
      rw [if_neg hp, if_neg hf, if_pos ⟨rfl, rfl⟩, if_pos (by simp)]
    · by_cases h2 : b = x ∧ a = y
      · obtain ⟨rfl, rfl⟩ := h2
        rw [if_neg hf, if_neg hp, if_neg h1, if_pos ⟨rfl, rfl⟩, if_neg, if_pos (by simp)]
        simp only [List.mem_cons, Prod.mk.injEq]
        rintro (e | e)
        · exact h1 e
        · exact hf e
      · simp only [if_neg h1, if_neg h2, List.mem_cons, Prod.mk.injEq, h1, h2, false_or, if_false]

theorem updatePairs_isRegion (f : Bound → Bound → Bound × Bound) {ps : List (ℕ × ℕ)} (h : GoodPairs ps)
    {z : Zone} {w w' : ℕ → ℚ} (hz : z.IsRegion w)
    (hp : ∀ p ∈ ps, p.1 < z.dim ∧ p.2 < z.dim ∧
      f (reg (w p.1 - w p.2)) (reg (w p.2 - w p.1)) = (reg (w' p.1 - w' p.2), reg (w' p.2 - w' p.1)))
    (hn : ∀ a < z.dim, ∀ b < z.dim, a ≠ b → (a, b) ∉ ps → (b, a) ∉ ps → reg (w a - w b) = reg (w' a - w' b)) :
    (updatePairs f ps z).IsRegion w' := by
  intro a ha b hb hab
  simp only [updatePairs_dim] at ha hb
  rw [updatePairs_val f h]
  by_cases h1 : (a, b) ∈ ps
  · obtain ⟨_, _, e⟩ := hp _ h1
    rw [if_pos h1, hz a ha b hb hab, hz b hb a ha (Ne.symm hab)]
    simp only at e
    rw [e]
  · by_cases h2 : (b, a) ∈ ps
    · obtain ⟨_, _, e⟩ := hp _ h2
      rw [if_neg h1, if_pos h2, hz a ha b hb hab, hz b hb a ha (Ne.symm hab)]
      simp only at e
      rw [e]
    · rw [if_neg h1, if_neg h2, hz a ha b hb hab]
      exact hn a ha b hb hab h1 h2

theorem updatePairs_diagNN (f : Bound → Bound → Bound × Bound) {ps : List (ℕ × ℕ)} (h : GoodPairs ps)
    {z : Zone} (hd : z.DiagNN) : (updatePairs f ps z).DiagNN := by
  intro i hi
  simp only [updatePairs_dim] at hi
  rw [updatePairs_val f h]
  have : (i, i) ∉ ps := fun hm => h.ne _ hm rfl
  rw [if_neg this, if_neg this]; exact hd i hi

/-- Updates that undo each other. -/
theorem updatePairs_undo (f g : Bound → Bound → Bound × Bound) {ps : List (ℕ × ℕ)} (h : GoodPairs ps)
    {z : Zone} (hu : ∀ p ∈ ps, g (f (z.val p.1 p.2) (z.val p.2 p.1)).1 (f (z.val p.1 p.2) (z.val p.2 p.1)).2 =
      (z.val p.1 p.2, z.val p.2 p.1)) : updatePairs g ps (updatePairs f ps z) = z := by
  have hv : ∀ a b, (updatePairs g ps (updatePairs f ps z)).val a b = z.val a b := by
    intro a b
    rw [updatePairs_val g h]
    by_cases h1 : (a, b) ∈ ps
    · have h2 : (b, a) ∉ ps := h.flip _ h1
      rw [if_pos h1, updatePairs_val f h, updatePairs_val f h, if_pos h1, if_neg h2, if_pos h1]
      have := hu _ h1
      simp only at this
      rw [this]
    · by_cases h2 : (b, a) ∈ ps
      · rw [if_neg h1, if_pos h2, updatePairs_val f h, updatePairs_val f h, if_pos h2, if_neg h1, if_pos h2]
        have := hu _ h2
        simp only at this
        rw [this]
      · rw [if_neg h1, if_neg h2, updatePairs_val f h, if_neg h1, if_neg h2]
  have hd : (updatePairs g ps (updatePairs f ps z)).dim = z.dim := by simp
  have hv' : (updatePairs g ps (updatePairs f ps z)).val = z.val := funext fun a => funext fun b => hv a b
  revert hd hv'
  generalize updatePairs g ps (updatePairs f ps z) = y
  intro hd hv'
  cases y; cases z; simp only at hd hv'; subst hd; subst hv'; rfl

/-- The update of a pair of bounds in `successor`. -/
def succBounds (u l : Bound) : Bound × Bound :=
  if Zone.secondOf l then
    (match u with | .fin c _ => .fin (c + 1) false | .inf => .inf,
     match l with | .fin c _ => .fin c false | .inf => .inf)
  else
    (match u with | .fin c _ => .fin c true | .inf => .inf,
     match l with | .fin c _ => .fin (c - 1) true | .inf => .inf)

theorem succStep_eq (z : Zone) (i : ℕ) : succStep z i = updatePair succBounds z (i + 1) 0 := by
  unfold succStep updatePair succBounds
  split <;> rfl

/-- The pairs `(T_{i,N}, 0)`. -/
def frontPairs (vars : List ℕ) : List (ℕ × ℕ) := vars.map fun i => (i + 1, 0)

theorem frontPairs_good {vars : List ℕ} (h : vars.Nodup) : GoodPairs (frontPairs vars) := by
  refine ⟨?_, ?_, ?_⟩
  · exact h.map (fun a b h => by simpa using h)
  · intro p hp; obtain ⟨i, _, rfl⟩ := List.mem_map.1 hp; simp
  · intro p hp hm
    obtain ⟨i, _, rfl⟩ := List.mem_map.1 hp
    obtain ⟨j, _, e⟩ := List.mem_map.1 hm
    simp at e

theorem mem_frontPairs {vars : List ℕ} {a b : ℕ} : (a, b) ∈ frontPairs vars ↔ b = 0 ∧ 1 ≤ a ∧ a - 1 ∈ vars := by
  unfold frontPairs
  simp only [List.mem_map, Prod.mk.injEq]
  constructor
  · rintro ⟨i, hi, rfl, rfl⟩; exact ⟨rfl, by omega, by simpa using hi⟩
  · rintro ⟨rfl, h1, h2⟩; exact ⟨a - 1, h2, by omega, rfl⟩

theorem successor_eq (c : TimedCondition) (vars : List ℕ) :
    (c.successor vars).zone = updatePairs succBounds (frontPairs vars) c.zone := by
  unfold successor updatePairs frontPairs
  rw [List.foldl_map]
  have : succStep = fun (x : Zone) (y : ℕ) => updatePair succBounds x (y + 1, 0).1 (y + 1, 0).2 :=
    funext fun z => funext fun i => succStep_eq z i
  rw [this]

theorem prefixT_eq (c : TimedCondition) (vars : List ℕ) :
    (c.prefixT vars).zone = updatePairs shrinkBounds (frontPairs vars) c.zone := by
  unfold prefixT updatePairs frontPairs
  rw [List.foldl_map]

/-! ### Bounds of numbers leaving or reaching an integer -/

theorem succBounds_int (n : ℤ) {y : ℚ} (h1 : (n : ℚ) < y) (h2 : y < n + 1) :
    succBounds (reg n) (reg (-n)) = (reg y, reg (-y)) := by
  have e : -((n : ℤ) : ℚ) = ((-n : ℤ) : ℚ) := by push_cast; rfl
  rw [e, reg_int, reg_int, reg_of_between h1 h2, reg_neg_of_between h1 h2]
  simp [succBounds, Zone.secondOf]

theorem succBounds_open {n : ℤ} {x : ℚ} (h1 : (n : ℚ) < x) (h2 : x < n + 1) :
    succBounds (reg x) (reg (-x)) = (reg ((n + 1 : ℤ) : ℚ), reg (-((n + 1 : ℤ) : ℚ))) := by
  have e : -((n + 1 : ℤ) : ℚ) = ((-(n + 1) : ℤ) : ℚ) := by push_cast; rfl
  rw [e, reg_int, reg_int, reg_of_between h1 h2, reg_neg_of_between h1 h2]
  simp [succBounds, Zone.secondOf]; ring

theorem growBounds_int (n : ℤ) {y : ℚ} (h1 : (n : ℚ) < y) (h2 : y < n + 1) :
    growBounds (reg n) (reg (-n)) = (reg y, reg (-y)) := by
  have e : -((n : ℤ) : ℚ) = ((-n : ℤ) : ℚ) := by push_cast; rfl
  rw [e, reg_int, reg_int, reg_of_between h1 h2, reg_neg_of_between h1 h2]
  simp [growBounds, Bound.isPoint]

theorem growBounds_open {n : ℤ} {x : ℚ} (h1 : (n : ℚ) < x) (h2 : x < n + 1) :
    growBounds (reg x) (reg (-x)) = (reg ((n + 1 : ℤ) : ℚ), reg (-((n + 1 : ℤ) : ℚ))) := by
  have e : -((n + 1 : ℤ) : ℚ) = ((-(n + 1) : ℤ) : ℚ) := by push_cast; rfl
  rw [e, reg_int, reg_int, reg_of_between h1 h2, reg_neg_of_between h1 h2]
  simp [growBounds, Bound.isPoint]; ring

theorem shrinkBounds_int (n : ℤ) {y : ℚ} (h1 : (n : ℚ) - 1 < y) (h2 : y < n) :
    shrinkBounds (reg n) (reg (-n)) = (reg y, reg (-y)) := by
  have e : -((n : ℤ) : ℚ) = ((-n : ℤ) : ℚ) := by push_cast; rfl
  have g1 : ((n - 1 : ℤ) : ℚ) < y := by push_cast; exact h1
  have g2 : y < ((n - 1 : ℤ) : ℚ) + 1 := by push_cast; linarith
  rw [e, reg_int, reg_int, reg_of_between g1 g2, reg_neg_of_between g1 g2]
  simp [shrinkBounds, Bound.isPoint]; ring

theorem shrinkBounds_open {n : ℤ} {x : ℚ} (h1 : (n : ℚ) < x) (h2 : x < n + 1) :
    shrinkBounds (reg x) (reg (-x)) = (reg (n : ℚ), reg (-(n : ℚ))) := by
  have e : -((n : ℤ) : ℚ) = ((-n : ℤ) : ℚ) := by push_cast; rfl
  rw [e, reg_int, reg_int, reg_of_between h1 h2, reg_neg_of_between h1 h2]
  simp [shrinkBounds, Bound.isPoint]

end TimedCondition

/-! ### Forward regional elementary languages -/

namespace ForwardRegional
open TimedCondition

/-- The condition and the order are those of the values `v` of `T_{0,N}, …, T_{N,N}` (with
`n = N + 1`). -/
structure Of (L : ForwardRegional) (n : ℕ) (v : Valuation) : Prop where
  pos : 0 < n
  word : L.word.length + 1 = n
  dim : L.cond.zone.dim = n + 1
  diag : L.cond.zone.DiagNN
  region : L.cond.zone.IsRegion v.ext
  size : L.frac.size = n
  part : L.frac.Partition
  desc : L.frac.Describes v

theorem Of.congr {L : ForwardRegional} {n : ℕ} {v v' : Valuation} (h : L.Of n v)
    (he : ∀ i < n, v i = v' i) : L.Of n v' := by
  refine ⟨h.pos, h.word, h.dim, h.diag, h.region.congr ?_, h.size, h.part, h.desc.congr h.part ?_⟩
  · intro i hi
    rw [h.dim] at hi
    cases i with
    | zero => rfl
    | succ i => exact he i (by omega)
  · intro i hi; rw [h.size] at hi; rw [he i hi]

theorem Of.nodup {L : ForwardRegional} {n : ℕ} {v : Valuation} (h : L.Of n v) {g : List ℕ}
    (hg : g ∈ L.frac.order) : g.Nodup ∧ ∀ i ∈ g, i < n := by
  refine ⟨(h.part.sorted g hg).imp (fun h => Nat.ne_of_lt h), fun i hi => ?_⟩
  rw [← h.size]; exact (h.part.mem_iff i).1 ⟨g, hg, hi⟩

/-- The general step: the bounds of the variables `vars` are updated, the values move by `e`. -/
theorem region_step (f : Bound → Bound → Bound × Bound) {z : Zone} {n : ℕ} (hdim : z.dim = n + 1)
    {v : Valuation} (hz : z.IsRegion v.ext) {vars : List ℕ} (hn : vars.Nodup) (hlt : ∀ i ∈ vars, i < n)
    (e : ℚ)
    (hin : ∀ i ∈ vars, f (reg (v i)) (reg (-v i)) = (reg (v i + e), reg (-(v i + e))))
    (hout : ∀ i < n, i ∉ vars → reg (v i) = reg (v i + e) ∧ reg (-v i) = reg (-(v i + e))) :
    (updatePairs f (frontPairs vars) z).IsRegion (Valuation.ext fun i => v i + e) := by
  refine updatePairs_isRegion f (frontPairs_good hn) hz ?_ ?_
  · intro p hp
    obtain ⟨i, hi, rfl⟩ := List.mem_map.1 hp
    refine ⟨by have := hlt i hi; simp only; omega, by simp only; omega, ?_⟩
    simpa using hin i hi
  · intro a ha b hb hab h1 h2
    rw [mem_frontPairs] at h1 h2
    cases a with
    | zero =>
      cases b with
      | zero => exact absurd rfl hab
      | succ b =>
        have hb' : b ∉ vars := fun h => h2 ⟨rfl, by omega, by simpa using h⟩
        have := (hout b (by omega) hb').2
        simpa using this
    | succ a =>
      cases b with
      | zero =>
        have ha' : a ∉ vars := fun h => h1 ⟨rfl, by omega, by simpa using h⟩
        have := (hout a (by omega) ha').1
        simpa using this
      | succ b => simp only [ext_succ]; congr 1; ring

theorem Of.successor_of {L : ForwardRegional} {n : ℕ} {v : Valuation} (h : L.Of n v) {e : ℚ}
    (hz : (updatePairs succBounds (frontPairs L.frac.successorVariables) L.cond.zone).IsRegion
      (Valuation.ext fun i => v i + e))
    (hnd : L.frac.successorVariables.Nodup)
    (hd : L.frac.successor.Describes fun i => v i + e) : L.successor.Of n fun i => v i + e := by
  obtain ⟨hP, hs⟩ := h.part.successor (by rw [h.size]; exact h.pos)
  refine ⟨h.pos, h.word, ?_, ?_, ?_, ?_, hP, hd⟩
  · show (L.cond.successor _).zone.dim = _
    rw [successor_eq]; simpa using h.dim
  · show (L.cond.successor _).zone.DiagNN
    rw [successor_eq]; exact updatePairs_diagNN _ (frontPairs_good hnd) h.diag
  · show (L.cond.successor _).zone.IsRegion _
    rw [successor_eq]; exact hz
  · show L.frac.successor.size = n
    rw [hs, h.size]

/-- Letting time pass: the region stays the same, then becomes the successor. -/
theorem Of.successor {L : ForwardRegional} {n : ℕ} {v : Valuation} (h : L.Of n v) :
    ∃ δ : ℚ, 0 < δ ∧ L.successor.Of n (fun i => v i + δ) ∧
      ∀ e, 0 ≤ e → e ≤ δ → L.Of n (fun i => v i + e) ∨ L.successor.Of n (fun i => v i + e) := by
  have hL0 : L.Of n fun i => v i + 0 := h.congr (by simp)
  rcases h.part.shape (by rw [h.size]; exact h.pos) with ⟨g, gs, ho, hg⟩ | ⟨r, l, ho, hl⟩
  · obtain ⟨h1, h2, η, h3, h4, h5, h6⟩ := FractionalOrder.successor_small h.part h.desc ho hg
    have hvars := (FractionalOrder.successor_front ho hg).2
    obtain ⟨hnd, hlt⟩ := h.nodup (g := g) (by rw [ho]; simp)
    have key : ∀ e, 0 < e → e < η → L.successor.Of n fun i => v i + e := by
      intro e he0 he1
      refine h.successor_of ?_ (by rw [hvars]; exact hnd) (h6 e he0 he1)
      rw [hvars]
      refine region_step succBounds h.dim h.region hnd hlt e ?_ ?_
      · intro i hi
        obtain ⟨k, hk⟩ := fract_zero_iff.1 (h1 i hi)
        rw [hk]
        exact succBounds_int k (by linarith) (by linarith)
      · intro i hi hig
        have hpos := h2 i (by rw [h.size]; exact hi) hig
        have := h5 i (by rw [h.size]; exact hi)
        exact reg_congr (Or.inr ⟨_, between_of_fract hpos (by linarith) (by linarith)⟩)
    refine ⟨η / 2, by linarith, key _ (by linarith) (by linarith), ?_⟩
    intro e he0 he1
    rcases eq_or_lt_of_le he0 with rfl | he0
    · exact Or.inl hL0
    · exact Or.inr (key e he0 (by linarith))
  · obtain ⟨h1, η, h3, h4, h5, h6, h7, h8⟩ := FractionalOrder.successor_until h.part h.desc ho hl
    have hvars := (FractionalOrder.successor_back ho).2
    obtain ⟨hnd, hlt⟩ := h.nodup (g := l) (by rw [ho]; simp)
    have hS : L.successor.Of n fun i => v i + η := by
      refine h.successor_of ?_ (by rw [hvars]; exact hnd) h8
      rw [hvars]
      refine region_step succBounds h.dim h.region hnd hlt η ?_ ?_
      · intro i hi
        have hpos := h1 i (by rw [h.size]; exact hlt i hi)
        have hb := between_of_fract (x := v i) (e := 0) hpos (by linarith) (by
          have := Int.fract_lt_one (v i); linarith)
        rw [succBounds_open hb.1.1 hb.1.2]
        have e1 : v i + η = ((⌊v i⌋ + 1 : ℤ) : ℚ) := by
          have := Int.floor_add_fract (v i); have := h5 i hi; push_cast; linarith
        rw [e1]
      · intro i hi hil
        have hpos := h1 i (by rw [h.size]; exact hi)
        have := h6 i (by rw [h.size]; exact hi) hil
        exact reg_congr (Or.inr ⟨_, between_of_fract hpos (by linarith) (by linarith)⟩)
    refine ⟨η, h3, hS, ?_⟩
    intro e he0 he1
    rcases eq_or_lt_of_le he1 with rfl | he1
    · exact Or.inr hS
    · left
      refine ⟨h.pos, h.word, h.dim, h.diag, ?_, h.size, h.part, h7 e he0 he1⟩
      have hr := region_step (fun a b => (a, b)) h.dim h.region (vars := []) (by simp) (by simp) e (by simp) (by
        intro i hi _
        have hpos := h1 i (by rw [h.size]; exact hi)
        have hlt1 : Int.fract (v i) + η ≤ 1 := by
          by_cases hil : i ∈ l
          · exact (h5 i hil).le
          · exact (h6 i (by rw [h.size]; exact hi) hil).le
        exact reg_congr (Or.inr ⟨_, between_of_fract hpos (by linarith) (by linarith)⟩))
      simpa [frontPairs, updatePairs] using hr

/-- The continuous part of `immediatePrefix`. -/
def back (L : ForwardRegional) : ForwardRegional :=
  ⟨⟨L.word, L.cond.prefixT L.frac.predecessorVariables⟩, L.frac.predecessor⟩

theorem Of.back_of {L : ForwardRegional} {n : ℕ} {v : Valuation} (h : L.Of n v) {e : ℚ}
    (hz : (updatePairs shrinkBounds (frontPairs L.frac.predecessorVariables) L.cond.zone).IsRegion
      (Valuation.ext fun i => v i + -e))
    (hnd : L.frac.predecessorVariables.Nodup)
    (hd : L.frac.predecessor.Describes fun i => v i - e) : L.back.Of n fun i => v i - e := by
  obtain ⟨hP, hs⟩ := h.part.predecessor (by rw [h.size]; exact h.pos)
  refine ⟨h.pos, h.word, ?_, ?_, ?_, ?_, hP, hd⟩
  · show (L.cond.prefixT _).zone.dim = _
    rw [prefixT_eq]; simpa using h.dim
  · show (L.cond.prefixT _).zone.DiagNN
    rw [prefixT_eq]; exact updatePairs_diagNN _ (frontPairs_good hnd) h.diag
  · show (L.cond.prefixT _).zone.IsRegion _
    rw [prefixT_eq]; simpa only [sub_eq_add_neg] using hz
  · show L.frac.predecessor.size = n
    rw [hs, h.size]

/-- Going back in time: the region stays the same, then becomes the continuous prefix. -/
theorem Of.back {L : ForwardRegional} {n : ℕ} {v : Valuation} (h : L.Of n v) :
    ∃ δ : ℚ, 0 < δ ∧ (∀ i < n, 0 < v i → δ ≤ v i) ∧ L.back.Of n (fun i => v i - δ) ∧
      ∀ e, 0 ≤ e → e ≤ δ → L.Of n (fun i => v i - e) ∨ L.back.Of n (fun i => v i - e) := by
  have hL0 : L.Of n fun i => v i - 0 := h.congr (by simp)
  have hfl : ∀ x : ℚ, 0 < x → Int.fract x ≤ x := by
    intro x hx
    have h1 : (0 : ℚ) ≤ ⌊x⌋ := by exact_mod_cast Int.floor_nonneg.2 hx.le
    have := Int.floor_add_fract x; linarith
  rcases h.part.shape (by rw [h.size]; exact h.pos) with ⟨g, gs, ho, hg⟩ | ⟨r, l, ho, hl⟩
  · obtain ⟨η, h3, h4, h5, h6⟩ := FractionalOrder.predecessor_small h.part h.desc ho hg
    have h1 : ∀ i ∈ g, Int.fract (v i) = 0 :=
      (FractionalOrder.successor_small h.part h.desc ho hg).1
    have hvars := (FractionalOrder.predecessor_front ho hg).2
    obtain ⟨hnd, hlt⟩ := h.nodup (g := g) (by rw [ho]; simp)
    have key : ∀ e, 0 < e → e < η → L.back.Of n fun i => v i - e := by
      intro e he0 he1
      refine h.back_of ?_ (by rw [hvars]; exact hnd) (h6 e he0 he1)
      rw [hvars]
      refine region_step shrinkBounds h.dim h.region hnd hlt (-e) ?_ ?_
      · intro i hi
        obtain ⟨k, hk⟩ := fract_zero_iff.1 (h1 i hi)
        rw [hk]
        exact shrinkBounds_int k (by linarith) (by linarith)
      · intro i hi hig
        have hpos := h5 i (by rw [h.size]; exact hi) hig
        have := Int.fract_lt_one (v i)
        exact reg_congr (Or.inr ⟨_, between_of_fract (by linarith) (by linarith) (by linarith)⟩)
    refine ⟨η / 2, by linarith, ?_, key _ (by linarith) (by linarith), ?_⟩
    · intro i hi hv
      by_cases hig : i ∈ g
      · obtain ⟨k, hk⟩ := fract_zero_iff.1 (h1 i hig)
        rw [hk] at hv ⊢
        have : 0 < k := by exact_mod_cast hv
        have : (1 : ℚ) ≤ k := by exact_mod_cast this
        linarith
      · have := h5 i (by rw [h.size]; exact hi) hig
        have := hfl _ hv
        linarith
    · intro e he0 he1
      rcases eq_or_lt_of_le he0 with rfl | he0
      · exact Or.inl hL0
      · exact Or.inr (key e he0 (by linarith))
  · obtain ⟨g, gs, eo⟩ : ∃ g gs, r ++ [l] = g :: gs := by
      cases r with
      | nil => exact ⟨l, [], rfl⟩
      | cons a r => exact ⟨a, r ++ [l], rfl⟩
    rw [eo] at ho
    obtain ⟨h1, η, h3, h4, h5, h6, h7, h8⟩ := FractionalOrder.predecessor_until h.part h.desc ho
    have hvars := (FractionalOrder.predecessor_back ho).2
    obtain ⟨hnd, hlt⟩ := h.nodup (g := g) (by rw [ho]; simp)
    have hle : ∀ i < n, η ≤ Int.fract (v i) := by
      intro i hi
      by_cases hig : i ∈ g
      · exact (h5 i hig).ge
      · exact (h6 i (by rw [h.size]; exact hi) hig).le
    have hS : L.back.Of n fun i => v i - η := by
      refine h.back_of ?_ (by rw [hvars]; exact hnd) h8
      rw [hvars]
      refine region_step shrinkBounds h.dim h.region hnd hlt (-η) ?_ ?_
      · intro i hi
        have hpos := h1 i (by rw [h.size]; exact hlt i hi)
        have hb := between_of_fract (x := v i) (e := 0) hpos (by linarith) (by
          have := Int.fract_lt_one (v i); linarith)
        rw [shrinkBounds_open hb.1.1 hb.1.2]
        have e1 : v i + -η = ((⌊v i⌋ : ℤ) : ℚ) := by
          have := Int.floor_add_fract (v i); have := h5 i hi; linarith
        rw [e1]
      · intro i hi hil
        have hpos := h1 i (by rw [h.size]; exact hi)
        have := h6 i (by rw [h.size]; exact hi) hil
        have := Int.fract_lt_one (v i)
        exact reg_congr (Or.inr ⟨_, between_of_fract hpos (by linarith) (by linarith)⟩)
    refine ⟨η, h3, fun i hi hv => (hle i hi).trans (hfl _ hv), hS, ?_⟩
    intro e he0 he1
    rcases eq_or_lt_of_le he1 with rfl | he1
    · exact Or.inr hS
    · left
      refine ⟨h.pos, h.word, h.dim, h.diag, ?_, h.size, h.part, h7 e he0 he1⟩
      have hr := region_step (fun a b => (a, b)) h.dim h.region (vars := []) (by simp) (by simp) (-e) (by simp) (by
        intro i hi _
        have hpos := h1 i (by rw [h.size]; exact hi)
        have := hle i hi
        have := Int.fract_lt_one (v i)
        exact reg_congr (Or.inr ⟨_, between_of_fract hpos (by linarith) (by linarith)⟩))
      simpa [frontPairs, updatePairs, sub_eq_add_neg] using hr

/-- The continuous successor of the continuous prefix is the language itself. -/
theorem Of.successor_back {L : ForwardRegional} {n : ℕ} {v : Valuation} (h : L.Of n v) :
    L.back.successor = L := by
  obtain ⟨e1, e2⟩ := FractionalOrder.successor_predecessor h.part (by rw [h.size]; exact h.pos)
  have hg : L.frac.predecessorVariables ∈ L.frac.order := by
    rcases h.part.shape (by rw [h.size]; exact h.pos) with ⟨g, gs, ho, hg⟩ | ⟨r, l, ho, hl⟩
    · rw [(FractionalOrder.predecessor_front ho hg).2, ho]; simp
    · obtain ⟨g, gs, eo⟩ : ∃ g gs, r ++ [l] = g :: gs := by
        cases r with
        | nil => exact ⟨l, [], rfl⟩
        | cons a r => exact ⟨a, r ++ [l], rfl⟩
      rw [eo] at ho
      rw [(FractionalOrder.predecessor_back ho).2, ho]; simp
  obtain ⟨hnd, hlt⟩ := h.nodup hg
  have hz : ((L.cond.prefixT L.frac.predecessorVariables).successor L.frac.predecessorVariables).zone =
      L.cond.zone := by
    rw [successor_eq, prefixT_eq]
    refine updatePairs_undo _ _ (frontPairs_good hnd) ?_
    intro p hp
    obtain ⟨i, hi, rfl⟩ := List.mem_map.1 hp
    have hi' := hlt i hi
    have d := h.dim
    simp only
    rw [h.region (i + 1) (by omega) 0 (by omega) (by omega), h.region 0 (by omega) (i + 1) (by omega) (by omega)]
    simp only [ext_succ, ext_zero, sub_zero, zero_sub]
    rcases cases_int (v i) with ⟨k, hk⟩ | ⟨k, hk1, hk2⟩
    · rw [hk]
      have e := shrinkBounds_int k (y := k - 1 / 2) (by linarith) (by linarith)
      rw [e]
      simp only
      have := succBounds_open (n := k - 1) (x := (k : ℚ) - 1 / 2) (by push_cast; linarith) (by push_cast; linarith)
      rw [this]; simp
    · rw [shrinkBounds_open hk1 hk2]
      simp only
      rw [succBounds_int k hk1 hk2]
  have e : L.back.successor = ⟨⟨L.word, (L.cond.prefixT L.frac.predecessorVariables).successor
      L.frac.predecessor.successorVariables⟩, L.frac.predecessor.successor⟩ := rfl
  rw [e, e1, e2]
  rcases L with ⟨⟨w, c⟩, f⟩
  simp only at hz ⊢
  congr 2
  rcases c with ⟨z⟩
  exact congrArg TimedCondition.mk hz

/-- The continuous prefix of the continuous successor is the language itself. -/
theorem Of.back_successor {L : ForwardRegional} {n : ℕ} {v : Valuation} (h : L.Of n v) :
    L.successor.back = L := by
  have e1 := FractionalOrder.predecessor_successor h.part (by rw [h.size]; exact h.pos)
  have e2 := FractionalOrder.predecessorVariables_successor h.part (by rw [h.size]; exact h.pos)
  have hg : L.frac.successorVariables ∈ L.frac.order := by
    rcases h.part.shape (by rw [h.size]; exact h.pos) with ⟨g, gs, ho, hg⟩ | ⟨r, l, ho, hl⟩
    · rw [(FractionalOrder.successor_front ho hg).2, ho]; simp
    · rw [(FractionalOrder.successor_back ho).2, ho]; simp
  obtain ⟨hnd, hlt⟩ := h.nodup hg
  have hz : ((L.cond.successor L.frac.successorVariables).prefixT L.frac.successorVariables).zone =
      L.cond.zone := by
    rw [prefixT_eq, successor_eq]
    refine updatePairs_undo _ _ (frontPairs_good hnd) ?_
    intro p hp
    obtain ⟨i, hi, rfl⟩ := List.mem_map.1 hp
    have hi' := hlt i hi
    have d := h.dim
    simp only
    rw [h.region (i + 1) (by omega) 0 (by omega) (by omega), h.region 0 (by omega) (i + 1) (by omega) (by omega)]
    simp only [ext_succ, ext_zero, sub_zero, zero_sub]
    rcases cases_int (v i) with ⟨k, hk⟩ | ⟨k, hk1, hk2⟩
    · rw [hk]
      have e := succBounds_int k (y := k + 1 / 2) (by linarith) (by linarith)
      rw [e]
      simp only
      rw [shrinkBounds_open (n := k) (by linarith) (by linarith)]
    · rw [succBounds_open hk1 hk2]
      simp only
      rw [shrinkBounds_int (k + 1) (y := v i) (by push_cast; linarith) (by push_cast; linarith)]
  have e : L.successor.back = ⟨⟨L.word, (L.cond.successor L.frac.successorVariables).prefixT
      L.frac.successor.predecessorVariables⟩, L.frac.successor.predecessor⟩ := rfl
  rw [e, e1, e2]
  rcases L with ⟨⟨w, c⟩, f⟩
  simp only at hz ⊢
  congr 2
  rcases c with ⟨z⟩
  exact congrArg TimedCondition.mk hz

theorem reg_eq_zero {x : ℚ} (h : reg x = .fin 0 true) : x = 0 := by
  rcases cases_int x with ⟨k, hk⟩ | ⟨k, hk1, hk2⟩
  · rw [hk, reg_int] at h
    simp only [Bound.fin.injEq, and_true] at h
    rw [hk, h]
  · rw [reg_of_between hk1 hk2] at h; simp at h

theorem Of.hasPrefix_iff {L : ForwardRegional} {n : ℕ} {v : Valuation} (h : L.Of n v) :
    L.cond.hasPrefix = true ↔ v (n - 1) ≠ 0 := by
  have hs : L.cond.size = n := by unfold TimedCondition.size; rw [h.dim]; omega
  have hp := h.pos
  have hd := h.dim
  unfold hasPrefix
  simp only [upper, lower, hs, if_true]
  rw [h.region _ (by omega) 0 (by omega) (by omega), h.region 0 (by omega) _ (by omega) (by omega)]
  simp only [ext_succ, ext_zero, sub_zero, zero_sub]
  simp only [Bool.not_eq_true', Bool.and_eq_false_iff, decide_eq_false_iff_not]
  constructor
  · intro hh e
    rw [e] at hh
    have e0 : reg (0 : ℚ) = .fin 0 true := by have := reg_int 0; simpa using this
    simp [e0] at hh
  · intro hne
    left; intro e; exact hne (reg_eq_zero e)

/-- Adding an action. -/
theorem Of.successorAction {L : ForwardRegional} {n : ℕ} {v : Valuation} (h : L.Of n v) (a : Action) :
    (L.successorAction a).Of (n + 1) fun i => if i < n then v i else 0 := by
  have hd := h.dim
  have hp := h.pos
  have e0 : reg (0 : ℚ) = .fin 0 true := by have := reg_int 0; simpa using this
  refine ⟨by omega, ?_, ?_, ?_, ?_, ?_, h.part.extendN, ?_⟩
  · simp [ForwardRegional.successorAction, h.word]
  · simp [ForwardRegional.successorAction, extendN, hd]
  · intro i hi
    simp only [ForwardRegional.successorAction, extendN] at hi ⊢
    split
    · exact h.diag 0 (by omega)
    · exact h.diag i (by omega)
  · intro i hi j hj hij
    have key : ∀ k, k < n + 1 → (Valuation.ext fun i => if i < n then v i else 0) k = v.ext k := by
      intro k hk
      cases k with
      | zero => rfl
      | succ k => simp only [ext_succ]; rw [if_pos (by omega)]
    have last : (Valuation.ext fun i => if i < n then v i else 0) (n + 1) = 0 := by
      simp only [ext_succ]; rw [if_neg (by omega)]
    simp only [ForwardRegional.successorAction, extendN, hd] at hi hj ⊢
    by_cases h1 : i = n + 1
    · subst h1
      rw [last, if_pos rfl, if_neg (fun e => hij e.symm), key j (by omega)]
      by_cases h2 : j = 0
      · subst h2; simp [e0]
      · rw [if_neg h2, h.region 0 (by omega) j (by omega) (by omega)]; simp
    · rw [if_neg h1]
      by_cases h3 : j = n + 1
      · subst h3
        rw [last, if_pos rfl, key i (by omega)]
        by_cases h2 : i = 0
        · subst h2; simp [e0]
        · rw [if_neg h2, h.region i (by omega) 0 (by omega) h2]; simp
      · rw [if_neg h3, key i (by omega), key j (by omega)]
        exact h.region i (by omega) j (by omega) hij
  · show L.frac.size + 1 = n + 1
    rw [h.size]
  · obtain ⟨qs, h1, h2⟩ := h.desc.congr h.part (v' := fun i => if i < n then v i else 0) (by
      intro i hi; rw [h.size] at hi; simp [hi])
    obtain ⟨g, gs, ho⟩ := h.part.order_eq
    refine ⟨qs, h1, ?_⟩
    show List.Forall₂ _ L.frac.extendN.order _
    unfold FractionalOrder.extendN
    simp only [ho, List.headD_cons, List.tail_cons]
    rw [ho] at h2
    obtain ⟨h3, h4⟩ := List.forall₂_cons.1 h2
    refine List.Forall₂.cons ?_ h4
    intro i hi
    rcases List.mem_append.1 hi with hi | hi
    · exact h3 i hi
    · rw [List.mem_singleton.1 hi, h.size]; simp

theorem mem_front {f : FractionalOrder} {v : ℕ → ℚ} (hP : f.Partition) (hD : f.Describes v) {i : ℕ}
    (hi : i < f.size) (hv : Int.fract (v i) = 0) : i ∈ f.order.headD [] := by
  obtain ⟨qs, h1, h2⟩ := hD
  obtain ⟨g, gs, ho⟩ := hP.order_eq
  obtain ⟨x, hx, hix⟩ := (hP.mem_iff i).2 hi
  rw [ho] at hx h2
  obtain ⟨_, h6⟩ := List.forall₂_cons.1 h2
  rcases List.mem_cons.1 hx with rfl | hx
  · rw [ho]; exact hix
  · obtain ⟨q, hq, hR⟩ := FractionalOrder.forall₂_mem h6 hx
    have := hR i hix
    rw [hv] at this
    have := (List.pairwise_cons.1 h1).1 q hq
    exact absurd this (by rw [← hR i hix, hv]; simp)

/-- The discrete part of `immediatePrefix`. -/
def chop (L : ForwardRegional) : ForwardRegional :=
  ⟨⟨L.word.dropLast, L.cond.removeN⟩, L.frac.removeN⟩

theorem Of.chop {L : ForwardRegional} {n : ℕ} {v : Valuation} (h : L.Of (n + 1) v) (hn : 0 < n)
    (hv : v n = 0) : L.chop.Of n v ∧ L.chop.frac.extendN = L.frac := by
  have hm := mem_front h.part h.desc (i := n) (by rw [h.size]; omega) (by rw [hv]; simp)
  obtain ⟨hP, hE⟩ := FractionalOrder.removeN_of h.part h.size hm
  have hd := h.dim
  refine ⟨⟨hn, ?_, ?_, ?_, ?_, ?_, hP, ?_⟩, hE⟩
  · have := h.word; simp only [ForwardRegional.chop, List.length_dropLast]; omega
  · simp only [ForwardRegional.chop, removeN]; omega
  · intro i hi; simp only [ForwardRegional.chop, removeN] at hi ⊢; exact h.diag i (by omega)
  · intro i hi j hj hij
    simp only [ForwardRegional.chop, removeN] at hi hj ⊢
    exact h.region i (by omega) j (by omega) hij
  · show L.frac.size - 1 = n
    rw [h.size]; omega
  · obtain ⟨qs, h1, h2⟩ := h.desc
    obtain ⟨g, gs, ho⟩ := h.part.order_eq
    refine ⟨qs, h1, ?_⟩
    show List.Forall₂ _ L.frac.removeN.order _
    unfold FractionalOrder.removeN
    simp only [ho, List.headD_cons, List.tail_cons]
    rw [ho] at h2
    obtain ⟨h3, h4⟩ := List.forall₂_cons.1 h2
    exact List.Forall₂.cons (fun i hi => h3 i (List.mem_of_mem_dropLast hi)) h4

theorem init_of : init.Of 1 fun _ => 0 := by
  have e0 : reg (0 : ℚ) = .fin 0 true := by have := reg_int 0; simpa using this
  refine ⟨by omega, rfl, rfl, ?_, ?_, rfl, FractionalOrder.init_partition, ?_⟩
  · intro i _
    show (0 : Bound) ≤ (Zone.zero 2).val i i
    exact le_refl _
  · intro i hi j hj hij
    show (Zone.zero 2).val i j = _
    have : ∀ k : ℕ, (Valuation.ext fun _ => (0 : ℚ)) k = 0 := by intro k; cases k <;> rfl
    rw [this, this, sub_zero, e0]; rfl
  · exact ⟨[], by simp, List.Forall₂.cons (by simp) List.Forall₂.nil⟩

/-- `immediatePrefix` by cases. -/
theorem Of.immediatePrefix {L : ForwardRegional} {n : ℕ} {v : Valuation} (h : L.Of n v) :
    L.immediatePrefix = if v (n - 1) ≠ 0 then some L.back
      else if n = 1 then none else some L.chop := by
  unfold ForwardRegional.immediatePrefix
  have hw := h.word
  have hp := h.hasPrefix_iff
  by_cases hv : v (n - 1) ≠ 0
  · rw [if_pos hv]
    have := hp.2 hv
    simp [this, ForwardRegional.back]
  · have hf : L.cond.hasPrefix = false := by
      cases hh : L.cond.hasPrefix with
      | false => rfl
      | true => exact absurd (hp.1 hh) hv
    rw [if_neg hv]
    by_cases h1 : n = 1
    · have : L.word = [] := List.length_eq_zero_iff.1 (by omega)
      simp [this, hf, h1]
    · have : L.word ≠ [] := by
        intro e; rw [e] at hw; simp at hw; omega
      simp [this, hf, h1, ForwardRegional.chop]

end ForwardRegional
end LearnTA
