import Verif.Lemmas.Regional

/-!
# Backward regional elementary languages
-/

namespace LearnTA
open Bound Zone

namespace BackwardRegional
open TimedCondition

/-- Values of the indices for `v i = -T_{0,i}`: the beginning is at 0, and the internal index of the
end of `τ_i` is at `v i`. -/
def W (n : ℕ) (v : ℕ → ℚ) : ℕ → ℚ
  | 0 => v (n - 1)
  | 1 => 0
  | k + 2 => v k

/-- The condition and the order are those of the values `v i = -T_{0,i}`. -/
structure Of (L : BackwardRegional) (n : ℕ) (v : ℕ → ℚ) : Prop where
  pos : 0 < n
  word : L.word.length + 1 = n
  dim : L.cond.zone.dim = n + 1
  diag : L.cond.zone.DiagNN
  region : L.cond.zone.IsRegion (W n v)
  size : L.frac.size = n
  part : L.frac.Partition
  desc : L.frac.Describes v

/-- The pairs of the beginning and the ends of the delays `vars`. -/
def endPairs (dim : ℕ) (vars : List ℕ) : List (ℕ × ℕ) := vars.map fun i => (1, (i + 2) % dim)

theorem end_eq {n i : ℕ} (hi : i < n) : (i + 2) % (n + 1) = if i = n - 1 then 0 else i + 2 := by
  split
  · rw [show i + 2 = n + 1 by omega, Nat.mod_self]
  · exact Nat.mod_eq_of_lt (by omega)

theorem W_end {n i : ℕ} (hi : i < n) (v : ℕ → ℚ) : W n v ((i + 2) % (n + 1)) = v i := by
  rw [end_eq hi]; split
  · rename_i e; subst e; rfl
  · rfl

theorem end_inj {n i j : ℕ} (hi : i < n) (hj : j < n) (h : (i + 2) % (n + 1) = (j + 2) % (n + 1)) : i = j := by
  rw [end_eq hi, end_eq hj] at h
  split at h <;> split at h <;> omega

theorem endPairs_good {n : ℕ} {vars : List ℕ} (hnd : vars.Nodup) (hlt : ∀ i ∈ vars, i < n) :
    GoodPairs (endPairs (n + 1) vars) := by
  have h1 : ∀ i ∈ vars, (i + 2) % (n + 1) ≠ 1 := by
    intro i hi; rw [end_eq (hlt i hi)]; split <;> omega
  refine ⟨?_, ?_, ?_⟩
  · unfold endPairs
    refine List.Nodup.map_on ?_ hnd
    intro i hi j hj e
    exact end_inj (hlt i hi) (hlt j hj) (by simpa using e)
  · intro p hp; obtain ⟨i, hi, rfl⟩ := List.mem_map.1 hp; exact Ne.symm (h1 i hi)
  · intro p hp hm
    obtain ⟨i, hi, rfl⟩ := List.mem_map.1 hp
    obtain ⟨j, hj, e⟩ := List.mem_map.1 hm
    simp only [Prod.mk.injEq] at e
    exact h1 i hi e.1.symm

theorem predecessor_eq (c : TimedCondition) (vars : List ℕ) :
    (c.predecessor vars).zone = updatePairs growBounds (endPairs c.zone.dim vars) c.zone := by
  unfold TimedCondition.predecessor updatePairs endPairs
  rw [List.foldl_map]
  simp only
  generalize hz : c.zone = z
  have : ∀ (l : List ℕ) (z' : Zone), z'.dim = z.dim →
      l.foldl (fun z i => updatePair growBounds z 1 ((i + 2) % z.dim)) z' =
      l.foldl (fun x y => updatePair growBounds x 1 ((y + 2) % z.dim)) z' := by
    intro l
    induction l with
    | nil => intro z' _; rfl
    | cons a l ih =>
      intro z' hd
      rw [List.foldl_cons, List.foldl_cons, hd]
      exact ih _ (by simpa using hd)
  exact this vars z rfl

/-- The general step: the bounds of the `T_{0,i}`, `i ∈ vars`, are updated; the values `-T_{0,i}` move
by `-e`. -/
theorem region_step (f : Bound → Bound → Bound × Bound) {z : Zone} {n : ℕ} (hn0 : 0 < n) (hdim : z.dim = n + 1)
    {v : ℕ → ℚ} (hz : z.IsRegion (W n v)) {vars : List ℕ} (hn : vars.Nodup) (hlt : ∀ i ∈ vars, i < n)
    (e : ℚ)
    (hin : ∀ i ∈ vars, f (reg (-v i)) (reg (v i)) = (reg (-(v i - e)), reg (v i - e)))
    (hout : ∀ i < n, i ∉ vars → reg (v i) = reg (v i - e) ∧ reg (-v i) = reg (-(v i - e))) :
    (updatePairs f (endPairs (n + 1) vars) z).IsRegion (W n fun i => v i - e) := by
  have hidx : ∀ b < n + 1, b ≠ 1 → ∃ i < n, b = (i + 2) % (n + 1) := by
    intro b hb hb1
    by_cases h0 : b = 0
    · exact ⟨n - 1, by omega, by rw [end_eq (by omega)]; simp [h0]⟩
    · exact ⟨b - 2, by omega, by rw [end_eq (by omega), if_neg (by omega)]; omega⟩
  refine updatePairs_isRegion f (endPairs_good hn hlt) hz ?_ ?_
  · intro p hp
    obtain ⟨i, hi, rfl⟩ := List.mem_map.1 hp
    have hi' := hlt i hi
    refine ⟨by simp only; omega, by simp only [hdim]; exact Nat.mod_lt _ (by omega), ?_⟩
    simp only [W_end hi']
    have := hin i hi
    simpa [W] using this
  · intro a ha b hb hab h1 h2
    rw [hdim] at ha hb
    by_cases ha1 : a = 1
    · subst ha1
      obtain ⟨i, hi, rfl⟩ := hidx b hb (Ne.symm hab)
      have hi2 : i ∉ vars := fun h => h1 (List.mem_map.2 ⟨i, h, rfl⟩)
      rw [W_end hi, W_end hi]
      have := (hout i hi hi2).2
      simpa [W] using this
    · obtain ⟨i, hi, rfl⟩ := hidx a ha ha1
      by_cases hb1 : b = 1
      · subst hb1
        have hi2 : i ∉ vars := fun h => h2 (List.mem_map.2 ⟨i, h, rfl⟩)
        rw [W_end hi, W_end hi]
        have := (hout i hi hi2).1
        simpa [W] using this
      · obtain ⟨j, hj, rfl⟩ := hidx b hb hb1
        rw [W_end hi, W_end hi, W_end hj, W_end hj]
        congr 1; ring

theorem Of.nodup {L : BackwardRegional} {n : ℕ} {v : ℕ → ℚ} (h : L.Of n v) {g : List ℕ}
    (hg : g ∈ L.frac.order) : g.Nodup ∧ ∀ i ∈ g, i < n := by
  refine ⟨(h.part.sorted g hg).imp (fun h => Nat.ne_of_lt h), fun i hi => ?_⟩
  rw [← h.size]; exact (h.part.mem_iff i).1 ⟨g, hg, hi⟩

theorem Of.congr {L : BackwardRegional} {n : ℕ} {v v' : ℕ → ℚ} (h : L.Of n v)
    (he : ∀ i < n, v i = v' i) : L.Of n v' := by
  refine ⟨h.pos, h.word, h.dim, h.diag, h.region.congr ?_, h.size, h.part, h.desc.congr h.part ?_⟩
  · intro i hi
    have hp := h.pos
    rw [h.dim] at hi
    match i with
    | 0 => exact he _ (by omega)
    | 1 => rfl
    | i + 2 => exact he i (by omega)
  · intro i hi; rw [h.size] at hi; rw [he i hi]

theorem Of.pred_of {L : BackwardRegional} {n : ℕ} {v : ℕ → ℚ} (h : L.Of n v) {e : ℚ}
    (hz : (updatePairs growBounds (endPairs (n + 1) L.frac.predecessorVariables) L.cond.zone).IsRegion
      (W n fun i => v i - e))
    (hnd : L.frac.predecessorVariables.Nodup) (hlt : ∀ i ∈ L.frac.predecessorVariables, i < n)
    (hd : L.frac.predecessor.Describes fun i => v i - e) : L.predecessor.Of n fun i => v i - e := by
  obtain ⟨hP, hs⟩ := h.part.predecessor (by rw [h.size]; exact h.pos)
  refine ⟨h.pos, h.word, ?_, ?_, ?_, ?_, hP, hd⟩
  · show (L.cond.predecessor _).zone.dim = _
    rw [predecessor_eq]; simpa using h.dim
  · show (L.cond.predecessor _).zone.DiagNN
    rw [predecessor_eq, h.dim]; exact updatePairs_diagNN _ (endPairs_good hnd hlt) h.diag
  · show (L.cond.predecessor _).zone.IsRegion _
    rw [predecessor_eq, h.dim]; exact hz
  · show L.frac.predecessor.size = n
    rw [hs, h.size]

/-- Letting time pass before the word: the region stays the same, then becomes the predecessor. -/
theorem Of.predecessor {L : BackwardRegional} {n : ℕ} {v : ℕ → ℚ} (h : L.Of n v) :
    ∃ δ : ℚ, 0 < δ ∧ L.predecessor.Of n (fun i => v i - δ) ∧
      ∀ e, 0 ≤ e → e ≤ δ → L.Of n (fun i => v i - e) ∨ L.predecessor.Of n (fun i => v i - e) := by
  have hL0 : L.Of n fun i => v i - 0 := h.congr (by simp)
  rcases h.part.shape (by rw [h.size]; exact h.pos) with ⟨g, gs, ho, hg⟩ | ⟨r, l, ho, hl⟩
  · obtain ⟨η, h3, h4, h5, h6⟩ := FractionalOrder.predecessor_small h.part h.desc ho hg
    have h1 : ∀ i ∈ g, Int.fract (v i) = 0 :=
      (FractionalOrder.successor_small h.part h.desc ho hg).1
    have hvars := (FractionalOrder.predecessor_front ho hg).2
    obtain ⟨hnd, hlt⟩ := h.nodup (g := g) (by rw [ho]; simp)
    have key : ∀ e, 0 < e → e < η → L.predecessor.Of n fun i => v i - e := by
      intro e he0 he1
      refine h.pred_of ?_ (by rw [hvars]; exact hnd) (by rw [hvars]; exact hlt) (h6 e he0 he1)
      rw [hvars]
      refine region_step growBounds h.pos h.dim h.region hnd hlt e ?_ ?_
      · intro i hi
        obtain ⟨k, hk⟩ := fract_zero_iff.1 (h1 i hi)
        rw [hk]
        have := growBounds_int (-k) (y := -((k : ℚ) - e)) (by push_cast; linarith) (by push_cast; linarith)
        simpa using this
      · intro i hi hig
        have hpos := h5 i (by rw [h.size]; exact hi) hig
        have := Int.fract_lt_one (v i)
        rw [sub_eq_add_neg]
        exact reg_congr (Or.inr ⟨_, between_of_fract (by linarith) (by linarith) (by linarith)⟩)
    refine ⟨η / 2, by linarith, key _ (by linarith) (by linarith), ?_⟩
    intro e he0 he1
    rcases eq_or_lt_of_le he0 with rfl | he0
    · exact Or.inl hL0
    · exact Or.inr (key e he0 (by linarith))
  · obtain ⟨g, gs, eo⟩ : ∃ g gs, r ++ [l] = g :: gs := by
      cases r with
      | nil => exact ⟨l, [], rfl⟩
      | cons a r => exact ⟨a, r ++ [l], rfl⟩
    rw [eo] at ho
    obtain ⟨h1, η, h3, h4, h5, h6, h7, h8⟩ := FractionalOrder.predecessor_until h.part h.desc ho
    have hvars := (FractionalOrder.predecessor_back ho).2
    obtain ⟨hnd, hlt⟩ := h.nodup (g := g) (by rw [ho]; simp)
    have hle : ∀ i < n, η ≤ Int.fract (v i) := by
      intro i hi
      by_cases hig : i ∈ g
      · exact (h5 i hig).ge
      · exact (h6 i (by rw [h.size]; exact hi) hig).le
    have hS : L.predecessor.Of n fun i => v i - η := by
      refine h.pred_of ?_ (by rw [hvars]; exact hnd) (by rw [hvars]; exact hlt) h8
      rw [hvars]
      refine region_step growBounds h.pos h.dim h.region hnd hlt η ?_ ?_
      · intro i hi
        have hpos := h1 i (by rw [h.size]; exact hlt i hi)
        have hb := between_of_fract (x := v i) (e := 0) hpos (by linarith) (by
          have := Int.fract_lt_one (v i); linarith)
        have e1 : v i - η = ((⌊v i⌋ : ℤ) : ℚ) := by
          have := Int.floor_add_fract (v i); have := h5 i hi; linarith
        have := growBounds_open (n := -⌊v i⌋ - 1) (x := -v i) (by push_cast; linarith [hb.1.2])
          (by push_cast; linarith [hb.1.1])
        rw [neg_neg] at this
        rw [this, e1]
        have e2 : ((-⌊v i⌋ - 1 + 1 : ℤ) : ℚ) = -((⌊v i⌋ : ℤ) : ℚ) := by push_cast; ring
        rw [e2, neg_neg]
      · intro i hi hil
        have hpos := h1 i (by rw [h.size]; exact hi)
        have := h6 i (by rw [h.size]; exact hi) hil
        have := Int.fract_lt_one (v i)
        rw [sub_eq_add_neg]
        exact reg_congr (Or.inr ⟨_, between_of_fract hpos (by linarith) (by linarith)⟩)
    refine ⟨η, h3, hS, ?_⟩
    intro e he0 he1
    rcases eq_or_lt_of_le he1 with rfl | he1
    · exact Or.inr hS
    · left
      refine ⟨h.pos, h.word, h.dim, h.diag, ?_, h.size, h.part, h7 e he0 he1⟩
      have hr := region_step (fun a b => (a, b)) h.pos h.dim h.region (vars := []) (by simp) (by simp) e (by simp) (by
        intro i hi _
        have hpos := h1 i (by rw [h.size]; exact hi)
        have := hle i hi
        have := Int.fract_lt_one (v i)
        rw [sub_eq_add_neg]
        exact reg_congr (Or.inr ⟨_, between_of_fract hpos (by linarith) (by linarith)⟩))
      simpa [endPairs, updatePairs] using hr

/-- Adding an action in front. -/
theorem Of.predecessorAction {L : BackwardRegional} {n : ℕ} {v : ℕ → ℚ} (h : L.Of n v) (a : Action) :
    (L.predecessorAction a).Of (n + 1) fun i => if i = 0 then 0 else v (i - 1) := by
  have hd := h.dim
  have hp := h.pos
  have e0 : reg (0 : ℚ) = .fin 0 true := by have := reg_int 0; simpa using this
  set v' : ℕ → ℚ := fun i => if i = 0 then 0 else v (i - 1) with hv'
  set s : ℕ → ℕ := fun i => if i = 0 then 0 else if i = 1 then 1 else i - 1 with hs
  have hW : ∀ i, W (n + 1) v' i = W n v (s i) := by
    intro i
    match i with
    | 0 => simp [W, hv', hs]; omega
    | 1 => simp [W, hs]
    | 2 => simp [W, hv', hs]
    | i + 3 => simp [W, hv', hs]
  have hsl : ∀ i < n + 2, s i < n + 1 := by
    intro i hi; simp only [hs]; split
    · omega
    · split <;> omega
  refine ⟨by omega, ?_, ?_, ?_, ?_, ?_, h.part.extendZero, ?_⟩
  · simp [BackwardRegional.predecessorAction, h.word]
  · simp [BackwardRegional.predecessorAction, extendZero, hd]
  · intro i hi
    simp only [BackwardRegional.predecessorAction, extendZero, hd] at hi ⊢
    by_cases h0 : i = 0
    · simp [h0]
    · rw [if_neg (by omega), if_neg (by omega), if_neg (by omega)]
      exact h.diag _ (by rw [hd]; exact hsl i hi)
  · intro i hi j hj hij
    simp only [BackwardRegional.predecessorAction, extendZero, hd] at hi hj ⊢
    rw [if_neg (by omega), hW, hW]
    by_cases h12 : i = 1 ∧ j = 2
    · rw [if_pos h12, h12.1, h12.2]; simp [hs, e0]
    · rw [if_neg h12]
      by_cases h21 : i = 2 ∧ j = 1
      · rw [if_pos h21, h21.1, h21.2]; simp [hs, e0]
      · rw [if_neg h21]
        have hne : s i ≠ s j := by
          simp only [hs]; split <;> split <;> (try split) <;> (try split) <;> omega
        exact h.region _ (by rw [hd]; exact hsl i hi) _ (by rw [hd]; exact hsl j hj) hne
  · show L.frac.size + 1 = n + 1
    rw [h.size]
  · obtain ⟨qs, h1, h2⟩ := h.desc
    obtain ⟨g, gs, ho⟩ := h.part.order_eq
    refine ⟨qs, h1, ?_⟩
    show List.Forall₂ _ L.frac.extendZero.order _
    unfold FractionalOrder.extendZero
    simp only [ho, List.map_cons, List.headD_cons, List.tail_cons]
    rw [ho] at h2
    obtain ⟨h3, h4⟩ := List.forall₂_cons.1 h2
    refine List.Forall₂.cons ?_ ?_
    · intro i hi
      rcases List.mem_cons.1 hi with rfl | hi
      · simp [hv']
      · obtain ⟨j, hj, rfl⟩ := List.mem_map.1 hi
        have := h3 j hj
        simpa [hv'] using this
    · rw [List.forall₂_map_left_iff]
      refine h4.imp fun g q hq i hi => ?_
      obtain ⟨j, hj, rfl⟩ := List.mem_map.1 hi
      have := hq j hj
      simpa [hv'] using this

theorem init_of : init.Of 1 fun _ => 0 := by
  have e0 : reg (0 : ℚ) = .fin 0 true := by have := reg_int 0; simpa using this
  refine ⟨by omega, rfl, rfl, ?_, ?_, rfl, FractionalOrder.init_partition, ?_⟩
  · intro i _
    show (0 : Bound) ≤ (Zone.zero 2).val i i
    exact le_refl _
  · intro i hi j hj hij
    show (Zone.zero 2).val i j = _
    have : ∀ k : ℕ, W 1 (fun _ => (0 : ℚ)) k = 0 := by
      intro k
      match k with
      | 0 => rfl
      | 1 => rfl
      | k + 2 => rfl
    rw [this, this, sub_zero, e0]; rfl
  · exact ⟨[], by simp, List.Forall₂.cons (by simp) List.Forall₂.nil⟩

/-- `-T_{0,i}` for the delays `d`. -/
def negT (d : List ℚ) (i : ℕ) : ℚ := -T d 0 i

theorem W_negT {d : List ℚ} {n : ℕ} (hn : 0 < n) (hl : d.length = n) {i : ℕ} (hi : i < n + 1) :
    W n (negT d) i = (accV d).ext i - accV d 0 := by
  match i with
  | 0 =>
    simp only [W, negT, ext_zero]
    rw [T_eq d (by omega), accV_ge d (i := n - 1 + 1) (by omega)]; ring
  | 1 => simp [W]
  | i + 2 =>
    simp only [W, negT, ext_succ]
    rw [T_eq d (by omega)]; ring

theorem Of.transfer {L : BackwardRegional} {n : ℕ} {v v' : ℕ → ℚ} (h : L.Of n v)
    (hs : L.cond.zone.Sat (W n v')) : L.Of n v' := by
  have hr := h.region.of_sat hs
  have hp := h.pos
  have e1 : ∀ i < n, reg (v i) = reg (v' i) := by
    intro i hi
    have a1 := h.region ((i + 2) % (n + 1)) (by rw [h.dim]; exact Nat.mod_lt _ (by omega)) 1 (by rw [h.dim]; omega)
      (by rw [end_eq hi]; split <;> omega)
    have a2 := hr ((i + 2) % (n + 1)) (by rw [h.dim]; exact Nat.mod_lt _ (by omega)) 1 (by rw [h.dim]; omega)
      (by rw [end_eq hi]; split <;> omega)
    rw [a1, W_end hi, W_end hi] at a2
    simpa [W] using a2
  have e2 : ∀ i < n, ∀ j < n, i ≠ j → reg (v i - v j) = reg (v' i - v' j) := by
    intro i hi j hj hij
    have hne : (i + 2) % (n + 1) ≠ (j + 2) % (n + 1) := fun e => hij (end_inj hi hj e)
    have a1 := h.region _ (by rw [h.dim]; exact Nat.mod_lt _ (by omega)) _
      (by rw [h.dim]; exact Nat.mod_lt _ (by omega)) hne
    have a2 := hr _ (by rw [h.dim]; exact Nat.mod_lt _ (by omega)) _
      (by rw [h.dim]; exact Nat.mod_lt _ (by omega)) hne
    rw [a1, W_end hi, W_end hi, W_end hj, W_end hj] at a2
    exact a2
  refine ⟨h.pos, h.word, h.dim, h.diag, hr, h.size, h.part, h.desc.transfer h.part ?_ ?_⟩
  · intro i hi
    rw [h.size] at hi
    exact ⟨reg_fract_zero (e1 i hi), reg_fract_zero (e1 i hi).symm⟩
  · intro i hi j hj
    rw [h.size] at hi hj
    by_cases hij : i = j
    · subst hij; simp
    · exact reg_fract_lt (e1 i hi) (e1 j hj) (e2 i hi j hj hij)

theorem Of.canonical {L : BackwardRegional} {n : ℕ} {v : ℕ → ℚ} (h : L.Of n v) : L.cond.Canonical :=
  canonical_of_isRegion (by rw [h.dim]; have := h.pos; omega) h.diag h.region

theorem Of.csize {L : BackwardRegional} {n : ℕ} {v : ℕ → ℚ} (h : L.Of n v) : L.cond.size = n := by
  unfold TimedCondition.size; rw [h.dim]; omega

/-- Membership is being a point of the region. -/
theorem Of.mem_iff {L : BackwardRegional} {n : ℕ} {v : ℕ → ℚ} (h : L.Of n v) (w : TimedWord) :
    L.toElementaryLanguage.Mem w ↔ w.word = L.word ∧ w.durations.length = n ∧ L.Of n (negT w.durations) := by
  have hp := h.pos
  unfold ElementaryLanguage.Mem
  rw [holds_iff_mem _ (by rw [h.dim]; omega) h.diag, h.csize]
  have hw : w.durations.length = n → (L.cond.zone.Mem (accV w.durations) ↔ L.cond.zone.Sat (W n (negT w.durations))) := by
    intro hl
    constructor
    · intro hm
      refine (Sat.shift hm (accV w.durations 0)).congr fun i hi => ?_
      rw [h.dim] at hi
      exact (W_negT hp hl hi).symm
    · intro hs
      refine (Sat.shift hs (-accV w.durations 0)).congr fun i hi => ?_
      rw [h.dim] at hi
      rw [W_negT hp hl hi]; ring
  constructor
  · rintro ⟨h1, h2, h3⟩; exact ⟨h1, h2, h.transfer ((hw h2).1 h3)⟩
  · rintro ⟨h1, h2, h3⟩; exact ⟨h1, h2, (hw h2).2 (h3.region.sat h3.diag)⟩

/-- A later start. -/
theorem negT_front (q δ : ℚ) (d : List ℚ) (i : ℕ) : negT ((q + δ) :: d) i = negT (q :: d) i - δ := by
  simp only [negT, T, List.drop_zero, Nat.sub_zero, List.take_succ_cons, List.sum_cons]
  ring

theorem predecessor_disjoint {L : BackwardRegional} {n : ℕ} {v : ℕ → ℚ} (h : L.Of n v) : ¬ L.predecessor.Of n v := by
  intro h'
  have := FractionalOrder.describes_unique h'.part h.part (by rw [h.size, h'.size]) h'.desc h.desc
  exact ForwardRegional.predecessor_ne h.part (by rw [h.size]; exact h.pos) this

end BackwardRegional
end LearnTA
