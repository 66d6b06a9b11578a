import Verif.Lemmas.ZADead
import Verif.Lemmas.Ta2zaSem
import Verif.Spec.Reconstruct

/-!
# Reconstruction of a timed word from a symbolic run
-/

namespace LearnTA

/-- The valuation of a list of clock values. -/
def listVal (l : List ℚ) : Valuation := fun i => l.getD i 0

theorem Resets.InOrder.noReadAfterWrite {r : Resets} (h : r.InOrder) : Zone.NoReadAfterWrite r := by
  obtain ⟨-, h2, -⟩ := h
  induction r with
  | nil => trivial
  | cons p r ih =>
    rw [List.pairwise_cons] at h2
    exact ⟨fun _ _ _ p' hp' => h2.1 p' hp', ih h2.2⟩

namespace Zone

theorem mem_congr {z : Zone} {v v' : Valuation} (h : ∀ i, i + 1 < z.dim → v i = v' i) (hv : z.Mem v) :
    z.Mem v' := by
  have e : ∀ i < z.dim, v'.ext i = v.ext i := by
    intro i hi
    cases i with
    | zero => rfl
    | succ i => exact (h i hi).symm
  intro i hi j hj
  rw [e i hi, e j hj]
  exact hv i hi j hj

theorem top_closed (n : ℕ) : (top n).Closed := by
  intro i _ j _ k _
  simp [top]

theorem top_mem (n : ℕ) (v : Valuation) : (top n).Mem v := by
  intro i _ j _
  simp [top]

@[simp] theorem tighten_dim' (z : Zone) (x y c) : (z.tighten x y c).dim = z.dim := by
  simp [tighten]

theorem pointFold_spec (n : ℕ) (l : List (ℚ × ℕ)) (hl : ∀ p ∈ l, p.2 < n) (u : Valuation)
    (hu : ∀ p ∈ l, u p.2 = p.1) (z : Zone) (hd : z.dim = n + 1) (hc : z.Closed) (hz : z.Mem u) :
    let z' := l.foldl (fun z p => (z.tighten (p.2 + 1) 0 (.fin p.1 true)).tighten 0 (p.2 + 1)
      (.fin (-p.1) true)) z
    z'.dim = n + 1 ∧ z'.Closed ∧ ∀ v, z'.Mem v ↔ z.Mem v ∧ ∀ p ∈ l, v p.2 = p.1 := by
  induction l generalizing z with
  | nil => exact ⟨hd, hc, by simp⟩
  | cons p l ih =>
    have hp := hl p (by simp)
    have up := hu p (by simp)
    simp only [List.foldl_cons]
    set z1 := z.tighten (p.2 + 1) 0 (.fin p.1 true) with hz1
    set z2 := z1.tighten 0 (p.2 + 1) (.fin (-p.1) true) with hz2
    have m1 : ∀ v, z1.Mem v ↔ z.Mem v ∧ v p.2 ≤ p.1 := by
      intro v
      rw [hz1, Mem, tighten_sat _ _ _ (by omega) (by omega)]
      simp [Mem]
    have m2 : ∀ v, z2.Mem v ↔ z.Mem v ∧ v p.2 = p.1 := by
      intro v
      rw [hz2, Mem, tighten_sat _ _ _ (by rw [hz1]; simp; omega) (by rw [hz1]; simp; omega)]
      have := m1 v
      simp only [Mem] at this
      rw [this]
      simp only [ext_zero, ext_succ, Bound.sat_true]
      constructor
      · rintro ⟨⟨h1, h2⟩, h3⟩; exact ⟨h1, by linarith⟩
      · rintro ⟨h1, h2⟩; exact ⟨⟨h1, h2.le⟩, by linarith⟩
    have d1 : z1.dim = n + 1 := by rw [hz1]; simpa using hd
    have d2 : z2.dim = n + 1 := by rw [hz2]; simpa using d1
    have c1 : z1.Closed := tighten_closed z hc _ _ (by omega) (by omega) (by omega) _ u
      ((m1 u).2 ⟨hz, up.le⟩)
    have c2 : z2.Closed := tighten_closed z1 c1 _ _ (by omega) (by omega) (by omega) _ u
      ((m2 u).2 ⟨hz, up⟩)
    obtain ⟨a1, a2, a3⟩ := ih (fun q hq => hl q (by simp [hq])) (fun q hq => hu q (by simp [hq]))
      z2 d2 c2 ((m2 u).2 ⟨hz, up⟩)
    refine ⟨a1, a2, fun v => ?_⟩
    rw [a3, m2]
    simp [and_assoc]

theorem point_spec (vs : List ℚ) : (point vs).dim = vs.length + 1 ∧ (point vs).Closed ∧
    ∀ v, (point vs).Mem v ↔ ∀ i < vs.length, v i = listVal vs i := by
  have hz : ∀ p ∈ vs.zipIdx, p.2 < vs.length ∧ listVal vs p.2 = p.1 := by
    rintro ⟨a, i⟩ hp
    rw [List.mem_zipIdx_iff_getElem?] at hp
    obtain ⟨hi, e⟩ := List.getElem?_eq_some_iff.1 hp
    refine ⟨hi, ?_⟩
    simp only [listVal]
    rw [List.getD_eq_getElem?_getD, hp]; rfl
  obtain ⟨a1, a2, a3⟩ := pointFold_spec vs.length vs.zipIdx (fun p hp => (hz p hp).1) (listVal vs)
    (fun p hp => (hz p hp).2) (top (vs.length + 1)) rfl (top_closed _) (top_mem _ _)
  refine ⟨a1, a2, fun v => ?_⟩
  rw [point, a3]
  constructor
  · rintro ⟨-, h⟩ i hi
    have hm : (listVal vs i, i) ∈ vs.zipIdx := by
      rw [List.mem_zipIdx_iff_getElem?, listVal, List.getD_eq_getElem?_getD,
        List.getElem?_eq_getElem hi]; rfl
    exact h _ hm
  · intro h
    refine ⟨top_mem _ _, fun p hp => ?_⟩
    rw [h _ (hz p hp).1]; exact (hz p hp).2

/-! ### `revertResets` -/

theorem reverseAssignment_spec (r : Resets) (x : ℕ) :
    (∀ y, reverseAssignment r x = some y → (y, .clock x) ∈ r ∧ y ≠ x) ∧
    (reverseAssignment r x = none → ∀ y, (y, .clock x) ∈ r → y = x) := by
  unfold reverseAssignment
  induction r using List.reverseRecOn with
  | nil => simp
  | append_singleton r p ih =>
    obtain ⟨i1, i2⟩ := ih
    rw [List.foldl_append, List.foldl_cons, List.foldl_nil]
    rcases p with ⟨x', q | y'⟩
    · simp only
      refine ⟨fun y h => ?_, fun h y hy => ?_⟩
      · obtain ⟨a, b⟩ := i1 y h
        exact ⟨by simp [a], b⟩
      · refine i2 h y ?_
        simpa using hy
    · simp only
      by_cases hc : y' = x ∧ x' ≠ y'
      · rw [if_pos hc]
        obtain ⟨rfl, hne⟩ := hc
        refine ⟨fun y h => ?_, fun h => by cases h⟩
        simp only [Option.some.injEq] at h
        subst h
        exact ⟨by simp, hne⟩
      · rw [if_neg hc]
        refine ⟨fun y h => ?_, fun h y hy => ?_⟩
        · obtain ⟨a, b⟩ := i1 y h
          exact ⟨by simp [a], b⟩
        · simp only [List.mem_append, List.mem_singleton, Prod.mk.injEq, Upd.clock.injEq] at hy
          rcases hy with hy | ⟨rfl, rfl⟩
          · exact i2 h y hy
          · by_contra hne
            exact hc ⟨rfl, hne⟩

@[simp] theorem revertOne_dim (r : Resets) (z : Zone) (x : ℕ) : (revertOne r z x).dim = z.dim := by
  unfold revertOne; split <;> simp

theorem revertOne_spec (r : Resets) (z : Zone) (hc : z.Closed) (hne : ∃ u, z.Mem u) (x : ℕ)
    (hx : x + 1 < z.dim)
    (hy : ∀ y, reverseAssignment r x = some y → y + 1 < z.dim) :
    (revertOne r z x).Closed ∧ ∀ v, (revertOne r z x).Mem v ↔ (∃ q, z.Mem (Function.update v x q)) ∧
      ∀ y, reverseAssignment r x = some y → v x = v y := by
  have key : ∀ v, (revertOne r z x).Mem v ↔ (∃ q, z.Mem (Function.update v x q)) ∧
      ∀ y, reverseAssignment r x = some y → v x = v y := by
    intro v
    unfold revertOne
    cases hr : reverseAssignment r x with
    | none => simp only [canonize_mem, unconstrain_mem z hc hne]; simp
    | some y =>
      have hyx := ((reverseAssignment_spec r x).1 y hr).2
      have hy' := hy y hr
      simp only [canonize_mem]
      have := set_eq_sat (z.unconstrain x) (x + 1) (y + 1) (by simp; omega) (by simp; omega)
        (by omega) 0 v.ext (by simp [unconstrain]) (by simp [unconstrain])
      rw [neg_zero] at this
      rw [Mem, this]
      have h2 := unconstrain_mem z hc hne x v
      rw [Mem] at h2
      rw [h2]
      simp [sub_eq_zero]
  refine ⟨?_, key⟩
  obtain ⟨u, hu⟩ := hne
  have : ∃ v, (revertOne r z x).Mem v := by
    cases hr : reverseAssignment r x with
    | none =>
      exact ⟨u, (key u).2 ⟨⟨u x, by simpa using hu⟩, by simp [hr]⟩⟩
    | some y =>
      have hyx := ((reverseAssignment_spec r x).1 y hr).2
      refine ⟨Function.update u x (u y), (key _).2 ⟨⟨u x, by simpa using hu⟩, ?_⟩⟩
      intro y' h
      rw [hr] at h
      simp only [Option.some.injEq] at h
      subst h
      simp [Function.update_of_ne hyx]
  obtain ⟨v, hv⟩ := this
  unfold revertOne at hv ⊢
  split <;> rename_i h <;> rw [h] at hv <;> exact canonize_closed_of_mem ((canonize_mem _ _).1 hv)

theorem revert_spec (post : List ℚ) (r : Resets) (hr : ∀ p ∈ r, UpdOK post.length p)
    (ho : r.InOrder) :
    ((point post).revertResets r).dim = post.length + 1 ∧ ((point post).revertResets r).Closed ∧
    ∀ v, ((point post).revertResets r).Mem v ↔ ∀ i < post.length,
      (i ∉ r.map Prod.fst → v i = listVal post i) ∧
      (i ∈ r.map Prod.fst → ∀ y, reverseAssignment r i = some y → v i = listVal post y) := by
  obtain ⟨p1, p2, p3⟩ := point_spec post
  have key : ∀ r1 r2 : Resets, r = r1 ++ r2 →
      let z := (r2.map Prod.fst).reverse.foldl (revertOne r) (point post)
      z.dim = post.length + 1 ∧ z.Closed ∧ ∀ v, z.Mem v ↔ ∀ i < post.length,
        (i ∉ r2.map Prod.fst → v i = listVal post i) ∧
        (i ∈ r2.map Prod.fst → ∀ y, reverseAssignment r i = some y → v i = listVal post y) := by
    intro r1 r2
    induction r2 generalizing r1 with
    | nil => intro _; exact ⟨p1, p2, fun v => by simp [p3]⟩
    | cons p r2 ih =>
      intro e
      obtain ⟨i1, i2, i3⟩ := ih (r1 ++ [p]) (by simp [e])
      simp only [List.map_cons, List.reverse_cons, List.foldl_append, List.foldl_cons, List.foldl_nil]
      set z := (r2.map Prod.fst).reverse.foldl (revertOne r) (point post) with hz
      obtain ⟨o1, o2, o3⟩ := ho
      have hpx := (hr p (by simp [e])).1
      have hnd : p.1 ∉ r2.map Prod.fst := by
        rw [e, List.map_append, List.map_cons, List.nodup_append] at o1
        exact (List.nodup_cons.1 o1.2.1).1
      -- the clock that read `p.1` has not been reverted yet
      have hy : ∀ y, reverseAssignment r p.1 = some y →
          y < post.length ∧ y ≠ p.1 ∧ y ∉ r2.map Prod.fst := by
        intro y hy
        obtain ⟨h1, h2⟩ := (reverseAssignment_spec r p.1).1 y hy
        have h3 := (hr _ h1).1
        refine ⟨h3, h2, fun hin => ?_⟩
        rw [e] at h1 o1 o2
        rw [List.pairwise_append, List.pairwise_cons] at o2
        rcases List.mem_append.1 h1 with h | h
        · rw [List.map_append, List.nodup_append] at o1
          exact o1.2.2 _ (List.mem_map_of_mem h) _ (by simp [hin]) rfl
        · rcases List.mem_cons.1 h with h | h
          · exact h2 (by rw [← h])
          · exact o2.2.1.1 _ h rfl
      have hne : ∃ u, z.Mem u := by
        refine ⟨fun i => if i ∈ r2.map Prod.fst then
          (match reverseAssignment r i with | some y => listVal post y | none => 0)
          else listVal post i, (i3 _).2 fun i _ => ⟨fun h => by simp only [h, if_false], fun h y hy => ?_⟩⟩
        simp only [h, if_true, hy]
      obtain ⟨k1, k2⟩ := revertOne_spec r z i2 hne p.1 (by rw [i1]; omega)
        (fun y h => by rw [i1]; have := (hy y h).1; omega)
      refine ⟨by rw [revertOne_dim, i1], k1, fun v => ?_⟩
      rw [k2]
      constructor
      · rintro ⟨⟨q, hq⟩, htie⟩ i hi
        have h3 := (i3 _).1 hq
        refine ⟨fun hin => ?_, fun hin y hy' => ?_⟩
        · simp only [List.mem_cons, not_or] at hin
          have := (h3 i hi).1 hin.2
          rwa [Function.update_of_ne hin.1] at this
        · by_cases hip : i = p.1
          · subst hip
            obtain ⟨y1, y2, y3⟩ := hy y hy'
            rw [htie y hy']
            have := (h3 y y1).1 y3
            rwa [Function.update_of_ne y2] at this
          · have hin' : i ∈ r2.map Prod.fst := by
              simp only [List.mem_cons] at hin
              exact hin.resolve_left hip
            have := (h3 i hi).2 hin' y hy'
            rwa [Function.update_of_ne hip] at this
      · intro h
        refine ⟨⟨listVal post p.1, (i3 _).2 fun i hi => ?_⟩, fun y hy' => ?_⟩
        · by_cases hip : i = p.1
          · subst hip
            exact ⟨fun _ => by simp, fun hin => absurd hin hnd⟩
          · rw [Function.update_of_ne hip]
            refine ⟨fun hin => (h i hi).1 (by simp [hin, hip]),
              fun hin => (h i hi).2 (by simp [hin])⟩
        · obtain ⟨y1, y2, y3⟩ := hy y hy'
          rw [(h p.1 hpx).2 (by simp) y hy', (h y y1).1 (by simp [y2, y3])]
  exact key [] r rfl

end Zone

namespace Zone

theorem apply_none {r : Resets} (ho : (r.map Prod.fst).Nodup) {x : ℕ} (h : x ∉ r.map Prod.fst)
    (v : Valuation) : r.apply v x = v x := by
  have : r.lookup x = none := by
    rw [List.lookup_eq_none_iff]
    intro p hp
    simp only [bne_iff_ne, ne_eq]
    rintro rfl
    exact h (List.mem_map_of_mem hp)
  rw [apply_lookup r ho, this]

theorem apply_some {r : Resets} (ho : (r.map Prod.fst).Nodup) {x : ℕ} {e : Upd} (h : (x, e) ∈ r)
    (v : Valuation) : r.apply v x = e.eval v := by
  have : r.lookup x = some e := by
    clear v
    induction r with
    | nil => cases h
    | cons p r ih =>
      rcases p with ⟨a, e'⟩
      simp only [List.map_cons, List.nodup_cons] at ho
      rw [List.lookup_cons]
      rcases List.mem_cons.1 h with h' | h'
      · cases h'; simp
      · have : x ≠ a := by
          rintro rfl
          exact ho.1 (List.mem_map_of_mem (f := Prod.fst) h')
        have hb : (x == a) = false := by simpa using this
        rw [hb]
        exact ih ho.2 h'
  rw [apply_lookup r ho, this]

/-- Reverting the updates gives exactly the valuations they lead from, if there is one at all. -/
theorem revert_preimage (post : List ℚ) (r : Resets) (hr : ∀ p ∈ r, UpdOK post.length p)
    (ho : r.InOrder) (u0 : Valuation) (h0 : ∀ i < post.length, r.apply u0 i = listVal post i)
    (u : Valuation) : ((Zone.point post).revertResets r).Mem u ↔
      ∀ i < post.length, r.apply u i = listVal post i := by
  rw [(Zone.revert_spec post r hr ho).2.2]
  obtain ⟨o1, o2, o3⟩ := ho
  constructor
  · intro h i hi
    by_cases hk : i ∈ r.map Prod.fst
    · obtain ⟨⟨i', e⟩, hm, rfl⟩ := List.mem_map.1 hk
      simp only at hi hk ⊢
      rw [apply_some o1 hm, ← h0 i' hi, apply_some o1 hm]
      cases e with
      | const q => rfl
      | clock y =>
        simp only [Upd.eval]
        have hy : y < post.length := (hr _ hm).2
        by_cases hyk : y ∈ r.map Prod.fst
        · cases hra : reverseAssignment r y with
          | none =>
            have := (reverseAssignment_spec r y).2 hra i' hm
            exact absurd (by rw [this]) (o3 _ hm)
          | some x' =>
            have h1 := ((reverseAssignment_spec r y).1 x' hra).1
            rw [(h y hy).2 hyk x' hra, ← h0 x' (hr _ h1).1, apply_some o1 h1]
            rfl
        · rw [(h y hy).1 hyk, ← h0 y hy, apply_none o1 hyk]
    · rw [apply_none o1 hk]
      exact (h i hi).1 hk
  · intro h i hi
    refine ⟨fun hk => ?_, fun hk y hy => ?_⟩
    · rw [← h i hi, apply_none o1 hk]
    · have h1 := ((reverseAssignment_spec r i).1 y hy).1
      rw [← h y (hr _ h1).1, apply_some o1 h1]
      rfl

/-! ### Tight bounds -/

theorem fixed_diff {z : Zone} (hc : z.Closed) (hd : z.DiagNN) {i j : ℕ} (hi : i < z.dim)
    (hj : j < z.dim) (hij : i ≠ j) (k : ℚ) (h : ∀ v, z.Mem v → v.ext i - v.ext j = k) :
    z.val i j = .fin k true := by
  obtain ⟨v, hv⟩ := closed_nonempty z hc hd
  have h1 := hv i hi j hj
  rw [h v hv] at h1
  cases hb : z.val i j with
  | inf =>
    obtain ⟨u, hu, hle⟩ := realize_above z hc hd hi hj hij (k + 1) (by rw [hb]; trivial)
    rw [h u hu] at hle
    linarith
  | fin c s =>
    rw [hb] at h1
    have hkc : ¬ k < c := by
      intro hlt
      obtain ⟨u, hu, hle⟩ := realize_above z hc hd hi hj hij ((k + c) / 2) (by
        rw [hb]
        cases s <;> simp <;> linarith)
      rw [h u hu] at hle
      linarith
    cases s with
    | true =>
      simp only [Bound.sat_true] at h1
      have : k = c := by linarith
      rw [this]
    | false =>
      simp only [Bound.sat_false] at h1
      exact absurd h1 hkc

theorem sample_length (z : Zone) : z.sample.length = z.dim - 1 := by
  unfold sample
  have : ∀ n, ((List.range n).foldl (fun vs _ => vs ++ [sampleClock z.canonize vs]) []).length = n := by
    intro n
    induction n with
    | zero => rfl
    | succ n ih =>
      rw [List.range_succ, List.foldl_append, List.foldl_cons, List.foldl_nil, List.length_append, ih]
      rfl
  exact this _

/-- Sampling from a line in the direction of time is right. -/
theorem sample_line (z : Zone) (hne : ∃ v, z.Mem v)
    (hnn : ∀ v, z.Mem v → ∀ i, i + 1 < z.dim → 0 ≤ v i) (w : Valuation)
    (hl : ∀ v, z.Mem v → ∃ d, ∀ i, i + 1 < z.dim → v i = w i + d) : z.Mem (listVal z.sample) := by
  refine (sample_mem z hne hnn ?_).1
  intro i j hji hi _ _ c s hb
  obtain ⟨v, hv⟩ := hne
  have hc := canonize_closed_of_mem hv
  have hd : z.canonize.DiagNN := ((canonize_mem z v).2 hv).diagNN
  have := fixed_diff hc hd (i := j + 1) (j := i + 1) (by rw [canonize_dim]; omega)
    (by rw [canonize_dim]; omega) (by omega) (w j - w i) (by
      intro u hu
      obtain ⟨d, hud⟩ := hl u ((canonize_mem z u).1 hu)
      simp only [ext_succ]
      rw [hud j (by omega), hud i hi]; ring)
  rw [this] at hb
  cases hb
  rfl

end Zone

namespace SymRun

open Zone Ta2za

theorem tightenChecked_spec {n : ℕ} (g : Guard) (hg : ∀ c ∈ g, c.x < n) (z z' : Zone)
    (hd : z.dim = n + 1) (hc : z.Closed) (hne : ∃ v, z.Mem v) (h : tightenChecked z g = some z') :
    z'.dim = n + 1 ∧ z'.Closed ∧ (∃ v, z'.Mem v) ∧ ∀ v, z'.Mem v ↔ z.Mem v ∧ g.Holds v := by
  induction g generalizing z with
  | nil =>
    simp only [tightenChecked, Option.some.injEq] at h
    subst h
    exact ⟨hd, hc, hne, fun v => by simp [Guard.Holds]⟩
  | cons c g ih =>
    simp only [tightenChecked] at h
    split at h
    · rename_i hs
      have hcx := hg c (by simp)
      obtain ⟨w, hw⟩ := hne
      have hne' : ∃ v, (z.tightenC c).Mem v := by
        obtain ⟨x, o, k⟩ := c
        simp only at hcx
        cases o <;> simp only [tightenC] at hs ⊢ <;>
          exact tighten_two_cycle z hc hw.diagNN _ _ (by omega) (by omega) (by omega) _ hs
      obtain ⟨w', hw'⟩ := hne'
      obtain ⟨a1, a2, a3, a4⟩ := ih (fun c' h' => hg c' (by simp [h'])) (z.tightenC c)
        (by rw [tightenC_dim, hd]) (tightenC_closed z hc c (by omega) w' hw') ⟨w', hw'⟩ h
      refine ⟨a1, a2, a3, fun v => ?_⟩
      rw [a4, tightenC_sat z c (by omega), Guard.holds_cons, and_assoc]
    · cases h

/-- The zones met in one step back, and what they mean. -/
theorem backStep_zones {n : ℕ} {z : Zone} {t : Trans} {post pv : List ℚ} {d : ℚ} (hz : z.dim = n + 1)
    (hp : post.length = n) (ht : TransOK n t) (ho : t.resets.InOrder)
    (h : backStep z t post = some (pv, d)) :
    ∃ zb tmp : Zone, zb.dim = n + 1 ∧ zb.Closed ∧ (∃ v, zb.Mem v) ∧
      (∀ v, zb.Mem v ↔ ((point post).revertResets t.resets).Mem v ∧ t.guard.Holds v) ∧
      tmp = zb.reverseElapse.inter z.canonize ∧ (∃ v, tmp.Mem v) ∧
      pv = (z.canonize.inter
        (point (zb.inter tmp.canonize.elapse).sample).reverseElapse).sample ∧
      d = (if pv.isEmpty then 0 else (zb.inter tmp.canonize.elapse).sample.headD 0 - pv.headD 0) := by
  unfold backStep at h
  simp only at h
  split at h
  · cases h
  · obtain ⟨r1, r2, r3⟩ := revert_spec post t.resets (by rw [hp]; exact ht.2) ho
    cases hc : tightenChecked ((point post).revertResets t.resets) t.guard with
    | none => rw [hc] at h; cases h
    | some zb =>
      rw [hc] at h
      simp only at h
      split at h
      · cases h
      · rename_i hs
        have hne : ∃ v, ((point post).revertResets t.resets).Mem v := by
          refine ⟨fun i => if i ∈ t.resets.map Prod.fst then
            (match reverseAssignment t.resets i with | some y => listVal post y | none => 0)
            else listVal post i, (r3 _).2 fun i _ =>
              ⟨fun h => by simp only [h, if_false], fun h y hy => ?_⟩⟩
          simp only [h, if_true, hy]
        obtain ⟨a1, a2, a3, a4⟩ := tightenChecked_spec t.guard ht.1 _ zb (by rw [r1, hp]) r2 hne hc
        simp only [Option.some.injEq, Prod.mk.injEq] at h
        obtain ⟨h1, h2⟩ := h
        refine ⟨zb, _, a1, a2, a3, a4, rfl, ?_, h1.symm, ?_⟩
        · exact (isSatisfiable_iff _).1 (by simpa using hs)
        · rw [← h2, ← h1]

/-- A step back succeeds only if the edge can be taken from the zone before it. -/
theorem backStep_feasible {n : ℕ} {z : Zone} {t : Trans} {post pv : List ℚ} {d : ℚ}
    (hz : z.dim = n + 1) (hp : post.length = n) (ht : TransOK n t) (ho : t.resets.InOrder)
    (h : backStep z t post = some (pv, d)) :
    pv.length = n ∧ ∃ p, z.Mem p ∧ ∃ d, 0 ≤ d ∧ t.guard.Holds (p.shift d) := by
  obtain ⟨zb, tmp, b1, b2, b3, b4, b5, ⟨p, hpm⟩, b7, -⟩ := backStep_zones hz hp ht ho h
  rw [b5, inter_mem _ _ (by simp [b1, hz]), canonize_mem] at hpm
  obtain ⟨-, d', hd', hm⟩ := (reverseElapse_mem zb b2 b3 p).1 hpm.1
  refine ⟨?_, p, hpm.2, d', hd', ((b4 _).1 hm).2⟩
  rw [b7, sample_length]
  simp [inter, hz]

/-- The zone after an edge, if the edge can be taken at all. -/
theorem postZone_spec {n : ℕ} {z : Zone} {t : Trans} (hz : z.dim = n + 1) (hc : z.Closed)
    (ht : TransOK n t) (ho : t.resets.InOrder)
    (hf : ∃ p, z.Mem p ∧ ∃ d, 0 ≤ d ∧ t.guard.Holds (p.shift d)) :
    (postZone z t).dim = n + 1 ∧ (postZone z t).Closed ∧ (∃ v, (postZone z t).Mem v) ∧
    ∀ v, (postZone z t).Mem v ↔ ∃ p, z.Mem p ∧ ∃ d, 0 ≤ d ∧ t.guard.Holds (p.shift d) ∧
      v = t.resets.apply (p.shift d) := by
  obtain ⟨p0, hp0, d0, hd0, hg0⟩ := hf
  have hgx : ∀ c ∈ t.guard, c.x + 1 < z.elapse.dim := fun c h => by
    have := ht.1 c h
    simp [hz]; omega
  have hel : ∀ v, z.elapse.Mem v ↔ ∃ p, z.Mem p ∧ ∃ d, 0 ≤ d ∧ v = p.shift d := by
    intro v
    rw [elapse_mem z hc ⟨p0, hp0⟩]
    constructor
    · rintro ⟨d, hd, h⟩
      exact ⟨_, h, d, hd, by funext x; simp [Valuation.shift]⟩
    · rintro ⟨p, h, d, hd, rfl⟩
      refine ⟨d, hd, ?_⟩
      have : (p.shift d).shift (-d) = p := by funext x; simp [Valuation.shift]
      rw [this]; exact h
  have m1 : ∀ v, (z.elapse.tightenG t.guard).Mem v ↔ z.elapse.Mem v ∧ t.guard.Holds v := fun v =>
    tightenG_mem _ _ hgx v
  have m0 : (z.elapse.tightenG t.guard).Mem (p0.shift d0) :=
    (m1 _).2 ⟨(hel _).2 ⟨p0, hp0, d0, hd0, rfl⟩, hg0⟩
  have c1 := tightenG_closed z.elapse (elapse_closed hc) t.guard hgx _ m0
  have d1 : (z.elapse.tightenG t.guard).dim = n + 1 := by rw [tightenG_dim]; exact hz
  obtain ⟨a1, a2, a3⟩ := applyResets_spec _ c1 t.resets (by rw [d1]; exact ht.2) ⟨_, m0⟩
  have hraw : NoReadAfterWrite t.resets := ho.noReadAfterWrite
  have m2 : ∀ v, (postZone z t).Mem v ↔ ∃ p, z.Mem p ∧ ∃ d, 0 ≤ d ∧ t.guard.Holds (p.shift d) ∧
      v = t.resets.apply (p.shift d) := by
    intro v
    rw [postZone, canonize_mem, a3]
    constructor
    · rintro ⟨u, hu, rfl⟩
      obtain ⟨h1, h2⟩ := (m1 u).1 hu
      obtain ⟨p, hp, d, hd, rfl⟩ := (hel u).1 h1
      exact ⟨p, hp, d, hd, h2, seqApply_eq_apply _ ho.1 hraw _⟩
    · rintro ⟨p, hp, d, hd, hg, rfl⟩
      exact ⟨_, (m1 _).2 ⟨(hel _).2 ⟨p, hp, d, hd, rfl⟩, hg⟩, (seqApply_eq_apply _ ho.1 hraw _).symm⟩
  have m3 := (m2 _).2 ⟨p0, hp0, d0, hd0, hg0, rfl⟩
  refine ⟨by rw [postZone, canonize_dim, a2, d1], ?_, ⟨_, m3⟩, m2⟩
  exact canonize_closed_of_mem ((canonize_mem _ _).1 m3)

/-- What has to be known about the samples taken in a step back. -/
def StepSampled (n : ℕ) (z : Zone) (t : Trans) : Prop :=
  ∀ post : List ℚ, post.length = n → (postZone z t).Mem (listVal post) →
    ∀ zb tmp : Zone, zb.dim = n + 1 → zb.Closed → (∃ v, zb.Mem v) →
      (∀ v, zb.Mem v ↔ ((point post).revertResets t.resets).Mem v ∧ t.guard.Holds v) →
      tmp = zb.reverseElapse.inter z.canonize → (∃ v, tmp.Mem v) →
      (zb.inter tmp.canonize.elapse).Mem (listVal (zb.inter tmp.canonize.elapse).sample)

theorem holds_congr {n : ℕ} {g : Guard} (hg : ∀ c ∈ g, c.x < n) {v v' : Valuation}
    (h : ∀ i < n, v i = v' i) (hv : g.Holds v) : g.Holds v' := by
  intro c hc
  have := hv c hc
  have e := h c.x (hg c hc)
  obtain ⟨x, o, k⟩ := c
  simp only at e
  cases o <;> simp only [Constraint.Holds] at this ⊢ <;> rw [← e] <;> exact this

theorem apply_congr {n : ℕ} {r : Resets} (hr : ∀ p ∈ r, UpdOK n p) (ho : (r.map Prod.fst).Nodup)
    {v v' : Valuation} (h : ∀ i < n, v i = v' i) : ∀ i < n, r.apply v i = r.apply v' i := by
  intro i hi
  by_cases hk : i ∈ r.map Prod.fst
  · obtain ⟨⟨i', e⟩, hm, rfl⟩ := List.mem_map.1 hk
    rw [apply_some ho hm, apply_some ho hm]
    cases e with
    | const q => rfl
    | clock y => exact h y (hr _ hm).2
  · rw [apply_none ho hk, apply_none ho hk]; exact h i hi

/-- One step back is right. -/
theorem backStep_ok {n : ℕ} {z : Zone} {t : Trans} {post pv : List ℚ} {d : ℚ}
    (hz : z.dim = n + 1) (hc : z.Closed) (hnn : ∀ v, z.Mem v → ∀ i < n, 0 ≤ v i)
    (hp : post.length = n) (ht : TransOK n t) (ho : t.resets.InOrder) (hS : StepSampled n z t)
    (hpost : (postZone z t).Mem (listVal post)) (h : backStep z t post = some (pv, d)) :
    z.Mem (listVal pv) ∧ 0 ≤ d ∧ t.guard.Holds ((listVal pv).shift d) ∧
      ∀ i < n, t.resets.apply ((listVal pv).shift d) i = listVal post i := by
  have hf := (backStep_feasible hz hp ht ho h).2
  obtain ⟨zb, tmp, b1, b2, b3, b4, b5, b6, b7, b8⟩ := backStep_zones hz hp ht ho h
  have hvb := hS post hp hpost zb tmp b1 b2 b3 b4 b5 b6
  set vb := (zb.inter tmp.canonize.elapse).sample with hvbdef
  have htd : tmp.dim = n + 1 := by rw [b5]; simp [inter, b1]
  have hvl : vb.length = n := by rw [hvbdef, sample_length]; simp [inter, b1]
  rw [inter_mem _ _ (by simp [b1, htd])] at hvb
  obtain ⟨hv1, hv2⟩ := hvb
  obtain ⟨w, hw⟩ := b6
  obtain ⟨e, he, hpe⟩ := (elapse_mem _ (canonize_closed_of_mem hw) ⟨w, (canonize_mem _ _).2 hw⟩ _).1 hv2
  rw [canonize_mem, b5, inter_mem _ _ (by simp [b1, hz]), canonize_mem] at hpe
  -- the segment of possible valuations before
  obtain ⟨q1, q2, q3⟩ := point_spec vb
  have hpt : ∃ v, (point vb).Mem v := ⟨_, (q3 _).2 fun _ _ => rfl⟩
  have hseg : ∀ v, (z.canonize.inter (point vb).reverseElapse).Mem v ↔ z.Mem v ∧
      (∀ i < n, 0 ≤ v i) ∧ ∃ d, 0 ≤ d ∧ ∀ i < n, v i + d = listVal vb i := by
    intro v
    rw [inter_mem _ _ (by simp [q1, hvl, hz]), canonize_mem, reverseElapse_mem _ q2 hpt]
    rw [q1, hvl]
    constructor
    · rintro ⟨h1, h2, d, hd, h3⟩
      exact ⟨h1, fun i hi => h2 i (by omega), d, hd, fun i hi => (q3 _).1 h3 i (by omega)⟩
    · rintro ⟨h1, h2, d, hd, h3⟩
      exact ⟨h1, fun i hi => h2 i (by omega), d, hd, (q3 _).2 fun i hi => h3 i (by omega)⟩
  have hsd : (z.canonize.inter (point vb).reverseElapse).dim = n + 1 := by simp [inter, hz]
  have hsm := sample_line (z.canonize.inter (point vb).reverseElapse)
    ⟨_, (hseg _).2 ⟨hpe.2, fun i hi => hnn _ hpe.2 i hi, e, he, fun i _ => by
      simp [Valuation.shift]⟩⟩
    (fun v hv i hi => ((hseg v).1 hv).2.1 i (by omega)) (listVal vb) (by
      intro v hv
      obtain ⟨-, -, d, -, h3⟩ := (hseg v).1 hv
      exact ⟨-d, fun i hi => by have := h3 i (by omega); linarith⟩)
  rw [← b7] at hsm
  obtain ⟨s1, s2, d', hd', s3⟩ := (hseg _).1 hsm
  have hpl : pv.length = n := by rw [b7, sample_length, hsd]; rfl
  -- the delay read off from the first clock
  have hdd : 0 ≤ d ∧ ∀ i < n, listVal pv i + d = listVal vb i := by
    rcases Nat.eq_zero_or_pos n with h0 | h0
    · have : pv = [] := List.length_eq_zero_iff.1 (by omega)
      rw [this] at b8
      simp only [List.isEmpty_nil, if_true] at b8
      exact ⟨b8.ge, fun i hi => by omega⟩
    · have hne : pv.isEmpty = false := by
        cases pv with
        | nil => simp at hpl; omega
        | cons _ _ => rfl
      rw [hne] at b8
      simp only [Bool.false_eq_true, if_false] at b8
      have e1 : vb.headD 0 = listVal vb 0 := by cases vb <;> rfl
      have e2 : pv.headD 0 = listVal pv 0 := by cases pv <;> rfl
      have : d = d' := by rw [b8, e1, e2, ← s3 0 h0]; ring
      rw [this]; exact ⟨hd', s3⟩
  have hgv := (b4 _).1 hv1
  have hsh : ∀ i < n, listVal vb i = (listVal pv).shift d i := fun i hi => (hdd.2 i hi).symm
  refine ⟨s1, hdd.1, holds_congr ht.1 hsh hgv.2, ?_⟩
  obtain ⟨p, -, dp, -, -, ep⟩ := ((postZone_spec hz hc ht ho hf).2.2.2 _).1 hpost
  have := (revert_preimage post t.resets (by rw [hp]; exact ht.2) ho (p.shift dp)
    (fun i _ => by rw [← ep]) _).1 hgv.1
  intro i hi
  rw [← this i (by omega)]
  exact (apply_congr ht.2 ho.1 hsh i hi).symm

end SymRun
end LearnTA
