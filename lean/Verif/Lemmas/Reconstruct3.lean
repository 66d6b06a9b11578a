import Verif.Lemmas.Reconstruct2
import Verif.Lemmas.Relax

/-!
# Reconstruction of a timed word: the samples need not be in the zones, but they are if the
reconstruction succeeds
-/

namespace LearnTA
namespace SymRun
open Zone Ta2za

/-- The updates have a preimage of `a` if they have preimages of a point and of the point half way. -/
theorem apply_mid {r : Resets} (hn : (r.map Prod.fst).Nodup) (u w : Valuation) (i : ℕ) :
    r.apply (fun k => 2 * u k - w k) i = 2 * r.apply u i - r.apply w i := by
  by_cases hk : i ∈ r.map Prod.fst
  · obtain ⟨⟨i', e⟩, hm, rfl⟩ := List.mem_map.1 hk
    rw [apply_some hn hm, apply_some hn hm, apply_some hn hm]
    cases e with
    | const q => simp only [Upd.eval]; ring
    | clock y => rfl
  · rw [apply_none hn hk, apply_none hn hk, apply_none hn hk]

/-- A point of the relaxed zone after the edge from which a step back succeeds is in the zone
itself. -/
theorem backStep_post {n : ℕ} {z : Zone} {t : Trans} {post pv : List ℚ} {d : ℚ}
    (hz : z.dim = n + 1) (hc : z.Closed) (hp : post.length = n) (ht : TransOK n t)
    (ho : t.resets.InOrder) (hpost : (postZone z t).relax.Mem (listVal post))
    (h : backStep z t post = some (pv, d)) :
    (postZone z t).Mem (listVal post) := by
  have hf := (backStep_feasible hz hp ht ho h).2
  obtain ⟨zb, tmp, b1, b2, b3, b4, b5, ⟨p, hpm⟩, b7, b8⟩ := backStep_zones hz hp ht ho h
  obtain ⟨a1, a2, ⟨w, hw⟩, a4⟩ := postZone_spec hz hc ht ho hf
  have hy := relax_mid hpost hw
  obtain ⟨p1, -, d1, -, -, e1⟩ := (a4 _).1 hw
  obtain ⟨p2, -, d2, -, -, e2⟩ := (a4 _).1 hy
  have hpre : ∀ i < post.length, t.resets.apply
      (fun k => 2 * p2.shift d2 k - p1.shift d1 k) i = listVal post i := by
    intro i _
    rw [apply_mid ho.1, ← e2, ← e1]; ring
  rw [b5, inter_mem _ _ (by simp [b1, hz]), canonize_mem] at hpm
  obtain ⟨-, d', hd', hm⟩ := (reverseElapse_mem zb b2 b3 p).1 hpm.1
  have hm' := (b4 _).1 hm
  have := (revert_preimage post t.resets (by rw [hp]; exact ht.2) ho _ hpre _).1 hm'.1
  refine mem_congr (v := t.resets.apply (p.shift d')) ?_ ((a4 _).2 ⟨p, hpm.2, d', hd', hm'.2, rfl⟩)
  intro i hi
  exact this i (by omega)

/-- What a step back gives, from a point of the relaxed zone. -/
theorem backStep_relax {n : ℕ} {z : Zone} {t : Trans} {post pv : List ℚ} {d : ℚ}
    (hg : Good n z) (hp : post.length = n) (ht : Fit n t)
    (hpost : (postZone z t).relax.Mem (listVal post)) (h : backStep z t post = some (pv, d)) :
    z.relax.Mem (listVal pv) ∧ 0 ≤ d ∧ (z.Mem (listVal pv) →
      t.guard.Holds ((listVal pv).shift d) ∧
      ∀ i < n, t.resets.apply ((listVal pv).shift d) i = listVal post i) := by
  have hpost' := backStep_post hg.dim hg.closed hp ht.ok ht.order hpost h
  have hz := hg.dim
  have ht' := ht.ok
  have ho := ht.order
  have hf := (backStep_feasible hz hp ht' ho h).2
  obtain ⟨zb, tmp, b1, b2, b3, b4, b5, ⟨p, hpm⟩, b7, b8⟩ := backStep_zones hz hp ht' ho h
  set S := zb.inter tmp.canonize.elapse with hS
  set vb := S.sample with hvb
  have htd : tmp.dim = n + 1 := by rw [b5]; simp [b1]
  have hSd : S.dim = n + 1 := by rw [hS]; simp [b1]
  have hvl : vb.length = n := by rw [hvb, sample_length, hSd]; rfl
  have htc := canonize_closed_of_mem hpm
  have htn : ∃ v, tmp.canonize.Mem v := ⟨p, (canonize_mem _ _).2 hpm⟩
  have hmt : ∀ v, tmp.Mem v ↔ zb.reverseElapse.Mem v ∧ z.Mem v := by
    intro v
    rw [b5, inter_mem _ _ (by simp [b1, hz]), canonize_mem]
  -- the members of `S`
  have hmS : ∀ v, S.Mem v ↔ zb.Mem v ∧ z.elapse.Mem v := by
    intro v
    rw [hS, inter_mem _ _ (by simp [b1, htd]), elapse_mem _ htc htn, elapse_mem _ hg.closed hg.ne]
    constructor
    · rintro ⟨h1, e, he, h2⟩
      exact ⟨h1, e, he, ((hmt _).1 ((canonize_mem _ _).1 h2)).2⟩
    · rintro ⟨h1, e, he, h2⟩
      refine ⟨h1, e, he, (canonize_mem _ _).2 ((hmt _).2 ⟨?_, h2⟩)⟩
      refine (reverseElapse_mem zb b2 b3 _).2 ⟨fun i hi => hg.nonneg _ h2 i (by omega), e, he, ?_⟩
      have : (v.shift (-e)).shift e = v := by funext x; simp [Valuation.shift]
      rw [this]; exact h1
  obtain ⟨-, d0, hd0, hm0⟩ := (reverseElapse_mem zb b2 b3 p).1 ((hmt p).1 hpm).1
  have hSne : ∃ v, S.Mem v := ⟨p.shift d0, (hmS _).2 ⟨hm0,
    (elapse_mem _ hg.closed hg.ne _).2 ⟨d0, hd0, by
      have : (p.shift d0).shift (-d0) = p := by funext x; simp [Valuation.shift]
      rw [this]; exact ((hmt p).1 hpm).2⟩⟩⟩
  have hSnn : ∀ v, S.Mem v → ∀ i, i + 1 < S.dim → 0 ≤ v i := by
    intro v hv i hi
    obtain ⟨e, he, h2⟩ := (elapse_mem _ hg.closed hg.ne _).1 ((hmS v).1 hv).2
    have := hg.nonneg _ h2 i (by omega)
    simp only [Valuation.shift] at this
    linarith
  have hScl : S.Closed := by
    rw [hS]
    obtain ⟨v, hv⟩ := hSne
    rw [hS] at hv
    exact canonize_closed_of_mem ((canonize_mem _ _).1 hv)
  -- the sample is in the relaxed zone
  have hvr : S.relax.Mem (listVal vb) := by
    obtain ⟨v, hv⟩ := hSne
    exact sample_mem_relax S ⟨v, hv.relax⟩ (relax_nonneg hScl ⟨v, hv⟩ hSnn)
  have hzr : ∀ v, z.relax.Mem v → ∀ i < n, 0 ≤ v i := fun v hv i hi =>
    relax_nonneg hg.closed hg.ne (fun v hv i hi => hg.nonneg v hv i (by omega)) v hv i (by omega)
  -- and behind a point of the relaxed zone before the edge
  obtain ⟨e, he, hpe⟩ : ∃ e, 0 ≤ e ∧ z.relax.Mem ((listVal vb).shift (-e)) := by
    rw [hS, ← inter_relax, inter_mem _ _ (by simp [b1, htd]), ← elapse_relax] at hvr
    obtain ⟨w, hw⟩ := htn
    obtain ⟨e, he, h1⟩ := (elapse_mem _ htc.relax ⟨w, hw.relax⟩ _).1 hvr.2
    refine ⟨e, he, ?_⟩
    rw [← canonize_relax, canonize_mem, b5, ← inter_relax, inter_mem _ _ (by simp [b1, hz]),
      ← canonize_relax, canonize_mem] at h1
    exact h1.2
  -- the segment
  obtain ⟨q1, q2, q3⟩ := point_spec vb
  have hpt : ∃ v, (point vb).Mem v := ⟨_, (q3 _).2 fun _ _ => rfl⟩
  have hptr : ∀ v, (point vb).relax.Mem v ↔ ∀ i < n, v i = listVal vb i := by
    intro v
    constructor
    · intro hv i hi
      have := (q3 _).1 (relax_mid hv ((q3 (listVal vb)).2 fun _ _ => rfl)) i (by omega)
      linarith
    · intro hv
      exact Mem.relax ((q3 v).2 fun i hi => hv i (by omega))
  have hseg : ∀ v, (z.canonize.inter (point vb).reverseElapse).relax.Mem v ↔ z.relax.Mem v ∧
      (∀ i < n, 0 ≤ v i) ∧ ∃ d, 0 ≤ d ∧ ∀ i < n, v i + d = listVal vb i := by
    intro v
    rw [← inter_relax, inter_mem _ _ (by simp [q1, hvl, hz]), ← canonize_relax, canonize_mem,
      ← reverseElapse_relax, reverseElapse_mem _ q2.relax ⟨_, (hptr (listVal vb)).2 fun _ _ => rfl⟩]
    rw [relax_dim, q1, hvl]
    constructor
    · rintro ⟨h1, h2, d, hd, h3⟩
      exact ⟨h1, fun i hi => h2 i (by omega), d, hd, fun i hi => (hptr _).1 h3 i hi⟩
    · rintro ⟨h1, h2, d, hd, h3⟩
      exact ⟨h1, fun i hi => h2 i (by omega), d, hd, (hptr _).2 fun i hi => h3 i hi⟩
  have hsd : (z.canonize.inter (point vb).reverseElapse).dim = n + 1 := by simp [hz]
  have hsm := sample_mem_relax (z.canonize.inter (point vb).reverseElapse)
    ⟨_, (hseg _).2 ⟨hpe, hzr _ hpe, e, he, fun i _ => by simp [Valuation.shift]⟩⟩
    (fun v hv i hi => ((hseg v).1 hv).2.1 i (by omega))
  have hsm : (z.canonize.inter (point vb).reverseElapse).relax.Mem (listVal pv) := by
    rw [b7]; exact hsm
  obtain ⟨s1, s2, d', hd', s3⟩ := (hseg _).1 hsm
  have hpl : pv.length = n := by rw [b7, sample_length, hsd]; rfl
  have hdd : 0 ≤ d ∧ ∀ i < n, listVal pv i + d = listVal vb i := by
    rcases Nat.eq_zero_or_pos n with h0 | h0
    · have : pv = [] := List.length_eq_zero_iff.1 (by omega)
      rw [this] at b8
      simp only [List.isEmpty_nil, if_true] at b8
      exact ⟨b8.ge, fun i hi => by omega⟩
    · have hne : pv.isEmpty = false := by
        cases pv with
        | nil => simp at hpl; omega
        | cons _ _ => rfl
      rw [hne] at b8
      simp only [Bool.false_eq_true, if_false] at b8
      have e1 : vb.headD 0 = listVal vb 0 := by cases vb <;> rfl
      have e2 : pv.headD 0 = listVal pv 0 := by cases pv <;> rfl
      have : d = d' := by rw [b8, e1, e2, ← s3 0 h0]; ring
      rw [this]; exact ⟨hd', s3⟩
  have hsh : ∀ i < n, listVal vb i = (listVal pv).shift d i := fun i hi => (hdd.2 i hi).symm
  refine ⟨s1, hdd.1, fun hin => ?_⟩
  -- the preimage of the resets
  obtain ⟨p', -, dp, -, -, ep⟩ := ((postZone_spec hz hg.closed ht' ho hf).2.2.2 _).1 hpost'
  have hrev := revert_preimage post t.resets (by rw [hp]; exact ht'.2) ho (p'.shift dp)
    (fun i _ => by rw [← ep])
  obtain ⟨r1, r2, -⟩ := revert_spec post t.resets (by rw [hp]; exact ht'.2) ho
  set R := (point post).revertResets t.resets with hR
  -- the sample is in it
  have hvR : R.Mem (listVal vb) := by
    rw [hS, ← inter_relax, inter_mem _ _ (by simp [b1, htd])] at hvr
    obtain ⟨w, hw⟩ := b3
    have hmid := relax_mid hvr.1 hw
    have m1 := (hrev _).1 ((b4 _).1 hmid).1
    have m2 := (hrev _).1 ((b4 _).1 hw).1
    refine (hrev _).2 fun i hi => ?_
    have e : listVal vb = fun k => 2 * ((fun i => (listVal vb i + w i) / 2) k) - w k := by
      funext k; ring
    rw [e, apply_mid ho.1, m1 i hi, m2 i hi]; ring
  -- the zone before the guard
  have hQm : ∀ v, (R.inter z.elapse).Mem v ↔ R.Mem v ∧ z.elapse.Mem v := fun v =>
    inter_mem _ _ (by simp [r1, hp, hz]) v
  have hvQ : (R.inter z.elapse).Mem (listVal vb) := (hQm _).2 ⟨hvR, by
    rw [elapse_mem _ hg.closed hg.ne]
    refine ⟨d, hdd.1, mem_congr (v := listVal pv) (fun i hi => ?_) hin⟩
    have := hdd.2 i (by omega)
    simp only [Valuation.shift]; linarith⟩
  have hcut := sample_mem_cut (Q := R.inter z.elapse) (S := S) (g := t.guard)
    (by simp [hSd, r1, hp]) (canonize_closed_of_mem ((canonize_mem _ _).1 hvQ)) hSne
    (fun c hc => by have := ht'.1 c hc; omega)
    (fun v => by rw [hmS, hQm, b4]; tauto) hSnn hvQ
  have hgv := (b4 _).1 ((hmS _).1 hcut).1
  refine ⟨holds_congr ht'.1 hsh hgv.2, fun i hi => ?_⟩
  rw [← (hrev _).1 hgv.1 i (by omega)]
  exact (apply_congr ht'.2 ho.1 hsh i hi).symm

theorem backLoop_drives' {n : ℕ} (ts : List Trans) (ht : ∀ t ∈ ts, Fit n t) (post ds ds' : List ℚ)
    (hp : post.length = n)
    (hm : (ts.foldl postZone (Zone.zero (n + 1))).relax.Mem (listVal post))
    (h : backLoop ((tights (Zone.zero (n + 1)) ts).zip ts).reverse post ds = some ds') :
    (ts.foldl postZone (Zone.zero (n + 1))).Mem (listVal post) ∧
    ∃ ds1 u, ds' = ds1 ++ ds ∧ Drives ts ds1 Valuation.zero u ∧ ∀ i < n, u i = listVal post i := by
  have hfe := backLoop_feasible (n := n) (z0 := Zone.zero (n + 1)) rfl ts ht post ds ds' hp h
  induction ts using List.reverseRecOn generalizing post ds with
  | nil =>
    simp only [tights, List.zip_nil_right, List.reverse_nil, backLoop, Option.some.injEq] at h
    have hm' : (Zone.zero (n + 1)).Mem (listVal post) := hm
    refine ⟨hm', [], Valuation.zero, by simp [h], rfl, fun i hi => ?_⟩
    have h1 := hm' (i + 1) (by simp [Zone.zero]; omega) 0 (by simp [Zone.zero])
    have h2 := hm' 0 (by simp [Zone.zero]) (i + 1) (by simp [Zone.zero]; omega)
    simp [Zone.zero] at h1 h2
    simp only [Valuation.zero]
    linarith
  | append_singleton ts t ih =>
    rw [zip_snoc, List.reverse_append, List.reverse_singleton, List.singleton_append] at h
    unfold backLoop at h
    cases hb : backStep (ts.foldl postZone (Zone.zero (n + 1))) t post with
    | none => rw [hb] at h; cases h
    | some r =>
      obtain ⟨pv, d⟩ := r
      rw [hb] at h
      simp only at h
      obtain ⟨hf1, hf2⟩ := (allFeasible_snoc _ ts t).1 hfe
      have ht' : ∀ t' ∈ ts, Fit n t' := fun t' h' => ht t' (by simp [h'])
      have hg := (Good.zero n).foldl ts ht' hf1
      have hft := ht t (by simp)
      rw [List.foldl_append, List.foldl_cons, List.foldl_nil] at hm ⊢
      have hpost := backStep_post hg.dim hg.closed hp hft.ok hft.order hm hb
      obtain ⟨b1, b2, b3⟩ := backStep_relax hg hp hft hm hb
      have hpv := (backStep_feasible hg.dim hp hft.ok hft.order hb).1
      obtain ⟨hin, ds1, u, e1, e2, e3⟩ := ih ht' pv (d :: ds) hpv b1 h hf1
      obtain ⟨b3, b4⟩ := b3 hin
      have hsh : ∀ i < n, (listVal pv).shift d i = u.shift d i := fun i hi => by
        simp only [Valuation.shift]; rw [e3 i hi]
      refine ⟨hpost, ds1 ++ [d], _, by simp [e1], e2.snoc b2 (holds_congr hft.ok.1 hsh b3),
        fun i hi => ?_⟩
      rw [← b4 i hi]
      exact (apply_congr hft.ok.2 hft.order.1 hsh i hi).symm

/-- A reconstruction that succeeds gives delays that drive the edges. -/
theorem reconstruct_drives' {n : ℕ} (r : SymRun)
    (hr : r.tight = tights (Zone.zero (n + 1)) r.edges)
    (ht : ∀ t ∈ r.edges, Fit n t) (w : TimedWord) (h : r.reconstructWord = some w) :
    ∃ ds u, w = TimedWord.make r.word (ds ++ [0]) ∧ Drives r.edges ds Valuation.zero u := by
  unfold reconstructWord at h
  simp only at h
  split at h
  · cases h
  · simp only [Option.map_eq_some_iff] at h
    obtain ⟨ds, h1, rfl⟩ := h
    rw [hr, (ZA.tights_snoc _ r.edges ⟨0, [], []⟩).2] at h1
    have hl : (r.edges.foldl postZone (Zone.zero (n + 1))).dim = n + 1 := by
      rw [foldl_postZone_dim]; rfl
    have hpl : ((r.edges.foldl postZone (Zone.zero (n + 1))).canonize.sample).length = n := by
      rw [sample_length, canonize_dim, hl]; rfl
    have hfe := backLoop_feasible (n := n) (z0 := Zone.zero (n + 1)) rfl r.edges ht _ _ _ hpl h1
    have hg := (Good.zero n).foldl r.edges ht hfe
    obtain ⟨v, hv⟩ := hg.ne
    have hcv := (canonize_mem _ _).2 hv
    have hlast := sample_mem_relax (r.edges.foldl postZone (Zone.zero (n + 1))).canonize
      ⟨v, hcv.relax⟩ (relax_nonneg (canonize_closed_of_mem hv) ⟨v, hcv⟩ fun u hu i hi =>
        hg.nonneg u ((canonize_mem _ _).1 hu) i (by rw [canonize_dim, hl] at hi; omega))
    rw [← canonize_relax, canonize_mem] at hlast
    obtain ⟨-, ds1, u, e1, e2, -⟩ := backLoop_drives' r.edges ht _ _ _ hpl hlast h1
    rw [List.append_nil] at e1
    subst e1
    exact ⟨_, u, rfl, e2⟩

end SymRun
end LearnTA
