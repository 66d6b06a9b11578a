import Verif.Lemmas.Reconstruct
import Verif.Lemmas.TimedWord

/-!
# Reconstruction of a timed word: whole runs
-/

namespace LearnTA

open Zone Ta2za

namespace SymRun

@[simp] theorem postZone_dim (z : Zone) (t : Trans) : (postZone z t).dim = z.dim := by
  have h1 : ∀ (r : Resets) (z : Zone), (r.foldl applyRenaming z).dim = z.dim := by
    intro r
    induction r with
    | nil => intro z; rfl
    | cons p r ih => intro z; rw [List.foldl_cons, ih, applyRenaming_dim]
  have h2 : ∀ (r : Resets) (z : Zone), (r.foldl applyConst z).dim = z.dim := by
    intro r
    induction r with
    | nil => intro z; rfl
    | cons p r ih => intro z; rw [List.foldl_cons, ih, applyConst_dim]
  rw [postZone, canonize_dim, applyResets, h2, h1, tightenG_dim]
  rfl

theorem foldl_postZone_dim (z : Zone) (ts : List Trans) : (ts.foldl postZone z).dim = z.dim := by
  induction ts generalizing z with
  | nil => rfl
  | cons t ts ih => rw [List.foldl_cons, ih, postZone_dim]

/-- The transition can be taken from the zone. -/
def Feasible (z : Zone) (t : Trans) : Prop :=
  ∃ p, z.Mem p ∧ ∃ d, 0 ≤ d ∧ t.guard.Holds (p.shift d)

/-- All transitions can be taken from the zones before them. -/
def AllFeasible : Zone → List Trans → Prop
  | _, [] => True
  | z, t :: ts => Feasible z t ∧ AllFeasible (postZone z t) ts

theorem allFeasible_snoc (z : Zone) (ts : List Trans) (t : Trans) :
    AllFeasible z (ts ++ [t]) ↔ AllFeasible z ts ∧ Feasible (ts.foldl postZone z) t := by
  induction ts generalizing z with
  | nil => simp [AllFeasible]
  | cons t' ts ih => simp [AllFeasible, ih, and_assoc]

/-- What is needed of a transition. -/
structure Fit (n : ℕ) (t : Trans) : Prop where
  ok : TransOK n t
  order : t.resets.InOrder
  nonneg : ∀ r ∈ t.resets, ∀ q, r.2 = .const q → 0 ≤ q

theorem zip_snoc (z : Zone) (ts : List Trans) (t : Trans) :
    (tights z (ts ++ [t])).zip (ts ++ [t]) =
      (tights z ts).zip ts ++ [(ts.foldl postZone z, t)] := by
  induction ts generalizing z with
  | nil => rfl
  | cons t' ts ih =>
    simp only [List.cons_append, tights, List.zip_cons_cons, List.foldl_cons]
    rw [ih]

theorem backLoop_feasible {n : ℕ} {z0 : Zone} (hz : z0.dim = n + 1) (ts : List Trans)
    (ht : ∀ t ∈ ts, Fit n t) (post ds ds' : List ℚ) (hp : post.length = n)
    (h : backLoop ((tights z0 ts).zip ts).reverse post ds = some ds') : AllFeasible z0 ts := by
  induction ts using List.reverseRecOn generalizing post ds with
  | nil => trivial
  | append_singleton ts t ih =>
    rw [zip_snoc, List.reverse_append, List.reverse_singleton, List.singleton_append] at h
    unfold backLoop at h
    cases hb : backStep (ts.foldl postZone z0) t post with
    | none => rw [hb] at h; cases h
    | some r =>
      obtain ⟨pv, d⟩ := r
      rw [hb] at h
      obtain ⟨h1, h2⟩ := backStep_feasible (by rw [foldl_postZone_dim, hz]) hp
        (ht t (by simp)).ok (ht t (by simp)).order hb
      exact (allFeasible_snoc z0 ts t).2 ⟨ih (fun t' h' => ht t' (by simp [h'])) pv _ h1 h, h2⟩

/-- A zone of non-negative valuations, not empty and canonical. -/
structure Good (n : ℕ) (z : Zone) : Prop where
  dim : z.dim = n + 1
  closed : z.Closed
  ne : ∃ v, z.Mem v
  nonneg : ∀ v, z.Mem v → ∀ i < n, 0 ≤ v i

theorem Good.post {n : ℕ} {z : Zone} {t : Trans} (h : Good n z) (ht : Fit n t) (hf : Feasible z t) :
    Good n (postZone z t) := by
  obtain ⟨a1, a2, a3, a4⟩ := postZone_spec h.dim h.closed ht.ok ht.order hf
  refine ⟨a1, a2, a3, fun v hv i hi => ?_⟩
  obtain ⟨p, hp, d, hd, -, rfl⟩ := (a4 v).1 hv
  have hs : ∀ j < n, 0 ≤ p.shift d j := fun j hj => add_nonneg (h.nonneg p hp j hj) hd
  by_cases hk : i ∈ t.resets.map Prod.fst
  · obtain ⟨⟨i', e⟩, hm, rfl⟩ := List.mem_map.1 hk
    rw [apply_some ht.order.1 hm]
    cases e with
    | const q => exact ht.nonneg _ hm q rfl
    | clock y => exact hs y (ht.ok.2 _ hm).2
  · rw [apply_none ht.order.1 hk]; exact hs i hi

theorem Good.zero (n : ℕ) : Good n (Zone.zero (n + 1)) := by
  refine ⟨rfl, zero_closed _, ⟨_, zero_mem _⟩, fun v hv i hi => ?_⟩
  have h2 := hv 0 (by simp [Zone.zero]) (i + 1) (by simp [Zone.zero]; omega)
  simpa [Zone.zero] using h2

theorem Good.foldl {n : ℕ} {z : Zone} (h : Good n z) (ts : List Trans) (ht : ∀ t ∈ ts, Fit n t)
    (hf : AllFeasible z ts) : Good n (ts.foldl postZone z) := by
  induction ts generalizing z with
  | nil => exact h
  | cons t ts ih =>
    exact ih (h.post (ht t (by simp)) hf.1) (fun t' h' => ht t' (by simp [h'])) hf.2

/-- The delays drive the transitions from one valuation to another. -/
def Drives : List Trans → List ℚ → Valuation → Valuation → Prop
  | [], [], v, w => v = w
  | t :: ts, d :: ds, v, w => 0 ≤ d ∧ t.guard.Holds (v.shift d) ∧
    Drives ts ds (t.resets.apply (v.shift d)) w
  | [], _ :: _, _, _ => False
  | _ :: _, [], _, _ => False

theorem Drives.snoc {ts : List Trans} {ds : List ℚ} {v w : Valuation} (h : Drives ts ds v w)
    {t : Trans} {d : ℚ} (hd : 0 ≤ d) (hg : t.guard.Holds (w.shift d)) :
    Drives (ts ++ [t]) (ds ++ [d]) v (t.resets.apply (w.shift d)) := by
  induction ts generalizing ds v with
  | nil =>
    cases ds with
    | nil => cases h; exact ⟨hd, hg, rfl⟩
    | cons _ _ => cases h
  | cons t' ts ih =>
    cases ds with
    | nil => cases h
    | cons d' ds =>
      obtain ⟨h1, h2, h3⟩ := h
      exact ⟨h1, h2, ih h3⟩

theorem Drives.length {ts : List Trans} {ds : List ℚ} {v w : Valuation} (h : Drives ts ds v w) :
    ds.length = ts.length := by
  induction ts generalizing ds v with
  | nil =>
    cases ds with
    | nil => rfl
    | cons _ _ => cases h
  | cons t ts ih =>
    cases ds with
    | nil => cases h
    | cons d ds => simp [ih h.2.2]

/-- A class of zones and transitions for which the samples are right. -/
structure Sampled (n : ℕ) (K : Zone → Prop) (T : Trans → Prop) : Prop where
  zero : K (Zone.zero (n + 1))
  post : ∀ z t, K z → T t → Fit n t → Good n z → Feasible z t → K (postZone z t)
  last : ∀ z, K z → Good n z → z.Mem (listVal z.canonize.sample)
  step : ∀ z t, K z → T t → Fit n t → Good n z → Feasible z t → StepSampled n z t

theorem foldl_class {n : ℕ} {K : Zone → Prop} {T : Trans → Prop} (hS : Sampled n K T) {z : Zone}
    (hK : K z) (h : Good n z) (ts : List Trans) (ht : ∀ t ∈ ts, Fit n t) (hT : ∀ t ∈ ts, T t)
    (hf : AllFeasible z ts) : K (ts.foldl postZone z) := by
  induction ts generalizing z with
  | nil => exact hK
  | cons t ts ih =>
    exact ih (hS.post z t hK (hT t (by simp)) (ht t (by simp)) h hf.1)
      (h.post (ht t (by simp)) hf.1) (fun t' h' => ht t' (by simp [h']))
      (fun t' h' => hT t' (by simp [h'])) hf.2

theorem backLoop_drives {n : ℕ} {K : Zone → Prop} {T : Trans → Prop} (hS : Sampled n K T)
    (ts : List Trans) (ht : ∀ t ∈ ts, Fit n t) (hT : ∀ t ∈ ts, T t) (post ds ds' : List ℚ)
    (hp : post.length = n)
    (hm : (ts.foldl postZone (Zone.zero (n + 1))).Mem (listVal post))
    (h : backLoop ((tights (Zone.zero (n + 1)) ts).zip ts).reverse post ds = some ds') :
    ∃ ds1 u, ds' = ds1 ++ ds ∧ Drives ts ds1 Valuation.zero u ∧ ∀ i < n, u i = listVal post i := by
  have hfe := backLoop_feasible (n := n) (z0 := Zone.zero (n + 1)) rfl ts ht post ds ds' hp h
  induction ts using List.reverseRecOn generalizing post ds with
  | nil =>
    simp only [tights, List.zip_nil_right, List.reverse_nil, backLoop, Option.some.injEq] at h
    refine ⟨[], Valuation.zero, by simp [h], rfl, fun i hi => ?_⟩
    have hm' : (Zone.zero (n + 1)).Mem (listVal post) := hm
    have h1 := hm' (i + 1) (by simp [Zone.zero]; omega) 0 (by simp [Zone.zero])
    have h2 := hm' 0 (by simp [Zone.zero]) (i + 1) (by simp [Zone.zero]; omega)
    simp [Zone.zero] at h1 h2
    simp only [Valuation.zero]
    linarith
  | append_singleton ts t ih =>
    rw [zip_snoc, List.reverse_append, List.reverse_singleton, List.singleton_append] at h
    unfold backLoop at h
    cases hb : backStep (ts.foldl postZone (Zone.zero (n + 1))) t post with
    | none => rw [hb] at h; cases h
    | some r =>
      obtain ⟨pv, d⟩ := r
      rw [hb] at h
      simp only at h
      obtain ⟨hf1, hf2⟩ := (allFeasible_snoc _ ts t).1 hfe
      have ht' : ∀ t' ∈ ts, Fit n t' := fun t' h' => ht t' (by simp [h'])
      have hT' : ∀ t' ∈ ts, T t' := fun t' h' => hT t' (by simp [h'])
      have hg := (Good.zero n).foldl ts ht' hf1
      have hK := foldl_class hS hS.zero (Good.zero n) ts ht' hT' hf1
      have hft := ht t (by simp)
      have hst := hS.step _ t hK (hT t (by simp)) hft hg hf2
      rw [List.foldl_append, List.foldl_cons, List.foldl_nil] at hm
      obtain ⟨b1, b2, b3, b4⟩ := backStep_ok hg.dim hg.closed hg.nonneg hp hft.ok hft.order hst hm hb
      have hpv := (backStep_feasible hg.dim hp hft.ok hft.order hb).1
      obtain ⟨ds1, u, e1, e2, e3⟩ := ih ht' hT' pv (d :: ds) hpv b1 h hf1
      have hsh : ∀ i < n, (listVal pv).shift d i = u.shift d i := fun i hi => by
        simp only [Valuation.shift]; rw [e3 i hi]
      refine ⟨ds1 ++ [d], _, by simp [e1], e2.snoc b2 (holds_congr hft.ok.1 hsh b3), fun i hi => ?_⟩
      rw [← b4 i hi]
      exact (apply_congr hft.ok.2 hft.order.1 hsh i hi).symm

theorem reconstruct_drives {n : ℕ} {K : Zone → Prop} {T : Trans → Prop} (hS : Sampled n K T)
    (r : SymRun) (hr : r.tight = tights (Zone.zero (n + 1)) r.edges)
    (ht : ∀ t ∈ r.edges, Fit n t) (hT : ∀ t ∈ r.edges, T t) (w : TimedWord)
    (h : r.reconstructWord = some w) :
    ∃ ds u, w = TimedWord.make r.word (ds ++ [0]) ∧ Drives r.edges ds Valuation.zero u := by
  unfold reconstructWord at h
  simp only at h
  split at h
  · cases h
  · simp only [Option.map_eq_some_iff] at h
    obtain ⟨ds, h1, rfl⟩ := h
    rw [hr, (ZA.tights_snoc _ r.edges ⟨0, [], []⟩).2] at h1
    have hl : (r.edges.foldl postZone (Zone.zero (n + 1))).dim = n + 1 := by
      rw [foldl_postZone_dim]; rfl
    have hpl : ((r.edges.foldl postZone (Zone.zero (n + 1))).canonize.sample).length = n := by
      rw [sample_length, canonize_dim, hl]; rfl
    have hfe := backLoop_feasible (n := n) (z0 := Zone.zero (n + 1)) rfl r.edges ht _ _ _ hpl h1
    have hg := (Good.zero n).foldl r.edges ht hfe
    have hK := foldl_class hS hS.zero (Good.zero n) r.edges ht hT hfe
    obtain ⟨ds1, u, e1, e2, -⟩ := backLoop_drives hS r.edges ht hT _ _ _ hpl (hS.last _ hK hg) h1
    rw [List.append_nil] at e1
    subst e1
    exact ⟨_, u, rfl, e2⟩

end SymRun

/-! ### From the delays to a run of the automaton -/

namespace TA

/-- The run along a path with delays that drive its transitions. -/
theorem mrun_of_drives {A : TA} {za : ZA} (hcl : za.Closed)
    (hedge : ∀ q ∈ za.states, ∀ a, ∀ e ∈ (za.loc q).next a,
      e.1 ∈ (A.loc (za.loc q).ta).next a ∧ (za.loc e.2).ta = e.1.target)
    {i j : ℕ} {l : List (Action × Trans)} (hi : i ∈ za.states) (hp : za.Path i l j)
    {ds : List ℚ} {v w : Valuation} (hd : SymRun.Drives (l.map Prod.snd) ds v w) (d : ℚ) (h0 : 0 ≤ d) :
    A.MRun ⟨(za.loc i).ta, v⟩ (timed l (ds ++ [d])) ⟨(za.loc j).ta, w.shift d⟩ := by
  induction hp generalizing ds v with
  | nil p =>
    cases ds with
    | nil => cases hd; exact .delay d h0 (.nil _)
    | cons _ _ => cases hd
  | @cons p l q a t k he hr ih =>
    cases ds with
    | nil => cases hd
    | cons d' ds =>
      obtain ⟨h1, h2, h3⟩ := hd
      obtain ⟨e1, e2⟩ := hedge p hi a _ he
      have hrest := ih (hcl.2 p hi a _ he) h3
      simp only at e2
      rw [e2] at hrest
      simp only [List.cons_append, timed]
      refine .delay d' h1 ?_
      by_cases ha : a = unobservable
      · subst ha
        rw [if_pos rfl]
        exact .eps t e1 h2 hrest
      · rw [if_neg ha]
        exact .act a ha t e1 h2 hrest

/-- The observation of a raw word. -/
def rawEvents : List (Action × ℚ) → List Event
  | [] => []
  | (a, d) :: l => (if a = unobservable then [.delay d] else [.act a, .delay d]) ++ rawEvents l

theorem obsE_append (l l' l2 : List Event) (h : obsE l = obsE l') :
    obsE (l ++ l2) = obsE (l' ++ l2) := by
  have key : ∀ l : List Event, obsE (l ++ l2) =
      (match (obsE l).2 with
      | [] => ((obsE l).1 + (obsE l2).1, (obsE l2).2)
      | _ => ((obsE l).1, (obsE l).2.dropLast ++
          [(((obsE l).2.getLastD (unobservable, 0)).1,
            ((obsE l).2.getLastD (unobservable, 0)).2 + (obsE l2).1)] ++ (obsE l2).2)) := by
    intro l
    induction l with
    | nil => simp [obsE]
    | cons e l ih =>
      cases e with
      | delay d =>
        simp only [List.cons_append, obsE]
        rw [ih]
        cases hx : (obsE l).2 with
        | nil => simp [add_assoc]
        | cons p ps => simp
      | act a =>
        simp only [List.cons_append, obsE]
        rw [ih]
        cases hx : (obsE l).2 with
        | nil => simp
        | cons p ps => simp
  rw [key, key, h]

theorem eventsOf_snoc (as : List Action) (ds : List ℚ) (h : ds.length = as.length + 1) (a : Action)
    (d : ℚ) : eventsOf (as ++ [a]) (ds ++ [d]) = eventsOf as ds ++ [.act a, .delay d] := by
  induction as generalizing ds with
  | nil =>
    match ds, h with
    | [x], _ => rfl
  | cons b as ih =>
    match ds, h with
    | x :: ds, h =>
      simp only [List.cons_append, eventsOf]
      rw [ih ds (by simpa using h)]

theorem obsE_addBack (as : List Action) (ds : List ℚ) (h : ds.length = as.length + 1) (d : ℚ) :
    obsE (eventsOf as (TimedWord.addBack ds d)) = obsE (eventsOf as ds ++ [.delay d]) := by
  induction as generalizing ds with
  | nil =>
    match ds, h with
    | [x], _ => simp [TimedWord.addBack, eventsOf, obsE]
  | cons b as ih =>
    match ds, h with
    | x :: y :: ds, h =>
      have h' : (y :: ds).length = as.length + 1 := by simpa using h
      have := ih (y :: ds) h'
      have e : TimedWord.addBack (x :: y :: ds) d = x :: TimedWord.addBack (y :: ds) d := rfl
      rw [e]
      simp only [eventsOf, List.cons_append, obsE]
      rw [this]

theorem addBack_length (ds : List ℚ) (d : ℚ) (h : ds ≠ []) :
    (TimedWord.addBack ds d).length = ds.length := by
  have : 0 < ds.length := List.length_pos_iff.2 h
  simp [TimedWord.addBack]; omega

theorem absorb_obs (ps : List (Action × ℚ)) (s : List Action × List ℚ)
    (h : s.2.length = s.1.length + 1) :
    obsE (eventsOf (ps.foldl TimedWord.absorbStep s).1 (ps.foldl TimedWord.absorbStep s).2) =
      obsE (eventsOf s.1 s.2 ++ rawEvents ps) := by
  induction ps generalizing s with
  | nil => simp [rawEvents]
  | cons p ps ih =>
    obtain ⟨a, d⟩ := p
    rw [List.foldl_cons, rawEvents, ← List.append_assoc]
    by_cases ha : a = unobservable
    · have e : TimedWord.absorbStep s (a, d) = (s.1, TimedWord.addBack s.2 d) := by
        simp [TimedWord.absorbStep, ha]
      rw [e, ih _ (by
        rw [addBack_length _ _ (by intro hn; rw [hn] at h; simp at h)]; exact h), if_pos ha]
      exact obsE_append _ _ _ (obsE_addBack _ _ h d)
    · have e : TimedWord.absorbStep s (a, d) = (s.1 ++ [a], s.2 ++ [d]) := by
        simp [TimedWord.absorbStep, ha]
      rw [e, ih _ (by simp [h]), if_neg ha, eventsOf_snoc _ _ h]

theorem obsM_timed (l : List (Action × Trans)) (d : ℚ) (ds : List ℚ) (h : ds.length = l.length) :
    obsM (timed l (d :: ds)) = obsE (.delay d :: rawEvents ((l.map Prod.fst).zip ds)) := by
  induction l generalizing d ds with
  | nil => simp [timed, obsM, rawEvents, obsE]
  | cons p l ih =>
    obtain ⟨a, t⟩ := p
    match ds, h with
    | d' :: ds, h =>
      have := ih d' ds (by simpa using h)
      simp only [timed, List.map_cons, List.zip_cons_cons, rawEvents]
      by_cases ha : a = unobservable
      · simp only [ha, if_true, obsM, this]
        simp [obsE]
      · simp only [ha, if_false, obsM, this]
        simp [obsE]

theorem make_obs (l : List (Action × Trans)) (ds : List ℚ) (h : ds.length = l.length + 1) :
    obsM (timed l ds) = obsE (TimedWord.make (l.map Prod.fst) ds).events := by
  match ds, h with
  | d :: ds, h =>
    have hl : ds.length = l.length := by simpa using h
    rw [obsM_timed l d ds hl]
    unfold TimedWord.events TimedWord.make
    simp only [List.tail_cons, List.headD_cons]
    rw [absorb_obs _ _ (by simp)]
    rfl

end TA
end LearnTA
