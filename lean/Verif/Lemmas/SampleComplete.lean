import Verif.Lemmas.Reconstruct2
import Verif.Lemmas.Growth
import Verif.Lemmas.InOrder

/-!
# When the sampled search finds a word
-/

namespace LearnTA

open Zone Ta2za

namespace SymRun

theorem noCanonize_of_mem {z : Zone} {v : Valuation} (h : z.Mem v) : z.isSatisfiableNoCanonize = true := by
  rw [isSatisfiableNoCanonize_iff]
  intro i hi j hj
  exact sat_pair_nonneg h hi hj

theorem tightenChecked_some {n : ℕ} (g : Guard) (hg : ∀ c ∈ g, c.x < n) (z : Zone)
    (hd : z.dim = n + 1) (v : Valuation) (hv : z.Mem v) (hgv : g.Holds v) :
    ∃ z', tightenChecked z g = some z' := by
  induction g generalizing z with
  | nil => exact ⟨z, rfl⟩
  | cons c g ih =>
    have hcx := hg c (by simp)
    rw [Guard.holds_cons] at hgv
    have h1 : (z.tightenC c).Mem v := (tightenC_sat z c (by omega) v).2 ⟨hv, hgv.1⟩
    simp only [tightenChecked, noCanonize_of_mem h1, if_true]
    exact ih (fun c' h' => hg c' (by simp [h'])) _ (by rw [tightenC_dim, hd]) h1 hgv.2

/-- A step back from a valuation of the zone after the edge succeeds. -/
theorem backStep_some {n : ℕ} {z : Zone} {t : Trans} {post : List ℚ} (hz : Good n z)
    (ht : Fit n t) (hf : Feasible z t) (hp : post.length = n)
    (hpost : (postZone z t).Mem (listVal post)) : ∃ r, backStep z t post = some r := by
  obtain ⟨p, hpm, d, hd, hg, he⟩ := ((postZone_spec hz.dim hz.closed ht.ok ht.order hf).2.2.2 _).1 hpost
  have hrev : ((point post).revertResets t.resets).Mem (p.shift d) :=
    (revert_preimage post t.resets (by rw [hp]; exact ht.ok.2) ht.order (p.shift d)
      (fun i _ => by rw [← he]) _).2 fun i _ => by rw [← he]
  obtain ⟨r1, r2, r3⟩ := revert_spec post t.resets (by rw [hp]; exact ht.ok.2) ht.order
  obtain ⟨zb, hzb⟩ := tightenChecked_some t.guard ht.ok.1 _ (by rw [r1, hp]) _ hrev hg
  obtain ⟨a1, a2, a3, a4⟩ := tightenChecked_spec t.guard ht.ok.1 _ zb (by rw [r1, hp]) r2 ⟨_, hrev⟩ hzb
  have hpt : (point post).isSatisfiableNoCanonize = true :=
    noCanonize_of_mem ((point_spec post).2.2 (listVal post) |>.2 fun _ _ => rfl)
  have htmp : (zb.reverseElapse.inter z.canonize).isSatisfiable = true := by
    refine (isSatisfiable_iff _).2 ⟨p, ?_⟩
    rw [inter_mem _ _ (by simp [a1, hz.dim]), canonize_mem]
    refine ⟨(reverseElapse_mem zb a2 a3 p).2 ⟨fun i hi => hz.nonneg p hpm i (by omega), d, hd, ?_⟩, hpm⟩
    exact (a4 _).2 ⟨hrev, hg⟩
  unfold backStep
  simp only [hpt, hzb, htmp, Bool.not_true, Bool.false_eq_true, if_false]
  exact ⟨_, rfl⟩

theorem backLoop_some {n : ℕ} {K : Zone → Prop} {T : Trans → Prop} (hS : Sampled n K T)
    (ts : List Trans) (ht : ∀ t ∈ ts, Fit n t) (hT : ∀ t ∈ ts, T t)
    (hfe : AllFeasible (Zone.zero (n + 1)) ts) (post ds : List ℚ) (hp : post.length = n)
    (hm : (ts.foldl postZone (Zone.zero (n + 1))).Mem (listVal post)) :
    ∃ ds', backLoop ((tights (Zone.zero (n + 1)) ts).zip ts).reverse post ds = some ds' := by
  induction ts using List.reverseRecOn generalizing post ds with
  | nil => exact ⟨ds, rfl⟩
  | append_singleton ts t ih =>
    rw [zip_snoc, List.reverse_append, List.reverse_singleton, List.singleton_append]
    unfold backLoop
    obtain ⟨hf1, hf2⟩ := (allFeasible_snoc _ ts t).1 hfe
    have ht' : ∀ t' ∈ ts, Fit n t' := fun t' h' => ht t' (by simp [h'])
    have hT' : ∀ t' ∈ ts, T t' := fun t' h' => hT t' (by simp [h'])
    have hg := (Good.zero n).foldl ts ht' hf1
    have hK := foldl_class hS hS.zero (Good.zero n) ts ht' hT' hf1
    have hft := ht t (by simp)
    have hst := hS.step _ t hK (hT t (by simp)) hft hg hf2
    rw [List.foldl_append, List.foldl_cons, List.foldl_nil] at hm
    obtain ⟨⟨pv, d⟩, hb⟩ := backStep_some hg hft hf2 hp hm
    obtain ⟨b1, b2, b3, b4⟩ := backStep_ok hg.dim hg.closed hg.nonneg hp hft.ok hft.order hst hm hb
    have hpv := (backStep_feasible hg.dim hp hft.ok hft.order hb).1
    rw [hb]
    exact ih ht' hT' hf1 pv (d :: ds) hpv b1

/-- A word is reconstructed for each run that can be taken. -/
theorem reconstruct_some {n : ℕ} {K : Zone → Prop} {T : Trans → Prop} (hS : Sampled n K T)
    (r : SymRun) (hr : r.tight = tights (Zone.zero (n + 1)) r.edges)
    (ht : ∀ t ∈ r.edges, Fit n t) (hT : ∀ t ∈ r.edges, T t)
    (hfe : AllFeasible (Zone.zero (n + 1)) r.edges) : ∃ w, r.reconstructWord = some w := by
  have hg := (Good.zero n).foldl r.edges ht hfe
  have hK := foldl_class hS hS.zero (Good.zero n) r.edges ht hT hfe
  have hl : (r.edges.foldl postZone (Zone.zero (n + 1))).dim = n + 1 := hg.dim
  have hpl : ((r.edges.foldl postZone (Zone.zero (n + 1))).canonize.sample).length = n := by
    rw [sample_length, canonize_dim, hl]; rfl
  obtain ⟨ds, hds⟩ := backLoop_some hS r.edges ht hT hfe _ [] hpl (hS.last _ hK hg)
  have hsat : (r.edges.foldl postZone (Zone.zero (n + 1))).isSatisfiable = true :=
    (isSatisfiable_iff _).2 hg.ne
  unfold reconstructWord
  simp only
  rw [hr, (ZA.tights_snoc _ r.edges ⟨0, [], []⟩).2]
  simp only [hsat, Bool.not_true, Bool.false_eq_true, if_false, hds]
  exact ⟨_, rfl⟩

end SymRun

/-! ### The runs of the search track the nodes -/

namespace Ta2za

theorem succ_nonneg {A : TA} (hcl : A.ClocksExist) (hnr : A.NonnegResets)
    (ho : A.ResetsOrdered) {p : ℕ} {z : Zone} (hp : p ∈ A.states) (hdim : z.dim = A.clockSize + 1)
    (hnn : ∀ i, i + 1 < z.dim → z.val 0 (i + 1) ≤ 0) {a : Action} {t : Trans}
    (ht : t ∈ (A.loc p).next a) {z0 : Zone} (hz : succZone z.elapse t = some z0) :
    ∀ i, i + 1 < z0.dim → z0.val 0 (i + 1) ≤ 0 := by
  have hdim' : z.elapse.dim = A.clockSize + 1 := hdim
  have htok := transOK hcl hp ht
  obtain ⟨b1, b2, b3, b4, b5⟩ := succZone_some (by rw [hdim']; exact htok) hz
  obtain ⟨hn, hraw⟩ := ho p hp a t ht
  have hpos : ∀ v, z0.Mem v → ∀ x < A.clockSize, 0 ≤ v x := by
    intro v hv x hx
    obtain ⟨u, h1, h2, rfl⟩ := (b5 v).1 hv
    rw [seqApply_eq_apply _ hn hraw, Resets.apply_eq]
    have hu : ∀ y < A.clockSize, 0 ≤ u y := by
      intro y hy
      have := h1 0 (by omega) (y + 1) (by omega)
      have e : z.elapse.val 0 (y + 1) = z.val 0 (y + 1) := by simp [elapse]
      rw [e] at this
      have := this.mono (hnn y (by omega))
      simp at this; linarith
    cases hup : Resets.upd t.resets x with
    | none => simpa using hu x hx
    | some w =>
      have hmem := TA.upd_mem _ _ _ hup
      cases w with
      | const q => simpa [Upd.eval] using hnr p hp a t ht _ hmem q rfl
      | clock y => simpa [Upd.eval] using hu y (htok.2 _ hmem).2
  intro i hi
  have := bound_le_of_incl ⟨z0.dim, fun a b => if a = 0 ∧ b = i + 1 then 0 else .inf⟩ z0 rfl b2 b3
    (by
      intro v hv a _ b _
      simp only
      split
      · rename_i e
        obtain ⟨rfl, rfl⟩ := e
        have := hpos v hv i (by omega)
        simpa using this
      · trivial) (i := 0) (j := i + 1) (by simp only; omega) (by simpa using hi) (by omega)
  simpa using this

/-- Each valuation of `z`, after any delay, is close to one of `w`, after some delay. -/
def Tracks (A : TA) (z w : Zone) : Prop :=
  ∀ v, z.elapse.Mem v → ∃ v', w.elapse.Mem v' ∧ Valuation.Near (thresholds A) A.clockSize v v'

/-- Following the edge that created a node, the zone of the run tracks the zone of the node. -/
theorem tracks_step {A : TA} (hcl : A.ClocksExist) (hnr : A.NonnegResets)
    (ho : A.ResetsOrdered) (hio : A.UpdatesInOrder) (hmax : A.MaxOK) (quick : Bool) {p : ℕ} {z w : Zone}
    (hz : PB A p z) (hw : SymRun.Good A.clockSize w) (htr : Tracks A z w) {a : Action} {t : Trans}
    (ht : t ∈ (A.loc p).next a) {z0 : Zone} (hs : succZone z.elapse t = some z0) :
    SymRun.Feasible w t ∧ Tracks A (newZone A quick z0) (SymRun.postZone w t) := by
  obtain ⟨hp, hdim, hnn, hne, -⟩ := hz
  have hdim' : z.elapse.dim = A.clockSize + 1 := hdim
  have htok := transOK hcl hp ht
  obtain ⟨b1, b2, b3, b4, b5⟩ := succZone_some (by rw [hdim']; exact htok) hs
  obtain ⟨hn, hraw⟩ := ho p hp a t ht
  obtain ⟨v0, hv0⟩ := closed_nonempty z0 b2 b3
  have hnn0 := succ_nonneg hcl hnr ho hp hdim hnn ht hs
  have key : ∀ u, z.elapse.Mem u → t.guard.Holds u → ∃ q d, w.Mem q ∧ 0 ≤ d ∧
      t.guard.Holds (q.shift d) ∧ Valuation.Near (thresholds A) A.clockSize u (q.shift d) := by
    intro u hu hg
    obtain ⟨u', h1, h2⟩ := htr u hu
    obtain ⟨d, hd, h3⟩ := (elapse_mem w hw.closed hw.ne u').1 h1
    have e : (u'.shift (-d)).shift d = u' := by funext x; simp [Valuation.shift]
    exact ⟨_, d, h3, hd, by rw [e]; exact near_guard htok.1 (hmax.2 p hp a t ht).1 h2 hg, by rw [e]; exact h2⟩
  have hf : SymRun.Feasible w t := by
    obtain ⟨u, h1, h2, -⟩ := (b5 v0).1 hv0
    obtain ⟨q, d, k1, k2, k3, -⟩ := key u h1 h2
    exact ⟨q, k1, d, k2, k3⟩
  refine ⟨hf, fun v hv => ?_⟩
  obtain ⟨v', hv', hnear⟩ := newZone_near hmax.1 quick b2 b4 (by omega) hnn0 v hv
  obtain ⟨d, hd, hvd⟩ := (elapse_mem _ b2 ⟨v0, hv0⟩ v').1 hv'
  obtain ⟨u, h1, h2, h3⟩ := (b5 _).1 hvd
  obtain ⟨q, dq, k1, k2, k3, k4⟩ := key u h1 h2
  obtain ⟨g1, g2, g3, g4⟩ := SymRun.postZone_spec hw.dim hw.closed htok (hio p hp a t ht) hf
  refine ⟨(t.resets.apply (q.shift dq)).shift d,
    elapse_sound _ _ d hd ((g4 _).2 ⟨q, k1, dq, k2, k3, rfl⟩), ?_⟩
  have hn2 := near_shift (near_apply htok.2 (hmax.2 p hp a t ht).2 k4) hd
  rw [← seqApply_eq_apply t.resets hn hraw u, ← h3] at hn2
  have e : (v'.shift (-d)).shift d = v' := by funext x; simp [Valuation.shift]
  rw [e] at hn2
  have hdd : z0.dim - 1 = A.clockSize := by omega
  rw [hdd] at hnear
  exact near_trans hnear hn2

end Ta2za

namespace ZA

open Ta2za

/-- The run ends in node `q`, can be taken, and its last zone tracks the zone of the node. -/
structure RunTr (A : TA) (za : ZA) (r : SymRun) (q : ℕ) : Prop where
  last : r.states.getLastD 0 = q
  lt : q < za.states.length
  tight : r.tight = SymRun.tights (Zone.zero (A.clockSize + 1)) r.edges
  edges : ∀ t ∈ r.edges, ∃ p ∈ A.states, ∃ a, t ∈ (A.loc p).next a
  feasible : SymRun.AllFeasible (Zone.zero (A.clockSize + 1)) r.edges
  tracks : Tracks A (za.loc q).zone (r.edges.foldl SymRun.postZone (Zone.zero (A.clockSize + 1)))

/-- What is needed of the automaton. -/
structure Ready (A : TA) : Prop where
  wf : A.WF
  order : A.UpdatesInOrder
  max : A.MaxOK

theorem Ready.fit {A : TA} (h : Ready A) {t : Trans} (ht : ∃ p ∈ A.states, ∃ a, t ∈ (A.loc p).next a) :
    SymRun.Fit A.clockSize t := by
  obtain ⟨p, hp, a, ht⟩ := ht
  exact ⟨transOK h.wf.clocks hp ht, h.order p hp a t ht, h.wf.resets p hp a t ht⟩

section
variable {A : TA} {quick : Bool} {za : ZA} (hA : Ready A)
  (hnode : ∀ i < za.states.length, PB A (za.loc i).ta (za.loc i).zone)
  (hedge : ∀ i < za.states.length, ∀ a, ∀ e ∈ (za.loc i).next a,
    e.1 ∈ (A.loc (za.loc i).ta).next a ∧ e.2 < za.states.length)
include hA hnode hedge

theorem RunTr.push {r : SymRun} {p : ℕ} (h : RunTr A za r p) {a : Action} {e : Trans × ℕ}
    (he : e ∈ (za.loc p).next a) {z0 : Zone} (hs : succZone (za.loc p).zone.elapse e.1 = some z0)
    (hz : (za.loc e.2).zone = newZone A quick z0) : RunTr A za (r.push e.1 a e.2) e.2 := by
  obtain ⟨he1, he2⟩ := hedge p h.lt a e he
  have hg := (SymRun.Good.zero A.clockSize).foldl r.edges (fun t ht => hA.fit (h.edges t ht)) h.feasible
  obtain ⟨k1, k2⟩ := tracks_step hA.wf.clocks hA.wf.resets hA.order.ordered hA.order hA.max quick
    (hnode p h.lt) hg h.tracks he1 hs
  refine ⟨by simp [SymRun.push], he2, ?_, ?_, ?_, ?_⟩
  · simp only [SymRun.push]
    rw [(tights_snoc _ _ _).1, List.foldl_append, List.foldl_cons, List.foldl_nil, ← h.tight]
    congr 2
    rw [h.tight, (tights_snoc _ r.edges e.1).2]
  · intro t ht
    simp only [SymRun.push, List.mem_append, List.mem_singleton] at ht
    rcases ht with ht | rfl
    · exact h.edges t ht
    · exact ⟨_, (hnode p h.lt).1, a, he1⟩
  · simp only [SymRun.push]
    exact (SymRun.allFeasible_snoc _ _ _).2 ⟨h.feasible, k1⟩
  · simp only [SymRun.push, List.foldl_append, List.foldl_cons, List.foldl_nil]
    rw [hz]; exact k2

/-- The search has visited the first `c` nodes; the next runs end in the nodes from `e` on. -/
def SearchTr (A : TA) (za : ZA) (s : Search) (e c : ℕ) : Prop :=
  e ≤ c ∧ s.visited = List.range c ∧ List.Forall₂ (RunTr A za) s.nextRuns (List.range' e (c - e))

theorem searchEdges_tr {r : SymRun} {p : ℕ} (h : RunTr A za r p) {a : Action} {l : List (Trans × ℕ)}
    (hl : ∀ x ∈ l, x ∈ (za.loc p).next a) {c c' : ℕ} (hg : Grow A quick za p c l c') {e : ℕ} {s : Search}
    (hs : SearchTr A za s e c) : SearchTr A za (l.foldl (searchEdge r a) s) e c' := by
  induction hg generalizing s with
  | nil => exact hs
  | @old c x l c' hlt hg ih =>
    refine ih (fun y hy => hl y (by simp [hy])) ?_
    rw [searchEdge, if_pos (by rw [hs.2.1]; exact List.mem_range.2 hlt)]
    exact hs
  | @new c x l c' z0 hx h1 h2 hg ih =>
    refine ih (fun y hy => hl y (by simp [hy])) ?_
    rw [searchEdge, if_neg (by rw [hs.2.1, hx]; simp)]
    obtain ⟨k1, k2, k3⟩ := hs
    refine ⟨by omega, ?_, ?_⟩
    · rw [List.range_succ, ← k2, hx]
    · rw [range_append k1 (Nat.le_succ c), show c + 1 - c = 1 by omega]
      simp only
      refine List.rel_append k3 (.cons ?_ .nil)
      have := RunTr.push (quick := quick) hA hnode hedge h (hl x (by simp)) h1 (by rw [hx]; exact h2)
      rw [← hx]; exact this

theorem searchActs_tr {r : SymRun} {p : ℕ} (h : RunTr A za r p) (as : List Action) {c c' : ℕ}
    (hg : GrowActs A quick za p as c c') {e : ℕ} {s : Search} (hs : SearchTr A za s e c) :
    SearchTr A za (as.foldl (fun s a =>
      ((za.loc (r.states.getLastD 0)).next a).foldl (searchEdge r a) s) s) e c' := by
  induction as generalizing s c with
  | nil => cases hg; exact hs
  | cons a as ih =>
    obtain ⟨c1, h1, h2⟩ := hg
    refine ih h2 ?_
    rw [h.last]
    exact searchEdges_tr hA hnode hedge h (fun _ hx => hx) h1 hs

variable {cnt : ℕ → ℕ} {K : Zone → Prop} {T : Trans → Prop} (hS : SymRun.Sampled A.clockSize K T)
  (hT : ∀ p ∈ A.states, ∀ a, ∀ t ∈ (A.loc p).next a, T t)
  (hgrow : ∀ p < za.states.length, GrowActs A quick za p charActions (cnt p) (cnt (p + 1)))
include hS hT hgrow

theorem searchRound_tr (m : ℕ) : ∀ (k : ℕ) (runs : List SymRun) (s s' : Search),
    List.Forall₂ (RunTr A za) runs (List.range' k m) → SearchTr A za s (k + m) (cnt k) →
    za.searchRound runs s = .inr s' →
    SearchTr A za s' (k + m) (cnt (k + m)) ∧ ∀ p, k ≤ p → p < k + m → (za.loc p).isMatch = false := by
  induction m with
  | zero =>
    intro k runs s s' hr hs h
    cases hr
    simp only [searchRound, Sum.inr.injEq] at h
    subst h
    exact ⟨hs, by omega⟩
  | succ m ih =>
    intro k runs s s' hr hs h
    rw [List.range'_succ] at hr
    cases hr with
    | @cons run _ runs _ h1 h2 =>
      unfold searchRound at h
      have hm : (za.loc k).isMatch = false := by
        by_contra hc
        rw [Bool.not_eq_false] at hc
        obtain ⟨w, hw⟩ := SymRun.reconstruct_some hS run h1.tight
          (fun t ht => hA.fit (h1.edges t ht)) (fun t ht => by
            obtain ⟨p, hp, a, ht⟩ := h1.edges t ht
            exact hT p hp a t ht) h1.feasible
        rw [h1.last, if_pos hc, hw] at h
        cases h
      rw [h1.last, if_neg (by simp [hm])] at h
      have hst := searchActs_tr (quick := quick) hA hnode hedge h1 charActions (hgrow k h1.lt) hs
      rw [show k + (m + 1) = k + 1 + m by omega] at hst ⊢
      obtain ⟨g1, g2⟩ := ih (k + 1) runs _ s' h2 hst h
      refine ⟨g1, fun p hp1 hp2 => ?_⟩
      rcases Nat.eq_or_lt_of_le hp1 with rfl | hp1
      · exact hm
      · exact g2 p hp1 hp2

theorem searchLoop_tr (hb : ∀ p < za.states.length, p < cnt p ∧ cnt p ≤ za.states.length)
    (hlast : cnt za.states.length = za.states.length) (fuel : ℕ) :
    ∀ (k m : ℕ) (runs : List SymRun) (visited : List ℕ), k + m = cnt k → k ≤ za.states.length →
    List.Forall₂ (RunTr A za) runs (List.range' k m) → visited = List.range (cnt k) →
    za.states.length < k + fuel → za.searchLoop fuel runs visited = none →
    ∀ p, k ≤ p → p < za.states.length → (za.loc p).isMatch = false := by
  induction fuel with
  | zero => intro k m runs visited _ _ _ _ hf _ p hp; omega
  | succ fuel ih =>
    intro k m runs visited hk hkn hr hv hf h p hp1 hp2
    unfold searchLoop at h
    have hkl : k < za.states.length := by omega
    have hbk := hb k hkl
    have hne : runs.isEmpty = false := by
      have := hr.length_eq
      rw [List.length_range'] at this
      cases runs with
      | nil => simp at this; omega
      | cons _ _ => rfl
    rw [hne] at h
    simp only [Bool.false_eq_true, if_false] at h
    cases hs : za.searchRound runs ⟨visited, []⟩ with
    | inl w => rw [hs] at h; cases h
    | inr s' =>
      rw [hs] at h
      simp only at h
      obtain ⟨⟨g1, g2, g3⟩, g4⟩ := searchRound_tr hA hnode hedge hS hT hgrow m k runs ⟨visited, []⟩ s' hr
        ⟨hk.le, hv, by rw [hk]; simp⟩ hs
      by_cases hp3 : p < k + m
      · exact g4 p hp1 hp3
      · have hle : k + m ≤ za.states.length := by omega
        exact ih (k + m) (cnt (k + m) - (k + m)) s'.nextRuns s'.visited (by omega) hle g3 g2
          (by omega) h p (by omega) hp2

end

/-- The order of `ta2za` and of `sample` agree on the actions with edges. -/
theorem growActs_char {A : TA} {quick : Bool} {za : ZA} {o : HashOrder} {p : ℕ} {st : TAState}
    (hasc : ((o.acts st).filter fun a => !(st.next a).isEmpty).Pairwise (· < ·))
    (hsub : ∀ a, st.next a = [] → (za.loc p).next a = [])
    (hch : ∀ a, st.next a ≠ [] → a.val < 127) {c c' : ℕ}
    (h : GrowActs A quick za p (o.acts st) c c') : GrowActs A quick za p charActions c c' := by
  rw [GrowActs.filter] at h ⊢
  have : (o.acts st).filter (fun a => !((za.loc p).next a).isEmpty) =
      charActions.filter (fun a => !((za.loc p).next a).isEmpty) := by
    have e1 : ∀ l : List Action, l.filter (fun a => !((za.loc p).next a).isEmpty) =
        (l.filter fun a => !(st.next a).isEmpty).filter (fun a => !((za.loc p).next a).isEmpty) := by
      intro l
      rw [List.filter_filter]
      refine List.filter_congr fun a _ => ?_
      by_cases ha : st.next a = []
      · simp [hsub a ha]
      · have : (st.next a).isEmpty = false := by simpa [List.isEmpty_iff] using ha
        simp [this]
    refine List.Perm.eq_of_pairwise (le := (· < ·)) (fun a b _ _ h1 h2 => by
      have h3 := Fin.lt_def.1 h1
      have h4 := Fin.lt_def.1 h2
      omega) ?_ ?_ ?_
    · rw [e1]; exact hasc.filter _
    · refine List.Pairwise.filter _ (List.Pairwise.filter _ ?_)
      exact List.pairwise_lt_finRange _
    · rw [List.perm_ext_iff_of_nodup]
      · intro a
        simp only [List.mem_filter, charActions, (o.acts_perm st).mem_iff, mem_allActions, true_and,
          decide_eq_true_eq]
        constructor
        · intro ha
          refine ⟨hch a fun hn => ?_, ha⟩
          rw [hsub a hn] at ha; simp at ha
        · exact And.right
      · exact ((o.acts_perm st).nodup_iff.2 (List.nodup_finRange _)).filter _
      · exact ((List.nodup_finRange _).filter _).filter _
  rwa [← this]

/-- If no word is sampled, no node is accepting. -/
theorem sample_complete {A : TA} (hA : Ready A) {K : Zone → Prop} {T : Trans → Prop}
    (hS : SymRun.Sampled A.clockSize K T) (hT : ∀ p ∈ A.states, ∀ a, ∀ t ∈ (A.loc p).next a, T t)
    (o : HashOrder) (hasc : o.Ascending A)
    (hch : ∀ p ∈ A.states, ∀ a, (A.loc p).next a ≠ [] → a.val < 127)
    (quick : Bool) (fuel : ℕ) (za : ZA) (h : ta2za A o quick fuel = some za) (hs : za.sample = none) :
    ∀ p ∈ za.states, (za.loc p).isMatch = false := by
  have hmemo : za.memo = none := by
    have hs' := Ta2za.ta2za_memo A o quick fuel za h
    unfold ZA.sampleWithMemo at hs'
    cases hmm : za.memo with
    | none => rfl
    | some u => rw [hmm, hs] at hs'; cases hs'
  have h0 := pb_start hA.wf.closed
  have hP := pb_step hA.wf.closed hA.wf.clocks hA.wf.resets hA.order.ordered hA.max quick
  have h' := h
  simp only [ta2za, Option.map_eq_some_iff] at h'
  obtain ⟨s, hloop, rfl⟩ := h'
  obtain ⟨i1, i2⟩ := loop_inv o quick hP fuel _ s (start_inv A _ quick h0).1 hloop
  obtain ⟨m1, m2, -⟩ := loop_memo (quick := quick) fuel _ s
    ⟨by rw [(start_inv A _ quick h0).2.1, (start_inv A _ quick h0).2.2]; rfl,
      fun _ => (start_inv A _ quick h0).2.1,
      fun w hw => by rw [(start_inv A _ quick h0).2.2] at hw; cases hw⟩ hloop
  have hnd : s.done = false := by rw [m1, hmemo]; rfl
  have hq : s.queue = [] := i2.resolve_left (by simp [hnd])
  obtain ⟨cnt, c1, c2, c3⟩ := ta2za_log A _ o quick h0 hP fuel s.za h s hloop hq
  have hedge : ∀ i < s.za.states.length, ∀ a, ∀ e ∈ (s.za.loc i).next a,
      e.1 ∈ (A.loc (s.za.loc i).ta).next a ∧ e.2 < s.za.states.length := fun i hi a e he =>
    ⟨(i1.edge i hi a e he).1, (i1.edge i hi a e he).2.1⟩
  have hgrow : ∀ p < s.za.states.length, GrowActs A quick s.za p charActions (cnt p) (cnt (p + 1)) := by
    intro p hp
    have hpA := (i1.node p hp).1
    refine growActs_char (hasc _ hpA) (fun a ha => ?_) (fun a ha => hch _ hpA a ha) (c3 p hp).2.2
    rw [List.eq_nil_iff_forall_not_mem]
    intro e he
    have := (hedge p hp a e he).1
    rw [ha] at this; cases this
  have hcle : ∀ p ≤ s.za.states.length, cnt p ≤ s.za.states.length := by
    intro p hp
    cases p with
    | zero => rw [c1]; exact i1.initLen
    | succ p => exact (c3 p (by omega)).2.1
  have hstates := i1.states
  have key := searchLoop_tr hA i1.node hedge hS hT hgrow
    (fun p hp => ⟨(c3 p hp).1, hcle p hp.le⟩) c2 (s.za.states.length + 2) 0 A.init.length
    (s.za.init.map (SymRun.start s.za)) s.za.init (by rw [c1, Nat.zero_add]) (Nat.zero_le _) ?_
    (by rw [i1.init, c1]) (by omega) hs
  · intro p hp
    rw [hstates] at hp
    exact key p (Nat.zero_le _) (List.mem_range.1 hp)
  · rw [i1.init, ← List.range_eq_range', List.forall₂_map_left_iff]
    have : ∀ l : List ℕ, (∀ i ∈ l, i < A.init.length) →
        List.Forall₂ (fun a b => RunTr A s.za (SymRun.start s.za a) b) l l := by
      intro l
      induction l with
      | nil => intro _; exact .nil
      | cons i l ih =>
        intro hl
        refine .cons ?_ (ih fun j hj => hl j (by simp [hj]))
        have hi := hl i (by simp)
        have hil := hi.trans_le i1.initLen
        refine ⟨rfl, hil, ?_, by simp [SymRun.start], trivial, ?_⟩
        · simp only [SymRun.start, SymRun.tights]
          rw [i1.initZone i hi]
        · simp only [SymRun.start, List.foldl_nil]
          rw [i1.initZone i hi]
          exact fun v hv => ⟨v, hv, fun x _ => .inl rfl⟩
    exact this _ fun i hi => List.mem_range.1 hi

end ZA
end LearnTA
