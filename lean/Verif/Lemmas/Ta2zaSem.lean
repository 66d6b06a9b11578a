import Verif.Lemmas.Ta2za
import Verif.Lemmas.Extrapolate
import Verif.Lemmas.ZoneSample
import Verif.Lemmas.Resets
import Verif.Lemmas.Intersection
import Verif.Lemmas.Micro
import Verif.Spec.ZA
import Verif.Lemmas.ZADead

namespace LearnTA
open Bound

namespace Zone

theorem fillDiag_sat (z : Zone) (w : ℕ → ℚ) (h : z.Sat w) : z.fillDiag.Sat w := by
  intro i hi j hj
  simp only [fillDiag]
  split
  · rename_i e; subst e; simp
  · exact h i hi j hj

theorem fillDiag_mem (z : Zone) (hd : z.DiagNN) (v : Valuation) : z.fillDiag.Mem v ↔ z.Mem v := by
  refine ⟨fun h i hi j hj => ?_, fillDiag_sat z _⟩
  by_cases e : i = j
  · subst e; simpa using sat_self_zero.2 (hd i hi)
  · have := h i hi j hj
    simp only [fillDiag, if_neg e] at this
    exact this

theorem fillDiag_closed (z : Zone) (hc : z.Closed) (hne : ∃ v, z.Mem v) : z.fillDiag.Closed := by
  obtain ⟨v, hv⟩ := hne
  intro i hi j hj k hk
  simp only [fillDiag]
  by_cases e : i = j
  · subst e
    rw [if_pos rfl]
    by_cases e' : i = k
    · subst e'; simp
    · rw [if_neg e', if_neg (Ne.symm e')]
      exact sat_pair_nonneg hv hi hk
  · rw [if_neg e]
    by_cases e' : i = k
    · subst e'
      rw [if_pos rfl, if_neg e]
      change _ ≤ 0 + z.val i j
      rw [zero_add]
    · rw [if_neg e']
      by_cases e'' : k = j
      · subst e''
        rw [if_pos rfl]
        change _ ≤ z.val i k + 0
        rw [add_zero]
      · rw [if_neg e'']; exact hc i hi j hj k hk

end Zone

namespace Ta2za
open Zone

/-- The clocks of a transition exist. -/
def TransOK (n : ℕ) (t : Trans) : Prop :=
  (∀ c ∈ t.guard, c.x < n) ∧ (∀ r ∈ t.resets, UpdOK n r)

theorem transOK {A : TA} (hc : A.ClocksExist) {p a t} (hp : p ∈ A.states)
    (ht : t ∈ (A.loc p).next a) : TransOK A.clockSize t := by
  obtain ⟨h1, h2⟩ := hc p hp a t ht
  refine ⟨h1, fun r hr => ⟨(h2 r hr).1, ?_⟩⟩
  have := (h2 r hr).2
  cases h : r.2 with
  | const q => trivial
  | clock y => exact this y h

theorem succZone_some {now : Zone} {t : Trans} {z0 : Zone} (hok : TransOK (now.dim - 1) t)
    (h : succZone now t = some z0) :
    z0.dim = now.dim ∧ z0.Closed ∧ z0.DiagNN ∧ (∀ i, z0.val i i = 0) ∧
    ∀ v, z0.Mem v ↔ ∃ u, now.Mem u ∧ t.guard.Holds u ∧ v = seqApply t.resets u := by
  have hg : ∀ c ∈ t.guard, c.x + 1 < now.dim := fun c hc => by have := hok.1 c hc; omega
  unfold succZone at h
  simp only at h
  split at h
  · exact absurd h (by simp)
  · rename_i hs1
    have hs1 : ((now.tightenG t.guard).canonize).isSatisfiableNoCanonize = true := by simpa using hs1
    obtain ⟨u1, hu1⟩ := (isSatisfiable_iff _).1 hs1
    have hd1 : (now.tightenG t.guard).canonize.dim = now.dim := by
      rw [canonize_dim, tightenG_dim]
    have hc1 : (now.tightenG t.guard).canonize.Closed := canonize_closed_of_mem hu1
    have hm1 : ∀ v, (now.tightenG t.guard).canonize.Mem v ↔ now.Mem v ∧ t.guard.Holds v := by
      intro v; rw [canonize_mem, tightenG_mem _ _ hg]
    obtain ⟨a1, a2, a3⟩ := applyResets_spec _ hc1 t.resets (by rw [hd1]; exact hok.2)
      ⟨u1, (canonize_mem _ _).2 hu1⟩
    set z1 := (now.tightenG t.guard).canonize with hz1
    have hne2 : (z1.applyResets t.resets).Mem (seqApply t.resets u1) :=
      (a3 _).2 ⟨u1, (canonize_mem _ _).2 hu1, rfl⟩
    set z2 := (z1.applyResets t.resets).canonize.canonize with hz2
    have hm2 : ∀ v, z2.Mem v ↔ ∃ u, now.Mem u ∧ t.guard.Holds u ∧ v = seqApply t.resets u := by
      intro v
      rw [hz2, canonize_mem, canonize_mem, a3]
      constructor
      · rintro ⟨u, hu, rfl⟩; exact ⟨u, ((hm1 u).1 hu).1, ((hm1 u).1 hu).2, rfl⟩
      · rintro ⟨u, h1, h2, rfl⟩; exact ⟨u, (hm1 u).2 ⟨h1, h2⟩, rfl⟩
    have hne : z2.Mem (seqApply t.resets u1) := by
      rw [hz2, canonize_mem, canonize_mem]; exact hne2
    have hc2 : z2.Closed := canonize_closed_of_mem ((canonize_mem _ _).2 hne2)
    split at h
    · exact absurd h (by simp)
    · simp only [Option.some.injEq] at h
      subst h
      have hdim : z2.fillDiag.dim = now.dim := by
        change z2.dim = _
        rw [hz2, canonize_dim, canonize_dim, a2, hd1]
      refine ⟨hdim, fillDiag_closed _ hc2 ⟨_, hne⟩, ?_, ?_, ?_⟩
      · intro i _; simp [fillDiag, zero_def]
      · intro i; simp [fillDiag, zero_def]
      · intro v; rw [fillDiag_mem _ hne.diagNN]; exact hm2 v

theorem succZone_none {now : Zone} {t : Trans} (hok : TransOK (now.dim - 1) t)
    (h : succZone now t = none) (u : Valuation) (hu : now.Mem u) (hgu : t.guard.Holds u) : False := by
  have hg : ∀ c ∈ t.guard, c.x + 1 < now.dim := fun c hc => by have := hok.1 c hc; omega
  have hd1 : (now.tightenG t.guard).canonize.dim = now.dim := by
    rw [canonize_dim, tightenG_dim]
  have h1 : (now.tightenG t.guard).Mem u := (tightenG_mem _ _ hg _).2 ⟨hu, hgu⟩
  have s1 : ((now.tightenG t.guard).canonize).isSatisfiableNoCanonize = true :=
    (isSatisfiable_iff _).2 ⟨u, h1⟩
  have h2 := (applyResets_sound (now.tightenG t.guard).canonize t.resets (by rw [hd1]; exact hok.2) u
    ((canonize_mem _ _).2 h1)).1
  have s2 : (((now.tightenG t.guard).canonize.applyResets
      t.resets).canonize.canonize).isSatisfiableNoCanonize = true :=
    (isSatisfiable_iff _).2 ⟨_, (canonize_mem _ _).2 h2⟩
  unfold succZone at h
  simp [s1, s2] at h

theorem newZone_weaker (A : TA) (quick : Bool) {z0 : Zone} (v : Valuation) (h : z0.Mem v) :
    (newZone A quick z0).Mem v := by
  unfold newZone
  split
  · exact fillDiag_sat _ _ ((canonize_mem _ _).2 ((extrapolate_weaker _ _).mem h))
  · exact fillDiag_sat _ _ ((extrapolate_weaker _ _).mem h)

theorem newZone_dim (A : TA) (quick : Bool) (z0 : Zone) : (newZone A quick z0).dim = z0.dim := by
  unfold newZone
  split
  · change ((z0.extrapolate _).canonize).dim = _
    rw [canonize_dim, (extrapolate_weaker _ _).1]
  · exact (extrapolate_weaker _ _).1

theorem lookupZone_weaker (A : TA) (quick : Bool) {z0 : Zone} (v : Valuation) (h : z0.Mem v) :
    (lookupZone A quick z0).Mem v := by
  unfold lookupZone
  split
  · exact h
  · exact fillDiag_sat _ _ ((extrapolate_weaker _ _).mem h)

theorem lookupZone_dim (A : TA) (quick : Bool) (z0 : Zone) :
    (lookupZone A quick z0).dim = z0.dim := by
  unfold lookupZone
  split
  · rfl
  · exact (extrapolate_weaker _ _).1

/-- What forward simulation needs to know of the nodes. -/
def PF (A : TA) (p : ℕ) (z : Zone) : Prop := p ∈ A.states ∧ z.dim = A.clockSize + 1

theorem zero_mem (n : ℕ) : (Zone.zero n).Mem Valuation.zero := by
  intro i _ j _
  have : ∀ i, Valuation.zero.ext i = 0 := by intro i; cases i <;> rfl
  simp [Zone.zero, this]

/-- Forward simulation: if node `i` is in the place of configuration `c`, every run from `c` is
simulated. -/
theorem forward {A : TA} (hw : A.Closed) (hcl : A.ClocksExist) (ho : A.ResetsOrdered) {quick : Bool}
    {s : State} (hs : Inv A (PF A) quick s) (hd : s.done = false) (hq : s.queue = [])
    {c c' : Config} {ms : List TA.Micro} (hr : A.MRun c ms c') :
    ∀ i < s.za.states.length, (s.za.loc i).ta = c.loc → (s.za.loc i).zone.elapse.Mem c.val →
    ∃ j < s.za.states.length, s.za.Path i (TA.discrete ms) j ∧ (s.za.loc j).ta = c'.loc ∧
      (s.za.loc j).zone.elapse.Mem c'.val := by
  have step : ∀ (c : Config) (a : Action) (t : Trans), t ∈ (A.loc c.loc).next a →
      t.guard.Holds c.val → ∀ i < s.za.states.length, (s.za.loc i).ta = c.loc →
      (s.za.loc i).zone.elapse.Mem c.val → ∃ j < s.za.states.length,
        (t, j) ∈ (s.za.loc i).next a ∧ (s.za.loc j).ta = t.target ∧
        (s.za.loc j).zone.elapse.Mem (t.resets.apply c.val) := by
    intro c a t ht hg i hi hta hz
    obtain ⟨hp, hdim⟩ := hs.node i hi
    have hh := (hs.handled hd i hi).resolve_left (by simp [hq]) a t (by rw [hta]; exact ht)
    have hdim' : (s.za.loc i).zone.elapse.dim = A.clockSize + 1 := hdim
    have hok : TransOK ((s.za.loc i).zone.elapse.dim - 1) t := by
      rw [hdim']; exact transOK hcl (by rw [← hta]; exact hp) ht
    cases hz0 : succZone (s.za.loc i).zone.elapse t with
    | none => exact absurd hg (fun hg => succZone_none hok hz0 _ hz hg)
    | some z0 =>
      obtain ⟨j, h1, h2, h3, h4⟩ := hh z0 hz0
      obtain ⟨b1, -, -, -, b4⟩ := succZone_some hok hz0
      have hro := ho c.loc (by rw [← hta]; exact hp) a t ht
      have hm : z0.Mem (t.resets.apply c.val) :=
        (b4 _).2 ⟨c.val, hz, hg, (seqApply_eq_apply _ hro.1 hro.2 _).symm⟩
      refine ⟨j, h2, h1, h3, ?_⟩
      have hmem : (s.za.loc j).zone.Mem (t.resets.apply c.val) := by
        rcases h4 with h4 | h4
        · have hj := (hs.node j h2).2
          refine Mem.of_le ?_ ((includes_iff _ _).1 h4) (lookupZone_weaker A quick _ hm)
          rw [lookupZone_dim, b1, hdim', hj]
        · rw [h4]; exact newZone_weaker A quick _ hm
      have := elapse_sound _ _ 0 (le_refl _) hmem
      have e : (t.resets.apply c.val).shift 0 = t.resets.apply c.val := by
        funext x; simp [Valuation.shift]
      rwa [e] at this
  induction hr with
  | nil c => intro i hi h1 h2; exact ⟨i, hi, .nil i, h1, h2⟩
  | @delay c ms c' d hd' h ih =>
    intro i hi h1 h2
    refine ih i hi h1 ?_
    have := elapse_sound _ _ d hd' h2
    have e : ∀ z : Zone, z.elapse.elapse = z.elapse := by
      intro z; unfold elapse; congr 1; funext a b; by_cases hb : b = 0 <;> simp [hb]
    rwa [e] at this
  | @eps c ms c' t ht hg h ih =>
    intro i hi h1 h2
    obtain ⟨j, hj, he, hta, hz⟩ := step c _ t ht hg i hi h1 h2
    obtain ⟨k, hk, hp, h3, h4⟩ := ih j hj hta hz
    exact ⟨k, hk, .cons _ t j he hp, h3, h4⟩
  | @act c ms c' a ha t ht hg h ih =>
    intro i hi h1 h2
    obtain ⟨j, hj, he, hta, hz⟩ := step c _ t ht hg i hi h1 h2
    obtain ⟨k, hk, hp, h3, h4⟩ := ih j hj hta hz
    exact ⟨k, hk, .cons _ t j he hp, h3, h4⟩

theorem pf_start {A : TA} (hw : A.Closed) :
    ∀ q ∈ A.init, PF A q (Zone.zero (A.clockSize + 1)) := fun q hq => ⟨hw.1 q hq, rfl⟩

theorem pf_step {A : TA} (hw : A.Closed) (hcl : A.ClocksExist) (quick : Bool) :
    ∀ p z, PF A p z → ∀ a, ∀ t ∈ (A.loc p).next a, ∀ z0, succZone z.elapse t = some z0 →
      PF A t.target (newZone A quick z0) := by
  intro p z ⟨h1, h2⟩ a t ht z0 hz
  refine ⟨hw.2 p h1 a t ht, ?_⟩
  have hdim' : z.elapse.dim = A.clockSize + 1 := h2
  rw [newZone_dim, (succZone_some (by rw [hdim']; exact transOK hcl h1 ht) hz).1, hdim']

/-! ### Every node is realised -/

theorem near_shift {m : ℕ → ℚ} {n : ℕ} {v v' : Valuation} (h : Valuation.Near m n v v') {d : ℚ}
    (hd : 0 ≤ d) : Valuation.Near m n (v.shift d) (v'.shift d) := by
  intro x hx
  simp only [Valuation.shift]
  rcases h x hx with h | ⟨h1, h2⟩
  · left; rw [h]
  · right; exact ⟨by linarith, by linarith⟩

theorem near_trans {m : ℕ → ℚ} {n : ℕ} {u v w : Valuation} (h : Valuation.Near m n u v)
    (h' : Valuation.Near m n v w) : Valuation.Near m n u w := by
  intro x hx
  rcases h x hx with h1 | ⟨h1, h2⟩ <;> rcases h' x hx with h3 | ⟨h3, h4⟩
  · left; rw [h1, h3]
  · right; exact ⟨by rw [h1]; exact h3, h4⟩
  · right; exact ⟨h1, by rw [← h3]; exact h2⟩
  · right; exact ⟨h1, h4⟩

theorem near_guard {A : TA} {g : Guard} (hg : ∀ c ∈ g, c.x < A.clockSize)
    (hm : ∀ c ∈ g, c.c ≤ A.maxC.getD c.x 0) {v v' : Valuation}
    (h : Valuation.Near (thresholds A) A.clockSize v v') (hv : g.Holds v) : g.Holds v' := by
  intro c hc
  have h1 := hv c hc
  have h2 : ((c.c : ℤ) : ℚ) ≤ thresholds A c.x := by
    unfold thresholds; exact_mod_cast hm c hc
  rcases h c.x (hg c hc) with h3 | ⟨h3, h4⟩
  · obtain ⟨x, o, q⟩ := c
    simp only at h3
    cases o <;> simp only [Constraint.Holds] at h1 ⊢ <;> rw [← h3] <;> exact h1
  · obtain ⟨x, o, q⟩ := c
    simp only at h2 h3 h4
    cases o <;> simp only [Constraint.Holds] at h1 ⊢ <;> linarith

theorem near_apply {A : TA} {r : Resets} (hr : ∀ p ∈ r, UpdOK A.clockSize p)
    (hm : ∀ p ∈ r, ∀ y, p.2 = .clock y → A.maxC.getD p.1 0 ≤ A.maxC.getD y 0) {v v' : Valuation}
    (h : Valuation.Near (thresholds A) A.clockSize v v') :
    Valuation.Near (thresholds A) A.clockSize (r.apply v) (r.apply v') := by
  intro x hx
  rw [Resets.apply_eq, Resets.apply_eq]
  cases hu : Resets.upd r x with
  | none => simpa using h x hx
  | some u =>
    have hmem := TA.upd_mem r x u hu
    cases u with
    | const q => left; simp [Upd.eval]
    | clock y =>
      have hy : y < A.clockSize := (hr _ hmem).2
      have hxy : thresholds A x ≤ thresholds A y := by
        unfold thresholds; exact_mod_cast hm _ hmem y rfl
      simp only [Option.map_some, Option.getD_some, Upd.eval]
      rcases h y hy with h | ⟨h1, h2⟩
      · left; exact h
      · right; exact ⟨by linarith, by linarith⟩

/-- The extrapolation of the new zone does not add anything new, even after time has passed. -/
theorem newZone_near {A : TA} (hm : ∀ m ∈ A.maxC, 0 ≤ m) (quick : Bool) {z0 : Zone}
    (hc : z0.Closed) (hd : ∀ i, z0.val i i = 0) (h0 : 0 < z0.dim)
    (hnn : ∀ i, i + 1 < z0.dim → z0.val 0 (i + 1) ≤ 0) (v : Valuation)
    (hv : (newZone A quick z0).elapse.Mem v) :
    ∃ v', z0.elapse.Mem v' ∧ Valuation.Near (thresholds A) (z0.dim - 1) v v' := by
  have hm' : ∀ x, 0 ≤ thresholds A x := by
    intro x
    unfold thresholds
    rw [List.getD_eq_getElem?_getD]
    cases h : A.maxC[x]? with
    | none => simp
    | some q => simpa using hm q (List.mem_of_getElem? h)
  have hdn : z0.DiagNN := fun i _ => (hd i).ge
  have hx := extra_extrapolate (thresholds A) z0
  cases quick with
  | true =>
    simp only [newZone, if_true] at hv
    obtain ⟨u, hu⟩ := closed_nonempty z0 hc hdn
    have hne : (z0.extrapolate (thresholds A)).canonize.Mem u :=
      (canonize_mem _ _).2 ((extrapolate_weaker _ _).mem hu)
    have hcl := canonize_closed_of_mem ((extrapolate_weaker z0 (thresholds A)).mem hu)
    have hcl' := fillDiag_closed _ hcl ⟨u, hne⟩
    obtain ⟨d, hd0, hvd⟩ := (elapse_mem _ hcl' ⟨u, fillDiag_sat _ _ hne⟩ v).1 hv
    rw [fillDiag_mem _ hne.diagNN, canonize_mem] at hvd
    obtain ⟨v', h1, h2⟩ := hx.equiv hm' hc hdn h0 hnn _ hvd
    refine ⟨v'.shift d, elapse_sound _ _ d hd0 h1, ?_⟩
    have := near_shift h2 hd0
    have e : (v.shift (-d)).shift d = v := by funext x; simp [Valuation.shift]
    rwa [e] at this
  | false =>
    simp only [newZone, Bool.false_eq_true, if_false] at hv
    have hE : Extra (thresholds A) z0.elapse (z0.extrapolate (thresholds A)).fillDiag.elapse := by
      refine ⟨hx.dim, by simp [elapse], fun i => by simp [elapse], fun i => ?_, fun i j => ?_⟩
      · simpa [elapse, fillDiag] using hx.lo i
      · by_cases e : i = j
        · subst e; left; simp [elapse, fillDiag, hd, zero_def]
        · simpa [elapse, fillDiag, e] using hx.dd i j
    obtain ⟨u, hu⟩ := closed_nonempty z0 hc hdn
    have hu' := elapse_sound _ _ 0 (le_refl _) hu
    obtain ⟨v', h1, h2⟩ := hE.equiv hm' (elapse_closed hc) hu'.diagNN h0
      (fun i hi => by simpa [elapse] using hnn i hi) v hv
    exact ⟨v', h1, h2⟩

/-- Every valuation of the node, after any delay, is close to a reachable one. -/
def PB (A : TA) (p : ℕ) (z : Zone) : Prop :=
  p ∈ A.states ∧ z.dim = A.clockSize + 1 ∧ (∀ i, i + 1 < z.dim → z.val 0 (i + 1) ≤ 0) ∧
  (∃ v, z.Mem v) ∧
  ∀ v, z.elapse.Mem v → ∃ v', A.Reach ⟨p, v'⟩ ∧ Valuation.Near (thresholds A) A.clockSize v v'

theorem MRun.append {A : TA} {c c' c'' : Config} {ms ms' : List TA.Micro} (h : A.MRun c ms c')
    (h' : A.MRun c' ms' c'') : A.MRun c (ms ++ ms') c'' := by
  induction h with
  | nil c => exact h'
  | delay d hd _ ih => exact .delay d hd (ih h')
  | eps t ht hg _ ih => exact .eps t ht hg (ih h')
  | act a ha t ht hg _ ih => exact .act a ha t ht hg (ih h')

theorem Reach.delay {A : TA} {p : ℕ} {v : Valuation} (h : A.Reach ⟨p, v⟩) {d : ℚ} (hd : 0 ≤ d) :
    A.Reach ⟨p, v.shift d⟩ := by
  obtain ⟨q, hq, ms, hr⟩ := h
  exact ⟨q, hq, _, MRun.append hr (.delay d hd (.nil _))⟩

theorem Reach.trans {A : TA} {p : ℕ} {v : Valuation} (h : A.Reach ⟨p, v⟩) {a : Action} {t : Trans}
    (ht : t ∈ (A.loc p).next a) (hg : t.guard.Holds v) : A.Reach ⟨t.target, t.resets.apply v⟩ := by
  obtain ⟨q, hq, ms, hr⟩ := h
  by_cases ha : a = unobservable
  · subst ha
    exact ⟨q, hq, _, MRun.append hr (.eps t ht hg (.nil _))⟩
  · exact ⟨q, hq, _, MRun.append hr (.act a ha t ht hg (.nil _))⟩

theorem zero_closed (n : ℕ) : (Zone.zero n).Closed := by
  intro i _ j _ k _
  simp [Zone.zero]

theorem pb_start {A : TA} (hw : A.Closed) :
    ∀ q ∈ A.init, PB A q (Zone.zero (A.clockSize + 1)) := by
  intro q hq
  refine ⟨hw.1 q hq, rfl, fun _ _ => le_refl _, ⟨_, zero_mem _⟩, fun v hv => ?_⟩
  obtain ⟨d, hd, hv⟩ := (elapse_mem _ (zero_closed _) ⟨_, zero_mem _⟩ v).1 hv
  refine ⟨Valuation.zero.shift d, Reach.delay ⟨q, hq, [], .nil _⟩ hd, fun x hx => ?_⟩
  left
  have h1 := hv (x + 1) (by simpa [Zone.zero] using hx) 0 (by simp [Zone.zero])
  have h2 := hv 0 (by simp [Zone.zero]) (x + 1) (by simpa [Zone.zero] using hx)
  simp [Zone.zero, Valuation.shift] at h1 h2
  simp [Valuation.shift, Valuation.zero]
  linarith

theorem pb_step {A : TA} (hw : A.Closed) (hcl : A.ClocksExist) (hnr : A.NonnegResets)
    (ho : A.ResetsOrdered) (hmax : A.MaxOK) (quick : Bool) :
    ∀ p z, PB A p z → ∀ a, ∀ t ∈ (A.loc p).next a, ∀ z0, succZone z.elapse t = some z0 →
      PB A t.target (newZone A quick z0) := by
  intro p z ⟨hp, hdim, hnn, hne, hreach⟩ a t ht z0 hz
  have hdim' : z.elapse.dim = A.clockSize + 1 := hdim
  have htok := transOK hcl hp ht
  obtain ⟨b1, b2, b3, b4, b5⟩ := succZone_some (by rw [hdim']; exact htok) hz
  obtain ⟨hn, hraw⟩ := ho p hp a t ht
  obtain ⟨v0, hv0⟩ := closed_nonempty z0 b2 b3
  have hpos : ∀ v, z0.Mem v → ∀ x < A.clockSize, 0 ≤ v x := by
    intro v hv x hx
    obtain ⟨u, h1, h2, rfl⟩ := (b5 v).1 hv
    rw [seqApply_eq_apply _ hn hraw, Resets.apply_eq]
    have hu : ∀ y < A.clockSize, 0 ≤ u y := by
      intro y hy
      have := h1 0 (by omega) (y + 1) (by omega)
      have e : z.elapse.val 0 (y + 1) = z.val 0 (y + 1) := by simp [elapse]
      rw [e] at this
      have := this.mono (hnn y (by omega))
      simp at this; linarith
    cases hup : Resets.upd t.resets x with
    | none => simpa using hu x hx
    | some w =>
      have hmem := TA.upd_mem _ _ _ hup
      cases w with
      | const q => simpa [Upd.eval] using hnr p hp a t ht _ hmem q rfl
      | clock y => simpa [Upd.eval] using hu y (htok.2 _ hmem).2
  have hnn0 : ∀ i, i + 1 < z0.dim → z0.val 0 (i + 1) ≤ 0 := by
    intro i hi
    have := bound_le_of_incl ⟨z0.dim, fun a b => if a = 0 ∧ b = i + 1 then 0 else .inf⟩ z0 rfl b2 b3
      (by
        intro v hv a _ b _
        simp only
        split
        · rename_i e
          obtain ⟨rfl, rfl⟩ := e
          have := hpos v hv i (by omega)
          simpa using this
        · trivial) (i := 0) (j := i + 1) (by simp only; omega) (by simpa using hi) (by omega)
    simpa using this
  refine ⟨hw.2 p hp a t ht, by rw [newZone_dim, b1, hdim'], ?_, ⟨v0, newZone_weaker A quick v0 hv0⟩,
    ?_⟩
  · intro i hi
    rw [newZone_dim] at hi
    have hE : (z0.extrapolate (thresholds A)).val 0 (i + 1) ≤ 0 := by
      rcases (extra_extrapolate (thresholds A) z0).lo i with e | ⟨h1, e⟩
      · rw [e]; exact hnn0 i hi
      · rw [e, zero_def, fin_le_fin]
        have : (0 : ℚ) ≤ thresholds A i := by
          unfold thresholds
          rw [List.getD_eq_getElem?_getD]
          cases h : A.maxC[i]? with
          | none => simp
          | some q => simpa using hmax.1 q (List.mem_of_getElem? h)
        rcases lt_or_eq_of_le this with h | h
        · left; linarith
        · right; exact ⟨by rw [← h]; simp, by simp⟩
    unfold newZone
    split
    · simp only [fillDiag]
      rw [if_neg (by omega)]
      exact (canonize_le _ _ _).trans hE
    · simp only [fillDiag]
      rw [if_neg (by omega)]
      exact hE
  · intro v hv
    obtain ⟨v', hv', hnear⟩ := newZone_near hmax.1 quick b2 b4 (by omega) hnn0 v hv
    obtain ⟨d, hd, hvd⟩ := (elapse_mem _ b2 ⟨v0, hv0⟩ v').1 hv'
    obtain ⟨u, h1, h2, h3⟩ := (b5 _).1 hvd
    obtain ⟨u', h4, h5⟩ := hreach u h1
    have hg' := near_guard htok.1 (hmax.2 p hp a t ht).1 h5 h2
    have hr := Reach.delay (Reach.trans h4 ht hg') hd
    refine ⟨_, hr, ?_⟩
    have hn2 := near_shift (near_apply htok.2 (hmax.2 p hp a t ht).2 h5) hd
    rw [← seqApply_eq_apply t.resets hn hraw u, ← h3] at hn2
    have e : (v'.shift (-d)).shift d = v' := by funext x; simp [Valuation.shift]
    rw [e] at hn2
    have hdd : z0.dim - 1 = A.clockSize := by omega
    rw [hdd] at hnear
    exact near_trans hnear hn2

/-! ### The early return -/

theorem addSuccessor_memo (A : TA) (o : HashOrder) (quick : Bool) (p : ℕ) (a : Action) (s : State)
    (t : Trans) (z0 : Zone) : (addSuccessor A o quick p a s t z0).za.memo = s.za.memo ∧
      (addSuccessor A o quick p a s t z0).done = s.done := by
  unfold addSuccessor
  split <;> exact ⟨rfl, rfl⟩

theorem searchLoop_memo (za : ZA) (m : Option TimedWord) (fuel : ℕ) (runs : List SymRun)
    (visited : List ℕ) :
    ZA.searchLoop { za with memo := m } fuel runs visited = za.searchLoop fuel runs visited := by
  have hround : ∀ (runs : List SymRun) (s : ZA.Search),
      ZA.searchRound { za with memo := m } runs s = za.searchRound runs s := by
    intro runs
    induction runs with
    | nil => intro s; rfl
    | cons r runs ih =>
      intro s
      unfold ZA.searchRound
      have : ZA.searchRun { za with memo := m } r s = za.searchRun r s := rfl
      rw [ih, this]
  induction fuel generalizing runs visited with
  | zero => rfl
  | succ fuel ih =>
    unfold ZA.searchLoop
    rw [hround]
    split
    · rfl
    · split
      · rfl
      · exact ih _ _

theorem sample_memo (za : ZA) (m : Option TimedWord) :
    ZA.sample { za with memo := m } = za.sample := searchLoop_memo za m _ _ _

/-- The exploration stopped early exactly if a sample was found, and the sample is that of the
result. -/
def MemoOK (quick : Bool) (s : State) : Prop :=
  s.done = s.za.memo.isSome ∧ (quick = false → s.done = false) ∧
  ∀ w, s.za.memo = some w → s.za.sample = some w

theorem edgeStep_memo {A : TA} {o : HashOrder} {quick : Bool} {p : ℕ} {now : Zone} {a : Action}
    {s : State} (t : Trans) (h : MemoOK quick s) : MemoOK quick (edgeStep A o quick p now a s t) := by
  unfold edgeStep
  split
  · exact h
  · rename_i hnd
    have hnone : s.za.memo = none := by
      cases hm : s.za.memo with
      | none => rfl
      | some w => exact absurd (by rw [h.1, hm]; rfl) hnd
    cases succZone now t with
    | none => exact h
    | some z0 =>
      obtain ⟨e1, e2⟩ := addSuccessor_memo A o quick p a s t z0
      simp only
      split
      · rename_i hq
        have hm : (addSuccessor A o quick p a s t z0).za.memo = none := e1.trans hnone
        refine ⟨?_, fun h => by simp [h] at hq, ?_⟩
        · simp only [ZA.sampleWithMemo, hm]
        · simp only [ZA.sampleWithMemo, hm, sample_memo]
          exact fun w h => h
      · exact ⟨by rw [e1, e2]; exact h.1, fun hq => by rw [e2]; exact h.2.1 hq, fun w hw => by
          rw [e1, hnone] at hw; cases hw⟩

theorem expand_memo {A : TA} {o : HashOrder} {quick : Bool} {s : State} (p : ℕ)
    (h : MemoOK quick s) : MemoOK quick (expand A o quick s p) := by
  unfold expand
  simp only
  generalize o.acts _ = as
  generalize hst : A.loc (s.za.loc p).ta = st
  generalize hnow : (s.za.loc p).zone.elapse = now
  clear hst hnow
  induction as generalizing s with
  | nil => exact h
  | cons a as ih =>
    simp only [List.foldl_cons]
    apply ih
    generalize st.next a = ts
    induction ts generalizing s with
    | nil => exact h
    | cons t ts ih' => exact ih' (edgeStep_memo t h)

theorem loop_memo {A : TA} {o : HashOrder} {quick : Bool} (fuel : ℕ) (s s' : State)
    (h : MemoOK quick s) (hl : loop A o quick fuel s = some s') : MemoOK quick s' := by
  induction fuel generalizing s with
  | zero => simp [loop] at hl
  | succ fuel ih =>
    unfold loop at hl
    split at hl
    · simp only [Option.some.injEq] at hl; rwa [← hl]
    · split at hl
      · simp only [Option.some.injEq] at hl; rwa [← hl]
      · rename_i p queue _
        exact ih _ (expand_memo (s := { s with queue := queue }) p h) hl

/-- Everything about the result of `ta2za`. -/
theorem ta2za_full (A : TA) (P : ℕ → Zone → Prop) (o : HashOrder) (quick : Bool)
    (h0 : ∀ q ∈ A.init, P q (Zone.zero (A.clockSize + 1)))
    (hP : ∀ p z, P p z → ∀ a, ∀ t ∈ (A.loc p).next a, ∀ z0, succZone z.elapse t = some z0 →
      P t.target (newZone A quick z0)) (fuel : ℕ) (za : ZA) (h : ta2za A o quick fuel = some za) :
    ∃ s : State, s.za = za ∧ Inv A P quick s ∧ (s.done = true ∨ s.queue = []) ∧
      (za.memo = none → s.done = false) ∧ (quick = false → s.done = false) := by
  simp only [ta2za, Option.map_eq_some_iff] at h
  obtain ⟨s, hs, rfl⟩ := h
  obtain ⟨i1, i2, i3⟩ := start_inv A P quick h0
  obtain ⟨h1, h2⟩ := loop_inv o quick hP fuel _ s i1 hs
  obtain ⟨m1, m2, -⟩ := loop_memo fuel _ s
    ⟨by rw [i2, i3]; rfl, fun _ => i2, fun w hw => by rw [i3] at hw; cases hw⟩ hs
  exact ⟨s, rfl, h1, h2, fun hm => by rw [m1, hm]; rfl, m2⟩

/-- The remembered sample is the one that sampling the result gives. -/
theorem ta2za_memo (A : TA) (o : HashOrder) (quick : Bool) (fuel : ℕ) (za : ZA)
    (h : ta2za A o quick fuel = some za) : za.sampleWithMemo.2 = za.sample := by
  simp only [ta2za, Option.map_eq_some_iff] at h
  obtain ⟨s, hs, rfl⟩ := h
  obtain ⟨-, i2, i3⟩ := start_inv A (fun _ _ => True) quick fun _ _ => trivial
  obtain ⟨-, -, h3⟩ := loop_memo (quick := quick) fuel _ s
    ⟨by rw [i2, i3]; rfl, fun _ => i2, fun w hw => by rw [i3] at hw; cases hw⟩ hs
  unfold ZA.sampleWithMemo
  cases hm : s.za.memo with
  | none => rfl
  | some w => exact (h3 w hm).symm

end Ta2za

namespace TA

theorem word_of_obs (w : TimedWord) (hwf : w.WF) : w.word = (obsE w.events).2.map Prod.fst := by
  unfold TimedWord.WF at hwf
  unfold TimedWord.events
  obtain ⟨as, ds⟩ := w
  simp only at hwf ⊢
  induction as generalizing ds with
  | nil =>
    match ds, hwf with
    | [d], _ => rfl
  | cons a as ih =>
    match ds, hwf with
    | d :: ds, hwf =>
      simp only [eventsOf, obsE, List.map_cons]
      rw [← ih ds (by simpa using hwf)]

theorem obs_discrete {A : TA} {c c' : Config} {ms : List Micro} (h : A.MRun c ms c') :
    ((obsM ms).2.map Prod.fst) = ((discrete ms).map Prod.fst).filter (· ≠ unobservable) := by
  induction h with
  | nil => rfl
  | delay d hd _ ih => simpa [obsM, discrete] using ih
  | eps t ht hg _ ih => simpa [obsM, discrete] using ih
  | act a ha t ht hg _ ih => simpa [obsM, discrete, ha] using ih

/-- Reachability of an accepting configuration is non-emptiness of the language. -/
theorem accepts_of_reach {A : TA} {c : Config} (h : A.Reach c) (hm : (A.loc c.loc).isMatch = true) :
    ∃ w : TimedWord, w.WF ∧ w.Nonneg ∧ A.Accepts w := by
  obtain ⟨q, hq, ms, hr⟩ := h
  have h1 := hr.obs_nonneg
  have h2 : ∀ {c c' : Config} {ms : List Micro}, A.MRun c ms c' → ∀ p ∈ (obsM ms).2, 0 ≤ p.2 := by
    intro c c' ms h
    induction h with
    | nil => simp [obsM]
    | delay d hd _ ih => exact ih
    | eps t ht hg _ ih => exact ih
    | act a ha t ht hg h ih =>
      intro p hp
      simp only [obsM, List.mem_cons] at hp
      rcases hp with rfl | hp
      · exact h.obs_nonneg
      · exact ih p hp
  let w : TimedWord := ⟨(obsM ms).2.map Prod.fst, (obsM ms).1 :: (obsM ms).2.map Prod.snd⟩
  have hwf : w.WF := by simp [TimedWord.WF, w]
  have hev : ∀ (d : ℚ) (l : List (Action × ℚ)),
      eventsOf (l.map Prod.fst) (d :: l.map Prod.snd) = evs d l := by
    intro d l
    induction l generalizing d with
    | nil => rfl
    | cons p l ih => simp only [List.map_cons, eventsOf, evs]; rw [← ih]
  refine ⟨w, hwf, ?_, q, hq, c, ?_, hm⟩
  · intro d hd
    simp only [w, List.mem_cons, List.mem_map] at hd
    rcases hd with rfl | ⟨p, hp, rfl⟩
    · exact h1
    · exact h2 hr p hp
  · have : w.events = evs (obsM ms).1 (obsM ms).2 := hev _ _
    rw [this]; exact hr.steps

theorem reach_of_accepts {A : TA} {w : TimedWord} (hwf : w.WF) (h : A.Accepts w) :
    ∃ c, A.Reach c ∧ (A.loc c.loc).isMatch = true := by
  obtain ⟨q, hq, c, ms, h1, _, h2⟩ := (accepts_iff_micro A w hwf).1 h
  exact ⟨c, ⟨q, hq, ms, h1⟩, h2⟩

end TA
end LearnTA
