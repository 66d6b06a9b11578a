import Verif.Model.ZoneAutomaton
import Verif.Lemmas.TA

namespace LearnTA
namespace Ta2za

/-- The parts of the zone automaton that the search for a sample does not touch. -/
structure Same (s s' : State) : Prop where
  loc : s'.za.loc = s.za.loc
  states : s'.za.states = s.za.states
  init : s'.za.init = s.za.init
  queue : s'.queue = s.queue
  map : s'.map = s.map

theorem edgeStep_some (A : TA) (o : HashOrder) (quick : Bool) (p : ℕ) (now : Zone) (a : Action)
    (s : State) (t : Trans) (z0 : Zone) (hd : s.done = false) (hz : succZone now t = some z0) :
    Same (addSuccessor A o quick p a s t z0) (edgeStep A o quick p now a s t) := by
  unfold edgeStep
  rw [hd, hz]
  simp only [Bool.false_eq_true, if_false]
  split
  · simp only [ZA.sampleWithMemo]
    cases (addSuccessor A o quick p a s t z0).za.memo <;> exact ⟨rfl, rfl, rfl, rfl, rfl⟩
  · exact ⟨rfl, rfl, rfl, rfl, rfl⟩

theorem edgeStep_none (A : TA) (o : HashOrder) (quick : Bool) (p : ℕ) (now : Zone) (a : Action)
    (s : State) (t : Trans) (hz : s.done = true ∨ succZone now t = none) :
    edgeStep A o quick p now a s t = s := by
  unfold edgeStep
  rcases hz with h | h
  · simp [h]
  · rw [h]; simp

/-- Growth of the zone automaton. -/
structure Ext (za za' : ZA) : Prop where
  len : za.states.length ≤ za'.states.length
  ta : ∀ i < za.states.length, (za'.loc i).ta = (za.loc i).ta
  zone : ∀ i < za.states.length, (za'.loc i).zone = (za.loc i).zone
  next : ∀ i < za.states.length, ∀ a, ∀ e ∈ (za.loc i).next a, e ∈ (za'.loc i).next a

theorem Ext.refl (za : ZA) : Ext za za :=
  ⟨le_refl _, fun _ _ => rfl, fun _ _ => rfl, fun _ _ _ _ h => h⟩

theorem Ext.trans {a b c : ZA} (h : Ext a b) (h' : Ext b c) : Ext a c :=
  ⟨h.len.trans h'.len, fun i hi => (h'.ta i (hi.trans_le h.len)).trans (h.ta i hi),
    fun i hi => (h'.zone i (hi.trans_le h.len)).trans (h.zone i hi),
    fun i hi a e he => h'.next i (hi.trans_le h.len) a e (h.next i hi a e he)⟩

/-- Invariant of `ta2za`. -/
structure Good (A : TA) (P : ℕ → Zone → Prop) (s : State) : Prop where
  states : s.za.states = List.range s.za.states.length
  init : s.za.init = List.range A.init.length
  initLen : A.init.length ≤ s.za.states.length
  initTa : ∀ i, (h : i < A.init.length) → (s.za.loc i).ta = A.init[i]
  initZone : ∀ i < A.init.length, (s.za.loc i).zone = Zone.zero (A.clockSize + 1)
  node : ∀ i < s.za.states.length, P (s.za.loc i).ta (s.za.loc i).zone
  acc : ∀ i < s.za.states.length, (s.za.loc i).isMatch = (A.loc (s.za.loc i).ta).isMatch
  edge : ∀ i < s.za.states.length, ∀ a, ∀ e ∈ (s.za.loc i).next a,
    e.1 ∈ (A.loc (s.za.loc i).ta).next a ∧ e.2 < s.za.states.length ∧
      (s.za.loc e.2).ta = e.1.target
  fresh : ∀ i ≥ s.za.states.length, ∀ a, (s.za.loc i).next a = []
  map : ∀ e ∈ s.map, e.2 < s.za.states.length ∧ (s.za.loc e.2).ta = e.1.1 ∧
    (s.za.loc e.2).zone = e.1.2
  queue : ∀ i ∈ s.queue, i < s.za.states.length

theorem Good.same {A : TA} {P} {s s' : State} (hs : Same s s') (h : Good A P s) : Good A P s' := by
  obtain ⟨za, q, m, d⟩ := s
  obtain ⟨za', q', m', d'⟩ := s'
  obtain ⟨l, st, i, mm⟩ := za
  obtain ⟨l', st', i', mm'⟩ := za'
  obtain ⟨h1, h2, h3, h4, h5⟩ := hs
  simp only at h1 h2 h3 h4 h5
  subst h1; subst h2; subst h3; subst h4; subst h5
  exact ⟨h.states, h.init, h.initLen, h.initTa, h.initZone, h.node, h.acc, h.edge, h.fresh, h.map,
    h.queue⟩

theorem addEdge_ta (za : ZA) (p a e i) : ((za.addEdge p a e).loc i).ta = (za.loc i).ta := by
  unfold ZA.addEdge
  by_cases h : i = p
  · subst h; simp
  · simp [Function.update_of_ne h]

theorem addEdge_zone (za : ZA) (p a e i) : ((za.addEdge p a e).loc i).zone = (za.loc i).zone := by
  unfold ZA.addEdge
  by_cases h : i = p
  · subst h; simp
  · simp [Function.update_of_ne h]

theorem addEdge_isMatch (za : ZA) (p a e i) :
    ((za.addEdge p a e).loc i).isMatch = (za.loc i).isMatch := by
  unfold ZA.addEdge
  by_cases h : i = p
  · subst h; simp
  · simp [Function.update_of_ne h]

theorem addEdge_next (za : ZA) (p a e i b) (x) : x ∈ ((za.addEdge p a e).loc i).next b ↔
    x ∈ (za.loc i).next b ∨ (i = p ∧ b = a ∧ x = e) := by
  unfold ZA.addEdge
  by_cases h : i = p
  · subst h
    by_cases hb : b = a
    · subst hb; simp
    · simp [Function.update_of_ne hb, hb]
  · simp [Function.update_of_ne h, h]

@[simp] theorem addEdge_states (za : ZA) (p a e) : (za.addEdge p a e).states = za.states := rfl
@[simp] theorem addEdge_init (za : ZA) (p a e) : (za.addEdge p a e).init = za.init := rfl
@[simp] theorem addNode_init (za : ZA) (A p z) : (za.addNode A p z).init = za.init := rfl

theorem addNode_loc_lt (za : ZA) (A p z) (i) (hi : i < za.states.length) :
    (za.addNode A p z).loc i = za.loc i := by
  unfold ZA.addNode
  simp [Function.update_of_ne (Nat.ne_of_lt hi)]

theorem addNode_loc_new (za : ZA) (A p z) :
    (za.addNode A p z).loc za.states.length = ⟨(A.loc p).isMatch, fun _ => [], p, z⟩ := by
  simp [ZA.addNode]

@[simp] theorem addNode_len (za : ZA) (A p z) :
    (za.addNode A p z).states.length = za.states.length + 1 := by simp [ZA.addNode]

theorem mem_mapSet {m : List ((ℕ × Zone) × ℕ)} {k q e} (h : e ∈ mapSet m k q) :
    e ∈ m ∨ e = (k, q) := by
  simp only [mapSet, List.mem_append, List.mem_filter, List.mem_singleton] at h
  exact h.imp And.left id

theorem core_ext (A : TA) (o : HashOrder) (quick : Bool) (p : ℕ) (a : Action) (s : State)
    (t : Trans) (z0 : Zone) : Ext s.za (addSuccessor A o quick p a s t z0).za := by
  unfold addSuccessor
  split
  · exact ⟨le_refl _, fun i _ => addEdge_ta .., fun i _ => addEdge_zone ..,
      fun i _ b e he => (addEdge_next ..).2 (.inl he)⟩
  · refine ⟨by simp, fun i hi => ?_, fun i hi => ?_, fun i hi b e he => ?_⟩
    · simp only [addEdge_ta]; rw [addNode_loc_lt _ _ _ _ _ hi]
    · simp only [addEdge_zone]; rw [addNode_loc_lt _ _ _ _ _ hi]
    · simp only [addEdge_next]; rw [addNode_loc_lt _ _ _ _ _ hi]; exact .inl he

/-- The transition has been handled in node `p`. -/
def Handled (A : TA) (quick : Bool) (za : ZA) (p : ℕ) (a : Action) (t : Trans) : Prop :=
  ∀ z0, succZone (za.loc p).zone.elapse t = some z0 →
    ∃ j, (t, j) ∈ (za.loc p).next a ∧ j < za.states.length ∧ (za.loc j).ta = t.target ∧
      ((za.loc j).zone.includes (lookupZone A quick z0) = true ∨
        (za.loc j).zone = newZone A quick z0)

theorem Handled.ext {A : TA} {quick} {za za' : ZA} (h : Ext za za') {p a t}
    (hp : p < za.states.length) (hh : Handled A quick za p a t) : Handled A quick za' p a t := by
  intro z0 hz
  rw [h.zone p hp] at hz
  obtain ⟨j, h1, h2, h3, h4⟩ := hh z0 hz
  exact ⟨j, h.next p hp a _ h1, h2.trans_le h.len, (h.ta j h2).trans h3, by rw [h.zone j h2]; exact h4⟩

theorem core_good {A : TA} {P : ℕ → Zone → Prop} (o : HashOrder) (quick : Bool)
    (hP : ∀ p z, P p z → ∀ a, ∀ t ∈ (A.loc p).next a, ∀ z0, succZone z.elapse t = some z0 →
      P t.target (newZone A quick z0))
    {s : State} (h : Good A P s) {p : ℕ} (hp : p < s.za.states.length) {a : Action} {t : Trans}
    (ht : t ∈ (A.loc (s.za.loc p).ta).next a) {z0 : Zone}
    (hz : succZone (s.za.loc p).zone.elapse t = some z0) :
    Good A P (addSuccessor A o quick p a s t z0) ∧ Handled A quick (addSuccessor A o quick p a s t z0).za p a t := by
  have hx := core_ext A o quick p a s t z0
  unfold addSuccessor at hx ⊢
  split at hx
  · rename_i e he
    have hmem : e ∈ s.map := (o.entries_perm s.map).mem_iff.1 (List.mem_of_find?_eq_some he)
    have hpred := List.find?_some he
    simp only [Bool.and_eq_true, beq_iff_eq] at hpred
    obtain ⟨m1, m2, m3⟩ := h.map e hmem
    simp only [he]
    constructor
    · refine ⟨h.states, h.init, h.initLen, ?_, ?_, ?_, ?_, ?_, ?_, ?_, h.queue⟩
      · intro i hi; simp only [addEdge_ta]; exact h.initTa i hi
      · intro i hi; simp only [addEdge_zone]; exact h.initZone i hi
      · intro i hi; simp only [addEdge_ta, addEdge_zone]; exact h.node i hi
      · intro i hi; simp only [addEdge_ta, addEdge_isMatch]; exact h.acc i hi
      · intro i hi b x hx
        simp only [addEdge_next] at hx
        simp only [addEdge_ta]
        rcases hx with hx | ⟨rfl, rfl, rfl⟩
        · exact h.edge i hi b x hx
        · exact ⟨ht, m1, by rw [m2]; exact hpred.1⟩
      · intro i hi b
        rw [List.eq_nil_iff_forall_not_mem]
        intro x hx
        simp only [addEdge_next] at hx
        rcases hx with hx | ⟨rfl, rfl, rfl⟩
        · rw [h.fresh i hi b] at hx; simp at hx
        · simp only [addEdge_states] at hi; omega
      · intro x hx; simp only [addEdge_ta, addEdge_zone]; exact h.map x hx
    · intro z1 hz1
      simp only [addEdge_zone] at hz1
      rw [hz] at hz1
      obtain rfl := Option.some.inj hz1
      refine ⟨e.2, (addEdge_next ..).2 (.inr ⟨rfl, rfl, rfl⟩), m1, ?_, .inl ?_⟩
      · simp only [addEdge_ta]; rw [m2]; exact hpred.1
      · simp only [addEdge_zone]; rw [m3]; exact hpred.2
  · rename_i he
    simp only [he]
    have hnew := addNode_loc_new s.za A t.target (newZone A quick z0)
    have hlt := addNode_loc_lt s.za A t.target (newZone A quick z0)
    have hlen := addNode_len s.za A t.target (newZone A quick z0)
    have hcase : ∀ i < s.za.states.length + 1, i < s.za.states.length ∨ i = s.za.states.length := by
      intro i hi; omega
    constructor
    · refine ⟨?_, h.init, ?_, ?_, ?_, ?_, ?_, ?_, ?_, ?_, ?_⟩
      · simp only [addEdge_states]
        rw [hlen, List.range_succ, ← h.states]; rfl
      · simp only [addEdge_states]; rw [hlen]; have := h.initLen; omega
      · intro i hi; simp only [addEdge_ta]; rw [hlt i (by have := h.initLen; omega)]
        exact h.initTa i hi
      · intro i hi; simp only [addEdge_zone]; rw [hlt i (by have := h.initLen; omega)]
        exact h.initZone i hi
      · intro i hi
        simp only [addEdge_states] at hi; rw [hlen] at hi
        simp only [addEdge_ta, addEdge_zone]
        rcases hcase i hi with hi | rfl
        · rw [hlt i hi]; exact h.node i hi
        · rw [hnew]; exact hP _ _ (h.node p hp) a t ht z0 hz
      · intro i hi
        simp only [addEdge_states] at hi; rw [hlen] at hi
        simp only [addEdge_ta, addEdge_isMatch]
        rcases hcase i hi with hi | rfl
        · rw [hlt i hi]; exact h.acc i hi
        · rw [hnew]
      · intro i hi b x hx
        simp only [addEdge_states] at hi ⊢; rw [hlen] at hi ⊢
        simp only [addEdge_next] at hx
        simp only [addEdge_ta]
        rcases hx with hx | ⟨rfl, rfl, rfl⟩
        · rcases hcase i hi with hi | rfl
          · rw [hlt i hi] at hx ⊢
            obtain ⟨e1, e2, e3⟩ := h.edge i hi b x hx
            rw [hlt x.2 e2]
            exact ⟨e1, by omega, e3⟩
          · rw [hnew] at hx; simp at hx
        · rw [hlt i hp]
          refine ⟨ht, by simp, ?_⟩
          simp only; rw [hnew]
      · intro i hi b
        rw [List.eq_nil_iff_forall_not_mem]
        intro x hx
        simp only [addEdge_states] at hi
        rw [hlen] at hi
        simp only [addEdge_next] at hx
        rcases hx with hx | ⟨rfl, rfl, rfl⟩
        · simp only [ZA.addNode, Function.update_of_ne (show i ≠ s.za.states.length by omega)] at hx
          rw [h.fresh i (by omega) b] at hx; simp at hx
        · omega
      · intro x hx
        simp only [addEdge_states, addEdge_ta, addEdge_zone]; rw [hlen]
        rcases mem_mapSet hx with hx | rfl
        · obtain ⟨e1, e2, e3⟩ := h.map x hx
          rw [hlt x.2 e1]; exact ⟨by omega, e2, e3⟩
        · simp only; rw [hnew]; exact ⟨by omega, rfl, rfl⟩
      · intro i hi
        simp only [addEdge_states]; rw [hlen]
        simp only [List.mem_append, List.mem_singleton] at hi
        rcases hi with hi | rfl
        · have := h.queue i hi; omega
        · omega
    · intro z1 hz1
      simp only [addEdge_zone] at hz1
      rw [hlt p hp, hz] at hz1
      obtain rfl := Option.some.inj hz1
      refine ⟨s.za.states.length, (addEdge_next ..).2 (.inr ⟨rfl, rfl, rfl⟩), ?_, ?_, .inr ?_⟩
      · simp only [addEdge_states]; rw [hlen]; omega
      · simp only [addEdge_ta]; rw [hnew]
      · simp only [addEdge_zone]; rw [hnew]

theorem Ext.same {za : ZA} {s s' : State} (hs : Same s s') (h : Ext za s.za) : Ext za s'.za :=
  ⟨by rw [hs.states]; exact h.len, by rw [hs.loc]; exact h.ta, by rw [hs.loc]; exact h.zone,
    by rw [hs.loc]; exact h.next⟩

theorem Handled.same {A : TA} {quick} {s s' : State} (hs : Same s s') {p a t}
    (h : Handled A quick s.za p a t) : Handled A quick s'.za p a t := by
  unfold Handled at h ⊢
  rw [hs.loc, hs.states]; exact h

theorem edgeStep_spec {A : TA} {P : ℕ → Zone → Prop} (o : HashOrder) (quick : Bool)
    (hP : ∀ p z, P p z → ∀ a, ∀ t ∈ (A.loc p).next a, ∀ z0, succZone z.elapse t = some z0 →
      P t.target (newZone A quick z0))
    {s : State} (h : Good A P s) {p : ℕ} (hp : p < s.za.states.length) {a : Action} {t : Trans}
    (ht : t ∈ (A.loc (s.za.loc p).ta).next a) :
    let s' := edgeStep A o quick p (s.za.loc p).zone.elapse a s t
    Good A P s' ∧ Ext s.za s'.za ∧ (∀ i ∈ s.queue, i ∈ s'.queue) ∧
      (∀ i < s'.za.states.length, i < s.za.states.length ∨ i ∈ s'.queue) ∧
      (s.done = true → s'.done = true) ∧
      (s'.done = false → Handled A quick s'.za p a t) := by
  intro s'
  by_cases hd : s.done = true
  · have : s' = s := edgeStep_none _ _ _ _ _ _ _ _ (.inl hd)
    rw [this]
    exact ⟨h, Ext.refl _, fun _ h => h, fun i hi => .inl hi, id, fun e => by rw [hd] at e; cases e⟩
  · rw [Bool.not_eq_true] at hd
    cases hz : succZone (s.za.loc p).zone.elapse t with
    | none =>
      have : s' = s := edgeStep_none _ _ _ _ _ _ _ _ (.inr hz)
      rw [this]
      refine ⟨h, Ext.refl _, fun _ h => h, fun i hi => .inl hi, id, fun _ z0 hz0 => ?_⟩
      rw [hz] at hz0; cases hz0
    | some z0 =>
      have hs := edgeStep_some A o quick p _ a s t z0 hd hz
      obtain ⟨hg, hh⟩ := core_good o quick hP h hp ht hz
      refine ⟨hg.same hs, (core_ext A o quick p a s t z0).same hs, ?_, ?_,
        fun e => absurd e (by rw [hd]; simp), fun _ => hh.same hs⟩
      · intro i hi
        rw [hs.queue]
        unfold addSuccessor
        split
        · exact hi
        · simp [hi]
      · intro i hi
        rw [hs.queue]
        rw [hs.states] at hi
        unfold addSuccessor at hi ⊢
        split at hi
        · exact .inl hi
        · rename_i he
          simp only [he]
          simp at hi
          by_cases e : i = s.za.states.length
          · right; simp [e]
          · left; omega

/-- The invariant together with what is known of the nodes: queued, or fully handled. -/
structure Inv (A : TA) (P : ℕ → Zone → Prop) (quick : Bool) (s : State) : Prop extends Good A P s where
  handled : s.done = false → ∀ i < s.za.states.length, i ∈ s.queue ∨
    ∀ a, ∀ t ∈ (A.loc (s.za.loc i).ta).next a, Handled A quick s.za i a t

section
variable {A : TA} {P : ℕ → Zone → Prop} (o : HashOrder) (quick : Bool)
  (hP : ∀ p z, P p z → ∀ a, ∀ t ∈ (A.loc p).next a, ∀ z0, succZone z.elapse t = some z0 →
      P t.target (newZone A quick z0))
include hP

theorem edgeFold_spec {s : State} (h : Good A P s) {p : ℕ} (hp : p < s.za.states.length) {a : Action}
    (ts : List Trans) (hts : ∀ t ∈ ts, t ∈ (A.loc (s.za.loc p).ta).next a) (now : Zone)
    (hnow : now = (s.za.loc p).zone.elapse) :
    let s' := ts.foldl (edgeStep A o quick p now a) s
    Good A P s' ∧ Ext s.za s'.za ∧ (∀ i ∈ s.queue, i ∈ s'.queue) ∧
      (∀ i < s'.za.states.length, i < s.za.states.length ∨ i ∈ s'.queue) ∧
      (s.done = true → s'.done = true) ∧
      (s'.done = false → ∀ t ∈ ts, Handled A quick s'.za p a t) := by
  induction ts generalizing s with
  | nil =>
    exact ⟨h, Ext.refl _, fun _ h => h, fun i hi => .inl hi, id, by simp⟩
  | cons t ts ih =>
    simp only [List.foldl_cons]
    subst hnow
    obtain ⟨g1, g2, g3, g4, g5, g6⟩ := edgeStep_spec o quick hP h hp (hts t List.mem_cons_self)
    set s1 := edgeStep A o quick p (s.za.loc p).zone.elapse a s t
    have hp1 : p < s1.za.states.length := hp.trans_le g2.len
    obtain ⟨k1, k2, k3, k4, k5, k6⟩ := ih g1 hp1
      (fun u hu => by rw [g2.ta p hp]; exact hts u (List.mem_cons_of_mem _ hu))
      (by rw [g2.zone p hp])
    refine ⟨k1, g2.trans k2, fun i hi => k3 i (g3 i hi), fun i hi => ?_, fun e => k5 (g5 e),
      fun e u hu => ?_⟩
    · rcases k4 i hi with hi | hi
      · exact (g4 i hi).imp id (k3 i)
      · exact .inr hi
    · rcases List.mem_cons.1 hu with rfl | hu
      · have : s1.done = false := by
          cases hd : s1.done with
          | false => rfl
          | true => rw [k5 hd] at e; cases e
        exact (g6 this).ext k2 hp1
      · exact k6 e u hu

theorem actFold_spec {s : State} (h : Good A P s) {p : ℕ} (hp : p < s.za.states.length)
    (as : List Action) (now : Zone)
    (hnow : now = (s.za.loc p).zone.elapse) (st : TAState) (hst : st = A.loc (s.za.loc p).ta) :
    let s' := as.foldl (fun s a => (st.next a).foldl (edgeStep A o quick p now a) s) s
    Good A P s' ∧ Ext s.za s'.za ∧ (∀ i ∈ s.queue, i ∈ s'.queue) ∧
      (∀ i < s'.za.states.length, i < s.za.states.length ∨ i ∈ s'.queue) ∧
      (s.done = true → s'.done = true) ∧
      (s'.done = false → ∀ a ∈ as, ∀ t ∈ st.next a, Handled A quick s'.za p a t) := by
  induction as generalizing s with
  | nil => exact ⟨h, Ext.refl _, fun _ h => h, fun i hi => .inl hi, id, by simp⟩
  | cons a as ih =>
    simp only [List.foldl_cons]
    obtain ⟨g1, g2, g3, g4, g5, g6⟩ := edgeFold_spec o quick hP h hp (a := a) (st.next a)
      (fun t ht => by rw [hst] at ht; exact ht) now hnow
    set s1 := (st.next a).foldl (edgeStep A o quick p now a) s
    have hp1 : p < s1.za.states.length := hp.trans_le g2.len
    obtain ⟨k1, k2, k3, k4, k5, k6⟩ := ih g1 hp1 (by rw [g2.zone p hp]; exact hnow)
      (by rw [g2.ta p hp]; exact hst)
    refine ⟨k1, g2.trans k2, fun i hi => k3 i (g3 i hi), fun i hi => ?_, fun e => k5 (g5 e),
      fun e b hb t ht => ?_⟩
    · rcases k4 i hi with hi | hi
      · exact (g4 i hi).imp id (k3 i)
      · exact .inr hi
    · rcases List.mem_cons.1 hb with rfl | hb
      · have : s1.done = false := by
          cases hd : s1.done with
          | false => rfl
          | true => rw [k5 hd] at e; cases e
        exact (g6 this t ht).ext k2 hp1
      · exact k6 e b hb t ht

theorem expand_inv {s : State} (hd : s.done = false) {p : ℕ} {queue : List ℕ}
    (hq : s.queue = p :: queue) (h : Inv A P quick s) :
    Inv A P quick (expand A o quick { s with queue := queue } p) := by
  have hp : p < s.za.states.length := h.queue p (by simp [hq])
  have h1 : Good A P { s with queue := queue } :=
    ⟨h.states, h.init, h.initLen, h.initTa, h.initZone, h.node, h.acc, h.edge, h.fresh, h.map,
      fun i hi => h.queue i (by simp [hq, hi])⟩
  obtain ⟨g1, g2, g3, g4, g5, g6⟩ := actFold_spec o quick hP h1 hp (o.acts (A.loc (s.za.loc p).ta))
    (s.za.loc p).zone.elapse rfl (A.loc (s.za.loc p).ta) rfl
  refine ⟨g1, fun e i hi => ?_⟩
  simp only [expand] at e hi ⊢
  rcases g4 i hi with hi' | hi'
  · simp only at hi'
    rcases h.handled hd i hi' with hm | hm
    · rw [hq] at hm
      rcases List.mem_cons.1 hm with rfl | hm
      · right
        intro a t ht
        rw [g2.ta i hi'] at ht
        exact g6 e a ((o.acts_perm _).mem_iff.2 (mem_allActions a)) t ht
      · exact .inl (g3 i hm)
    · right
      intro a t ht
      rw [g2.ta i hi'] at ht
      exact (hm a t ht).ext g2 hi'
  · exact .inl hi'

theorem loop_inv (fuel : ℕ) (s s' : State) (h : Inv A P quick s)
    (hl : loop A o quick fuel s = some s') :
    Inv A P quick s' ∧ (s'.done = true ∨ s'.queue = []) := by
  induction fuel generalizing s with
  | zero => simp [loop] at hl
  | succ fuel ih =>
    unfold loop at hl
    by_cases hd : s.done = true
    · rw [if_pos hd] at hl
      obtain rfl := Option.some.inj hl
      exact ⟨h, .inl hd⟩
    · rw [if_neg hd] at hl
      rw [Bool.not_eq_true] at hd
      split at hl
      · rename_i hq
        obtain rfl := Option.some.inj hl
        exact ⟨h, .inr hq⟩
      · rename_i p queue hq
        exact ih _ (expand_inv o quick hP hd hq h) hl

end

theorem startFold_spec (A : TA) (z : Zone) (l : List ℕ) (za : ZA) :
    let za' := l.foldl (fun (za : ZA) p => za.addNode A p z) za
    za'.states.length = za.states.length + l.length ∧
    (za.states = List.range za.states.length → za'.states = List.range za'.states.length) ∧
    (∀ i < za.states.length, za'.loc i = za.loc i) ∧
    (∀ i, (h : i < l.length) → za'.loc (za.states.length + i) =
      ⟨(A.loc l[i]).isMatch, fun _ => [], l[i], z⟩) ∧
    (∀ i ≥ za.states.length + l.length, za'.loc i = za.loc i) ∧ za'.memo = za.memo := by
  induction l generalizing za with
  | nil => simp
  | cons p l ih =>
    simp only [List.foldl_cons]
    obtain ⟨h1, h2, h3, h4, h5, h6⟩ := ih (za.addNode A p z)
    have hlen := addNode_len za A p z
    refine ⟨?_, ?_, ?_, ?_, ?_, h6⟩
    · rw [h1, hlen]; simp; omega
    · intro hs
      apply h2
      rw [hlen, List.range_succ, ← hs]; rfl
    · intro i hi
      rw [h3 i (by rw [hlen]; omega), addNode_loc_lt _ _ _ _ _ hi]
    · intro i hi
      cases i with
      | zero =>
        rw [add_zero, h3 _ (by rw [hlen]; omega), addNode_loc_new]; rfl
      | succ i =>
        have := h4 i (by simpa using hi)
        rw [hlen] at this
        rw [show za.states.length + (i + 1) = za.states.length + 1 + i by omega, this]
        rfl
    · intro i hi
      simp at hi
      rw [h5 i (by rw [hlen]; omega)]
      unfold ZA.addNode
      simp [Function.update_of_ne (show i ≠ za.states.length by omega)]

theorem start_inv (A : TA) (P : ℕ → Zone → Prop) (quick : Bool)
    (h0 : ∀ q ∈ A.init, P q (Zone.zero (A.clockSize + 1))) :
    Inv A P quick (start A) ∧ (start A).done = false ∧ (start A).za.memo = none := by
  obtain ⟨h1, h2, h3, h4, h5, h6⟩ := startFold_spec A (Zone.zero (A.clockSize + 1)) A.init
    ⟨fun _ => ⟨false, fun _ => [], 0, Zone.zero (A.clockSize + 1)⟩, [], [], none⟩
  set za := A.init.foldl (fun (za : ZA) p => za.addNode A p (Zone.zero (A.clockSize + 1)))
    ⟨fun _ => ⟨false, fun _ => [], 0, Zone.zero (A.clockSize + 1)⟩, [], [], none⟩ with hza
  simp only [List.length_nil, Nat.zero_add] at h1 h4 h5
  have h2 := h2 rfl
  have hloc : ∀ i, (h : i < A.init.length) → za.loc i =
      ⟨(A.loc A.init[i]).isMatch, fun _ => [], A.init[i], Zone.zero (A.clockSize + 1)⟩ := h4
  have hmap : ∀ (l : List ℕ) (m : List ((ℕ × Zone) × ℕ)), (∀ i ∈ l, i < A.init.length) →
      (∀ e ∈ m, e.2 < A.init.length ∧ (za.loc e.2).ta = e.1.1 ∧ (za.loc e.2).zone = e.1.2) →
      ∀ e ∈ l.foldl (fun m q => mapSet m ((za.loc q).ta, Zone.zero (A.clockSize + 1)) q) m,
        e.2 < A.init.length ∧ (za.loc e.2).ta = e.1.1 ∧ (za.loc e.2).zone = e.1.2 := by
    intro l
    induction l with
    | nil => intro m _ h; exact h
    | cons q l ih =>
      intro m hl hm
      apply ih _ (fun i hi => hl i (List.mem_cons_of_mem _ hi))
      intro e he
      rcases mem_mapSet he with he | rfl
      · exact hm e he
      · have hq := hl q List.mem_cons_self
        refine ⟨hq, rfl, ?_⟩
        simp only; rw [hloc q hq]
  have hst : start A = State.mk { za with init := za.states } za.states
    (za.states.foldl (fun m q => mapSet m ((za.loc q).ta, Zone.zero (A.clockSize + 1)) q) [])
    false := rfl
  rw [hst]
  have hin : ∀ i ∈ za.states, i < A.init.length := by
    intro i hi; rw [h2, h1] at hi; simpa using hi
  refine ⟨⟨⟨h2, ?_, by simp only; omega, ?_, ?_, ?_, ?_, ?_, ?_, ?_, ?_⟩, ?_⟩, rfl, h6⟩
  · simp only; rw [h2, h1]
  · intro i hi; simp only; rw [hloc i hi]
  · intro i hi; simp only; rw [hloc i hi]
  · intro i hi; simp only at hi ⊢; rw [hloc i (by omega)]; exact h0 _ (List.getElem_mem _)
  · intro i hi; simp only at hi ⊢; rw [hloc i (by omega)]
  · intro i hi a e he; simp only at hi he; rw [hloc i (by omega)] at he; simp at he
  · intro i hi a; simp only at hi ⊢; rw [h5 i (by omega)]
  · intro e he
    have := hmap za.states [] hin (by simp) e he
    simp only
    exact ⟨by omega, this.2⟩
  · intro i hi; simp only at hi ⊢; have := hin i hi; omega
  · intro _ i hi; left; simp only at hi ⊢; rw [h2]; exact List.mem_range.2 hi

/-- The invariant holds at the end of `ta2za`. -/
theorem ta2za_inv (A : TA) (P : ℕ → Zone → Prop) (o : HashOrder) (quick : Bool)
    (h0 : ∀ q ∈ A.init, P q (Zone.zero (A.clockSize + 1)))
    (hP : ∀ p z, P p z → ∀ a, ∀ t ∈ (A.loc p).next a, ∀ z0, succZone z.elapse t = some z0 →
      P t.target (newZone A quick z0)) (fuel : ℕ) (za : ZA) (h : ta2za A o quick fuel = some za) :
    ∃ s : State, s.za = za ∧ Inv A P quick s ∧ (s.done = true ∨ s.queue = []) := by
  simp only [ta2za, Option.map_eq_some_iff] at h
  obtain ⟨s, hs, rfl⟩ := h
  obtain ⟨h1, h2⟩ := loop_inv o quick hP fuel _ s (start_inv A P quick h0).1 hs
  exact ⟨s, rfl, h1, h2⟩

end Ta2za
end LearnTA
