import Verif.Lemmas.Ta2za

/-!
# The order in which `ta2za` creates the nodes
-/

namespace LearnTA
namespace Ta2za

/-- Following the edges of node `p` in order, each leads to one of the nodes already known or to the
next new one, which it created. -/
inductive Grow (A : TA) (quick : Bool) (za : ZA) (p : ℕ) : ℕ → List (Trans × ℕ) → ℕ → Prop where
  | nil (c) : Grow A quick za p c [] c
  | old {c e l c'} (h : e.2 < c) (hl : Grow A quick za p c l c') : Grow A quick za p c (e :: l) c'
  | new {c e l c'} (z0 : Zone) (h : e.2 = c) (hs : succZone (za.loc p).zone.elapse e.1 = some z0)
      (hz : (za.loc c).zone = newZone A quick z0) (hl : Grow A quick za p (c + 1) l c') :
      Grow A quick za p c (e :: l) c'

theorem Grow.le {A quick za p c l c'} (h : Grow A quick za p c l c') : c ≤ c' := by
  induction h with
  | nil => exact le_refl _
  | old _ _ ih => exact ih
  | new _ _ _ _ _ ih => omega

theorem Grow.append {A quick za p c l c' l' c''} (h : Grow A quick za p c l c')
    (h' : Grow A quick za p c' l' c'') : Grow A quick za p c (l ++ l') c'' := by
  induction h with
  | nil => exact h'
  | old h _ ih => exact .old h (ih h')
  | new z0 h hs hz _ ih => exact .new z0 h hs hz (ih h')

theorem Grow.ext {A quick} {za za' : ZA} {p c l c'} (h : Grow A quick za p c l c') (hx : Ext za za')
    (hp : p < za.states.length) (hc : c' ≤ za.states.length) : Grow A quick za' p c l c' := by
  induction h with
  | nil => exact .nil _
  | old h _ ih => exact .old h (ih hc)
  | new z0 h hs hz hl ih =>
    have := hl.le
    exact .new z0 h (by rw [hx.zone p hp]; exact hs) (by rw [hx.zone _ (by omega)]; exact hz) (ih hc)

/-- The same for all edges of the node, action by action. -/
def GrowActs (A : TA) (quick : Bool) (za : ZA) (p : ℕ) : List Action → ℕ → ℕ → Prop
  | [], c, c' => c = c'
  | a :: as, c, c' => ∃ c1, Grow A quick za p c ((za.loc p).next a) c1 ∧ GrowActs A quick za p as c1 c'

theorem GrowActs.le {A quick za p as c c'} (h : GrowActs A quick za p as c c') : c ≤ c' := by
  induction as generalizing c with
  | nil => exact le_of_eq h
  | cons a as ih =>
    obtain ⟨c1, h1, h2⟩ := h
    exact h1.le.trans (ih h2)

theorem GrowActs.ext {A quick} {za za' : ZA} {p as c c'} (h : GrowActs A quick za p as c c')
    (hx : Ext za za') (hn : ∀ a, (za'.loc p).next a = (za.loc p).next a)
    (hp : p < za.states.length) (hc : c' ≤ za.states.length) : GrowActs A quick za' p as c c' := by
  induction as generalizing c with
  | nil => exact h
  | cons a as ih =>
    obtain ⟨c1, h1, h2⟩ := h
    refine ⟨c1, ?_, ih h2⟩
    rw [hn]
    exact h1.ext hx hp (h2.le.trans hc)

/-- Actions without edges do not matter. -/
theorem GrowActs.filter {A quick za p as c c'} :
    GrowActs A quick za p as c c' ↔
      GrowActs A quick za p (as.filter fun a => !((za.loc p).next a).isEmpty) c c' := by
  induction as generalizing c with
  | nil => rfl
  | cons a as ih =>
    by_cases h : ((za.loc p).next a).isEmpty = true
    · rw [List.filter_cons_of_neg (by simp [h]), ← ih]
      rw [List.isEmpty_iff] at h
      constructor
      · rintro ⟨c1, h1, h2⟩
        rw [h] at h1
        cases h1; exact h2
      · intro h2
        exact ⟨c, by rw [h]; exact .nil _, h2⟩
    · rw [List.filter_cons_of_pos (by simp [h])]
      exact exists_congr fun c1 => and_congr_right fun _ => ih

/-- What one or more transitions with action `a`, treated at node `p`, do. -/
structure Fact (A : TA) (quick : Bool) (p : ℕ) (a : Action) (s s' : State) : Prop where
  ext : Ext s.za s'.za
  others : ∀ i b, (i ≠ p ∨ b ≠ a) → (s'.za.loc i).next b = (s.za.loc i).next b
  queue : s'.queue = s.queue ++ List.range' s.za.states.length (s'.za.states.length - s.za.states.length)
  grow : ∃ l, (s'.za.loc p).next a = (s.za.loc p).next a ++ l ∧
    Grow A quick s'.za p s.za.states.length l s'.za.states.length

theorem Fact.refl (A : TA) (quick : Bool) (p : ℕ) (a : Action) (s : State) : Fact A quick p a s s :=
  ⟨Ext.refl _, fun _ _ _ => rfl, by simp, [], by simp, .nil _⟩

theorem range_append {a b c : ℕ} (h : a ≤ b) (h' : b ≤ c) :
    List.range' a (c - a) = List.range' a (b - a) ++ List.range' b (c - b) := by
  obtain ⟨m, rfl⟩ := Nat.exists_eq_add_of_le h
  obtain ⟨k, rfl⟩ := Nat.exists_eq_add_of_le h'
  rw [show a + m + k - a = m + k by omega, show a + m - a = m by omega, show a + m + k - (a + m) = k by omega]
  have := List.range'_append (s := a) (m := m) (n := k) (step := 1)
  rw [one_mul] at this
  exact this.symm

theorem Fact.trans {A quick p a} {s s' s'' : State} (h : Fact A quick p a s s')
    (h' : Fact A quick p a s' s'') (hp : p < s.za.states.length) : Fact A quick p a s s'' := by
  obtain ⟨l, e1, g1⟩ := h.grow
  obtain ⟨l', e2, g2⟩ := h'.grow
  refine ⟨h.ext.trans h'.ext, fun i b hi => (h'.others i b hi).trans (h.others i b hi), ?_,
    l ++ l', by rw [e2, e1, List.append_assoc],
    (g1.ext h'.ext (hp.trans_le h.ext.len) (le_refl _)).append g2⟩
  rw [h'.queue, h.queue, List.append_assoc, ← range_append h.ext.len h'.ext.len]

theorem Fact.same {A quick p a} {s s1 s' : State} (hs : Same s1 s') (h : Fact A quick p a s s1) :
    Fact A quick p a s s' := by
  obtain ⟨za, q, m, d⟩ := s1
  obtain ⟨za', q', m', d'⟩ := s'
  obtain ⟨l, st, i, mm⟩ := za
  obtain ⟨l', st', i', mm'⟩ := za'
  obtain ⟨h1, h2, h3, h4, h5⟩ := hs
  simp only at h1 h2 h3 h4 h5
  subst h1; subst h2; subst h3; subst h4; subst h5
  have key : ∀ {c l c'}, Grow A quick ⟨l', st', i', mm⟩ p c l c' → Grow A quick ⟨l', st', i', mm'⟩ p c l c' := by
    intro c l c' h
    induction h with
    | nil => exact .nil _
    | old h _ ih => exact .old h ih
    | new z0 h hs hz _ ih => exact .new z0 h hs hz ih
  obtain ⟨l, e1, g1⟩ := h.grow
  exact ⟨⟨h.ext.len, h.ext.ta, h.ext.zone, h.ext.next⟩, h.others, h.queue, l, e1, key g1⟩

theorem addEdge_next_eq (za : ZA) (p a e i b) : ((za.addEdge p a e).loc i).next b =
    if i = p ∧ b = a then (za.loc i).next b ++ [e] else (za.loc i).next b := by
  unfold ZA.addEdge
  by_cases h : i = p
  · subst h
    by_cases hb : b = a
    · subst hb; simp
    · simp [Function.update_of_ne hb, hb]
  · simp [Function.update_of_ne h, h]

theorem addSuccessor_fact {A : TA} {P : ℕ → Zone → Prop} (o : HashOrder) (quick : Bool)
    {s : State} (h : Good A P s) {p : ℕ} (hp : p < s.za.states.length) {a : Action} {t : Trans}
    {z0 : Zone} (hz : succZone (s.za.loc p).zone.elapse t = some z0) :
    Fact A quick p a s (addSuccessor A o quick p a s t z0) := by
  have hx := core_ext A o quick p a s t z0
  cases he : (o.entries s.map).find?
      (fun e => e.1.1 == t.target && e.1.2.includes (lookupZone A quick z0)) with
  | some e =>
    have e0 : addSuccessor A o quick p a s t z0 = { s with za := s.za.addEdge p a (t, e.2) } := by
      unfold addSuccessor; rw [he]
    rw [e0] at hx ⊢
    have hmem : e ∈ s.map := (o.entries_perm s.map).mem_iff.1 (List.mem_of_find?_eq_some he)
    obtain ⟨m1, -, -⟩ := h.map e hmem
    refine ⟨hx, fun i b hi => ?_, by simp, [(t, e.2)], ?_, .old m1 (.nil _)⟩
    · simp only [addEdge_next_eq]
      rw [if_neg (by tauto)]
    · simp only [addEdge_next_eq]
      simp
  | none =>
    have e0 : addSuccessor A o quick p a s t z0 = { s with
        za := (s.za.addNode A t.target (newZone A quick z0)).addEdge p a (t, s.za.states.length)
        queue := s.queue ++ [s.za.states.length]
        map := mapSet s.map (t.target, newZone A quick z0) s.za.states.length } := by
      unfold addSuccessor; rw [he]
    rw [e0] at hx ⊢
    have hlen := addNode_len s.za A t.target (newZone A quick z0)
    refine ⟨hx, fun i b hi => ?_, ?_, [(t, s.za.states.length)], ?_, ?_⟩
    · simp only [addEdge_next_eq]
      rw [if_neg (by tauto)]
      by_cases hin : i = s.za.states.length
      · subst hin
        rw [addNode_loc_new, h.fresh _ (le_refl _)]
      · simp [ZA.addNode, Function.update_of_ne hin]
    · simp only [addEdge_states, hlen]
      simp
    · simp only [addEdge_next_eq]
      rw [addNode_loc_lt _ _ _ _ _ hp]
      simp
    · simp only [addEdge_states, hlen]
      refine .new z0 rfl ?_ ?_ (.nil _)
      · simp only [addEdge_zone]
        rw [addNode_loc_lt _ _ _ _ _ hp]; exact hz
      · simp only [addEdge_zone]
        rw [addNode_loc_new]

section
variable {A : TA} {P : ℕ → Zone → Prop} (o : HashOrder) (quick : Bool)
  (hP : ∀ p z, P p z → ∀ a, ∀ t ∈ (A.loc p).next a, ∀ z0, succZone z.elapse t = some z0 →
      P t.target (newZone A quick z0))
include hP

theorem edgeStep_fact {s : State} (h : Good A P s) {p : ℕ} (hp : p < s.za.states.length) {a : Action}
    {t : Trans} :
    Fact A quick p a s (edgeStep A o quick p (s.za.loc p).zone.elapse a s t) := by
  by_cases hd : s.done = true
  · rw [edgeStep_none _ _ _ _ _ _ _ _ (.inl hd)]; exact Fact.refl ..
  · rw [Bool.not_eq_true] at hd
    cases hz : succZone (s.za.loc p).zone.elapse t with
    | none => rw [edgeStep_none _ _ _ _ _ _ _ _ (.inr hz)]; exact Fact.refl ..
    | some z0 =>
      exact (addSuccessor_fact o quick h hp hz).same (edgeStep_some A o quick p _ a s t z0 hd hz)

theorem edgeFold_fact {s : State} (h : Good A P s) {p : ℕ} (hp : p < s.za.states.length) {a : Action}
    (ts : List Trans) (hts : ∀ t ∈ ts, t ∈ (A.loc (s.za.loc p).ta).next a) (now : Zone)
    (hnow : now = (s.za.loc p).zone.elapse) :
    Fact A quick p a s (ts.foldl (edgeStep A o quick p now a) s) := by
  induction ts generalizing s with
  | nil => exact Fact.refl ..
  | cons t ts ih =>
    simp only [List.foldl_cons]
    subst hnow
    have hf := edgeStep_fact o quick hP h hp (a := a) (t := t)
    obtain ⟨g1, g2, -⟩ := edgeStep_spec o quick hP h hp (hts t List.mem_cons_self)
    exact hf.trans (ih g1 (hp.trans_le g2.len)
      (fun u hu => by rw [g2.ta p hp]; exact hts u (List.mem_cons_of_mem _ hu))
      (by rw [g2.zone p hp])) hp

theorem actFold_fact {s : State} (h : Good A P s) {p : ℕ} (hp : p < s.za.states.length)
    (as : List Action) (has : as.Nodup) (hempty : ∀ a ∈ as, (s.za.loc p).next a = []) (now : Zone)
    (hnow : now = (s.za.loc p).zone.elapse) (st : TAState) (hst : st = A.loc (s.za.loc p).ta) :
    let s' := as.foldl (fun s a => (st.next a).foldl (edgeStep A o quick p now a) s) s
    Ext s.za s'.za ∧ (∀ i b, (i ≠ p ∨ b ∉ as) → (s'.za.loc i).next b = (s.za.loc i).next b) ∧
    s'.queue = s.queue ++ List.range' s.za.states.length (s'.za.states.length - s.za.states.length) ∧
    GrowActs A quick s'.za p as s.za.states.length s'.za.states.length := by
  induction as generalizing s with
  | nil => exact ⟨Ext.refl _, fun _ _ _ => rfl, by simp, rfl⟩
  | cons a as ih =>
    simp only [List.foldl_cons]
    rw [List.nodup_cons] at has
    have hts : ∀ t ∈ st.next a, t ∈ (A.loc (s.za.loc p).ta).next a := fun t ht => by
      rw [hst] at ht; exact ht
    have hf := edgeFold_fact o quick hP h hp (a := a) (st.next a) hts now hnow
    obtain ⟨g1, -⟩ := edgeFold_spec o quick hP h hp (a := a) (st.next a) hts now hnow
    set s1 := (st.next a).foldl (edgeStep A o quick p now a) s
    have hp1 : p < s1.za.states.length := hp.trans_le hf.ext.len
    obtain ⟨k1, k2, k3, k4⟩ := ih g1 hp1 has.2
      (fun b hb => by
        rw [hf.others p b (.inr (by rintro rfl; exact has.1 hb))]
        exact hempty b (by simp [hb])) (by rw [hf.ext.zone p hp]; exact hnow)
      (by rw [hf.ext.ta p hp]; exact hst)
    obtain ⟨l, e1, gr⟩ := hf.grow
    refine ⟨hf.ext.trans k1, fun i b hi => ?_, ?_, ?_⟩
    · rw [k2 i b (hi.imp id fun h h' => h (by simp [h'])),
        hf.others i b (hi.imp id fun h h' => h (by simp [h']))]
    · rw [k3, hf.queue, List.append_assoc, ← range_append hf.ext.len k1.len]
    · refine ⟨_, ?_, k4⟩
      rw [k2 p a (.inr has.1), e1, hempty a (by simp), List.nil_append]
      exact gr.ext k1 hp1 (le_refl _)

/-- The nodes are created and expanded in the order of their numbers: `cnt p` of them exist before
node `p` is expanded. -/
structure Log (A : TA) (o : HashOrder) (quick : Bool) (s : State) (k : ℕ) (cnt : ℕ → ℕ) : Prop where
  le : k ≤ s.za.states.length
  queue : s.queue = List.range' k (s.za.states.length - k)
  first : cnt 0 = A.init.length
  last : cnt k = s.za.states.length
  bound : ∀ p < k, p < cnt p
  sofar : ∀ p < k, cnt (p + 1) ≤ s.za.states.length
  grow : ∀ p < k, GrowActs A quick s.za p (o.acts (A.loc (s.za.loc p).ta)) (cnt p) (cnt (p + 1))
  rest : ∀ p ≥ k, ∀ a, (s.za.loc p).next a = []

theorem expand_log {s : State} {p : ℕ} {queue : List ℕ} (hq : s.queue = p :: queue) (h : Good A P s)
    {k : ℕ} {cnt : ℕ → ℕ} (hl : Log A o quick s k cnt) :
    ∃ cnt', Log A o quick (expand A o quick { s with queue := queue } p) (k + 1) cnt' := by
  have hq' := hl.queue
  rw [hq] at hq'
  have hlt : k < s.za.states.length := by
    by_contra hc
    rw [show s.za.states.length - k = 0 by omega] at hq'
    cases hq'
  obtain ⟨n', hn'⟩ : ∃ n', s.za.states.length - k = n' + 1 := ⟨s.za.states.length - k - 1, by omega⟩
  rw [hn', List.range'_succ] at hq'
  simp only [List.cons.injEq] at hq'
  obtain ⟨rfl, hqr⟩ := hq'
  have h1 : Good A P { s with queue := queue } :=
    ⟨h.states, h.init, h.initLen, h.initTa, h.initZone, h.node, h.acc, h.edge, h.fresh, h.map,
      fun i hi => h.queue i (by simp [hq, hi])⟩
  obtain ⟨g1, g2, g3, g4⟩ := actFold_fact o quick hP h1 hlt (o.acts (A.loc (s.za.loc p).ta))
    ((o.acts_perm _).nodup_iff.2 (List.nodup_finRange _)) (fun a _ => hl.rest p (le_refl _) a)
    (s.za.loc p).zone.elapse rfl (A.loc (s.za.loc p).ta) rfl
  change Ext s.za (expand A o quick { s with queue := queue } p).za at g1
  change ∀ i b, _ → ((expand A o quick { s with queue := queue } p).za.loc i).next b = (s.za.loc i).next b at g2
  change (expand A o quick { s with queue := queue } p).queue = queue ++ List.range' s.za.states.length
    ((expand A o quick { s with queue := queue } p).za.states.length - s.za.states.length) at g3
  change GrowActs A quick (expand A o quick { s with queue := queue } p).za p _ s.za.states.length
    (expand A o quick { s with queue := queue } p).za.states.length at g4
  set s' := expand A o quick { s with queue := queue } p
  have hlen := g1.len
  refine ⟨Function.update cnt (p + 1) s'.za.states.length, by omega, ?_, ?_, by simp, ?_, ?_, ?_, ?_⟩
  · rw [g3, hqr, show n' = s.za.states.length - (p + 1) by omega,
      ← range_append (by omega) hlen]
  · rw [Function.update_of_ne (by omega)]; exact hl.first
  · intro i hi
    rw [Function.update_of_ne (by omega)]
    rcases Nat.lt_succ_iff_lt_or_eq.1 hi with hi | rfl
    · exact hl.bound i hi
    · rw [hl.last]; exact hlt
  · intro i hi
    rcases Nat.lt_succ_iff_lt_or_eq.1 hi with hi | rfl
    · rw [Function.update_of_ne (by omega)]; exact (hl.sofar i hi).trans hlen
    · simp
  · intro i hi
    rw [Function.update_of_ne (show i ≠ p + 1 by omega)]
    rcases Nat.lt_succ_iff_lt_or_eq.1 hi with hi | rfl
    · rw [Function.update_of_ne (by omega), g1.ta i (by omega)]
      exact (hl.grow i hi).ext g1 (fun a => g2 i a (.inl (by omega))) (by omega) (hl.sofar i hi)
    · rw [Function.update_self, g1.ta i hlt, hl.last]
      exact g4
  · intro i hi a
    rw [g2 i a (.inl (by omega))]
    exact hl.rest i (by omega) a

theorem loop_log (fuel : ℕ) (s s' : State) (h : Inv A P quick s) {k : ℕ} {cnt : ℕ → ℕ}
    (hl : Log A o quick s k cnt) (hloop : loop A o quick fuel s = some s') :
    ∃ k' cnt', Log A o quick s' k' cnt' := by
  induction fuel generalizing s k cnt with
  | zero => simp [loop] at hloop
  | succ fuel ih =>
    unfold loop at hloop
    by_cases hd : s.done = true
    · rw [if_pos hd] at hloop
      obtain rfl := Option.some.inj hloop
      exact ⟨k, cnt, hl⟩
    · rw [if_neg hd] at hloop
      rw [Bool.not_eq_true] at hd
      split at hloop
      · obtain rfl := Option.some.inj hloop
        exact ⟨k, cnt, hl⟩
      · rename_i p queue hq
        obtain ⟨cnt', hl'⟩ := expand_log o quick hP hq h.toGood hl
        exact ih _ (expand_inv o quick hP hd hq h) hl' hloop

end

theorem start_log (A : TA) (o : HashOrder) (quick : Bool) :
    Log A o quick (start A) 0 fun _ => A.init.length := by
  obtain ⟨h1, h2, -, h4, h5, -⟩ := startFold_spec A (Zone.zero (A.clockSize + 1)) A.init
    ⟨fun _ => ⟨false, fun _ => [], 0, Zone.zero (A.clockSize + 1)⟩, [], [], none⟩
  simp only [List.length_nil, Nat.zero_add] at h1 h4 h5
  have h2 := h2 rfl
  refine ⟨Nat.zero_le _, ?_, rfl, h1.symm, by omega, by omega, by omega, ?_⟩
  · simp only [start]
    rw [Nat.sub_zero, ← List.range_eq_range', ← h2]
  · intro p _ a
    by_cases hp : p < A.init.length
    · simp only [start]; rw [h4 p hp]
    · simp only [start]; rw [h5 p (by omega)]

/-- The nodes of the result and the order they were created in, if the exploration was complete. -/
theorem ta2za_log (A : TA) (P : ℕ → Zone → Prop) (o : HashOrder) (quick : Bool)
    (h0 : ∀ q ∈ A.init, P q (Zone.zero (A.clockSize + 1)))
    (hP : ∀ p z, P p z → ∀ a, ∀ t ∈ (A.loc p).next a, ∀ z0, succZone z.elapse t = some z0 →
      P t.target (newZone A quick z0)) (fuel : ℕ) (za : ZA) (h : ta2za A o quick fuel = some za)
    (s : State) (hs : loop A o quick fuel (start A) = some s) (hq : s.queue = []) :
    ∃ cnt : ℕ → ℕ, cnt 0 = A.init.length ∧ cnt s.za.states.length = s.za.states.length ∧
      ∀ p < s.za.states.length, p < cnt p ∧ cnt (p + 1) ≤ s.za.states.length ∧
        GrowActs A quick s.za p (o.acts (A.loc (s.za.loc p).ta)) (cnt p) (cnt (p + 1)) := by
  obtain ⟨k, cnt, hl⟩ := loop_log o quick hP fuel _ s (start_inv A P quick h0).1 (start_log A o quick) hs
  have hk : k = s.za.states.length := by
    have := hl.queue
    rw [hq] at this
    have h2 := congrArg List.length this
    simp at h2
    have := hl.le
    omega
  subst hk
  exact ⟨cnt, hl.first, hl.last, fun p hp => ⟨hl.bound p hp, hl.sofar p hp, hl.grow p hp⟩⟩

end Ta2za
end LearnTA
