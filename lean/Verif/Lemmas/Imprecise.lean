import Verif.Spec.Imprecise
import Verif.Lemmas.Resets
import Verif.Lemmas.Constraint

/-!
# Lemmas on the relaxation of guards
-/

namespace LearnTA

/-! ### The relations -/

theorem Trans.Embeds.refl (t : Trans) : Trans.Embeds t t := ⟨rfl, fun _ h => h, fun _ => .inl fun _ => rfl⟩

theorem Trans.Embeds.trans {z y x : Trans} (h : Trans.Embeds z y) (h' : Trans.Embeds y x) : Trans.Embeds z x := by
  refine ⟨h.target.trans h'.target, fun v hv => h.guard v (h'.guard v hv), fun c => ?_⟩
  rcases h.updates c with e | e | e
  · rcases h'.updates c with e' | ⟨q, e'⟩ | e'
    · exact .inl fun v => (e v).trans (e' v)
    · exact .inr (.inl ⟨q, fun v => (e v).trans (e' v)⟩)
    · exact .inr (.inr fun v => (e v).trans (e' v))
  · exact .inr (.inl e)
  · exact .inr (.inr e)

theorem Extends.refl (loc : ℕ → TAState) : Extends loc loc := fun _ => ⟨rfl, fun _ => ⟨[], by simp⟩⟩

theorem Extends.trans {l1 l2 l3 : ℕ → TAState} (h : Extends l1 l2) (h' : Extends l2 l3) : Extends l1 l3 := by
  intro q
  refine ⟨(h' q).1.trans (h q).1, fun a => ?_⟩
  obtain ⟨n1, e1, o1⟩ := (h q).2 a
  obtain ⟨n2, e2, o2⟩ := (h' q).2 a
  refine ⟨n1 ++ n2, by rw [e2, e1, List.append_assoc], fun t' ht' => ?_⟩
  rcases List.mem_append.1 ht' with ht' | ht'
  · exact o1 t' ht'
  · obtain ⟨t, ht, hE⟩ := o2 t' ht'
    rw [e1] at ht
    rcases List.mem_append.1 ht with ht | ht
    · exact ⟨t, ht, hE⟩
    · obtain ⟨t0, ht0, hE0⟩ := o1 t ht
      exact ⟨t0, ht0, hE.trans hE0⟩

theorem Extends.mem {l1 l2 : ℕ → TAState} (h : Extends l1 l2) {q : ℕ} {a : Action} {t : Trans} (ht : t ∈ (l1 q).next a) :
    t ∈ (l2 q).next a := by
  obtain ⟨n, e, _⟩ := (h q).2 a
  rw [e]; exact List.mem_append_left _ ht

theorem setList_isMatch (loc : ℕ → TAState) (q : ℕ) (a : Action) (l : List Trans) (p : ℕ) :
    (setList loc q a l p).isMatch = (loc p).isMatch := by
  unfold setList
  by_cases h : p = q
  · subst h; simp [TAState.setNext]
  · rw [Function.update_of_ne h]

theorem setList_next (loc : ℕ → TAState) (q : ℕ) (a : Action) (l : List Trans) (p : ℕ) (b : Action) :
    (setList loc q a l p).next b = if p = q ∧ b = a then l else (loc p).next b := by
  unfold setList
  by_cases h : p = q
  · subst h
    simp only [Function.update_self, TAState.setNext, true_and]
    by_cases hb : b = a
    · subst hb; simp
    · rw [if_neg hb]; simp [Function.update_of_ne hb]
  · rw [Function.update_of_ne h, if_neg (by tauto)]

theorem Extends.set {loc : ℕ → TAState} {q : ℕ} {a : Action} {new : List Trans}
    (h : ∀ t' ∈ new, ∃ t ∈ (loc q).next a, Trans.Embeds t' t) :
    Extends loc (setList loc q a ((loc q).next a ++ new)) := by
  intro p
  refine ⟨setList_isMatch .., fun b => ?_⟩
  rw [setList_next]
  split
  · rename_i e
    obtain ⟨rfl, rfl⟩ := e
    exact ⟨new, rfl, h⟩
  · exact ⟨[], by simp⟩

theorem Neighbors.RelaxedAt.mono {hash : ForwardRegional → ℕ} {fuel : ℕ} {K K' : ℕ × Neighbors → Prop}
    {l0 l1 l2 l3 : ℕ → TAState} {q : ℕ} {N : Neighbors} {a : Action} {t : Trans} (h : N.RelaxedAt hash fuel K l1 l2 q a t)
    (h0 : Extends l0 l1) (h3 : Extends l2 l3) (hK : ∀ x, K x → K' x) : N.RelaxedAt hash fuel K' l0 l3 q a t := by
  rcases h with h | ⟨loc1, after, vals, e1, e2, e3, e4, e5, e6⟩
  · exact .inl h
  · exact .inr ⟨loc1, after, vals, h0.trans e1, e2.trans h3, e3, e4, h3.mem e5, e6.imp id (Or.imp id (hK _))⟩

theorem Neighbors.Relaxed.mono {hash : ForwardRegional → ℕ} {fuel : ℕ} {K K' : ℕ × Neighbors → Prop}
    {l0 l1 l2 l3 : ℕ → TAState} {q : ℕ} {N : Neighbors} (h : N.Relaxed hash fuel K l1 l2 q)
    (h0 : Extends l0 l1) (h3 : Extends l2 l3) (hK : ∀ x, K x → K' x) : N.Relaxed hash fuel K' l0 l3 q := by
  intro a t ht hm hw
  exact (h a t (h0.mem ht) hm hw).mono h0 h3 hK

namespace Imprecise

theorem Handled.mono {hash : ForwardRegional → ℕ} {fuel : ℕ} {K K' : ℕ × Neighbors → Prop} {l0 l1 l2 l3 : ℕ → TAState}
    {x : ℕ × Neighbors} (h : Handled hash fuel K l1 l2 x) (h0 : Extends l0 l1) (h3 : Extends l2 l3) (hK : ∀ x, K x → K' x) :
    Handled hash fuel K' l0 l3 x := by
  obtain ⟨m, a, ⟨k, hk, N, b, c, t, ht, hm⟩, N', d, e⟩ := h
  refine ⟨m, fun k hk => ?_, ⟨k, hk, N, b, c, t, h3.mem ht, hm⟩, N', d, fun a t ht => e a t (h0.mem ht)⟩
  obtain ⟨N, f, g⟩ := a k hk
  exact ⟨N, f, g.mono h0 h3 hK⟩

/-! ### `embedIfImprecise` -/

theorem upd_consts (l : List ℕ) (f : ℕ → ℚ) (x : ℕ) :
    Resets.upd (l.map fun y => (y, Upd.const (f y))) x = if x ∈ l then some (.const (f x)) else none := by
  induction l with
  | nil => rfl
  | cons y l ih =>
    rw [List.map_cons, Resets.upd_cons, ih]
    by_cases h : x ∈ l
    · simp [h]
    · by_cases hy : y = x
      · subst hy; simp [h]
      · have hy' : ¬ x = y := fun e => hy e.symm
        simp [h, hy, hy']

theorem embed_apply (r : Resets) (P : Finset ℕ) (vals : List ℚ) (v : Valuation) (x : ℕ) :
    (embedIfImprecise r P vals).apply v x =
      if x ∈ P then r.apply v x else if x < vals.length then vals.getD x 0 else v x := by
  rw [Resets.apply_eq, Resets.apply_eq]
  unfold embedIfImprecise
  rw [Resets.upd_append, upd_consts, Resets.upd_filter (f := fun x => decide (x ∈ P))]
  by_cases hP : x ∈ P
  · simp [hP]
  · by_cases hx : x < vals.length
    · simp [hP, hx, Upd.eval]
    · simp [hP, hx]

/-! ### One transition -/

theorem relaxedGuard_bounded {N : Neighbors} {g : Guard} : g.any Constraint.isUpperBound = true ↔ g.Bounded := by
  simp [Guard.Bounded]

/-- `new` has the relaxed transition, and `np` the pair for its target. -/
def RelaxedBy (h : HashEnv) (fuel : ℕ) (loc : ℕ → TAState) (N : Neighbors) (a : Action) (t : Trans) (new : List Trans)
    (np : List (ℕ × Neighbors)) : Prop :=
  Guard.isWeaker t.guard (relaxedGuard N t.guard) = true ∨
    ∃ after vals, N.makeAfter h.region fuel loc a t = .ok after ∧ after.toOriginalValuation = some vals ∧
      ⟨t.target, embedIfImprecise t.resets (N.preciseAfter loc t) vals, relaxedGuard N t.guard⟩ ∈ new ∧
      (N.preciseAfter loc t = ∅ ∨ after.isPrecise = true ∨ (t.target, after) ∈ np)

theorem RelaxedBy.mono {h : HashEnv} {fuel : ℕ} {loc : ℕ → TAState} {N : Neighbors} {a : Action} {t : Trans}
    {l l' : List Trans} {k k' : List (ℕ × Neighbors)} (hh : RelaxedBy h fuel loc N a t l k) (h1 : ∀ x ∈ l, x ∈ l')
    (h2 : ∀ x ∈ k, x ∈ k') : RelaxedBy h fuel loc N a t l' k' := by
  rcases hh with hh | ⟨after, vals, e1, e2, e3, e4⟩
  · exact .inl hh
  · exact .inr ⟨after, vals, e1, e2, h1 _ e3, e4.imp id (Or.imp id (h2 _))⟩

theorem handleOne_spec {h : HashEnv} {fuel : ℕ} {loc : ℕ → TAState} {N : Neighbors} {a : Action} {R R' : Round} {t : Trans}
    (hh : handleOne h fuel loc N a R t = .ok R') :
    (∃ new np, R'.added = R.added ++ new ∧ R'.pushed = R.pushed ++ np ∧ (∀ t' ∈ new, Trans.Embeds t' t) ∧
      (N.matchGuard t.guard = true → Guard.isWeaker (relaxedGuard N t.guard) t.guard = true → RelaxedBy h fuel loc N a t new np)) ∧
    R'.matchBounded = (R.matchBounded || (N.matchGuard t.guard && t.guard.any Constraint.isUpperBound)) ∧
    R'.noMatch = (R.noMatch && !N.matchGuard t.guard) := by
  unfold handleOne at hh
  by_cases hm : N.matchGuard t.guard = true
  · rw [if_pos hm] at hh
    dsimp only at hh
    by_cases hw : Guard.isWeaker (relaxedGuard N t.guard) t.guard = true
    · by_cases hw' : Guard.isWeaker t.guard (relaxedGuard N t.guard) = true
      · rw [if_neg (by simp [hw'])] at hh
        cases hh
        refine ⟨⟨[], [], by simp, by simp, by simp, fun _ _ => .inl hw'⟩, ?_, ?_⟩
        · simp [hm]
        · simp [hm]
      · rw [if_pos (by simp [hw, hw'])] at hh
        cases ha : N.makeAfter h.region fuel loc a t with
        | error e => rw [ha] at hh; simp [bind, Except.bind] at hh
        | ok after =>
          rw [ha] at hh
          simp only [bind, Except.bind] at hh
          cases hv : after.toOriginalValuation with
          | none => rw [hv] at hh; simp at hh
          | some vals =>
            rw [hv] at hh
            simp only [pure, Except.pure, Except.ok.injEq] at hh
            have hE : Trans.Embeds ⟨t.target, embedIfImprecise t.resets (N.preciseAfter loc t) vals, relaxedGuard N t.guard⟩
                t := by
              refine ⟨rfl, fun v hv => Guard.isWeaker_sound hw v hv, fun c => ?_⟩
              simp only [embed_apply]
              by_cases hP : c ∈ N.preciseAfter loc t
              · exact .inl fun v => by rw [if_pos hP]
              · by_cases hc : c < vals.length
                · exact .inr (.inl ⟨vals.getD c 0, fun v => by rw [if_neg hP, if_pos hc]⟩)
                · exact .inr (.inr fun v => by rw [if_neg hP, if_neg hc])
            obtain ⟨np, k1, k2, k3, k4, k5⟩ : ∃ np, R'.added = R.added ++
                [⟨t.target, embedIfImprecise t.resets (N.preciseAfter loc t) vals, relaxedGuard N t.guard⟩] ∧
                R'.matchBounded = (R.matchBounded || t.guard.any Constraint.isUpperBound) ∧ R'.noMatch = false ∧
                R'.pushed = R.pushed ++ np ∧
                (N.preciseAfter loc t = ∅ ∨ after.isPrecise = true ∨ (t.target, after) ∈ np) := by
              rw [← hh]
              split
              · rename_i e
                rw [Bool.or_eq_true, decide_eq_true_iff] at e
                exact ⟨[], rfl, rfl, rfl, by simp, e.imp id .inl⟩
              · exact ⟨[(t.target, after)], rfl, rfl, rfl, rfl, .inr (.inr (by simp))⟩
            refine ⟨⟨_, np, k1, k4, by simpa using hE, fun _ _ => .inr ⟨after, vals, ha, hv, List.mem_singleton.2 rfl, k5⟩⟩, ?_, ?_⟩
            · rw [k2, hm]; simp
            · rw [k3, hm]; simp
    · rw [if_neg (by simp [hw])] at hh
      cases hh
      exact ⟨⟨[], [], by simp, by simp, by simp, fun _ h => absurd h hw⟩, by simp [hm], by simp [hm]⟩
  · rw [if_neg hm] at hh
    cases hh
    have hm' : N.matchGuard t.guard = false := by simpa using hm
    exact ⟨⟨[], [], by simp, by simp, by simp, fun h => absurd h hm⟩, by simp [hm'], by simp [hm']⟩

theorem handleAll_spec {h : HashEnv} {fuel : ℕ} {loc : ℕ → TAState} {N : Neighbors} {a : Action} :
    ∀ (l : List Trans) {R R' : Round}, l.foldlM (handleOne h fuel loc N a) R = .ok R' →
    (∃ new np, R'.added = R.added ++ new ∧ R'.pushed = R.pushed ++ np ∧ (∀ t' ∈ new, ∃ t ∈ l, Trans.Embeds t' t) ∧
      ∀ t ∈ l, N.matchGuard t.guard = true → Guard.isWeaker (relaxedGuard N t.guard) t.guard = true →
        RelaxedBy h fuel loc N a t new np) ∧
    R'.matchBounded = (R.matchBounded || l.any fun t => N.matchGuard t.guard && t.guard.any Constraint.isUpperBound) ∧
    R'.noMatch = (R.noMatch && l.all fun t => !N.matchGuard t.guard) := by
  intro l
  induction l with
  | nil =>
    intro R R' hh
    simp only [List.foldlM_nil, pure, Except.pure, Except.ok.injEq] at hh
    subst hh
    exact ⟨⟨[], [], by simp⟩, by simp, by simp⟩
  | cons t l ih =>
    intro R R' hh
    rw [List.foldlM_cons] at hh
    cases h1 : handleOne h fuel loc N a R t with
    | error e => rw [h1] at hh; simp [bind, Except.bind] at hh
    | ok R1 =>
      rw [h1] at hh
      obtain ⟨⟨n1, k1, e1, f1, o1, c1⟩, b1, m1⟩ := handleOne_spec h1
      obtain ⟨⟨n2, k2, e2, f2, o2, c2⟩, b2, m2⟩ := ih hh
      refine ⟨⟨n1 ++ n2, k1 ++ k2, by rw [e2, e1, List.append_assoc], by rw [f2, f1, List.append_assoc], fun t' ht' => ?_, fun u hu hm hw => ?_⟩, ?_, ?_⟩
      · rcases List.mem_append.1 ht' with ht' | ht'
        · exact ⟨t, by simp, o1 t' ht'⟩
        · obtain ⟨u, hu, hE⟩ := o2 t' ht'
          exact ⟨u, by simp [hu], hE⟩
      · rcases List.mem_cons.1 hu with rfl | hu
        · exact (c1 hm hw).mono (fun _ h => List.mem_append_left _ h) fun _ h => List.mem_append_left _ h
        · exact (c2 u hu hm hw).mono (fun _ h => List.mem_append_right _ h) fun _ h => List.mem_append_right _ h
      · rw [b2, b1, List.any_cons, Bool.or_assoc]
      · rw [m2, m1, List.all_cons, Bool.and_assoc]

/-! ### The loop over the actions -/

/-- The part of `Relaxed` for one action. -/
def RelaxedFor (h : HashEnv) (fuel : ℕ) (K : ℕ × Neighbors → Prop) (loc loc' : ℕ → TAState) (q : ℕ) (N : Neighbors)
    (a : Action) : Prop :=
  ∀ t ∈ (loc q).next a, N.matchGuard t.guard = true → Guard.isWeaker (relaxedGuard N t.guard) t.guard = true →
    N.RelaxedAt h.region fuel K loc loc' q a t

theorem RelaxedFor.mono {h : HashEnv} {fuel : ℕ} {K K' : ℕ × Neighbors → Prop} {l0 l1 l2 l3 : ℕ → TAState} {q : ℕ}
    {N : Neighbors} {a : Action} (hh : RelaxedFor h fuel K l1 l2 q N a)
    (h0 : Extends l0 l1) (h3 : Extends l2 l3) (hK : ∀ x, K x → K' x) : RelaxedFor h fuel K' l0 l3 q N a := by
  intro t ht hm hw
  exact (hh t (h0.mem ht) hm hw).mono h0 h3 hK

theorem handleAction_spec {h : HashEnv} {fuel q : ℕ} {N : Neighbors} {a : Action} {s s' : St × Bool × Bool}
    (hh : handleAction h fuel q N s a = .ok s') :
    Extends s.1.loc s'.1.loc ∧ RelaxedFor h fuel (· ∈ s'.1.pending) s.1.loc s'.1.loc q N a ∧
      (∃ new, s'.1.pending = s.1.pending ++ new) ∧
      s'.2.1 = (s.2.1 || ((s.1.loc q).next a).any fun t => N.matchGuard t.guard && t.guard.any Constraint.isUpperBound) ∧
      s'.2.2 = (s.2.2 && ((s.1.loc q).next a).all fun t => !N.matchGuard t.guard) := by
  unfold handleAction at hh
  cases hR : ((s.1.loc q).next a).foldlM (handleOne h fuel s.1.loc N a) ⟨[], [], s.2.1, s.2.2⟩ with
  | error e => rw [hR] at hh; simp [bind, Except.bind] at hh
  | ok R =>
    rw [hR] at hh
    simp only [bind, Except.bind, pure, Except.pure, Except.ok.injEq] at hh
    subst hh
    obtain ⟨⟨new, np, e, f, o, c⟩, b, m⟩ := handleAll_spec _ hR
    simp only [List.nil_append] at e f
    rw [← e] at o c
    rw [← f] at c
    refine ⟨Extends.set o, fun t ht hm hw => ?_, ⟨_, rfl⟩, b, m⟩
    rcases c t ht hm hw with h1 | ⟨after, vals, h1, h2, h3, h4⟩
    · exact .inl h1
    · refine .inr ⟨s.1.loc, after, vals, .refl _, Extends.set o, h1, h2, ?_, h4.imp id (Or.imp id fun h => ?_)⟩
      · rw [setList_next, if_pos ⟨rfl, rfl⟩]
        exact List.mem_append_right _ h3
      · exact List.mem_append_right _ h

theorem actions_spec {h : HashEnv} {fuel q : ℕ} {N : Neighbors} : ∀ (as : List Action) {s s' : St × Bool × Bool},
    as.foldlM (handleAction h fuel q N) s = .ok s' →
    Extends s.1.loc s'.1.loc ∧ (∀ a ∈ as, RelaxedFor h fuel (· ∈ s'.1.pending) s.1.loc s'.1.loc q N a) ∧
      (∃ new, s'.1.pending = s.1.pending ++ new) ∧
      (s.2.1 = true → s'.2.1 = true) ∧
      (s'.2.1 = false → ∀ a ∈ as, ∀ t ∈ (s.1.loc q).next a, N.matchGuard t.guard = true → ¬ t.guard.Bounded) ∧
      (s'.2.2 = false → s.2.2 = false ∨ ∃ a, ∃ t ∈ (s'.1.loc q).next a, N.matchGuard t.guard = true) := by
  intro as
  induction as with
  | nil =>
    intro s s' hh
    simp only [List.foldlM_nil, pure, Except.pure, Except.ok.injEq] at hh
    subst hh
    exact ⟨.refl _, by simp, ⟨[], by simp⟩, id, by simp, fun h => .inl h⟩
  | cons a as ih =>
    intro s s' hh
    rw [List.foldlM_cons] at hh
    cases h1 : handleAction h fuel q N s a with
    | error e => rw [h1] at hh; simp [bind, Except.bind] at hh
    | ok s1 =>
      rw [h1] at hh
      obtain ⟨x1, r1, ⟨n1, p1⟩, b1, m1⟩ := handleAction_spec h1
      obtain ⟨x2, r2, ⟨n2, p2⟩, t2, b2, m2⟩ := ih hh
      refine ⟨x1.trans x2, ?_, ⟨n1 ++ n2, by rw [p2, p1, List.append_assoc]⟩, fun e => t2 (by rw [b1, e]; rfl), ?_, ?_⟩
      · intro b hb
        rcases List.mem_cons.1 hb with rfl | hb
        · exact r1.mono (.refl _) x2 fun x hx => by rw [p2]; exact List.mem_append_left _ hx
        · exact (r2 b hb).mono x1 (.refl _) fun x hx => hx
      · intro hf b hb t ht hm hbd
        rcases List.mem_cons.1 hb with rfl | hb
        · have hf1 : s1.2.1 = false := by
            cases e : s1.2.1 with
            | false => rfl
            | true => rw [t2 e] at hf; cases hf
          rw [b1, Bool.or_eq_false_iff] at hf1
          have := List.any_eq_false.1 hf1.2 t ht
          rw [hm, relaxedGuard_bounded (N := N) |>.2 hbd] at this
          simp at this
        · exact b2 hf b hb t (x1.mem ht) hm hbd
      · intro hf
        rcases m2 hf with e | ⟨b, t, ht, hm⟩
        · rw [m1, Bool.and_eq_false_iff] at e
          rcases e with e | e
          · exact .inl e
          · rw [List.all_eq_false] at e
            obtain ⟨t, ht, hm⟩ := e
            exact .inr ⟨a, t, x2.mem (x1.mem ht), by simpa using hm⟩
        · exact .inr ⟨b, t, ht, hm⟩

/-! ### Following in time -/

/-- The hash table of a state lists all its actions. -/
def Lists (h : HashEnv) : Prop := ∀ (s : TAState) (a : Action), s.next a ≠ [] → a ∈ h.acts s

theorem follow_spec {h : HashEnv} (hl : Lists h) {fuel q : ℕ} : ∀ (n : ℕ) {N : Neighbors} {s s' : St} {nm : Bool},
    follow h fuel q n N s nm = .ok s' →
    Extends s.loc s'.loc ∧ (∃ new, s'.pending = s.pending ++ new) ∧
    ∃ m, (∀ k ≤ m, ∃ M, N.After h.region fuel k M ∧ M.Relaxed h.region fuel (· ∈ s'.pending) s.loc s'.loc q) ∧
      (nm = false ∨ ∃ k ≤ m, ∃ M, N.After h.region fuel k M ∧ ∃ a, ∃ t ∈ (s'.loc q).next a, M.matchGuard t.guard = true) ∧
      ∃ M, N.After h.region fuel m M ∧ ∀ a, ∀ t ∈ (s.loc q).next a, M.matchGuard t.guard = true → ¬ t.guard.Bounded := by
  intro n
  induction n with
  | zero => intro N s s' nm hh; simp [follow] at hh
  | succ n ih =>
    intro N s s' nm hh
    unfold follow at hh
    cases hr : (h.acts (s.loc q)).foldlM (handleAction h fuel q N) (s, false, nm) with
    | error e => rw [hr] at hh; simp [bind, Except.bind] at hh
    | ok r =>
      rw [hr] at hh
      simp only [bind, Except.bind] at hh
      cases hN : N.successor h.region fuel with
      | error e => rw [hN] at hh; simp at hh
      | ok N' =>
        rw [hN] at hh
        dsimp only at hh
        obtain ⟨x1, r1, ⟨n1, p1⟩, _, b1, m1⟩ := actions_spec _ hr
        have hrel : N.Relaxed h.region fuel (· ∈ r.1.pending) s.loc r.1.loc q := by
          intro a t ht
          exact r1 a (hl _ _ (List.ne_nil_of_mem ht)) t ht
        by_cases hc : (r.2.1 || r.2.2) = true
        · rw [if_pos hc] at hh
          obtain ⟨x2, ⟨n2, p2⟩, m, c1, c2, M, c3, c4⟩ := ih hh
          refine ⟨x1.trans x2, ⟨n1 ++ n2, by rw [p2, p1, List.append_assoc]⟩, m + 1, fun k hk => ?_, ?_, M, .succ hN c3,
            fun a t ht => c4 a t (x1.mem ht)⟩
          · cases k with
            | zero => exact ⟨N, .zero, hrel.mono (.refl _) x2 fun x hx => by rw [p2]; exact List.mem_append_left _ hx⟩
            | succ k =>
              obtain ⟨M, d1, d2⟩ := c1 k (by omega)
              exact ⟨M, .succ hN d1, d2.mono x1 (.refl _) fun x hx => hx⟩
          · rcases c2 with c2 | ⟨k, hk, M, d1, a, t, ht, hm⟩
            · rcases m1 c2 with e | ⟨a, t, ht, hm⟩
              · exact .inl e
              · exact .inr ⟨0, by omega, N, .zero, a, t, x2.mem ht, hm⟩
            · exact .inr ⟨k + 1, by omega, M, .succ hN d1, a, t, ht, hm⟩
        · rw [if_neg hc] at hh
          simp only [pure, Except.pure, Except.ok.injEq] at hh
          subst hh
          have hc' : r.2.1 = false ∧ r.2.2 = false := by simpa using hc
          refine ⟨x1, ⟨n1, p1⟩, 0, fun k hk => ⟨N, ?_, hrel⟩, ?_, N, .zero, fun a t ht => ?_⟩
          · rw [show k = 0 by omega]; exact .zero
          · rcases m1 hc'.2 with e | ⟨a, t, ht, hm⟩
            · exact .inl e
            · exact .inr ⟨0, le_refl _, N, .zero, a, t, ht, hm⟩
          · exact b1 hc'.1 a (hl _ _ (List.ne_nil_of_mem ht)) t ht

/-! ### `run` -/

theorem mem_rest {α : Type} {p : α} {ps : List α} (i : ℕ) {z : α} (hz : z ∈ p :: ps) :
    z = ((p :: ps)[i]?).getD p ∨ z ∈ (p :: ps).eraseIdx (if i < ps.length + 1 then i else 0) := by
  obtain ⟨j, hj, e⟩ := List.mem_iff_getElem.1 hz
  have key : ∀ i' < (p :: ps).length, z = ((p :: ps)[i']?).getD p ∨ z ∈ (p :: ps).eraseIdx i' := by
    intro i' hi'
    by_cases hij : j = i'
    · subst hij
      left
      rw [List.getElem?_eq_getElem hi']
      exact e.symm
    · right
      rw [List.mem_eraseIdx_iff_getElem]
      exact ⟨j, hj, hij, e⟩
  by_cases hi : i < ps.length + 1
  · rw [if_pos hi]; exact key i (by simpa using hi)
  · rw [if_neg hi]
    rw [List.getElem?_eq_none (by simp; omega)]
    rcases key 0 (by simp) with h | h
    · left; simpa using h
    · exact .inr h

theorem run_spec {h : HashEnv} (hl : Lists h) {fuel : ℕ} : ∀ (n : ℕ) {visited : List ℕ} {s s' : St},
    run h fuel n visited s = .ok s' →
    Extends s.loc s'.loc ∧ ∃ H : List (ℕ × Neighbors),
      (∀ x ∈ s.pending, h.pair x ∈ visited ∨ ∃ y ∈ H, h.pair y = h.pair x) ∧
      ∀ x ∈ H, Handled h.region fuel (fun z => h.pair z ∈ visited ∨ ∃ y ∈ H, h.pair y = h.pair z) s.loc s'.loc x := by
  intro n
  induction n with
  | zero => intro visited s s' hh; simp [run] at hh
  | succ n ih =>
    intro visited s s' hh
    unfold run at hh
    cases hp : s.pending with
    | nil => rw [hp] at hh; simp only [Except.ok.injEq] at hh; subst hh; exact ⟨.refl _, [], by simp⟩
    | cons p ps =>
      rw [hp] at hh
      dsimp only at hh
      by_cases hv : h.pair (((p :: ps)[h.pick (p :: ps)]?).getD p) ∈ visited
      · rw [if_pos hv] at hh
        obtain ⟨x1, H, c, d⟩ := ih hh
        refine ⟨x1, H, fun x hx => ?_, d⟩
        rcases mem_rest (h.pick (p :: ps)) hx with e | e
        · exact .inl (e ▸ hv)
        · exact c x e
      · rw [if_neg hv] at hh
        cases hf : follow h fuel (((p :: ps)[h.pick (p :: ps)]?).getD p).1 fuel
            (((p :: ps)[h.pick (p :: ps)]?).getD p).2
            ⟨s.loc, (p :: ps).eraseIdx (if h.pick (p :: ps) < ps.length + 1 then h.pick (p :: ps) else 0)⟩ true with
        | error e => rw [hf] at hh; simp [bind, Except.bind] at hh
        | ok s2 =>
          rw [hf] at hh
          simp only [bind, Except.bind] at hh
          obtain ⟨x1, ⟨new, e1⟩, m, c1, c2, c3⟩ := follow_spec hl _ hf
          obtain ⟨x2, H, c, d⟩ := ih hh
          have hK : ∀ z, (h.pair z ∈ h.pair (((p :: ps)[h.pick (p :: ps)]?).getD p) :: visited ∨ ∃ y ∈ H, h.pair y = h.pair z) →
              (h.pair z ∈ visited ∨ ∃ y ∈ (((p :: ps)[h.pick (p :: ps)]?).getD p) :: H, h.pair y = h.pair z) := by
            rintro z (hz | ⟨y, hy, e⟩)
            · rcases List.mem_cons.1 hz with e | e
              · exact .inr ⟨_, List.mem_cons_self, e.symm⟩
              · exact .inl e
            · exact .inr ⟨y, List.mem_cons_of_mem _ hy, e⟩
          refine ⟨Extends.trans (l2 := s2.loc) x1 x2, (((p :: ps)[h.pick (p :: ps)]?).getD p) :: H, fun x hx => ?_, fun x hx => ?_⟩
          · rcases mem_rest (h.pick (p :: ps)) hx with e | e
            · right; exact ⟨_, List.mem_cons_self, by rw [e]⟩
            · exact hK x (c x (by rw [e1]; exact List.mem_append_left _ e))
          · rcases List.mem_cons.1 hx with rfl | hx
            · exact Handled.mono (l1 := s.loc) (l2 := s2.loc) ⟨m, c1, c2.resolve_left (by simp), c3⟩ (.refl _) x2
                fun z hz => hK z (c z hz)
            · exact (d x hx).mono x1 (.refl _) hK

end Imprecise
end LearnTA
