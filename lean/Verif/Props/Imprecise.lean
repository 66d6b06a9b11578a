import Verif.Lemmas.Imprecise
import Verif.Props.Neighbor
import Verif.Props.ApplyResets

/-!
# C73: relaxation of guards for imprecise clocks
-/

namespace LearnTA.Props
open LearnTA Imprecise

/-- **C73** `run` keeps the acceptance and the transitions of all states; every added transition has the source, the action
and the target of a transition that was there, a weaker guard, and updates every clock as it does, or sets the clock to a
constant, or leaves the clock. -/
theorem C73_extends (h : HashEnv) (hl : Lists h) (fuel n : ℕ) (visited : List ℕ) (s s' : St)
    (hr : run h fuel n visited s = .ok s') : Extends s.loc s'.loc :=
  (run_spec hl n hr).1

/-- **C73** `embedIfImprecise`: the precise clocks are updated as before, and the imprecise ones get the constants. -/
theorem C73_embed (r : Resets) (P : Finset ℕ) (vals : List ℚ) (v : Valuation) (x : ℕ) :
    (embedIfImprecise r P vals).apply v x =
      if x ∈ P then r.apply v x else if x < vals.length then vals.getD x 0 else v x :=
  embed_apply r P vals v x

/-- **C73** When `run` returns, every pair given to `push` has been handled, or another one with the same hash, and so has
every pair of a target and the neighbours after a relaxed transition. -/
theorem C73_handled (h : HashEnv) (hl : Lists h) (fuel n : ℕ) (s s' : St) (hr : run h fuel n [] s = .ok s') :
    ∃ H : List (ℕ × Neighbors), (∀ x ∈ s.pending, ∃ y ∈ H, h.pair y = h.pair x) ∧
      ∀ x ∈ H, Handled h.region fuel (fun z => ∃ y ∈ H, h.pair y = h.pair z) s.loc s'.loc x := by
  obtain ⟨_, H, h1, h2⟩ := run_spec hl n hr
  exact ⟨H, fun x hx => (h1 x hx).resolve_left (by simp),
    fun x hx => (h2 x hx).mono (.refl _) (.refl _) fun z hz => hz.resolve_left (by simp)⟩

/-- **C73** A relaxed transition is enabled in all neighbours. -/
theorem C73_covered (N : Neighbors) (hN : N.Built) (g : Guard) (u : Valuation) (hu : u.Nonneg) (hc : N.Covers u) :
    (relaxedGuard N g).Holds u := by
  have h := (C71_relaxed N hN u hu).1 hc
  unfold relaxedGuard
  split
  · exact h
  · exact fun c hc => h c (List.mem_of_mem_filter hc)

/-- **C73** (limit) `run` never returns if a state in a pending pair has no transition: the loop waits for a transition to
match. -/
theorem C73_diverges (h : HashEnv) (hl : Lists h) (hi : ∀ x y, h.pair x = h.pair y → x.1 = y.1) (fuel n : ℕ) (s s' : St)
    (q : ℕ) (N : Neighbors) (hq : (q, N) ∈ s.pending) (he : ∀ a, (s.loc q).next a = []) : run h fuel n [] s ≠ .ok s' := by
  intro hr
  obtain ⟨H, h1, h2⟩ := C73_handled h hl fuel n s s' hr
  obtain ⟨y, hy, e⟩ := h1 _ hq
  obtain ⟨_, _, ⟨_, _, _, _, a, t, ht, _⟩, _⟩ := h2 y hy
  rw [hi _ _ e] at ht
  obtain ⟨added, ea, ho⟩ := (C73_extends h hl fuel n [] s s' hr q).2 a
  rw [ea, he, List.nil_append] at ht
  obtain ⟨t', ht', _⟩ := ho t ht
  rw [he] at ht'
  cases ht'

theorem covers_bounded {N : Neighbors} {n : ℕ} {v : Valuation} (h : Neighbors.Inv N n v) {x : ℕ} (hx : x < n) :
    ∃ B : ℚ, ∀ w, N.Covers w → w x ≤ B := by
  have key : ∀ l : List ForwardRegional, (∀ L ∈ l, ∃ u, L.Of n u) → ∃ B : ℚ, ∀ L ∈ l, ∀ w, L.cond.zone.Mem w → w x ≤ B := by
    intro l
    induction l with
    | nil => exact fun _ => ⟨0, by simp⟩
    | cons L l ih =>
      intro hl
      obtain ⟨B, hB⟩ := ih fun M hM => hl M (List.mem_cons_of_mem _ hM)
      obtain ⟨u, hu⟩ := hl L List.mem_cons_self
      refine ⟨max B (⌈u x⌉ : ℚ), fun M hM w hw => ?_⟩
      rcases List.mem_cons.1 hM with rfl | hM
      · have e := (Neighbors.same_of_mem hu hw hx).2
        exact le_max_of_le_right (by rw [e]; exact Int.le_ceil _)
      · exact le_max_of_le_left (hB M hM w hw)
  obtain ⟨B, hB⟩ := key N.neighbors fun L hL => by obtain ⟨_, u, hu, _⟩ := h.neighbors L hL; exact ⟨u, hu⟩
  exact ⟨B, fun w ⟨L, hL, hw⟩ => hB L hL w hw⟩

/-- **C73** (limit) A matching transition whose guard has an upper bound, but none for some clock of the original, is not
relaxed. -/
theorem C73_unconstrained (h : HashEnv) (fuel : ℕ) (loc : ℕ → TAState) (N : Neighbors) (hN : N.Built) (a : Action) (R : Round)
    (t : Trans) (hm : N.matchGuard t.guard = true) (hb : t.guard.Bounded) (x : ℕ) (hx : x < N.clockSize)
    (hf : ∀ c ∈ t.guard, c.x = x → c.isUpperBound = false) :
    ∃ R', handleOne h fuel loc N a R t = .ok R' ∧ R'.added = R.added ∧ R'.pushed = R.pushed := by
  have hw : Guard.isWeaker (relaxedGuard N t.guard) t.guard = false := by
    by_contra hw
    rw [Bool.not_eq_false] at hw
    obtain ⟨n, v, hi⟩ := hN.inv
    have hv := hi.original.sat
    have hnn : ∀ x < n, 0 ≤ v x := hi.nonneg v (hi.covers v hv)
    rw [hi.size] at hx
    obtain ⟨B, hB⟩ := covers_bounded hi hx
    let v' : Valuation := fun i => if i < n then v i else 0
    have hv'n : v'.Nonneg := fun i => by
      show 0 ≤ if i < n then v i else 0
      split
      · exact hnn i (by assumption)
      · exact le_refl _
    have ho : N.toOriginalGuard.Holds v' := (C71_originalGuard N hN v hv v' hv'n).2 fun y hy => by
      rw [hi.size] at hy
      show SameInterval (v y) (if y < n then v y else 0)
      rw [if_pos hy]; exact SameInterval.refl _
    have hg : t.guard.Holds v' := C71_match N t.guard hm v' ho
    let u : Valuation := fun i => if i = x then max (v' x) B + 2 else v' i
    have hun : u.Nonneg := fun i => by
      show 0 ≤ if i = x then max (v' x) B + 2 else v' i
      split
      · have := le_max_left (v' x) B
        have := hv'n x
        linarith
      · exact hv'n i
    have hgu : t.guard.Holds u := by
      intro c hc
      by_cases e : c.x = x
      · have hn := hf c hc e
        have h1 := hg c hc
        have h2 : v' c.x ≤ u c.x := by
          show v' c.x ≤ if c.x = x then max (v' x) B + 2 else v' c.x
          rw [if_pos e, e]
          have := le_max_left (v' x) B
          linarith
        obtain ⟨cx, co, cc⟩ := c
        cases co with
        | le => simp [Constraint.isUpperBound] at hn
        | lt => simp [Constraint.isUpperBound] at hn
        | ge => exact le_trans (show (cc : ℚ) ≤ v' cx from h1) h2
        | gt => exact lt_of_lt_of_le (show (cc : ℚ) < v' cx from h1) h2
      · have h1 := hg c hc
        have h2 : u c.x = v' c.x := by
          show (if c.x = x then max (v' x) B + 2 else v' c.x) = v' c.x
          rw [if_neg e]
        obtain ⟨cx, co, cc⟩ := c
        simp only at h2
        cases co <;> simp only [Constraint.Holds, h2] at h1 ⊢ <;> exact h1
    have hr := Guard.isWeaker_sound hw u hgu
    unfold relaxedGuard at hr
    rw [if_pos ((relaxedGuard_bounded (N := N)).2 hb)] at hr
    obtain ⟨_, w, hw, h1⟩ := (C71_relaxedGuard N hN u hun).1 hr x (by rw [hi.size]; exact hx)
    have hb := hB w hw
    have hux : u x = max (v' x) B + 2 := if_pos rfl
    have hmx := le_max_right (v' x) B
    rcases h1 with h1 | h1
    · linarith
    · have e1 := Int.lt_floor_add_one (w x)
      have e2 := Int.floor_le (u x)
      have e3 := h1.1
      have e4 := Int.floor_le (w x)
      have e5 := Int.lt_floor_add_one (u x)
      rw [e3] at e5
      linarith
  unfold handleOne
  rw [if_pos hm]
  dsimp only
  rw [if_neg (by simp [hw])]
  exact ⟨_, rfl, rfl, rfl⟩

/-- Where the values of a precise clock come from. -/
def From (N : Neighbors) (w u : Valuation) (x y : ℚ) : Prop := (∃ k : ℤ, x = k ∧ y = k) ∨ ∃ i ∈ N.precise, x = w i ∧ y = u i

theorem From.same {N : Neighbors} (hN : N.Built) {w u : Valuation} (hw : N.original.cond.zone.Mem w) (hu : N.Covers u) {x y : ℚ}
    (h : From N w u x y) : SameInterval x y := by
  rcases h with ⟨k, rfl, rfl⟩ | ⟨i, hi, rfl, rfl⟩
  · exact SameInterval.refl _
  · exact C71_agree N hN w u hw hu i hi

theorem From.diff {N : Neighbors} (hN : N.Built) {w u : Valuation} (hw : N.original.cond.zone.Mem w) (hu : N.Covers u)
    {x y x' y' : ℚ} (h : From N w u x y) (h' : From N w u x' y') : SameInterval (x - x') (y - y') := by
  rcases h with ⟨k, rfl, rfl⟩ | ⟨i, hi, rfl, rfl⟩
  · have := SameInterval.neg (SameInterval.sub_int (h'.same hN hw hu) k)
    rwa [neg_sub, neg_sub] at this
  · rcases h' with ⟨k, rfl, rfl⟩ | ⟨j, hj, rfl, rfl⟩
    · exact SameInterval.sub_int (C71_agree N hN w u hw hu i hi) k
    · exact C71_differences N hN w u hw hu i j hi hj

/-- **C73** The neighbours after a transition that the handler computes are again neighbours, and they cover the values that
the relaxed transition gives to every valuation in a neighbour. -/
theorem C73_after (N : Neighbors) (hN : N.Built) (hash : ForwardRegional → ℕ) (fuel : ℕ) (loc : ℕ → TAState) (a : Action)
    (ha : a ≠ unobservable) (t : Trans) (hr : (t.resets.map Prod.fst).Nodup)
    (hq : ∀ (x : ℕ) (q : ℚ), (x, .const q) ∈ t.resets → 0 ≤ q)
    (hs : t.resets = [(N.clockSize, .const 0)] → (loc t.target).usedClockSize ≤ N.clockSize + 1) (after : Neighbors)
    (h : N.makeAfter hash fuel loc a t = .ok after) :
    after.Built ∧ ∃ vals, after.toOriginalValuation = some vals ∧
      ∀ u, N.Covers u → after.Covers ((embedIfImprecise t.resets (N.preciseAfter loc t) vals).apply u) := by
  obtain ⟨n, v, hi⟩ := hN.inv
  unfold Neighbors.makeAfter at h
  cases ho : Neighbors.originalAfter loc N a t with
  | error e => rw [ho] at h; simp [bind, Except.bind] at h
  | ok o =>
    rw [ho] at h
    replace h : Neighbors.make hash fuel o (N.preciseAfter loc t) = .ok after := h
    -- the new original
    have hfrom : ∀ v0 w : Valuation, (∀ x ∈ N.preciseAfter loc t,
        (∀ q, (x, .const q) ∈ t.resets → SameInterval q (v0 x)) ∧ (∀ y, (x, .clock y) ∈ t.resets → v0 x = w y) ∧
          ((∀ c, (x, c) ∉ t.resets) → v0 x = w x)) →
        ∀ x ∈ N.preciseAfter loc t, ∀ u, From N w u (v0 x) (t.resets.apply u x) := by
      intro v0 w hA x hx u
      obtain ⟨a1, a2, a3⟩ := hA x hx
      rcases (mem_preciseAfterReset.1 hx).2 with ⟨c, hc, hp⟩ | ⟨hp, hn⟩
      · rw [Resets.apply_mem hr hc]
        cases c with
        | const q =>
          have hk := a1 q hc
          simp only at hp
          rw [hp] at hk
          exact .inl ⟨⌊q⌋, SameInterval.eq_int hk, hp⟩
        | clock y => exact .inr ⟨y, hp, a2 y hc, rfl⟩
      · rw [Resets.apply_not_mem hn]
        exact .inr ⟨x, hp, a3 hn, rfl⟩
    have key : o.Built ∧ (∀ x ∈ N.preciseAfter loc t, x < o.cond.size) ∧ ∃ v0 w, o.cond.zone.Mem v0 ∧
        N.original.cond.zone.Mem w ∧ ∀ x ∈ N.preciseAfter loc t, ∀ u, From N w u (v0 x) (t.resets.apply u x) := by
      unfold Neighbors.originalAfter at ho
      by_cases hint : N.isInternal t = true
      · rw [if_pos hint] at ho
        cases ho
        have hint' : t.resets = [(n, .const 0)] := by
          unfold Neighbors.isInternal at hint
          rw [decide_eq_true_iff, hi.size] at hint; exact hint
        have hO := hi.original.successorAction a
        obtain ⟨w1, w2⟩ := (Neighbors.mem_successorAction hi.original a).1 hO.sat
        refine ⟨.action ha hN.original, fun x hx => ?_, _, _, hO.sat, w1, hfrom _ _ fun x hx => ⟨fun q hq => ?_, fun y hy => ?_, fun _ => rfl⟩⟩
        · rw [hO.csize]
          have h1 := (mem_preciseAfterReset.1 hx).1
          have h2 := hs (by rw [hint', hi.size])
          rw [hi.size] at h2
          omega
        · rw [hint'] at hq
          simp only [List.mem_singleton, Prod.mk.injEq, Upd.const.injEq] at hq
          rw [hq.1, hq.2, w2]; exact SameInterval.refl _
        · rw [hint'] at hy; simp at hy
      · rw [if_neg hint] at ho
        dsimp only at ho
        cases hl : N.original.word.getLast? with
        | none => rw [hl] at ho; cases ho
        | some b =>
          rw [hl] at ho
          dsimp only at ho
          split at ho
          · cases ho
          · split at ho
            · cases ho
            · rename_i L hL
              cases ho
              have hword : ∀ c ∈ Neighbors.resizeWord N.original.word ((loc t.target).usedClockSize - 1) b, c ≠ unobservable := by
                intro c hc
                rcases List.mem_append.1 hc with hc | hc
                · exact hi.observable c (List.mem_of_mem_take hc)
                · rw [List.eq_of_mem_replicate hc]
                  exact hi.observable b (List.mem_of_getLast? hl)
              obtain ⟨_, _, _, v0, w, h1, h2, h3⟩ := ForwardRegional.applyResets_of hi.original hword hr hL
              have hsz : ∀ x ∈ N.preciseAfter loc t, x < (loc t.target).usedClockSize := fun x hx => (mem_preciseAfterReset.1 hx).1
              exact ⟨.resets hN.original hword hr hq hL, fun x hx => by rw [h1.csize]; exact hsz x hx, v0, w, h1.sat, h2,
                hfrom _ _ fun x hx => h3.1 x (hsz x hx)⟩
    obtain ⟨hob, hlt, v0, w, hv0, hw, hf⟩ := key
    refine ⟨.make hob hlt h, ?_⟩
    obtain ⟨⟨m, v1, hO, _⟩, _⟩ := hob.of
    have hcb : RenamingRelation.ClocksBounded o.cond := fun i hi' => by
      rw [hO.csize] at hi'
      rw [Neighbors.upper_of hO hi', Neighbors.lower_of hO hi']
      exact ⟨Bound.reg_ne_inf _, Bound.reg_ne_inf _⟩
    obtain ⟨vals, e1, e2, e3⟩ := RenamingRelation.toValuation_mem hO.canonical hcb
    obtain ⟨c1, c2, c3, _, c5, c6⟩ := C71_make o hob _ hlt hash fuel after h _ e3
    refine ⟨vals, by unfold Neighbors.toOriginalValuation; rw [c1]; exact e1, fun u hu => ?_⟩
    rw [hO.csize] at e2 hlt c3 c5 c6
    have hreg := ForwardRegional.Of.reg_eq (L' := .init) (hO.transfer hv0).region (hO.transfer e3).region hO.dim
    have hP : ∀ x ∈ N.preciseAfter loc t, SameInterval (vals.getD x 0) (t.resets.apply u x) := fun x hx =>
      (sameInterval_reg.2 (hreg.1 x (hlt x hx))).symm.trans ((hf x hx u).same hN hw hu)
    have hE : ∀ x < m, (embedIfImprecise t.resets (N.preciseAfter loc t) vals).apply u x =
        if x ∈ N.preciseAfter loc t then t.resets.apply u x else vals.getD x 0 := by
      intro x hx
      rw [embed_apply]
      split
      · rfl
      · rw [if_pos (by rw [e2]; exact hx)]
    have hconf : Confusable (N.preciseAfter loc t) m (fun k => vals.getD k 0)
        ((embedIfImprecise t.resets (N.preciseAfter loc t) vals).apply u) := by
      refine ⟨fun x hx => ?_, fun x hx y hy hxy => ?_⟩
      · rw [hE x hx]
        split
        · exact hP x (by assumption)
        · exact SameInterval.refl _
      · rw [hE x hx, hE y hy]
        by_cases hxP : x ∈ N.preciseAfter loc t
        · have hyP := hxy.1 hxP
          rw [if_pos hxP, if_pos hyP]
          by_cases e : x = y
          · subst e; rw [sub_self, sub_self]; exact SameInterval.refl _
          · exact (sameInterval_reg.2 (hreg.2 x hx y hy e)).symm.trans ((hf x hxP u).diff hN hw hu (hf y hyP u))
        · rw [if_neg hxP, if_neg fun e => hxP (hxy.2 e)]
          exact SameInterval.refl _
    by_cases hp : after.precise = ∅
    · exact (c5 hp _).2 hconf
    · refine (c6 hp _).2 ⟨⟨0, le_refl _, by simpa only [sub_zero] using hconf⟩, fun x hx => ?_⟩
      have hxm : x < m := by
        rcases (c3 x).1 hx with h' | ⟨h', _⟩
        · exact hlt x h'
        · exact h'
      exact hconf.clocks x hxm

/-- **C73** So a relaxed transition of a state leads every (non-negative) valuation in a neighbour to the target: either the
transition was as weak as the relaxed guard before, or the new one is enabled, and the values after it are covered by the
neighbours with which the target is seen later (unless they are precise, or nothing is precise). -/
theorem C73_simulates (h : HashEnv) (fuel : ℕ) (seen : ℕ × Neighbors → Prop) (loc loc' : ℕ → TAState) (q : ℕ) (N : Neighbors)
    (hN : N.Built) (a : Action) (ha : a ≠ unobservable) (t : Trans) (hr : (t.resets.map Prod.fst).Nodup)
    (hq : ∀ (x : ℕ) (q : ℚ), (x, .const q) ∈ t.resets → 0 ≤ q)
    (hs : t.resets = [(N.clockSize, .const 0)] →
      ∀ loc1, Extends loc loc1 → Extends loc1 loc' → (loc1 t.target).usedClockSize ≤ N.clockSize + 1)
    (hR : N.RelaxedAt h.region fuel seen loc loc' q a t) (u : Valuation) (hu : u.Nonneg) (hc : N.Covers u) :
    t.guard.Holds u ∨ ∃ t' ∈ (loc' q).next a, t'.target = t.target ∧ t'.guard.Holds u ∧
      ∃ after, after.Built ∧ after.Covers (t'.resets.apply u) ∧
        (seen (t.target, after) ∨ after.isPrecise = true ∨
          ∃ loc1, Extends loc loc1 ∧ Extends loc1 loc' ∧ N.preciseAfter loc1 t = ∅) := by
  have hg := C73_covered N hN t.guard u hu hc
  rcases hR with hR | ⟨loc1, after, vals, e1, e2, e3, e4, e5, e6⟩
  · exact .inl (Guard.isWeaker_sound hR u hg)
  · obtain ⟨hb, vals', f1, f2⟩ := C73_after N hN h.region fuel loc1 a ha t hr hq (fun e => hs e loc1 e1 e2) after e3
    rw [e4] at f1
    obtain rfl := Option.some.inj f1
    refine .inr ⟨_, e5, rfl, hg, after, hb, f2 u hc, ?_⟩
    rcases e6 with e6 | e6 | e6
    · exact .inr (.inr ⟨loc1, e1, e2, e6⟩)
    · exact .inr (.inl e6)
    · exact .inl e6

/-- The hypotheses are met: `run` returns for a pair whose neighbours are imprecise and whose state has a transition. -/
example : ∃ (h : HashEnv) (fuel n : ℕ) (s s' : St) (N : Neighbors), Lists h ∧ N.Built ∧ N.isPrecise = false ∧
    s.pending = [(0, N)] ∧ run h fuel n [] s = .ok s' := by
  obtain ⟨N, u, hb, hu, _, h1, h2, h3⟩ := C71_negative_witness
  have hp : N.isPrecise = false := by
    by_contra hp
    have hm := ((C71_precise N hb).1 (by simpa using hp) u).1 hu
    have hof := ForwardRegional.fromTimedWord_of ⟨[98], [1 / 4, 1 / 4]⟩ rfl
    rw [h3] at hm
    have hr := (ForwardRegional.Of.reg_eq (L' := .init) hof.region (hof.transfer hm).region hof.dim).2 0 (by decide) 1 (by decide) (by decide)
    have hs := (sameInterval_reg.2 hr).2
    have e : accV [1 / 4, 1 / 4] 0 - accV [1 / 4, 1 / 4] 1 = (1 / 4 : ℚ) := by norm_num [accV]
    rw [e] at hs
    have e1 : ⌈(1 / 4 : ℚ)⌉ = 1 := Int.ceil_eq_iff.2 ⟨by norm_num, by norm_num⟩
    have e2 : ⌈u 0 - u 1⌉ ≤ 0 := Int.ceil_le.2 (by push_cast; linarith)
    omega
  obtain ⟨F, hF⟩ := C71_successor_returns N hb (by rw [h2]; decide) (fun _ => 0)
  obtain ⟨N', hN'⟩ := hF (F + 1) (Nat.lt_succ_self F)
  let h : HashEnv := ⟨fun _ => 0, fun _ => 0, fun s => allActions.filter fun a => !(s.next a).isEmpty, fun _ => 0, fun _ => []⟩
  let st : TAState := ⟨true, fun a => if a = 97 then [⟨0, [], []⟩] else []⟩
  have ha : h.acts st = [97] := by decide +kernel
  have hl : Lists h := by
    intro s a hs
    refine List.mem_filter.2 ⟨List.mem_finRange _, ?_⟩
    cases e : s.next a with
    | nil => exact absurd e hs
    | cons => rfl
  have hm : N.matchGuard [] = true := rfl
  have hone : ∀ R, handleOne h (F + 1) (fun _ => st) N 97 R ⟨0, [], []⟩ = .ok { R with matchBounded := R.matchBounded || false, noMatch := false } := by
    intro R
    unfold handleOne
    rw [if_pos hm]
    dsimp only
    rw [if_neg (by simp [Guard.isWeaker])]
    rfl
  refine ⟨h, F + 1, 2, ⟨fun _ => st, [(0, N)]⟩, ⟨setList (fun _ => st) 0 97 ([⟨0, [], []⟩] ++ []), []⟩, N, hl, hb, hp, rfl, ?_⟩
  have hf : follow h (F + 1) 0 (F + 1) N ⟨fun _ => st, []⟩ true = .ok ⟨setList (fun _ => st) 0 97 ([⟨0, [], []⟩] ++ []), []⟩ := by
    unfold follow
    have hx : handleAction h (F + 1) 0 N (⟨fun _ => st, []⟩, false, true) 97 =
        .ok (⟨setList (fun _ => st) 0 97 ([⟨0, [], []⟩] ++ []), []⟩, false, false) := by
      unfold handleAction
      have : (st.next 97) = [⟨0, [], []⟩] := rfl
      dsimp only
      rw [this, List.foldlM_cons, hone]
      rfl
    dsimp only
    rw [ha, List.foldlM_cons, hx]
    show (do let N'' ← N.successor h.region (F + 1); _) = _
    rw [hN']
    rfl
  unfold run
  dsimp only
  rw [if_neg (by simp)]
  show (do let s2 ← follow h (F + 1) 0 (F + 1) N ⟨fun _ => st, []⟩ true; _) = _
  rw [hf]
  rfl

end LearnTA.Props
