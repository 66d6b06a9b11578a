import Verif.Lemmas.Counterexample
import Verif.Lemmas.ColumnCache
import Verif.Props.Symbolic

/-!
# C46: the timed observation table
-/

namespace LearnTA.Props
open ObsTable
variable {σ : Type} {env : Env σ} {f : TimedWord → Bool} {alphabet : List Action} {s : σ} {T T' : ObsTable σ}

theorem create_inv (he : EnvOk env f) (hal : alphabet.Nodup) (hob : ∀ a ∈ alphabet, a ≠ unobservable)
    (hc : ObsTable.create env alphabet s = .ok T) : Inv f T ∧ T.alphabet = alphabet ∧ T.suffixes = [.init] := by
  rw [create_eq] at hc
  have h := create_ok (E := fun _ => True) he (.inl trivial) hal hob s
  cases hr : (do moveToP env env.fuel 0; refreshTable env : TableM σ Unit).run (start alphabet s) with
  | error e => rw [hr] at hc; simp [Except.map] at hc
  | ok p =>
    rw [hr] at hc
    simp only [Except.map, Except.ok.injEq] at hc
    subst hc
    exact h.ok hr

theorem reached_inv (he : EnvOk env f) (hal : alphabet.Nodup) (hob : ∀ a ∈ alphabet, a ≠ unobservable)
    (h : Reached env alphabet s T) : Inv f T ∧ T.alphabet = alphabet := by
  induction h with
  | create hc => exact ⟨(create_inv he hal hob hc).1, (create_inv he hal hob hc).2.1⟩
  | @close T T' b _ hr ih =>
    obtain ⟨h1, h2⟩ := (close_ok (E := fun _ => True) he (.inl trivial) ih.1).ok hr
    cases b with
    | true => exact ⟨(h1 rfl).1, (h1 rfl).2.1.alphabet.trans ih.2⟩
    | false => exact ⟨(h2 rfl).inv, (h2 rfl).grew.alphabet.trans ih.2⟩
  | @consistent T T' b _ hreg hr ih =>
    obtain ⟨h1, h2⟩ := (consistent_ok (E := fun _ => True) he trivial ih.1 hreg).ok hr
    cases b with
    | true => exact ⟨(h2 rfl).1.inv, (h2 rfl).1.alphabet.trans ih.2⟩
    | false => obtain ⟨_, _, _, _, m⟩ := h1 rfl; exact ⟨m.inv, m.grew.alphabet.trans ih.2⟩
  | @exterior T T' b _ hr ih =>
    obtain ⟨h1, h2⟩ := (exterior_ok (E := fun _ => True) he (.inl trivial) ih.1).ok hr
    cases b with
    | true => rw [(h1 rfl).1]; exact ih
    | false => exact ⟨(h2 rfl).inv, (h2 rfl).grew.alphabet.trans ih.2⟩
  | @saturate T T' b _ hr ih =>
    obtain ⟨h1, h2⟩ := (timeSaturate_ok (E := fun _ => True) he (.inl trivial) ih.1).ok hr
    cases b with
    | true => exact ⟨(h1 rfl).1, (h1 rfl).2.1.alphabet.trans ih.2⟩
    | false => exact ⟨(h2 rfl).inv, (h2 rfl).grew.alphabet.trans ih.2⟩
  | @recognize T T' R _ hr ih =>
    have h1 := (toRecognizable_ok (E := fun _ => True) he ih.1).ok hr
    exact ⟨h1.1, h1.2.1.alphabet.trans ih.2⟩
  | @cex T T' w _ hw hr ih =>
    obtain ⟨R, T1, _, _, _, _, h5⟩ := handleCEX_ok he ih.1 hw
    cases hc : R.contains env.fuel env.fuel w with
    | error e => rw [hc] at h5; simp only at h5; rw [hr] at h5; simp at h5
    | ok b =>
      rw [hc] at h5
      simp only at h5
      by_cases hb : b = f w
      · rw [if_pos hb, hr] at h5; simp at h5
      · rw [if_neg hb] at h5
        obtain ⟨T'', a, hinv, hs⟩ := h5
        rw [hr] at a
        simp only [Except.ok.injEq, Prod.mk.injEq, true_and] at a
        subst a
        exact ⟨hinv, hs.grew.alphabet.trans ih.2⟩

theorem same_of_relStep (h : RelStep T T') : Same T T' := by
  obtain ⟨⟨a, b, rfl⟩, _⟩ := h
  exact ⟨rfl, rfl, rfl, rfl, rfl⟩

theorem same_of_work (h : Work f T T') : Same T T' := by
  obtain ⟨_, ⟨a, b, c, d, rfl⟩, _, _⟩ := h
  exact ⟨rfl, rfl, rfl, rfl, rfl⟩

theorem more_of {T T' : ObsTable σ} (h : MorePI f T T') : MoreP T T' := ⟨h.grew, h.suffixes, h.more⟩

/-- C46: the constructor gives a table; the only failure is the given bound on the depth of the recursion. -/
theorem C46_create (he : EnvOk env f) (hal : alphabet.Nodup) (hob : ∀ a ∈ alphabet, a ≠ unobservable) (s : σ) :
    (∃ T, ObsTable.create env alphabet s = .ok T) ∨ ObsTable.create env alphabet s = .error .fuel := by
  rw [create_eq]
  have h := create_ok (E := fun e => e = .fuel) he (.inl rfl) hal hob s
  cases hr : (do moveToP env env.fuel 0; refreshTable env : TableM σ Unit).run (start alphabet s) with
  | error e => right; rw [h.error hr]; rfl
  | ok p => left; exact ⟨p.2, rfl⟩

/-- C46: at all times, every cell of the table describes exactly the words of its prefix and suffix that the system
accepts. -/
theorem C46_cells_exact (he : EnvOk env f) (hal : alphabet.Nodup) (hob : ∀ a ∈ alphabet, a ≠ unobservable)
    (h : Reached env alphabet s T) : T.Exact f := by
  have hi := (reached_inv he hal hob h).1
  refine ⟨hi.rows.len, fun i p row hp hrow => ?_⟩
  have := (hi.rows.ok i p hp).row
  rw [List.getD_eq_getElem?_getD, hrow] at this
  exact this

/-- C46: at all times, the prefixes form a tree of distinct regions with `P` its inner nodes, over the given alphabet, and
the first suffix is the empty word. -/
theorem C46_prefix_closed (he : EnvOk env f) (hal : alphabet.Nodup) (hob : ∀ a ∈ alphabet, a ≠ unobservable)
    (h : Reached env alphabet s T) : T.PrefixClosed ∧ T.alphabet = alphabet ∧ T.suffixes[0]? = some .init := by
  obtain ⟨hi, ha⟩ := reached_inv he hal hob h
  exact ⟨hi.closed, ha, hi.suf0⟩

/-- C46: `isMatch(i)` says whether the system accepts the words of the prefix `i`, all of them or none. -/
theorem C46_match (he : EnvOk env f) (hal : alphabet.Nodup) (hob : ∀ a ∈ alphabet, a ≠ unobservable)
    (h : Reached env alphabet s T) {i : ℕ} {p : ForwardRegional} (hp : T.prefixes[i]? = some p) :
    ∃ b, T.isMatch i = some b ∧ ∀ w, p.toElementaryLanguage.Mem w → f w = b :=
  (reached_inv he hal hob h).1.isMatch he hp

/-- C46: if `close` answers true, every prefix is in `P` or merged into a prefix of `P` by a recorded renaming that is
right; if it answers false, `P` has grown.  It does not fail otherwise than by the given bound. -/
theorem C46_close (he : EnvOk env f) (hal : alphabet.Nodup) (hob : ∀ a ∈ alphabet, a ≠ unobservable)
    (h : Reached env alphabet s T) :
    (∀ T', (close env).run T = .ok (true, T') → Same T T' ∧ ∀ i < T'.prefixes.length, Covered f T' i) ∧
      (∀ T', (close env).run T = .ok (false, T') → MoreP T T') ∧
      ∀ e, (close env).run T = .error e → e = .fuel := by
  have hi := (reached_inv he hal hob h).1
  have h1 := close_ok (E := fun e => e = .fuel) he (.inl rfl) hi
  refine ⟨fun T' hr => ?_, fun T' hr => more_of ((h1.ok hr).2 rfl), fun e hr => h1.error hr⟩
  obtain ⟨_, h2, h3⟩ := (h1.ok hr).1 rfl
  exact ⟨same_of_relStep h2, h3⟩

/-- C46: if `consistent` answers true, then for any two prefixes of `P`, either they are recorded as different, or they are
merged, and so are their successors after each action, and their time successors unless those are recorded as different; if
it answers false, one suffix was added.  It fails only by `abort()`. -/
theorem C46_consistent (he : EnvOk env f) (hal : alphabet.Nodup) (hob : ∀ a ∈ alphabet, a ≠ unobservable)
    (h : Reached env alphabet s T) (hreg : T.Regular) :
    (∀ T', (consistent env).run T = .ok (true, T') → Same T T' ∧
        (∀ i j, T.MergesInto f i j → T'.MergesInto f i j) ∧
        ∀ i ∈ T'.pIndices, ∀ j ∈ T'.pIndices, j < i → PairConsistent f T' i j) ∧
      (∀ T', (consistent env).run T = .ok (false, T') → ObsTable.NewSuffix T T' ∧ T'.Regular) ∧
      ∀ e, (consistent env).run T = .error e → e = .abort := by
  have hi := (reached_inv he hal hob h).1
  have h1 := consistent_ok (E := fun e => e = .abort) he rfl hi hreg
  refine ⟨fun T' hr => ?_, fun T' hr => ?_, fun e hr => h1.error hr⟩
  · obtain ⟨h2, h3⟩ := (h1.ok hr).2 rfl
    refine ⟨same_of_work h2, h2.keep, ?_⟩
    rw [h2.pIndices]; exact h3
  · have hn := (h1.ok hr).1 rfl
    have hreg' := hn.regular hi hreg
    obtain ⟨t, ht, x, hx, m⟩ := hn
    exact ⟨⟨m.grew, m.same, t, ht, x, hx, m.suffixes⟩, hreg'⟩

/-- The column cache of a table that the operations have made is right. -/
theorem reached_cache (he : EnvOk env f) (hal : alphabet.Nodup) (hob : ∀ a ∈ alphabet, a ≠ unobservable)
    (h : Reached env alphabet s T) : CacheOk f T := by
  have frame : ∀ {α : Type} {m : TableM σ α} {T T' : ObsTable σ} {a : α}, KeepsC m → CacheOk f T → m.run T = .ok (a, T') →
      CacheOk f T' := fun hk hc hr => hc.frame ((hk _).ok hr)
  induction h with
  | create hc =>
    rw [create_eq] at hc
    cases hr : (do moveToP env env.fuel 0; refreshTable env : TableM σ Unit).run (start alphabet s) with
    | error e => rw [hr] at hc; simp [Except.map] at hc
    | ok p =>
      rw [hr] at hc
      simp only [Except.map, Except.ok.injEq] at hc
      subst hc
      exact frame (KeepsC.bind (moveToP_keepsC _ _) fun _ => refreshTable_keepsC) (fun _ _ _ hm => by simp [start] at hm) hr
  | close _ hr ih => exact frame close_keepsC ih hr
  | consistent hT hreg hr ih =>
    exact (consistent_ext (E := fun _ => True) he (reached_inv he hal hob hT).1 ih hreg fun _ _ _ _ _ _ _ _ => trivial).ok hr |>.1
  | exterior _ hr ih => exact frame exteriorConsistent_keepsC ih hr
  | saturate _ hr ih => exact frame timeSaturate_keepsC ih hr
  | recognize _ hr ih => exact frame toRecognizable_keepsC ih hr
  | cex _ _ hr ih => exact frame (handleCEX_keepsC _) ih hr

/-- C46: `consistent` calls `abort()` only if there are two prefixes of `P` and an action that lead to an inconsistency which no
suffix resolves: each of the new suffixes, taken alone, still admits some renaming that merges the two prefixes. -/
theorem C46_abort (he : EnvOk env f) (hal : alphabet.Nodup) (hob : ∀ a ∈ alphabet, a ≠ unobservable)
    (h : Reached env alphabet s T) (hreg : T.Regular) (hr : (consistent env).run T = .error .abort) :
    ∃ i ∈ T.pIndices, ∃ j ∈ T.pIndices, j < i ∧ ∃ a ∈ T.alphabet, ∀ t ∈ T.suffixes,
      Extendable f T i j (t.predecessorAction a) := by
  have h1 := consistent_ext (E := fun _ => ∃ i ∈ T.pIndices, ∃ j ∈ T.pIndices, j < i ∧ ∃ a ∈ T.alphabet, ∀ t ∈ T.suffixes,
      Extendable f T i j (t.predecessorAction a)) he (reached_inv he hal hob h).1 (reached_cache he hal hob h) hreg
    fun i hi j hj hlt a ha hst => ⟨i, hi, j, hj, hlt, a, ha, hst⟩
  exact h1.error hr

/-- C46: if `consistent` answers true, then for all prefixes `j < i` of `P` that are not recorded as different, the time successor
of `i` is merged into that of `j`, or no suffix resolves this: each of the new suffixes, taken alone, still admits some renaming
that merges `i` into `j`. -/
theorem C46_time_unresolved (he : EnvOk env f) (hal : alphabet.Nodup) (hob : ∀ a ∈ alphabet, a ≠ unobservable)
    (h : Reached env alphabet s T) (hreg : T.Regular) (hr : (consistent env).run T = .ok (true, T')) :
    ∀ i ∈ T'.pIndices, ∀ j ∈ T'.pIndices, j < i → T'.Apart i j ∨
      ∃ k l, T'.continuousSuccessors i = some k ∧ T'.continuousSuccessors j = some l ∧
        (T'.MergesInto f k l ∨ ∀ t ∈ T'.suffixes, Extendable f T' i j t.predecessor) := by
  have h1 := (consistent_ext (E := fun _ => True) he (reached_inv he hal hob h).1 (reached_cache he hal hob h) hreg
    fun _ _ _ _ _ _ _ _ => trivial).ok hr
  have h2 := ((consistent_ok (E := fun _ => True) he trivial (reached_inv he hal hob h).1 hreg).ok hr).2 rfl
  intro i hi j hj hlt
  rw [h2.1.pIndices] at hi hj
  exact h1.2 rfl i hi j hj hlt

/-- C46: if `exteriorConsistent` answers true, the table is the same and the time successor of every prefix of `P` without
a fixed clock is in `P`; if it answers false, `P` has grown. -/
theorem C46_exterior (he : EnvOk env f) (hal : alphabet.Nodup) (hob : ∀ a ∈ alphabet, a ≠ unobservable)
    (h : Reached env alphabet s T) :
    (∀ T', (exteriorConsistent env).run T = .ok (true, T') → T' = T ∧
        ∀ i ∈ T.pIndices, ∀ k L, T.continuousSuccessors i = some k → T.prefixes[i]? = some L →
          k ∈ T.pIndices ∨ ∃ x ≤ L.word.length, L.toElementaryLanguage.Fixed x) ∧
      (∀ T', (exteriorConsistent env).run T = .ok (false, T') → MoreP T T') ∧
      ∀ e, (exteriorConsistent env).run T = .error e → e = .fuel := by
  have hi := (reached_inv he hal hob h).1
  have h1 := exterior_ok (E := fun e => e = .fuel) he (.inl rfl) hi
  refine ⟨fun T' hr => ?_, fun T' hr => more_of ((h1.ok hr).2 rfl), fun e hr => h1.error hr⟩
  obtain ⟨h2, h3⟩ := (h1.ok hr).1 rfl
  refine ⟨h2, fun i hii k L hk hL => (h3 i hii k L hk hL).imp id fun hx => ?_⟩
  exact (hi.closed.region L (List.mem_of_getElem? hL)).1.fixed_of_equality hx

/-- C46: if `timeSaturate` answers true, the time successor of every prefix of `P` is in `P` or merged into that prefix by
the empty renaming; if it answers false, `P` has grown. -/
theorem C46_timeSaturate (he : EnvOk env f) (hal : alphabet.Nodup) (hob : ∀ a ∈ alphabet, a ≠ unobservable)
    (h : Reached env alphabet s T) :
    (∀ T', (timeSaturate env).run T = .ok (true, T') → Same T T' ∧ ∀ i ∈ T'.pIndices, Saturated f T' i) ∧
      (∀ T', (timeSaturate env).run T = .ok (false, T') → MoreP T T') ∧
      ∀ e, (timeSaturate env).run T = .error e → e = .fuel := by
  have hi := (reached_inv he hal hob h).1
  have h1 := timeSaturate_ok (E := fun e => e = .fuel) he (.inl rfl) hi
  refine ⟨fun T' hr => ?_, fun T' hr => more_of ((h1.ok hr).2 rfl), fun e hr => h1.error hr⟩
  obtain ⟨_, h2, h3, _⟩ := (h1.ok hr).1 rfl
  exact ⟨same_of_relStep h2, fun i hi => (h3 i hi).saturated⟩

/-- C46: after the loop of the learner, all four conditions hold of the table together. -/
theorem C46_ready (he : EnvOk env f) (hal : alphabet.Nodup) (hob : ∀ a ∈ alphabet, a ≠ unobservable)
    (h : Reached env alphabet s T) (hreg : T.Regular) (n : ℕ) :
    (∀ T', (refine env n).run T = .ok ((), T') → Ready f T' ∧ Grew T T' ∧ T'.Exact f ∧ T'.PrefixClosed ∧ T'.Regular) ∧
      ∀ e, (refine env n).run T = .error e → e = .fuel ∨ e = .abort := by
  have hi := (reached_inv he hal hob h).1
  have h1 := refine_ok (E := fun e => e = .fuel ∨ e = .abort) he (Or.inl rfl) (Or.inr rfl) n hi hreg
  refine ⟨fun T' hr => ?_, fun e hr => h1.error hr⟩
  obtain ⟨g1, g2, g3, g4, _⟩ := h1.ok hr
  refine ⟨g4, g2, ⟨g1.rows.len, fun i p row hp hrow => ?_⟩, g1.closed, g3⟩
  have := (g1.rows.ok i p hp).row
  rw [List.getD_eq_getElem?_getD, hrow] at this
  exact this

/-- C46: the table after the constructor is regular, so that the loop can start. -/
theorem C46_create_regular (he : EnvOk env f) (hal : alphabet.Nodup) (hob : ∀ a ∈ alphabet, a ≠ unobservable)
    (hc : ObsTable.create env alphabet s = .ok T) : T.Regular := by
  obtain ⟨_, _, h3⟩ := create_inv he hal hob hc
  intro x hx
  rw [h3, List.mem_singleton] at hx
  subst hx
  exact BackwardRegional.Reach.regular .init (by intro a ha; simp [BackwardRegional.init, ElementaryLanguage.empty] at ha)

/-- The table asks the simulation of the automaton `A`. -/
def Simulates (env : Env Runner) (A : TA) : Prop :=
  ∃ fuel, ∀ r w, env.ask r w = (Runner.answerQuery A (fuel + 1) r w).getD (r, false)

/-- C46 with C30 and C60: the assumptions on the system hold if it is the simulation of a deterministic automaton whose
resets assign integers; the language is the one of the automaton. -/
theorem C46_simulated (A : TA) (hw : A.WF) (he : A.EpsFree) (hdet : A.deterministic = true) (hi : A.init.length = 1)
    (hI : A.IntResets) (env : Env Runner) (hs : Simulates env A) (hl : env.Lawful) (f : TimedWord → Bool)
    (hf : ∀ w, f w = true ↔ A.Accepts w) : EnvOk env f := by
  obtain ⟨fuel, hs⟩ := hs
  refine ⟨fun r w h => ?_, fun w w' h h' hr => ?_, hl⟩
  · obtain ⟨r', b, hb, hiff⟩ := C30_membership_exact A hw he hdet (.inl hi) fuel r w h.wf h.observable h.nonneg
    rw [hs, hb, Bool.eq_iff_iff, hf]
    exact hiff
  · have := C60_region_invariant A hw.closed hI w w' h.wf hr
    rw [Bool.eq_iff_iff, hf, hf]; exact this

/-! ### An example: the table for an automaton with one clock -/

/-- One `a` within one time unit, and nothing after it. -/
def obA : TA where
  loc
    | 1 => ⟨false, fun a => if a = actA then [⟨2, [(0, .const 0)], [⟨0, .le, 1⟩]⟩, ⟨3, [], [⟨0, .gt, 1⟩]⟩] else []⟩
    | 2 => ⟨true, fun a => if a = actA then [⟨3, [], []⟩] else []⟩
    | _ => ⟨false, fun a => if a = actA then [⟨3, [], []⟩] else []⟩
  states := [1, 2, 3]
  init := [1]
  maxC := [1]

/-- An environment that asks the simulation of `A`, and one order of the iterations. -/
def simEnv (A : TA) (fuel : ℕ) : Env Runner where
  ask := fun r w => (Runner.answerQuery A 1 r w).getD (r, false)
  near := fun _ _ _ => true
  nearColumn := fun _ _ _ => true
  orderP := fun T => T.pIndices
  orderRel := fun T => (List.range T.prefixes.length).filter fun i => (T.closedRelation i).isSome
  orderRow := fun T i => ((T.closedRelation i).getD []).map (·.1)
  fuel := fuel

theorem simEnv_lawful (A : TA) (fuel : ℕ) : (simEnv A fuel).Lawful := by
  refine ⟨fun T => .refl _, fun T => ⟨List.Nodup.filter _ List.nodup_range, ?_, ?_⟩, fun T i => .refl _⟩
  · intro i hi; exact (List.mem_filter.1 hi).2
  · intro i h1 h2; exact List.mem_filter.2 ⟨List.mem_range.2 h1, h2⟩

theorem obA_intResets : obA.IntResets := by
  have : ∀ p ∈ obA.states, ∀ a, ∀ t ∈ (obA.loc p).next a, ∀ r ∈ t.resets, r.2 = .const 0 := by decide +kernel
  intro p hp a t ht r hr q hq
  have h := this p hp a t ht r hr
  rw [hq] at h
  cases h; exact ⟨0, by simp⟩

theorem obA_ok (f : TimedWord → Bool) (hf : ∀ w, f w = true ↔ obA.Accepts w) (fuel : ℕ) : EnvOk (simEnv obA fuel) f :=
  C46_simulated obA (wf_of_check (by decide +kernel)) (by unfold TA.EpsFree; decide +kernel) (by decide +kernel) rfl
    obA_intResets _ ⟨0, fun _ _ => rfl⟩ (simEnv_lawful _ _) f hf

/-- The result satisfies the test. -/
def okB {α : Type} : Except Fail α → (α → Bool) → Bool
  | .ok a, p => p a
  | .error _, _ => false

/-- The constructor and the loop make a ready table with two prefixes in `P` and three outside. -/
example : okB (ObsTable.create (simEnv obA 20) [actA] (Runner.start obA)) (fun T =>
    T.prefixes.length == 3 && okB ((refine (simEnv obA 20) 20).run T) fun p =>
      p.2.pIndices.length == 2 && p.2.prefixes.length == 5 && p.2.suffixes.length == 1) = true := by decide +kernel

end LearnTA.Props
