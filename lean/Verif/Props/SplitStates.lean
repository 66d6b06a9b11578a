import Verif.Lemmas.SplitStates
import Verif.Lemmas.SplitPrecise
import Verif.Spec.TA
import Verif.Spec.SplitStates

/-!
# Properties of the splitting of states (C75)
-/

namespace LearnTA
namespace Props

open Split

/-- The state of which `q` is a copy. -/
def origOf (s : Split.St) (q : ℕ) : ℕ := (s.toOriginal q).getD 0

section

variable {loc : ℕ → TAState} {states : List ℕ} {init base : ℕ} {e0 : Enhanced} {G : Shape} {s : Split.St}

theorem origOf_copy {G0 : Shape} (I : Inv loc states base e0 G G0 s) {o q : ℕ} (h : s.Copy o q) : origOf s q = o := by
  unfold origOf
  rw [I.toOriginal h]
  rfl

theorem Inv.isSplit (hb : base = states.foldr max 0 + 1) (I : Inv loc states base (init, {0}) G (Exact loc) s)
    (hF : ∀ R o f, G R o f → From loc R o f) {init' : ℕ} (hi : ((init, {0}), init') ∈ s.forward) :
    IsSplit loc states init s.loc s.states init' (origOf s) where
  nodup := by rw [I.states]; exact I.nodup
  fresh q hq hc := by
    rw [I.states] at hq
    obtain ⟨p, hp, rfl⟩ := List.mem_map.1 hq
    have h1 := (I.addr p hp).1
    have h2 := le_foldr_max states _ hc
    omega
  init_mem := by rw [I.states]; exact List.mem_map.2 ⟨_, hi, rfl⟩
  start := origOf_copy I ⟨_, hi⟩
  state q hq := by
    rw [I.states] at hq
    obtain ⟨p, hp, rfl⟩ := List.mem_map.1 hq
    rw [origOf_copy I (o := p.1.1) ⟨p.1.2, hp⟩]
    exact ⟨I.orig p hp, I.isMatch p hp⟩
  closed q hq a t' ht' := by
    rw [I.states] at hq ⊢
    obtain ⟨p, hp, rfl⟩ := List.mem_map.1 hq
    obtain ⟨t, ht, ⟨A, hA⟩, _⟩ := hF _ _ _ (I.shape p hp) a t' ht'
    exact List.mem_map.2 ⟨_, hA, rfl⟩
  origin q hq a t' ht' := by
    rw [I.states] at hq
    obtain ⟨p, hp, rfl⟩ := List.mem_map.1 hq
    obtain ⟨t, ht, h1, h2, h3, h4⟩ := hF _ _ _ (I.shape p hp) a t' ht'
    rw [origOf_copy I (o := p.1.1) ⟨p.1.2, hp⟩]
    exact ⟨t, ht, origOf_copy I h1, h2, h3, h4⟩
  initial a := (I.first _ hi rfl a).imp fun t' t h => ⟨origOf_copy I h.1, h.2⟩

end

/-- **C75** `splitStates` ends and returns an automaton whose states are copies of the given states: with their acceptance,
and with transitions that come from theirs.  The targets of the given transitions must be given states, there must be a
second state, and the guards of the initial state must mention exactly the clock 0. -/
theorem C75_copies (h : HashEnv) {loc : ℕ → TAState} {states : List ℕ} {init : ℕ} (hn : states.Nodup)
    (hw : ∀ q ∈ states, ∀ a, ∀ t ∈ (loc q).next a, t.target ∈ states ∧ ∃ p ∈ states, p ≠ t.target)
    (hi : init ∈ states) (hu : (loc init).usedClockSize = 1) :
    ∃ n loc' states' init' orig, (∀ m, n ≤ m → Split.run h m loc states init = .ok (loc', states', init')) ∧
      IsSplit loc states init loc' states' init' orig := by
  obtain ⟨n, s, h1, I, hm⟩ := run_total h hn hw hi hu (From.keeps loc) (From.merge loc states) (fun _ _ _ h => h.from)
    (fun _ _ _ h => h)
  exact ⟨n, _, _, _, origOf s, h1, Inv.isSplit rfl I (fun _ _ _ h => h) hm⟩

/-- The precise clocks of the copy `q`. -/
def precOf (s : Split.St) (q : ℕ) : Finset ℕ := ((s.forward.find? fun p => p.2 == q).map fun p => p.1.2).getD ∅

theorem precOf_mem {loc : ℕ → TAState} {states : List ℕ} {base : ℕ} {e0 : Enhanced} {G G0 : Shape} {s : Split.St}
    (I : Inv loc states base e0 G G0 s) {e : Enhanced} {q : ℕ} (h : (e, q) ∈ s.forward) : precOf s q = e.2 := by
  unfold precOf
  cases hf : s.forward.find? (fun p => p.2 == q) with
  | none =>
    rw [List.find?_eq_none] at hf
    exact absurd (by simp) (hf _ h)
  | some p =>
    have h1 := List.mem_of_find?_eq_some hf
    have h2 : p.2 = q := by simpa using List.find?_some hf
    rw [I.unique h1 h h2]
    rfl

/-- **C75** The reached states of the result are the pairs of a state and a set of precise clocks that are reached from the
initial state with the precise clock 0, each of them once.  The transitions of each of them but the initial one are those of
the original state, merged for its precise clocks. -/
theorem C75_precise (h : HashEnv) (hacts : ∀ (s : TAState) a, s.next a ≠ [] → a ∈ h.acts s) {loc : ℕ → TAState}
    {states : List ℕ} {init : ℕ} (hn : states.Nodup)
    (hw : ∀ q ∈ states, ∀ a, ∀ t ∈ (loc q).next a, t.target ∈ states ∧ ∃ p ∈ states, p ≠ t.target)
    (hi : init ∈ states) (hu : (loc init).usedClockSize = 1) :
    ∃ n loc' states' init' orig prec, (∀ m, n ≤ m → Split.run h m loc states init = .ok (loc', states', init')) ∧
      IsSplit loc states init loc' states' init' orig ∧ TracksPrecise loc loc' init' orig prec ∧
      ∀ q, Linked loc' init' q → q ≠ init' → ∃ (acts : List Action) (l : ℕ → TAState) (p : ℕ),
        (∀ a, ∀ t ∈ (l p).next a, ∃ u ∈ (loc (orig q)).next a, orig t.target = u.target ∧ t.resets = u.resets ∧
          ∀ v : Valuation, u.guard.Holds v → t.guard.Holds v) ∧
        ∀ a, List.Forall₂ (fun t' t => t'.resets = t.resets ∧ t'.guard = t.guard ∧ orig t'.target = orig t.target)
          ((loc' q).next a) ((mergeBranchingPrecise (h.clocks (prec q)) acts l p p).next a) := by
  obtain ⟨n, s, V, h1, I, hm, T, hq, hV⟩ := run_tracked h hacts hn hw hi hu
  generalize hinit : states.foldr max 0 + 1 + states.idxOf init = init' at *
  have hreach : ∀ q, Linked s.loc init' q → ∃ e ∈ V, (e, q) ∈ s.forward := by
    intro q hl
    induction hl with
    | start => exact ⟨_, hV, hm⟩
    | step _ ht ih =>
      obtain ⟨e, he, hmem⟩ := ih
      obtain ⟨e', i1, i2, _⟩ := T.links _ hmem he _ _ ht
      rw [hq] at i2
      simp only [List.not_mem_nil, or_false] at i2
      exact ⟨e', i2, i1⟩
  refine ⟨n, s.loc, s.states, init', origOf s, precOf s, h1, Inv.isSplit rfl I (fun _ _ _ h => h) hm,
    ⟨precOf_mem I hm, ?_, ?_⟩, ?_⟩
  · intro q hl a t' ht'
    obtain ⟨e, he, hmem⟩ := hreach q hl
    obtain ⟨e', i1, _, k, i3, i4⟩ := T.links _ hmem he _ _ ht'
    refine ⟨k, ?_, ?_⟩
    · rw [origOf_copy I (o := e'.1) ⟨e'.2, i1⟩]
      exact i3
    · rw [precOf_mem I i1, precOf_mem I hmem]
      exact i4
  · intro p q hp hq' e1 e2
    obtain ⟨e, he, hmem⟩ := hreach p hp
    obtain ⟨e', he', hmem'⟩ := hreach q hq'
    rw [origOf_copy I (o := e.1) ⟨e.2, hmem⟩, origOf_copy I (o := e'.1) ⟨e'.2, hmem'⟩] at e1
    rw [precOf_mem I hmem, precOf_mem I hmem'] at e2
    have := (List.nodup_map_iff_inj_on (List.Nodup.of_map _ T.keys)).1 T.keys _ hmem _ hmem' (Prod.ext e1 e2)
    exact congrArg Prod.snd this
  · intro q hl hne
    obtain ⟨e, he, hmem⟩ := hreach q hl
    have he0 : e ≠ (init, {0}) := by
      intro e1
      subst e1
      have := (List.nodup_map_iff_inj_on (List.Nodup.of_map _ T.keys)).1 T.keys _ hmem _ hm rfl
      exact hne (congrArg Prod.snd this)
    obtain ⟨acts, l, p, i1, i2⟩ := T.merged _ hmem he0 (Or.inl he)
    refine ⟨acts, l, p, ?_, ?_⟩
    · intro a t ht
      obtain ⟨u, hu', j1, j2, j3, _⟩ := i1 a t ht
      rw [origOf_copy I (o := e.1) ⟨e.2, hmem⟩]
      exact ⟨u, hu', origOf_copy I j1, j2, j3⟩
    · intro a
      rw [precOf_mem I hmem]
      refine (i2 a).imp fun t' t ht => ?_
      obtain ⟨j1, j2, o', j3, j4⟩ := ht
      exact ⟨j1, j2, (origOf_copy I j4).trans (origOf_copy I j3).symm⟩

theorem steps_of_split {A B : TA} {orig : ℕ → ℕ}
    (hex : ∀ q ∈ B.states, ∀ a, List.Forall₂ (fun t' t => (t'.target ∈ B.states ∧ orig t'.target = t.target) ∧
      t'.resets = t.resets ∧ t'.guard = t.guard) ((B.loc q).next a) ((A.loc (orig q)).next a)) {c c' : Config}
    {es : List Event} (h : B.Steps c es c') (hc : c.loc ∈ B.states) :
    c'.loc ∈ B.states ∧ A.Steps ⟨orig c.loc, c.val⟩ es ⟨orig c'.loc, c'.val⟩ := by
  induction h with
  | nil c => exact ⟨hc, .nil _⟩
  | eps t ht hg _ ih =>
    obtain ⟨u, hu, ⟨h1, h2⟩, h3, h4⟩ := Trans.forall₂_mem_left (hex _ hc _) ht
    obtain ⟨i1, i2⟩ := ih h1
    refine ⟨i1, .eps u hu (by rw [← h4]; exact hg) ?_⟩
    rw [← h2, ← h3]
    exact i2
  | delay d hd _ ih =>
    obtain ⟨i1, i2⟩ := ih hc
    exact ⟨i1, .delay d hd i2⟩
  | split d1 d2 h1 h2 _ ih =>
    obtain ⟨i1, i2⟩ := ih hc
    exact ⟨i1, .split d1 d2 h1 h2 i2⟩
  | act a ha t ht hg _ ih =>
    obtain ⟨u, hu, ⟨h1, h2⟩, h3, h4⟩ := Trans.forall₂_mem_left (hex _ hc _) ht
    obtain ⟨i1, i2⟩ := ih h1
    refine ⟨i1, .act a ha u hu (by rw [← h4]; exact hg) ?_⟩
    rw [← h2, ← h3]
    exact i2

theorem split_of_steps {A B : TA} {orig : ℕ → ℕ}
    (hex : ∀ q ∈ B.states, ∀ a, List.Forall₂ (fun t' t => (t'.target ∈ B.states ∧ orig t'.target = t.target) ∧
      t'.resets = t.resets ∧ t'.guard = t.guard) ((B.loc q).next a) ((A.loc (orig q)).next a)) {c c' : Config}
    {es : List Event} (h : A.Steps c es c') : ∀ q ∈ B.states, orig q = c.loc →
    ∃ q' ∈ B.states, orig q' = c'.loc ∧ B.Steps ⟨q, c.val⟩ es ⟨q', c'.val⟩ := by
  induction h with
  | nil c => intro q hq e; exact ⟨q, hq, e, .nil _⟩
  | eps t ht hg _ ih =>
    intro q hq e
    rw [← e] at ht
    obtain ⟨u, hu, ⟨h1, h2⟩, h3, h4⟩ := Trans.forall₂_mem_right (hex q hq _) ht
    obtain ⟨q', i1, i2, i3⟩ := ih _ h1 h2
    refine ⟨q', i1, i2, .eps u hu (by rw [h4]; exact hg) ?_⟩
    rw [h3]
    exact i3
  | delay d hd _ ih =>
    intro q hq e
    obtain ⟨q', i1, i2, i3⟩ := ih q hq e
    exact ⟨q', i1, i2, .delay d hd i3⟩
  | split d1 d2 h1 h2 _ ih =>
    intro q hq e
    obtain ⟨q', i1, i2, i3⟩ := ih q hq e
    exact ⟨q', i1, i2, .split d1 d2 h1 h2 i3⟩
  | act a ha t ht hg _ ih =>
    intro q hq e
    rw [← e] at ht
    obtain ⟨u, hu, ⟨h1, h2⟩, h3, h4⟩ := Trans.forall₂_mem_right (hex q hq _) ht
    obtain ⟨q', i1, i2, i3⟩ := ih _ h1 h2
    refine ⟨q', i1, i2, .act a ha u hu (by rw [h4]; exact hg) ?_⟩
    rw [h3]
    exact i3

/-- **C75** Splitting the states of a deterministic automaton does not change its language. -/
theorem C75_deterministic (h : HashEnv) {A : TA} {init : ℕ} (hA : A.init = [init]) (hn : A.states.Nodup) (hc : A.Closed)
    (hs : A.SmallGuards) (hd : A.Deterministic) (h2 : ∀ q ∈ A.states, ∃ p ∈ A.states, p ≠ q)
    (hu : (A.loc init).usedClockSize = 1) (maxC : List ℤ) :
    ∃ n loc' states' init', (∀ m, n ≤ m → Split.run h m A.loc A.states init = .ok (loc', states', init')) ∧
      ∀ w : TimedWord, TA.Accepts ⟨loc', states', [init'], maxC⟩ w ↔ A.Accepts w := by
  have hi : init ∈ A.states := hc.1 init (by rw [hA]; simp)
  have hw : Wired A.loc A.states := fun q hq a t ht => ⟨hc.2 q hq a t ht, h2 _ (hc.2 q hq a t ht)⟩
  obtain ⟨n, s, h1, I, hm⟩ := run_total h hn hw hi hu (Exact.keeps A.loc) (Exact.merge hs hd) (fun _ _ _ h => h)
    (fun _ _ _ h => h.from)
  have S := Inv.isSplit rfl I (fun _ _ _ h => h.from) hm
  generalize hinit : A.states.foldr max 0 + 1 + A.states.idxOf init = init' at *
  have hex : ∀ q ∈ s.states, ∀ a, List.Forall₂ (fun t' t => (t'.target ∈ s.states ∧ origOf s t'.target = t.target) ∧
      t'.resets = t.resets ∧ t'.guard = t.guard) ((s.loc q).next a) ((A.loc (origOf s q)).next a) := by
    intro q hq a
    rw [I.states] at hq
    obtain ⟨p, hp, rfl⟩ := List.mem_map.1 hq
    rw [origOf_copy I (o := p.1.1) ⟨p.1.2, hp⟩]
    refine (I.shape p hp a).imp fun t' t h => ⟨⟨?_, origOf_copy I h.1⟩, h.2⟩
    obtain ⟨B, hB⟩ := h.1
    rw [I.states]
    exact List.mem_map.2 ⟨_, hB, rfl⟩
  refine ⟨n, s.loc, s.states, init', h1, fun w => ?_⟩
  unfold TA.Accepts
  rw [hA]
  constructor
  · rintro ⟨q, hq, c, hst, hmt⟩
    simp only [List.mem_singleton] at hq
    subst hq
    obtain ⟨g1, g2⟩ := steps_of_split (A := A) (B := ⟨s.loc, s.states, [q], maxC⟩) hex hst S.init_mem
    dsimp only at g2
    rw [S.start] at g2
    exact ⟨init, by simp, _, g2, by rw [← (S.state _ g1).2]; exact hmt⟩
  · rintro ⟨q, hq, c, hst, hmt⟩
    simp only [List.mem_singleton] at hq
    subst hq
    obtain ⟨q', g1, g2, g3⟩ := split_of_steps (A := A) (B := ⟨s.loc, s.states, [init'], maxC⟩) hex hst init' S.init_mem S.start
    refine ⟨init', by simp, _, g3, ?_⟩
    dsimp only
    rw [(S.state _ g1).2, g2]
    exact hmt

/-- **C75** (limit) If the guards of the initial state do not mention exactly the clock 0, the first lookup of `splitStates`
reads past the end of a hash table; the same happens if some transition has the only state as its target (an assertion). -/
theorem C75_undefined (h : HashEnv) {loc : ℕ → TAState} {states : List ℕ} {init : ℕ} (hn : states.Nodup)
    (hc : (loc init).usedClockSize ≠ 1 ∨ ∃ q ∈ states, ∃ a, ∃ t ∈ (loc q).next a, states = [t.target]) (m : ℕ) :
    Split.run h (m + 1) loc states init = .error .undefined := by
  refine run_error h hn ?_ m
  rcases hc with hc | ⟨q, hq, a, t, ht, e⟩
  · exact Or.inr hc
  · refine Or.inl fun hw => ?_
    obtain ⟨_, p, hp, hne⟩ := hw q hq a t ht
    rw [e] at hp
    exact hne (by simpa using hp)

/-- Concrete hash tables: increasing order. -/
def splitEnv : HashEnv where
  region _ := 0
  pair _ := 0
  acts _ := [97, 98]
  pick _ := 0
  clocks A := (List.range 8).filter (· ∈ A)

/-- Two states; both have two overlapping transitions. -/
def splitLoc : ℕ → TAState
  | 0 => ⟨false, fun a => if a = 97 then [⟨1, [(1, .const 0)], [⟨0, .gt, 0⟩, ⟨0, .lt, 1⟩]⟩, ⟨0, [], [⟨0, .le, 5⟩]⟩] else []⟩
  | 1 => ⟨true, fun a => if a = 97 then
      [⟨0, [], [⟨0, .ge, 1⟩, ⟨0, .le, 1⟩, ⟨1, .ge, 1⟩, ⟨1, .le, 1⟩]⟩, ⟨1, [], [⟨0, .le, 5⟩, ⟨1, .le, 5⟩]⟩] else []⟩
  | _ => ⟨false, fun _ => []⟩

/-- **C75** (limit) The transitions of the initial state are not merged: the nondeterminism that `splitStates` is there to
remove (`needSplitting`) is left in the initial state, while it is removed in the other one. -/
theorem C75_initial_witness :
    (splitLoc 0).needSplitting = true ∧ (splitLoc 1).needSplitting = true ∧
    (Split.run splitEnv 9 splitLoc [0, 1] 0).toOption.map (fun r => (r.2, (r.1 2).needSplitting, (r.1 3).needSplitting,
      (r.1 2).next 97, (r.1 3).next 97)) =
      some (([2, 3], 2), true, false,
        [⟨3, [(1, .const 0)], [⟨0, .gt, 0⟩, ⟨0, .lt, 1⟩]⟩, ⟨2, [], [⟨0, .le, 5⟩]⟩],
        [⟨2, [], [⟨0, .ge, 1⟩, ⟨0, .le, 1⟩, ⟨1, .ge, 1⟩, ⟨1, .le, 1⟩]⟩]) := by
  decide +kernel

theorem exists_env (l : List Action) (hl : ∀ a, a ∈ l) : ∃ h : HashEnv, ∀ (s : TAState) a, s.next a ≠ [] → a ∈ h.acts s :=
  ⟨⟨fun _ => 0, fun _ => 0, fun _ => l, fun _ => 0, splitEnv.clocks⟩, fun _ a _ => hl a⟩

/-- Hash tables that list all actions meet the hypothesis of `C75_precise`. -/
example : ∃ h : HashEnv, ∀ (s : TAState) a, s.next a ≠ [] → a ∈ h.acts s := exists_env allActions fun a => List.mem_finRange a

/-- The hypotheses of `C75_copies` (and the other ones of `C75_precise`) are met by this automaton. -/
example : ([0, 1] : List ℕ).Nodup ∧ (∀ q ∈ [0, 1], ∀ a, ∀ t ∈ (splitLoc q).next a, t.target ∈ [0, 1] ∧
    ∃ p ∈ [0, 1], p ≠ t.target) ∧ 0 ∈ [0, 1] ∧ (splitLoc 0).usedClockSize = 1 :=
  ⟨by decide, (wired_iff splitLoc [0, 1]).1 (by decide +kernel), by decide, by decide +kernel⟩

/-- A deterministic automaton with two states. -/
def splitDet : TA where
  loc q := match q with
    | 0 => ⟨false, fun a => if a = 97 then [⟨1, [(1, .const 0)], [⟨0, .lt, 1⟩]⟩, ⟨0, [(0, .const 0)], [⟨0, .ge, 1⟩]⟩] else []⟩
    | _ => ⟨true, fun a => if a = 97 then [⟨0, [], [⟨1, .le, 2⟩]⟩] else []⟩
  states := [0, 1]
  init := [0]
  maxC := [1, 2]

theorem splitDet_cases {P : ℕ → Action → List Trans → Prop} (h0 : ∀ a, P 0 a ((splitDet.loc 0).next a))
    (h1 : ∀ a, P 1 a ((splitDet.loc 1).next a)) : ∀ q ∈ splitDet.states, ∀ a, P q a ((splitDet.loc q).next a) := by
  intro q hq a
  simp only [splitDet, List.mem_cons, List.not_mem_nil, or_false] at hq
  rcases hq with rfl | rfl
  · exact h0 a
  · exact h1 a

/-- The hypotheses of `C75_deterministic` are met by this automaton. -/
example : splitDet.init = [0] ∧ splitDet.states.Nodup ∧ splitDet.Closed ∧ splitDet.SmallGuards ∧ splitDet.Deterministic ∧
    (∀ q ∈ splitDet.states, ∃ p ∈ splitDet.states, p ≠ q) ∧ (splitDet.loc 0).usedClockSize = 1 := by
  refine ⟨rfl, by decide, ⟨by simp [splitDet], ?_⟩, ?_, ?_, by decide, by decide +kernel⟩
  · refine splitDet_cases (P := fun _ _ l => ∀ t ∈ l, t.target ∈ splitDet.states) ?_ ?_ <;> intro a t ht <;>
      by_cases e : a = 97 <;> simp [splitDet, e] at ht
    · rcases ht with rfl | rfl <;> simp [splitDet]
    · subst ht; simp [splitDet]
  · refine splitDet_cases (P := fun _ _ l => ∀ t ∈ l, t.guard.Small) ?_ ?_ <;> intro a t ht <;>
      by_cases e : a = 97 <;> simp [splitDet, e] at ht
    · rcases ht with rfl | rfl <;> · intro c hc; simp at hc; subst hc; decide
    · subst ht; intro c hc; simp at hc; subst hc; decide
  · refine splitDet_cases (P := fun _ _ l => l.Pairwise fun t u =>
      ∀ v : Valuation, v.Nonneg → ¬ (t.guard.Holds v ∧ u.guard.Holds v)) ?_ ?_ <;> intro a <;> by_cases e : a = 97
    · simp [splitDet, e, Guard.Holds, Constraint.Holds]
    · simp [splitDet, e]
    · simp [splitDet, e]
    · simp [splitDet, e]

end Props
end LearnTA
