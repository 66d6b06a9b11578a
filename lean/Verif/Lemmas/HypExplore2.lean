import Verif.Lemmas.HypExplore

/-!
# The exploration of `generateHypothesis`: the loops
-/

namespace LearnTA
namespace ObsTable
variable {σ : Type} {f : TimedWord → Bool} {T : ObsTable σ}

/-- No pair of a prefix and an action. -/
def NoPair (_ : ℕ) (_ : Action) : Prop := False

theorem addTrans_loc (B : Build) (q : ℕ) (a : Action) (ts : List Trans) (q' : ℕ) (b : Action) :
    (((B.addTrans q a ts).loc q').next b) = if q' = q ∧ b = a then (B.loc q).next a ++ ts else (B.loc q').next b := by
  unfold Build.addTrans TAState.setNext
  dsimp only
  by_cases e : q' = q
  · subst e
    rw [Function.update_self]
    by_cases e' : b = a
    · subst e'; simp
    · simp [e']
  · rw [Function.update_of_ne e, if_neg (fun h => e h.1)]

theorem addTrans_isMatch (B : Build) (q : ℕ) (a : Action) (ts : List Trans) (q' : ℕ) :
    ((B.addTrans q a ts).loc q').isMatch = (B.loc q').isMatch := by
  unfold Build.addTrans TAState.setNext
  dsimp only
  by_cases e : q' = q
  · subst e; rw [Function.update_self]
  · rw [Function.update_of_ne e]

theorem BInv.addTrans {H : List ℕ} {B : Build} (h : BInv T H B) (q : ℕ) (a : Action) (ts : List Trans) :
    BInv T H (B.addTrans q a ts) where
  states := h.states
  nodup := h.nodup
  head := h.head
  chain := h.chain
  outside := h.outside
  toState := h.toState
  uniform q' i hi := by rw [addTrans_isMatch]; exact h.uniform q' i hi

theorem visitAction_ok {env : Env σ} (he : EnvOk env f) {henv : HypEnv} (hh : henv.Lawful) (hI : Inv f T)
    {F : ℕ → Action → Prop} {kq : ℕ} {H : List ℕ}
    {s : Explore} (h : XInv T F NoPair kq H s) {q0 : ℕ} {a : Action} (hq : q0 < H.length) (ha : a ∈ T.alphabet)
    (hF : ¬ F q0 a) :
    OrAbort (Changes T) (visitAction henv T q0 (s.build.toIndices q0) s a) fun s' => ∃ H', H <+: H' ∧
      XInv T (fun q b => F q b ∨ (q = q0 ∧ b = a)) NoPair kq H' s' ∧
      ∀ q, q < H.length → s'.build.toIndices q = s.build.toIndices q := by
  have hnd : (s.build.toIndices q0).Nodup := by
    have e := List.getElem?_eq_getElem hq
    exact (h.b.chain q0 _ e).nodup hI (hI.closed.inside.2 _ (h.b.head _ (List.getElem_mem hq)).2)
  unfold visitAction
  refine OrAbort.bind (OrAbort.foldlM (fun done s' => ∃ H', H <+: H' ∧
      XInv T F (fun x b => x ∈ done ∧ b = a) kq H' s' ∧
      Indexed (Entry T s'.build.toState a) (fun x => x ∈ done ∧ Inside T a x) s'.sourceMap ∧
      ∀ q, q < H.length → s'.build.toIndices q = s.build.toIndices q) ?_ ?_) ?_
  · refine ⟨H, List.prefix_rfl, ?_, Indexed.nil (by simp), fun _ _ => rfl⟩
    have : XInv T F NoPair kq H { s with sourceMap := [] } :=
      ⟨h.b, h.root, h.bound, h.cover, h.only, h.bd, h.queue, h.kq, h.lists, h.empty⟩
    refine this.congr (fun _ _ => Iff.rfl) fun i b => ?_
    unfold Seen NoPair
    simp
  · rintro done i rest s' e ⟨H', hp, hx, hl, hk⟩
    rw [e] at hnd
    have hdone : i ∉ done := by
      rw [List.nodup_append] at hnd
      intro hd
      exact hnd.2.2 i hd i (by simp) rfl
    refine (visitIndex_ok he hI hx (q0 := q0) (i := i) (a := a) (by rw [hk q0 hq, e]; simp) ha hF
      (fun h' => hdone h'.1) (S := fun x => x ∈ done) (fun x hx => ⟨hx, rfl⟩) hl).mono ?_
    rintro s'' ⟨H'', hp', hx', hl', hk'⟩
    refine ⟨H'', hp.trans hp', ?_, ?_, ?_⟩
    · refine hx'.congr (fun _ _ => Iff.rfl) fun j b => ?_
      unfold Seen
      have : ((j ∈ done ++ [i] ∧ b = a) ↔ (j ∈ done ∧ b = a ∨ j = i ∧ b = a)) := by
        rw [List.mem_append, List.mem_singleton, or_and_right]
      simp only [this]
    · refine hl'.mono (fun _ _ _ h => h) fun x => ?_
      rw [List.mem_append, List.mem_singleton]
    · intro q hq'
      rw [hk' q (lt_of_lt_of_le hq' hp.length_le), hk q hq']
  · rintro s' ⟨H', hp, hx, hl, hk⟩
    refine OrAbort.pure ⟨H', hp, ?_, hk⟩
    have hlen := hp.length_le
    have hseen : ∀ i b, Seen (s'.build.addTrans q0 a (internalTransitions (henv.orderMap s'.sourceMap)))
        (fun q b => F q b ∨ (q = q0 ∧ b = a)) NoPair i b ↔
        Seen s'.build F (fun x b => x ∈ s.build.toIndices q0 ∧ b = a) i b := by
      intro i b
      unfold Seen NoPair
      have e : (s'.build.addTrans q0 a (internalTransitions (henv.orderMap s'.sourceMap))).toIndices = s'.build.toIndices := rfl
      rw [e]
      constructor
      · rintro (⟨q, h1 | ⟨rfl, rfl⟩, h2⟩ | h1)
        · exact Or.inl ⟨q, h1, h2⟩
        · rw [hk _ hq] at h2; exact Or.inr ⟨h2, rfl⟩
        · exact h1.elim
      · rintro (⟨q, h1, h2⟩ | ⟨h1, rfl⟩)
        · exact Or.inl ⟨q, Or.inl h1, h2⟩
        · exact Or.inl ⟨q0, Or.inr ⟨rfl, rfl⟩, by rw [hk _ hq]; exact h1⟩
    refine ⟨hx.b.addTrans _ _ _, hx.root, ?_, ?_, ?_, ?_, hx.queue, hx.kq, ?_, ?_⟩
    · rintro q b (hq' | ⟨rfl, rfl⟩)
      · exact hx.bound q b hq'
      · omega
    · intro i b d hs
      exact hx.cover i b d ((hseen i b).1 hs)
    · intro x hx'
      rcases hx.only x hx' with e | ⟨i, b, h1, h2⟩
      · exact Or.inl e
      · exact Or.inr ⟨i, b, (hseen i b).2 h1, h2⟩
    · intro i b
      rw [hseen]
      exact hx.bd i b
    · intro q b hqb
      rw [addTrans_loc]
      show Indexed (Internal T s'.build.toState b) (fun i => i ∈ s'.build.toIndices q ∧ _) _
      by_cases e : q = q0 ∧ b = a
      · rw [if_pos e]
        obtain ⟨rfl, rfl⟩ := e
        rw [hx.empty q b hF, List.nil_append, hk q hq]
        exact (hl.perm (hh _).symm).internal
      · rw [if_neg e]
        rcases hqb with h1 | h1
        · exact hx.lists q b h1
        · exact absurd h1 e
    · intro q b hqb
      rw [addTrans_loc, if_neg (fun h' => hqb (Or.inr h'))]
      exact hx.empty q b fun h' => hqb (Or.inl h')

/-- The states and actions finished when the first `k` states are done. -/
def Upto (T : ObsTable σ) (k : ℕ) (q : ℕ) (a : Action) : Prop := q < k ∧ a ∈ T.alphabet

theorem explore_ok {env : Env σ} (he : EnvOk env f) {henv : HypEnv} (hh : henv.Lawful) (hI : Inv f T) (n : ℕ) :
    ∀ (k : ℕ) (H : List ℕ) (s : Explore), XInv T (Upto T k) NoPair k H s → T.prefixes.length + 1 ≤ n + k →
      OrAbort (Changes T) (explore henv T n s) fun s' => ∃ H', XInv T (Upto T H'.length) NoPair H'.length H' s' := by
  induction n with
  | zero =>
    intro k H s h hn
    have h1 := h.kq
    have h2 := h.b.length_le hI
    omega
  | succ n ih =>
    intro k H s h hn
    unfold explore
    by_cases hk : k = H.length
    · subst hk
      have : s.queue = [] := by rw [h.queue]; simp
      rw [this]
      exact OrAbort.ok ⟨H, h⟩
    · have hlt : k < H.length := by have := h.kq; omega
      have : s.queue = k :: (List.range H.length).drop (k + 1) := by
        rw [h.queue, List.drop_eq_getElem_cons (by simpa using hlt)]
        simp
      rw [this]
      dsimp only
      refine OrAbort.bind (OrAbort.foldlM (fun done s' => ∃ H', H <+: H' ∧
        XInv T (fun q a => Upto T k q a ∨ (q = k ∧ a ∈ done)) NoPair (k + 1) H' s' ∧
        s'.build.toIndices k = s.build.toIndices k) ?_ ?_) ?_
      · refine ⟨H, List.prefix_rfl, ?_, rfl⟩
        have : XInv T (Upto T k) NoPair (k + 1) H { s with queue := (List.range H.length).drop (k + 1) } :=
          ⟨h.b, h.root, h.bound, h.cover, h.only, h.bd, rfl, hlt, h.lists, h.empty⟩
        refine this.congr (fun q a => by simp) fun i a => by simp [Seen]
      · rintro done a rest s' e ⟨H', hp, hx, hk'⟩
        have hnd := hI.alpha.1
        rw [e] at hnd
        have hdone : a ∉ done := by
          rw [List.nodup_append] at hnd
          intro hd
          exact hnd.2.2 a hd a (by simp) rfl
        have haA : a ∈ T.alphabet := by rw [e]; simp
        have hkH : k < H'.length := lt_of_lt_of_le hlt hp.length_le
        rw [← hk']
        refine (visitAction_ok he hh hI hx hkH haA ?_).mono ?_
        · rintro (h1 | h1)
          · have := h1.1; omega
          · exact hdone h1.2
        · rintro s'' ⟨H'', hp', hx', hk''⟩
          refine ⟨H'', hp.trans hp', ?_, by rw [hk'' k hkH]⟩
          have hF : ∀ q b, (Upto T k q b ∨ (q = k ∧ b ∈ done ++ [a])) ↔ ((Upto T k q b ∨ (q = k ∧ b ∈ done)) ∨ (q = k ∧ b = a)) := by
            intro q b
            rw [List.mem_append, List.mem_singleton, and_or_left, or_assoc]
          refine hx'.congr hF fun i b => ?_
          unfold Seen
          simp only [hF]
      · rintro s' ⟨H', hp, hx, _⟩
        refine ih (k + 1) H' s' ?_ (by omega)
        have hF : ∀ q a, Upto T (k + 1) q a ↔ (Upto T k q a ∨ (q = k ∧ a ∈ T.alphabet)) := by
          intro q a
          unfold Upto
          constructor
          · rintro ⟨h1, h2⟩
            rcases Nat.lt_succ_iff_lt_or_eq.1 h1 with h1 | h1
            · exact Or.inl ⟨h1, h2⟩
            · exact Or.inr ⟨h1, h2⟩
          · rintro (⟨h1, h2⟩ | ⟨h1, h2⟩)
            · exact ⟨by omega, h2⟩
            · exact ⟨by omega, h2⟩
        refine hx.congr hF fun i b => ?_
        unfold Seen
        simp only [hF]

/-- What the exploration finds: all prefixes of `P` and their time successors have a state, the transitions inside of `P` are made,
and the others are known. -/
structure Explored (T : ObsTable σ) (H : List ℕ) (B : Build) (bd : List (ℕ × Action)) : Prop where
  b : BInv T H B
  root : H[0]? = some 0
  all : ∀ i ∈ T.pIndices, ∃ q, i ∈ B.toIndices q
  bd : ∀ i a, (i, a) ∈ bd ↔ i ∈ T.pIndices ∧ a ∈ T.alphabet ∧ ∃ d, T.discreteSuccessors i a = some d ∧ d ∉ T.pIndices
  lists : ∀ q a, a ∈ T.alphabet → Indexed (Internal T B.toState a) (fun i => i ∈ B.toIndices q ∧ Inside T a i) ((B.loc q).next a)
  empty : ∀ q a, a ∉ T.alphabet → (B.loc q).next a = []

theorem XInv.explored (hI : Inv f T) {H : List ℕ} {s : Explore} (h : XInv T (Upto T H.length) NoPair H.length H s) :
    Explored T H s.build s.boundaries := by
  have hseen : ∀ i a, Seen s.build (Upto T H.length) NoPair i a ↔ a ∈ T.alphabet ∧ ∃ q, i ∈ s.build.toIndices q := by
    intro i a
    unfold Seen NoPair Upto
    constructor
    · rintro (⟨q, h1, h2⟩ | h1)
      · exact ⟨h1.2, q, h2⟩
      · exact h1.elim
    · rintro ⟨h1, q, h2⟩
      exact Or.inl ⟨q, ⟨h.b.lt h2, h1⟩, h2⟩
  have hall : ∀ k i, i < k → i ∈ T.pIndices → ∃ q, i ∈ s.build.toIndices q := by
    intro k
    induction k with
    | zero => intro i hi; omega
    | succ k ih =>
      intro i hi hiP
      rcases Nat.eq_zero_or_pos i with rfl | h0
      · obtain ⟨l, hl⟩ := (h.b.chain 0 0 h.root).cons
        exact ⟨0, by rw [hl]; simp⟩
      · obtain ⟨j, hj, hlt, h1 | ⟨a, ha, h1⟩⟩ := hI.closed.parent i h0 (hI.closed.inside.2 i hiP)
        · obtain ⟨q, hq⟩ := ih j (by omega) hj
          refine ⟨q, ?_⟩
          obtain ⟨m, hm⟩ := List.getElem?_of_mem hq
          have hc := h.b.chain q _ (List.getElem?_eq_getElem (h.b.lt hq))
          rcases hc.get hm with ⟨_, y, e, hy⟩ | ⟨h2, _⟩
          · rw [h1] at e
            cases e
            exact List.mem_of_getElem? hy
          · exact absurd hj h2
        · obtain ⟨q, hq⟩ := ih j (by omega) hj
          have hH := h.cover j a i ((hseen j a).2 ⟨ha, q, hq⟩) h1 hiP
          obtain ⟨q', hq'⟩ := Option.isSome_iff_exists.1 ((h.b.head_iff (hI.head_disc hj ha h1)).2 hH)
          exact ⟨q', (h.b.toState i q').1 hq'⟩
  have hall' : ∀ i ∈ T.pIndices, ∃ q, i ∈ s.build.toIndices q := fun i hi => hall (i + 1) i (by omega) hi
  refine ⟨h.b, h.root, hall', ?_, ?_, ?_⟩
  · intro i a
    rw [h.bd, hseen]
    constructor
    · rintro ⟨⟨h1, _⟩, d, h2, h3⟩
      refine ⟨?_, h1, d, h2, h3⟩
      by_contra hc
      rw [(hI.closed.only i hc).2 a] at h2
      cases h2
    · rintro ⟨h1, h2, h3⟩
      exact ⟨⟨h2, hall' i h1⟩, h3⟩
  · intro q a ha
    by_cases hq : q < H.length
    · exact h.lists q a ⟨hq, ha⟩
    · rw [h.empty q a (fun h' => hq h'.1)]
      refine Indexed.nil ?_
      rintro i ⟨h1, _⟩
      exact hq (h.b.lt h1)
  · intro q a ha
    exact h.empty q a fun h' => ha h'.2

/-- The first part of `generateHypothesis`. -/
theorem start_ok {env : Env σ} (he : EnvOk env f) {henv : HypEnv} (hh : henv.Lawful) (hI : Inv f T) {m : Bool}
    (hm : T.isMatch 0 = some m) :
    OrAbort (Changes T) (do
      let B ← mergeContinuous T 0 (T.prefixes.length + 1) 0
        ((⟨fun _ => ⟨false, fun _ => []⟩, [], fun _ => none, fun _ => []⟩ : Build).addState 0 m)
      explore henv T (T.prefixes.length + 1) ⟨B, [], [0], []⟩)
      fun s => ∃ H, Explored T H s.build s.boundaries := by
  have h0P := hI.closed.root.2
  have h0lt := hI.closed.inside.2 0 h0P
  obtain ⟨l0, hch⟩ := hI.chain h0lt
  obtain ⟨l, rfl⟩ := hch.cons
  refine OrAbort.bind (mergeContinuous_ok he hI 0 (T.prefixes.length + 1) 0 l _ hch h0P (by
    have := hch.length_le hI h0lt; simp at this; omega)) ?_
  rintro B ⟨rfl, hu⟩
  have hb0 : BInv T [] (⟨fun _ => ⟨false, fun _ => []⟩, [], fun _ => none, fun _ => []⟩ : Build) := by
    constructor <;> simp
  obtain ⟨n1, n2, n3, n4⟩ := hb0.add hI hI.head_zero h0P (by simp) hm hch hu
  refine (explore_ok he hh hI (T.prefixes.length + 1) 0 [0] _ ?_ (by omega)).mono ?_
  · have hs : ∀ i a, ¬ Seen (((⟨fun _ => ⟨false, fun _ => []⟩, [], fun _ => none, fun _ => []⟩ : Build).addState 0 m).addAll 0 l)
        (Upto T 0) NoPair i a := by
      rintro i a (⟨q, h1, _⟩ | h1)
      · exact absurd h1.1 (by omega)
      · exact h1
    refine ⟨n1, rfl, ?_, ?_, ?_, ?_, rfl, by simp, ?_, ?_⟩
    · intro q a h'; exact absurd h'.1 (by omega)
    · intro i a d h'; exact absurd h' (hs i a)
    · intro x hx; simp at hx; exact Or.inl hx
    · intro i a
      constructor
      · intro h'; simp at h'
      · intro h'; exact absurd h'.1 (hs i a)
    · intro q a h'; exact absurd h'.1 (by omega)
    · intro q a _
      have n3' : (((⟨fun _ => ⟨false, fun _ => []⟩, [], fun _ => none, fun _ => []⟩ : Build).addState 0 m).addAll 0 l).loc = _ := n3
      rw [n3']
      by_cases e : q = 0
      · subst e; simp
      · simp [Function.update_of_ne e]
  · rintro s ⟨H, hx⟩
    exact ⟨H, hx.explored hI⟩

end ObsTable
end LearnTA
