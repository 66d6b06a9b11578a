import Verif.Spec.Hypothesis
import Verif.Lemmas.HypTree

/-!
# The exploration of `generateHypothesis`
-/

namespace LearnTA
namespace ObsTable

/-- The computation succeeds with `Q`, or aborts and `W` holds. -/
def OrAbort {α : Type} (W : Prop) (m : Except Fail α) (Q : α → Prop) : Prop :=
  (∃ x, m = .ok x ∧ Q x) ∨ (m = .error .abort ∧ W)

namespace OrAbort
variable {α β : Type} {W : Prop}

theorem ok {x : α} {Q : α → Prop} (h : Q x) : OrAbort W (.ok x) Q := Or.inl ⟨x, rfl, h⟩

theorem pure {x : α} {Q : α → Prop} (h : Q x) : OrAbort W (Pure.pure x : Except Fail α) Q := Or.inl ⟨x, rfl, h⟩

theorem bind {m : Except Fail α} {k : α → Except Fail β} {Q : α → Prop} {R : β → Prop} (h : OrAbort W m Q)
    (hk : ∀ x, Q x → OrAbort W (k x) R) : OrAbort W (m >>= k) R := by
  rcases h with ⟨x, rfl, hx⟩ | ⟨rfl, hW⟩
  · exact hk x hx
  · exact Or.inr ⟨rfl, hW⟩

theorem mono {m : Except Fail α} {Q R : α → Prop} (h : OrAbort W m Q) (hk : ∀ x, Q x → R x) : OrAbort W m R := by
  rcases h with ⟨x, rfl, hx⟩ | h
  · exact Or.inl ⟨x, rfl, hk x hx⟩
  · exact Or.inr h

theorem need {o : Option α} {x : α} {Q : α → Prop} (h : o = some x) (hx : Q x) : OrAbort W (ObsTable.need o) Q := by
  subst h; exact Or.inl ⟨x, rfl, hx⟩

theorem foldlM {g : α → β → Except Fail α} {l : List β} {a : α} (I : List β → α → Prop) (h0 : I [] a)
    (hs : ∀ done x rest a, l = done ++ x :: rest → I done a → OrAbort W (g a x) (I (done ++ [x]))) :
    OrAbort W (l.foldlM g a) (I l) := by
  have key : ∀ (rest done : List β) (a : α), l = done ++ rest → I done a → OrAbort W (rest.foldlM g a) (I l) := by
    intro rest
    induction rest with
    | nil => intro done a e h; rw [List.append_nil] at e; subst e; exact pure h
    | cons x rest ih =>
      intro done a e h
      rw [List.foldlM_cons]
      refine bind (hs done x rest a e h) fun a' h' => ?_
      exact ih (done ++ [x]) a' (by rw [e]; simp) h'
  exact key l [] a (by simp) h0

end OrAbort

variable {σ : Type} {f : TimedWord → Bool} {T : ObsTable σ}

/-- The words of an element of `P` and of its time successor are not both accepted or both rejected. -/
def Changes (T : ObsTable σ) : Prop :=
  ∃ i ∈ T.pIndices, ∃ j, T.continuousSuccessors i = some j ∧ T.isMatch i ≠ T.isMatch j

/-- `StateManager::add` for several indices. -/
def Build.addAll (B : Build) (q : ℕ) (l : List ℕ) : Build := l.foldl (fun B i => B.add q i) B

theorem Build.addAll_spec (B : Build) (q : ℕ) (l : List ℕ) : (B.addAll q l).loc = B.loc ∧ (B.addAll q l).states = B.states ∧
    (B.addAll q l).toIndices = Function.update B.toIndices q (B.toIndices q ++ l) ∧
    ∀ i, (B.addAll q l).toState i = if i ∈ l then some q else B.toState i := by
  unfold addAll
  induction l generalizing B with
  | nil => simp
  | cons a l ih =>
    rw [List.foldl_cons]
    obtain ⟨h1, h2, h3, h4⟩ := ih (B.add q a)
    refine ⟨h1, h2, ?_, fun i => ?_⟩
    · rw [h3]
      funext x
      unfold Build.add
      dsimp only
      by_cases e : x = q
      · subst e; simp
      · simp [Function.update_of_ne e]
    · rw [h4]
      unfold Build.add
      dsimp only
      by_cases e : i = a
      · subst e; simp
      · simp [Function.update_of_ne e, e]

theorem Inv.matchOf {env : Env σ} (he : EnvOk env f) (h : Inv f T) {i : ℕ} (hi : i < T.prefixes.length) :
    ∃ b, T.isMatch i = some b := by
  obtain ⟨b, hb, _⟩ := h.isMatch he (List.getElem?_eq_getElem hi)
  exact ⟨b, hb⟩

theorem mergeContinuous_ok {env : Env σ} (he : EnvOk env f) (h : Inv f T) (q n : ℕ) :
    ∀ (i : ℕ) (l : List ℕ) (B : Build), Chain T i (i :: l) → i ∈ T.pIndices → l.length ≤ n →
      OrAbort (Changes T) (mergeContinuous T q n i B) fun B' => B' = B.addAll q l ∧ ∀ x ∈ l, T.isMatch x = T.isMatch i := by
  induction n with
  | zero =>
    intro i l B hc hP hl
    have : l = [] := by simpa using hl
    subst this
    cases hc with
    | last hi => exact absurd hP hi
    | next _ _ h' => obtain ⟨l', e⟩ := h'.cons; cases e
  | succ n ih =>
    intro i l B hc hP hl
    cases hc with
    | last hi => exact absurd hP hi
    | @next _ j _ _ e hc =>
      obtain ⟨l', rfl⟩ := hc.cons
      have hj := h.time_lt hP e
      obtain ⟨m, hm⟩ := h.matchOf he (h.closed.inside.2 i hP)
      obtain ⟨m', hm'⟩ := h.matchOf he hj.2
      unfold mergeContinuous
      rw [e, hm]
      simp only [ObsTable.need, bind, Except.bind, hm']
      by_cases hmm : m = m'
      · subst hmm
        simp only [ne_eq, not_true_eq_false, if_false, pure, Except.pure]
        by_cases hPj : j ∈ T.pIndices
        · rw [if_pos (inP_iff.2 hPj)]
          refine (ih j l' (B.add q j) hc hPj (by simpa using hl)).mono ?_
          rintro B' ⟨rfl, h2⟩
          refine ⟨rfl, ?_⟩
          intro x hx
          rcases List.mem_cons.1 hx with rfl | hx
          · rw [hm']
          · rw [h2 x hx, hm']
        · rw [if_neg (by rw [inP_iff]; exact hPj)]
          cases hc with
          | last _ => exact OrAbort.ok ⟨rfl, by simp [hm']⟩
          | next hi' _ _ => exact absurd hi' hPj
      · right
        rw [if_pos hmm]
        exact ⟨rfl, i, hP, j, e, by rw [hm, hm']; simpa using hmm⟩

/-- The states made so far: the one with number `q` stands for the chain of the prefix `H[q]`. -/
structure BInv (T : ObsTable σ) (H : List ℕ) (B : Build) : Prop where
  states : B.states = List.range H.length
  nodup : H.Nodup
  head : ∀ h ∈ H, IsHead T h ∧ h ∈ T.pIndices
  chain : ∀ q h, H[q]? = some h → Chain T h (B.toIndices q)
  outside : ∀ q, H.length ≤ q → B.toIndices q = []
  toState : ∀ i q, B.toState i = some q ↔ i ∈ B.toIndices q
  uniform : ∀ q, ∀ i ∈ B.toIndices q, T.isMatch i = some (B.loc q).isMatch

theorem BInv.unique {H : List ℕ} {B : Build} (h : BInv T H B) {i q q' : ℕ} (h1 : i ∈ B.toIndices q)
    (h2 : i ∈ B.toIndices q') : q = q' := by
  have e1 := (h.toState i q).2 h1
  have e2 := (h.toState i q').2 h2
  rw [e1] at e2
  simpa using e2

theorem BInv.lt {H : List ℕ} {B : Build} (h : BInv T H B) {i q : ℕ} (h1 : i ∈ B.toIndices q) : q < H.length := by
  by_contra hc
  rw [h.outside q (by omega)] at h1
  simp at h1

theorem BInv.index_lt (hI : Inv f T) {H : List ℕ} {B : Build} (h : BInv T H B) {i q : ℕ} (h1 : i ∈ B.toIndices q) :
    i < T.prefixes.length := by
  have hq := h.lt h1
  have e := List.getElem?_eq_getElem hq
  have hc := h.chain q _ e
  exact ((hc.le hI (hI.closed.inside.2 _ (h.head _ (List.getElem_mem hq)).2)).2 i h1).2

theorem BInv.length_le (hI : Inv f T) {H : List ℕ} {B : Build} (h : BInv T H B) : H.length ≤ T.prefixes.length := by
  have h2 : H ⊆ List.range T.prefixes.length := fun x hx =>
    List.mem_range.2 (hI.closed.inside.2 _ (h.head x hx).2)
  simpa using (List.subperm_of_subset h.nodup h2).length_le

/-- A prefix that is no time successor has a state if and only if a state was made for it. -/
theorem BInv.head_iff {H : List ℕ} {B : Build} (h : BInv T H B) {d : ℕ} (hd : IsHead T d) :
    (B.toState d).isSome = true ↔ d ∈ H := by
  constructor
  · intro hs
    obtain ⟨q, hq⟩ := Option.isSome_iff_exists.1 hs
    have hm := (h.toState d q).1 hq
    have hlt := h.lt hm
    have e := List.getElem?_eq_getElem hlt
    rw [(h.chain q _ e).mem_head hm hd]
    exact List.getElem_mem hlt
  · intro hm
    obtain ⟨q, hq⟩ := List.getElem?_of_mem hm
    obtain ⟨l, hl⟩ := (h.chain q d hq).cons
    have := (h.toState d q).2 (by rw [hl]; simp)
    rw [this]; rfl

/-- A new state with its chain. -/
theorem BInv.add (hI : Inv f T) {H : List ℕ} {B : Build} (h : BInv T H B) {d : ℕ} {m : Bool} {l : List ℕ}
    (hd : IsHead T d) (hP : d ∈ T.pIndices) (hn : d ∉ H) (hm : T.isMatch d = some m) (hc : Chain T d (d :: l))
    (hu : ∀ x ∈ l, T.isMatch x = T.isMatch d) :
    BInv T (H ++ [d]) ((B.addState d m).addAll H.length l) ∧
      ((B.addState d m).addAll H.length l).toIndices = Function.update B.toIndices H.length (d :: l) ∧
      ((B.addState d m).addAll H.length l).loc = Function.update B.loc H.length ⟨m, fun _ => []⟩ ∧
      (∀ i q, B.toState i = some q → ((B.addState d m).addAll H.length l).toState i = some q) := by
  obtain ⟨a1, a2, a3, a4⟩ := (B.addState d m).addAll_spec H.length l
  have hlen : B.states.length = H.length := by rw [h.states]; simp
  have hind : ((B.addState d m).addAll H.length l).toIndices = Function.update B.toIndices H.length (d :: l) := by
    rw [a3]
    unfold Build.addState Build.add
    dsimp only
    rw [hlen]
    funext x
    by_cases e : x = H.length
    · subst e; simp [h.outside _ (le_refl _)]
    · simp [Function.update_of_ne e]
  have hloc : ((B.addState d m).addAll H.length l).loc = Function.update B.loc H.length ⟨m, fun _ => []⟩ := by
    rw [a1]
    unfold Build.addState Build.add
    dsimp only
    rw [hlen]
  have hst : ∀ i, ((B.addState d m).addAll H.length l).toState i = if i ∈ d :: l then some H.length else B.toState i := by
    intro i
    rw [a4]
    unfold Build.addState Build.add
    dsimp only
    rw [hlen]
    by_cases e : i = d
    · subst e; simp
    · simp [Function.update_of_ne e, e]
  -- the new chain is disjoint from the others
  have hdis : ∀ q, ∀ i ∈ B.toIndices q, i ∉ d :: l := by
    intro q i hi hil
    have hq := h.lt hi
    have e := List.getElem?_eq_getElem hq
    have hmem := List.getElem_mem hq
    have := (h.chain q _ e).head_unique hI hc (h.head _ hmem).1 hd hi hil
    exact hn (this ▸ hmem)
  refine ⟨⟨?_, ?_, ?_, ?_, ?_, ?_, ?_⟩, hind, hloc, ?_⟩
  · rw [a2]
    unfold Build.addState Build.add
    dsimp only
    rw [hlen, h.states]
    simp [List.range_succ]
  · rw [List.nodup_append]
    refine ⟨h.nodup, by simp, ?_⟩
    intro a ha b hb e
    simp only [List.mem_singleton] at hb
    subst hb
    exact hn (e ▸ ha)
  · intro x hx
    rcases List.mem_append.1 hx with hx | hx
    · exact h.head x hx
    · simp only [List.mem_singleton] at hx; subst hx; exact ⟨hd, hP⟩
  · intro q x hx
    rw [hind]
    by_cases e : q = H.length
    · subst e
      simp at hx
      subst hx
      simpa using hc
    · rw [Function.update_of_ne e]
      refine h.chain q x ?_
      rw [List.getElem?_append] at hx
      split at hx
      · exact hx
      · rename_i hq
        obtain ⟨k, hk⟩ : ∃ k, q - H.length = k + 1 := ⟨q - H.length - 1, by omega⟩
        rw [hk] at hx
        simp at hx
  · intro q hq
    rw [hind]
    simp only [List.length_append, List.length_singleton] at hq
    rw [Function.update_of_ne (by omega)]
    exact h.outside q (by omega)
  · intro i q
    rw [hst, hind]
    by_cases hil : i ∈ d :: l
    · rw [if_pos hil]
      by_cases e : q = H.length
      · subst e; simpa using hil
      · rw [Function.update_of_ne e]
        constructor
        · intro h'; simp at h'; exact absurd h'.symm e
        · intro h'; exact absurd hil (hdis q i h')
    · rw [if_neg hil, h.toState]
      by_cases e : q = H.length
      · subst e
        rw [Function.update_self, h.outside _ (le_refl _)]
        simp only [List.not_mem_nil, false_iff]
        exact hil
      · rw [Function.update_of_ne e]
  · intro q i hi
    rw [hind] at hi
    rw [hloc]
    by_cases e : q = H.length
    · subst e
      rw [Function.update_self] at hi ⊢
      rcases List.mem_cons.1 hi with rfl | hi
      · exact hm
      · rw [hu i hi]; exact hm
    · rw [Function.update_of_ne e] at hi ⊢
      exact h.uniform q i hi
  · intro i q hq
    rw [hst, if_neg (hdis q i ((h.toState i q).1 hq))]
    exact hq

end ObsTable
end LearnTA
