import Verif.Lemmas.HypExternal

/-!
# The prefixes of a table as a tree
-/

namespace LearnTA
namespace ObsTable
variable {σ : Type} {f : TimedWord → Bool} {T : ObsTable σ}

theorem Inv.time_get (h : Inv f T) {i j : ℕ} (hi : i ∈ T.pIndices) (e : T.continuousSuccessors i = some j)
    {p : ForwardRegional} (hp : T.prefixes[i]? = some p) : T.prefixes[j]? = some p.successor := by
  obtain ⟨k, h1, h2⟩ := h.closed.time i hi p hp
  rw [e] at h1
  cases h1
  exact h2

theorem Inv.disc_get (h : Inv f T) {i j : ℕ} {a : Action} (hi : i ∈ T.pIndices) (ha : a ∈ T.alphabet)
    (e : T.discreteSuccessors i a = some j) {p : ForwardRegional} (hp : T.prefixes[i]? = some p) :
    T.prefixes[j]? = some (p.successorAction a) := by
  obtain ⟨k, h1, h2⟩ := h.closed.action i hi p hp a ha
  rw [e] at h1
  cases h1
  exact h2

theorem Inv.pget (h : Inv f T) {i : ℕ} (hi : i ∈ T.pIndices) : ∃ p, T.prefixes[i]? = some p ∧ p.Reach := by
  have hp := List.getElem?_eq_getElem (h.closed.inside.2 i hi)
  exact ⟨_, hp, (h.closed.region _ (List.mem_of_getElem? hp)).1⟩

theorem Inv.reach (h : Inv f T) {i : ℕ} {p : ForwardRegional} (hp : T.prefixes[i]? = some p) : p.Reach :=
  (h.closed.region _ (List.mem_of_getElem? hp)).1

theorem Inv.disc_inj (h : Inv f T) {i i' j : ℕ} {a a' : Action} (hi : i ∈ T.pIndices) (hi' : i' ∈ T.pIndices)
    (ha : a ∈ T.alphabet) (ha' : a' ∈ T.alphabet) (e : T.discreteSuccessors i a = some j)
    (e' : T.discreteSuccessors i' a' = some j) : i = i' ∧ a = a' := by
  obtain ⟨p, hp, r⟩ := h.pget hi
  obtain ⟨p', hp', r'⟩ := h.pget hi'
  have h1 := h.disc_get hi ha e hp
  have h2 := h.disc_get hi' ha' e' hp'
  rw [h1] at h2
  simp only [Option.some.injEq] at h2
  have hb : (p.successorAction a).beq (p'.successorAction a') = true := by
    rw [← h2]; exact (ForwardRegional.Reach.action a r).beq_refl
  obtain ⟨h3, h4⟩ := ForwardRegional.successorAction_inj r r' hb
  exact ⟨h.closed.distinct i i' _ _ hp hp' h3, h4⟩

theorem Inv.time_ne_zero (h : Inv f T) {i : ℕ} (hi : i ∈ T.pIndices) : T.continuousSuccessors i ≠ some 0 := by
  intro e
  obtain ⟨p, hp, r⟩ := h.pget hi
  have h1 := h.time_get hi e hp
  rw [h.closed.root.1] at h1
  simp only [Option.some.injEq] at h1
  exact ForwardRegional.init_ne_successor r (by rw [← h1]; exact ForwardRegional.Reach.init.beq_refl)

theorem Inv.disc_ne_zero (h : Inv f T) {i : ℕ} {a : Action} (hi : i ∈ T.pIndices) (ha : a ∈ T.alphabet) :
    T.discreteSuccessors i a ≠ some 0 := by
  intro e
  obtain ⟨p, hp, r⟩ := h.pget hi
  have h1 := h.disc_get hi ha e hp
  rw [h.closed.root.1] at h1
  simp only [Option.some.injEq] at h1
  exact ForwardRegional.init_ne_action (A := p) (a := a) (by rw [← h1]; exact ForwardRegional.Reach.init.beq_refl)

theorem Inv.time_lt (h : Inv f T) {i j : ℕ} (hi : i ∈ T.pIndices) (e : T.continuousSuccessors i = some j) :
    i < j ∧ j < T.prefixes.length := by
  obtain ⟨p, hp, r⟩ := h.pget hi
  have hj := (List.getElem?_eq_some_iff.1 (h.time_get hi e hp)).1
  have h0 : 0 < j := by
    rcases Nat.eq_zero_or_pos j with rfl | h'
    · exact absurd e (h.time_ne_zero hi)
    · exact h'
  obtain ⟨i', hi', hlt, h1 | ⟨a, ha, h1⟩⟩ := h.closed.parent j h0 hj
  · rw [h.time_inj hi hi' e h1]; exact ⟨hlt, hj⟩
  · exact (h.disc_ne_time hi' hi ha h1 e).elim

theorem Inv.disc_lt (h : Inv f T) {i j : ℕ} {a : Action} (hi : i ∈ T.pIndices) (ha : a ∈ T.alphabet)
    (e : T.discreteSuccessors i a = some j) : i < j ∧ j < T.prefixes.length := by
  obtain ⟨p, hp, r⟩ := h.pget hi
  have hj := (List.getElem?_eq_some_iff.1 (h.disc_get hi ha e hp)).1
  have h0 : 0 < j := by
    rcases Nat.eq_zero_or_pos j with rfl | h'
    · exact absurd e (h.disc_ne_zero hi ha)
    · exact h'
  obtain ⟨i', hi', hlt, h1 | ⟨a', ha', h1⟩⟩ := h.closed.parent j h0 hj
  · exact (h.disc_ne_time hi hi' ha e h1).elim
  · rw [(h.disc_inj hi hi' ha ha' e h1).1]; exact ⟨hlt, hj⟩

/-- `i`, its time successor, and so on, up to the first one that is not in `P`. -/
inductive Chain (T : ObsTable σ) : ℕ → List ℕ → Prop
  | last {i : ℕ} : i ∉ T.pIndices → Chain T i [i]
  | next {i j : ℕ} {l : List ℕ} : i ∈ T.pIndices → T.continuousSuccessors i = some j → Chain T j l → Chain T i (i :: l)

theorem Chain.cons {i : ℕ} {l : List ℕ} (h : Chain T i l) : ∃ l', l = i :: l' := by
  cases h <;> exact ⟨_, rfl⟩

theorem Chain.det {i : ℕ} {l l' : List ℕ} (h : Chain T i l) (h' : Chain T i l') : l = l' := by
  induction h generalizing l' with
  | last hi =>
    cases h' with
    | last _ => rfl
    | next hi' _ _ => exact absurd hi' hi
  | next hi e _ ih =>
    cases h' with
    | last hi' => exact absurd hi hi'
    | next _ e' h'' =>
      rw [e] at e'
      cases e'
      rw [ih h'']

theorem Inv.chain (h : Inv f T) {i : ℕ} (hi : i < T.prefixes.length) : ∃ l, Chain T i l := by
  obtain ⟨k, hk⟩ : ∃ k, i + k + 1 = T.prefixes.length := ⟨T.prefixes.length - i - 1, by omega⟩
  induction k using Nat.strong_induction_on generalizing i with
  | _ k ih =>
    by_cases hP : i ∈ T.pIndices
    · obtain ⟨p, hp, _⟩ := h.pget hP
      obtain ⟨j, e, _⟩ := h.closed.time i hP p hp
      have := h.time_lt hP e
      obtain ⟨l, hl⟩ := ih (T.prefixes.length - j - 1) (by omega) this.2 (by omega)
      exact ⟨_, .next hP e hl⟩
    · exact ⟨_, .last hP⟩

theorem Chain.le (h : Inv f T) {i : ℕ} {l : List ℕ} (hc : Chain T i l) (hi : i < T.prefixes.length) :
    l.Pairwise (· < ·) ∧ ∀ x ∈ l, i ≤ x ∧ x < T.prefixes.length := by
  induction hc with
  | last _ => simp [hi]
  | @next i j l hP e hc ih =>
    have hj := h.time_lt hP e
    obtain ⟨h1, h2⟩ := ih hj.2
    refine ⟨List.pairwise_cons.2 ⟨fun x hx => ?_, h1⟩, ?_⟩
    · have := h2 x hx; omega
    · intro x hx
      rcases List.mem_cons.1 hx with rfl | hx
      · exact ⟨le_refl _, hi⟩
      · have := h2 x hx; omega

theorem Chain.nodup (h : Inv f T) {i : ℕ} {l : List ℕ} (hc : Chain T i l) (hi : i < T.prefixes.length) : l.Nodup :=
  (hc.le h hi).1.imp fun h => ne_of_lt h

theorem Chain.length_le (h : Inv f T) {i : ℕ} {l : List ℕ} (hc : Chain T i l) (hi : i < T.prefixes.length) :
    l.length ≤ T.prefixes.length := by
  have h1 := hc.nodup h hi
  have h2 : l ⊆ List.range T.prefixes.length := fun x hx => List.mem_range.2 ((hc.le h hi).2 x hx).2
  simpa using (List.subperm_of_subset h1 h2).length_le

/-- The position in the chain: all but the last are in `P`, and their successors follow. -/
theorem Chain.get {i : ℕ} {l : List ℕ} (hc : Chain T i l) {m x : ℕ} (hx : l[m]? = some x) :
    (x ∈ T.pIndices ∧ ∃ y, T.continuousSuccessors x = some y ∧ l[m + 1]? = some y) ∨
      (x ∉ T.pIndices ∧ m + 1 = l.length) := by
  induction hc generalizing m with
  | last hi =>
    cases m with
    | zero => simp at hx; subst hx; exact Or.inr ⟨hi, rfl⟩
    | succ m => simp at hx
  | @next i j l hP e hc ih =>
    cases m with
    | zero =>
      simp at hx
      subst hx
      left
      obtain ⟨l', rfl⟩ := hc.cons
      exact ⟨hP, j, e, by simp⟩
    | succ m =>
      simp only [List.getElem?_cons_succ] at hx ⊢
      rcases ih hx with h | h
      · exact Or.inl h
      · exact Or.inr ⟨h.1, by simp; exact h.2⟩

/-- The regions of the chain. -/
theorem Chain.region (h : Inv f T) {i : ℕ} {l : List ℕ} (hc : Chain T i l) {p : ForwardRegional}
    (hp : T.prefixes[i]? = some p) : ∀ m x, l[m]? = some x → T.prefixes[x]? = some (p.chain m) := by
  intro m
  induction m with
  | zero =>
    intro x hx
    obtain ⟨l', rfl⟩ := hc.cons
    simp at hx
    subst hx
    exact hp
  | succ m ih =>
    intro x hx
    have hm : m < l.length := by have := (List.getElem?_eq_some_iff.1 hx).1; omega
    have hy := List.getElem?_eq_getElem hm
    rcases hc.get hy with ⟨h1, y, e, hy'⟩ | ⟨_, hlen⟩
    · rw [hx] at hy'
      cases hy'
      rw [ForwardRegional.chain_succ]
      exact h.time_get h1 e (ih _ hy)
    · have := (List.getElem?_eq_some_iff.1 hx).1; omega

/-- The prefix is not a time successor. -/
def IsHead (T : ObsTable σ) (h : ℕ) : Prop := ∀ p ∈ T.pIndices, T.continuousSuccessors p ≠ some h

theorem Inv.head_zero (h : Inv f T) : IsHead T 0 := fun _ hp => h.time_ne_zero hp

theorem Inv.head_disc (h : Inv f T) {i d : ℕ} {a : Action} (hi : i ∈ T.pIndices) (ha : a ∈ T.alphabet)
    (e : T.discreteSuccessors i a = some d) : IsHead T d := fun _ hp e' => h.disc_ne_time hi hp ha e e'

/-- The chain of a prefix that is no time successor is the only one with its members. -/
theorem Chain.head_unique (h : Inv f T) {i i' : ℕ} {l l' : List ℕ} (hc : Chain T i l) (hc' : Chain T i' l')
    (hi : IsHead T i) (hi' : IsHead T i') {x : ℕ} (hx : x ∈ l) (hx' : x ∈ l') : i = i' := by
  obtain ⟨m, hm⟩ := List.getElem?_of_mem hx
  obtain ⟨m', hm'⟩ := List.getElem?_of_mem hx'
  induction m generalizing m' x with
  | zero =>
    obtain ⟨t, rfl⟩ := hc.cons
    obtain ⟨t', rfl⟩ := hc'.cons
    simp at hm
    subst hm
    cases m' with
    | zero => simpa using hm'.symm
    | succ m' =>
      have hlt : m' < (i' :: t').length := by have := (List.getElem?_eq_some_iff.1 hm').1; omega
      have hy := List.getElem?_eq_getElem hlt
      rcases hc'.get hy with ⟨h1, y, e, hy'⟩ | ⟨_, hlen⟩
      · rw [hm'] at hy'
        cases hy'
        exact absurd e (hi _ h1)
      · have := (List.getElem?_eq_some_iff.1 hm').1; omega
  | succ m ih =>
    have hlt : m < l.length := by have := (List.getElem?_eq_some_iff.1 hm).1; omega
    have hy := List.getElem?_eq_getElem hlt
    rcases hc.get hy with ⟨h1, y, e, hy'⟩ | ⟨_, hlen⟩
    · rw [hm] at hy'
      cases hy'
      cases m' with
      | zero =>
        obtain ⟨t', rfl⟩ := hc'.cons
        simp at hm'
        subst hm'
        exact absurd e (hi' _ h1)
      | succ m' =>
        have hlt' : m' < l'.length := by have := (List.getElem?_eq_some_iff.1 hm').1; omega
        have hz := List.getElem?_eq_getElem hlt'
        rcases hc'.get hz with ⟨h1', z, e', hz'⟩ | ⟨_, hlen⟩
        · rw [hm'] at hz'
          cases hz'
          have hxy := h.time_inj h1 h1' e e'
          rw [← hxy] at hz
          exact ih (List.mem_of_getElem? hy) (List.mem_of_getElem? hz) hy _ hz
        · have := (List.getElem?_eq_some_iff.1 hm').1; omega
    · have := (List.getElem?_eq_some_iff.1 hm).1; omega

/-- The members of a chain that are no time successors are its beginning. -/
theorem Chain.mem_head {i x : ℕ} {l : List ℕ} (hc : Chain T i l) (hx : x ∈ l) (hh : IsHead T x) : x = i := by
  obtain ⟨m, hm⟩ := List.getElem?_of_mem hx
  cases m with
  | zero =>
    obtain ⟨t, rfl⟩ := hc.cons
    simpa using hm.symm
  | succ m =>
    have hlt : m < l.length := by have := (List.getElem?_eq_some_iff.1 hm).1; omega
    have hy := List.getElem?_eq_getElem hlt
    rcases hc.get hy with ⟨h1, y, e, hy'⟩ | ⟨_, hlen⟩
    · rw [hm] at hy'
      cases hy'
      exact absurd e (hh _ h1)
    · have := (List.getElem?_eq_some_iff.1 hm).1; omega

end ObsTable
end LearnTA
