import Verif.Lemmas.HypBuild
import Mathlib.Data.List.Perm.Basic
import Mathlib.Data.List.Forall2

/-!
# The exploration of `generateHypothesis`: all states and the transitions inside `P`
-/

namespace LearnTA
namespace ObsTable

/-- The list has one element for each number with `S`, related to it by `R`. -/
def Indexed {β : Type} (R : ℕ → β → Prop) (S : ℕ → Prop) (l : List β) : Prop :=
  ∃ is : List ℕ, is.Nodup ∧ (∀ i, i ∈ is ↔ S i) ∧ List.Forall₂ R is l

namespace Indexed
variable {β γ : Type} {R R' : ℕ → β → Prop} {S S' : ℕ → Prop} {l : List β}

theorem nil (h : ∀ i, ¬ S i) : Indexed R S [] := ⟨[], List.nodup_nil, by simp [h], .nil⟩

theorem mono (h : Indexed R S l) (hR : ∀ i b, S i → R i b → R' i b) (hS : ∀ i, S' i ↔ S i) : Indexed R' S' l := by
  obtain ⟨is, h1, h2, h3⟩ := h
  refine ⟨is, h1, fun i => (h2 i).trans (hS i).symm, ?_⟩
  have : ∀ i ∈ is, S i := fun i hi => (h2 i).1 hi
  clear h1 h2
  induction h3 with
  | nil => exact .nil
  | cons hab _ ih =>
    exact .cons (hR _ _ (this _ (by simp)) hab) (ih fun i hi => this i (by simp [hi]))

theorem snoc (h : Indexed R S l) {i : ℕ} {b : β} (hb : R i b) (hi : ¬ S i) (hS : ∀ j, S' j ↔ S j ∨ j = i) :
    Indexed R S' (l ++ [b]) := by
  obtain ⟨is, h1, h2, h3⟩ := h
  refine ⟨is ++ [i], ?_, ?_, ?_⟩
  · rw [List.nodup_append]
    refine ⟨h1, by simp, ?_⟩
    intro x hx y hy e
    simp only [List.mem_singleton] at hy
    subst hy; subst e
    exact hi ((h2 _).1 hx)
  · intro j
    rw [List.mem_append, h2, hS]
    simp
  · exact List.rel_append h3 (.cons hb .nil)

theorem perm (h : Indexed R S l) {l' : List β} (hp : l.Perm l') : Indexed R S l' := by
  obtain ⟨is, h1, h2, h3⟩ := h
  have : (Relation.Comp (List.Forall₂ R) List.Perm) is l' := ⟨l, h3, hp⟩
  rw [List.forall₂_comp_perm_eq_perm_comp_forall₂] at this
  obtain ⟨is', h4, h5⟩ := this
  exact ⟨is', h4.nodup_iff.1 h1, fun i => by rw [← h4.mem_iff]; exact h2 i, h5⟩

theorem map {R' : ℕ → γ → Prop} (h : Indexed R S l) (g : β → γ) (hg : ∀ i b, S i → R i b → R' i (g b)) :
    Indexed R' S (l.map g) := by
  obtain ⟨is, h1, h2, h3⟩ := h
  refine ⟨is, h1, h2, ?_⟩
  have : ∀ i ∈ is, S i := fun i hi => (h2 i).1 hi
  clear h1 h2
  induction h3 with
  | nil => exact .nil
  | cons hab _ ih =>
    exact .cons (hg _ _ (this _ (by simp)) hab) (ih fun i hi => this i (by simp [hi]))

theorem exists_right (h : Indexed R S l) {b : β} (hb : b ∈ l) : ∃ i, S i ∧ R i b := by
  obtain ⟨is, h1, h2, h3⟩ := h
  clear h1
  have key : ∃ i ∈ is, R i b := by
    clear h2
    induction h3 with
    | nil => simp at hb
    | cons hab _ ih =>
      rcases List.mem_cons.1 hb with rfl | hb
      · exact ⟨_, by simp, hab⟩
      · obtain ⟨i, hi, hr⟩ := ih hb
        exact ⟨i, by simp [hi], hr⟩
  obtain ⟨i, hi, hr⟩ := key
  exact ⟨i, (h2 i).1 hi, hr⟩

theorem exists_left (h : Indexed R S l) {i : ℕ} (hi : S i) : ∃ b ∈ l, R i b := by
  obtain ⟨is, h1, h2, h3⟩ := h
  have hi := (h2 i).2 hi
  clear h1 h2
  induction h3 with
  | nil => simp at hi
  | cons hab _ ih =>
    rcases List.mem_cons.1 hi with rfl | hi
    · exact ⟨_, by simp, hab⟩
    · obtain ⟨b, hb, hr⟩ := ih hi
      exact ⟨b, by simp [hb], hr⟩

end Indexed

variable {σ : Type} {f : TimedWord → Bool} {T : ObsTable σ}

theorem setKey_new {β : Type} (k : ℕ) (v : β) (m : List (ℕ × β)) (h : ∀ p ∈ m, p.1 ≠ k) : setKey k v m = m ++ [(k, v)] := by
  induction m with
  | nil => rfl
  | cons p m ih =>
    unfold setKey
    rw [if_neg (h p (by simp)), ih fun q hq => h q (by simp [hq])]
    rfl

theorem sourceAdd_new (m : List (ℕ × List TimedCondition)) (k : ℕ) (c : TimedCondition) (h : ∀ p ∈ m, p.1 ≠ k) :
    sourceAdd m k c = m ++ [(k, [c])] := by
  unfold sourceAdd
  have : m.lookup k = none := by
    rw [List.lookup_eq_none_iff]
    intro p hp
    have := h p hp
    simpa using fun e => this e.symm
  rw [this, setKey_new k _ m h]
  rfl

/-- The successor after `a` is in `P`. -/
def Inside (T : ObsTable σ) (a : Action) (i : ℕ) : Prop := ∃ d ∈ T.pIndices, T.discreteSuccessors i a = some d

/-- An entry of `sourceMap`. -/
def Entry (T : ObsTable σ) (toState : ℕ → Option ℕ) (a : Action) (i : ℕ) (e : ℕ × List TimedCondition) : Prop :=
  ∃ d p, T.discreteSuccessors i a = some d ∧ d ∈ T.pIndices ∧ T.prefixes[i]? = some p ∧ toState d = some e.1 ∧ e.2 = [p.cond]

/-- A transition inside of `P`. -/
def Internal (T : ObsTable σ) (toState : ℕ → Option ℕ) (a : Action) (i : ℕ) (t : Trans) : Prop :=
  ∃ d p, T.discreteSuccessors i a = some d ∧ d ∈ T.pIndices ∧ T.prefixes[i]? = some p ∧ toState d = some t.target ∧
    t.resets = [(p.cond.size, .const 0)] ∧ t.guard = p.cond.toGuard

theorem Indexed.internal {toState : ℕ → Option ℕ} {a : Action} {S : ℕ → Prop} {m : List (ℕ × List TimedCondition)}
    (h : Indexed (Entry T toState a) S m) : Indexed (Internal T toState a) S (internalTransitions m) := by
  obtain ⟨is, h1, h2, h3⟩ := h
  refine ⟨is, h1, h2, ?_⟩
  clear h1 h2
  induction h3 with
  | nil => exact .nil
  | @cons i e is m hab _ ih =>
    obtain ⟨d, p, e1, e2, e3, e4, e5⟩ := hab
    unfold internalTransitions
    rw [List.flatMap_cons, e5]
    exact .cons ⟨d, p, e1, e2, e3, e4, rfl, rfl⟩ ih

/-- The pairs of prefixes and actions that were looked at: those of the states and actions in `F`, and those in `E`. -/
def Seen (B : Build) (F : ℕ → Action → Prop) (E : ℕ → Action → Prop) (i : ℕ) (a : Action) : Prop :=
  (∃ q, F q a ∧ i ∈ B.toIndices q) ∨ E i a

/-- What holds during the exploration, when the states and actions in `F` are finished, and the prefixes and actions in
`E` were looked at. -/
structure XInv (T : ObsTable σ) (F E : ℕ → Action → Prop) (kq : ℕ) (H : List ℕ) (s : Explore) : Prop where
  b : BInv T H s.build
  root : H[0]? = some 0
  bound : ∀ q a, F q a → q < H.length
  cover : ∀ i a d, Seen s.build F E i a → T.discreteSuccessors i a = some d → d ∈ T.pIndices → d ∈ H
  only : ∀ h ∈ H, h = 0 ∨ ∃ i a, Seen s.build F E i a ∧ i ∈ T.pIndices ∧ a ∈ T.alphabet ∧ T.discreteSuccessors i a = some h
  bd : ∀ i a, (i, a) ∈ s.boundaries ↔ Seen s.build F E i a ∧ ∃ d, T.discreteSuccessors i a = some d ∧ d ∉ T.pIndices
  queue : s.queue = (List.range H.length).drop kq
  kq : kq ≤ H.length
  lists : ∀ q a, F q a → Indexed (Internal T s.build.toState a) (fun i => i ∈ s.build.toIndices q ∧ Inside T a i) ((s.build.loc q).next a)
  empty : ∀ q a, ¬ F q a → (s.build.loc q).next a = []

/-- Only the prefixes that were looked at matter. -/
theorem XInv.congr {F F' E E' : ℕ → Action → Prop} {kq : ℕ} {H : List ℕ} {s : Explore} (h : XInv T F E kq H s)
    (hF : ∀ q a, F' q a ↔ F q a) (hS : ∀ i a, Seen s.build F' E' i a ↔ Seen s.build F E i a) : XInv T F' E' kq H s where
  b := h.b
  root := h.root
  bound q a hq := h.bound q a ((hF q a).1 hq)
  cover i a d hs := h.cover i a d ((hS i a).1 hs)
  only x hx := by
    rcases h.only x hx with e | ⟨i, a, h1, h2⟩
    · exact Or.inl e
    · exact Or.inr ⟨i, a, (hS i a).2 h1, h2⟩
  bd i a := by rw [h.bd, hS]
  queue := h.queue
  kq := h.kq
  lists q a hq := h.lists q a ((hF q a).1 hq)
  empty q a hq := h.empty q a (fun h' => hq ((hF q a).2 h'))

theorem visitIndex_ok {env : Env σ} (he : EnvOk env f) (hI : Inv f T) {F E : ℕ → Action → Prop} {kq : ℕ} {H : List ℕ}
    {s : Explore} (h : XInv T F E kq H s) {q0 i : ℕ} {a : Action} (hi : i ∈ s.build.toIndices q0) (ha : a ∈ T.alphabet)
    (hF : ¬ F q0 a) (hE : ¬ E i a) {S : ℕ → Prop} (hS : ∀ x, S x → E x a)
    (hm : Indexed (Entry T s.build.toState a) (fun x => S x ∧ Inside T a x) s.sourceMap) :
    OrAbort (Changes T) (visitIndex T a s i) fun s' => ∃ H', H <+: H' ∧
      XInv T F (fun x b => E x b ∨ (x = i ∧ b = a)) kq H' s' ∧
      Indexed (Entry T s'.build.toState a) (fun x => (S x ∨ x = i) ∧ Inside T a x) s'.sourceMap ∧
      ∀ q, q < H.length → s'.build.toIndices q = s.build.toIndices q := by
  have hnot : ¬ Seen s.build F E i a := by
    rintro (⟨q, h1, h2⟩ | h1)
    · rw [h.b.unique h2 hi] at h1; exact hF h1
    · exact hE h1
  have hSi : ¬ S i := fun h' => hE (hS i h')
  unfold visitIndex
  -- nothing new
  have same : ∀ (s' : Explore), s'.build = s.build → s'.queue = s.queue → s'.sourceMap = s.sourceMap → ¬ Inside T a i →
      (∀ x b, (x, b) ∈ s'.boundaries ↔ Seen s.build F (fun x b => E x b ∨ (x = i ∧ b = a)) x b ∧
        ∃ d, T.discreteSuccessors x b = some d ∧ d ∉ T.pIndices) →
      ∃ H', H <+: H' ∧ XInv T F (fun x b => E x b ∨ (x = i ∧ b = a)) kq H' s' ∧
      Indexed (Entry T s'.build.toState a) (fun x => (S x ∨ x = i) ∧ Inside T a x) s'.sourceMap ∧
      ∀ q, q < H.length → s'.build.toIndices q = s.build.toIndices q := by
    intro s' e1 e2 e3 hni hbd
    have hseen : ∀ x b, Seen s'.build F (fun x b => E x b ∨ (x = i ∧ b = a)) x b ↔ Seen s.build F E x b ∨ (x = i ∧ b = a) := by
      intro x b
      rw [e1]
      unfold Seen
      dsimp only
      exact (or_assoc).symm
    refine ⟨H, List.prefix_rfl, ⟨by rw [e1]; exact h.b, h.root, h.bound, ?_, ?_, ?_, by rw [e2]; exact h.queue, h.kq,
      by rw [e1]; exact h.lists, by rw [e1]; exact h.empty⟩, ?_, by rw [e1]; exact fun _ _ => rfl⟩
    · intro x b d hs e hd
      rcases (hseen x b).1 hs with hs | ⟨rfl, rfl⟩
      · exact h.cover x b d hs e hd
      · exact absurd ⟨d, hd, e⟩ hni
    · intro x hx
      rcases h.only x hx with e | ⟨j, b, h1, h2⟩
      · exact Or.inl e
      · exact Or.inr ⟨j, b, (hseen j b).2 (Or.inl h1), h2⟩
    · intro x b
      rw [hbd, e1]
    · rw [e1, e3]
      refine hm.mono (fun _ _ _ h => h) fun x => ?_
      constructor
      · rintro ⟨h1 | rfl, h2⟩
        · exact ⟨h1, h2⟩
        · exact absurd h2 hni
      · exact fun h1 => ⟨Or.inl h1.1, h1.2⟩
  cases hd : T.discreteSuccessors i a with
  | none =>
    refine OrAbort.ok (same s rfl rfl rfl (by rintro ⟨d, _, e⟩; rw [hd] at e; cases e) ?_)
    intro x b
    rw [h.bd]
    unfold Seen
    constructor
    · rintro ⟨h1, h2⟩; exact ⟨h1.elim Or.inl fun h => Or.inr (Or.inl h), h2⟩
    · rintro ⟨h1 | h1 | ⟨rfl, rfl⟩, h2⟩
      · exact ⟨Or.inl h1, h2⟩
      · exact ⟨Or.inr h1, h2⟩
      · obtain ⟨d, e, _⟩ := h2; rw [hd] at e; cases e
  | some d =>
    have hiP : i ∈ T.pIndices := by
      by_contra hc
      rw [(hI.closed.only i hc).2 a] at hd
      cases hd
    dsimp only
    by_cases hdP : d ∈ T.pIndices
    · have hb : T.inP d = true := inP_iff.2 hdP
      rw [hb]
      simp only [Bool.not_true, Bool.false_eq_true, if_false]
      have hhead := hI.head_disc hiP ha hd
      have hdH : d ∉ H := by
        intro hmem
        rcases h.only d hmem with rfl | ⟨j, b, h1, h2, h3, h4⟩
        · exact hI.disc_ne_zero hiP ha hd
        · obtain ⟨rfl, rfl⟩ := hI.disc_inj hiP h2 ha h3 hd h4
          exact hnot h1
      have hnone : (s.build.toState d).isNone = true := by
        have := (h.b.head_iff hhead).not.2 hdH
        simpa using this
      obtain ⟨p, hp, hpr⟩ := hI.pget hiP
      have hdlt := hI.disc_lt hiP ha hd
      obtain ⟨m, hmt⟩ := hI.matchOf he hdlt.2
      obtain ⟨pd, hpd, _⟩ := hI.pget hdP
      obtain ⟨c, hcs, _⟩ := hI.closed.time d hdP pd hpd
      obtain ⟨l0, hch0⟩ := hI.chain hdlt.2
      obtain ⟨l, rfl⟩ := hch0.cons
      have hlen : s.build.states.length = H.length := by rw [h.b.states]; simp
      have hts : (s.build.addState d m).toState d = some H.length := by
        unfold Build.addState Build.add
        dsimp only
        rw [hlen]
        simp
      rw [hnone]
      simp only [if_true, hmt, hp, ObsTable.need, hcs, Option.isSome_some, bind, Except.bind, pure, Except.pure, hts, hlen]
      refine OrAbort.bind (mergeContinuous_ok he hI H.length (T.prefixes.length + 1) d l (s.build.addState d m) hch0 hdP
        (by have := hch0.length_le hI hdlt.2; simp at this; omega)) ?_
      rintro B' ⟨rfl, huni⟩
      obtain ⟨n1, n2, n3, n4⟩ := h.b.add hI hhead hdP hdH hmt hch0 huni
      refine OrAbort.ok ⟨H ++ [d], List.prefix_append _ _, ?_, ?_, ?_⟩
      · have hind : ∀ q, q < H.length → ((s.build.addState d m).addAll H.length l).toIndices q = s.build.toIndices q := by
          intro q hq
          rw [n2, Function.update_of_ne (by omega)]
        have hseen : ∀ x b, Seen ((s.build.addState d m).addAll H.length l) F (fun x b => E x b ∨ (x = i ∧ b = a)) x b ↔
            Seen s.build F E x b ∨ (x = i ∧ b = a) := by
          intro x b
          unfold Seen
          constructor
          · rintro (⟨q, h1, h2⟩ | h1 | h1)
            · rw [hind q (h.bound q b h1)] at h2; exact Or.inl (Or.inl ⟨q, h1, h2⟩)
            · exact Or.inl (Or.inr h1)
            · exact Or.inr h1
          · rintro ((⟨q, h1, h2⟩ | h1) | h1)
            · exact Or.inl ⟨q, h1, by rw [hind q (h.bound q b h1)]; exact h2⟩
            · exact Or.inr (Or.inl h1)
            · exact Or.inr (Or.inr h1)
        refine ⟨n1, ?_, ?_, ?_, ?_, ?_, ?_, ?_, ?_, ?_⟩
        · have := h.root
          rw [List.getElem?_append_left (List.getElem?_eq_some_iff.1 this).1]
          exact this
        · intro q b hq
          have := h.bound q b hq
          simp; omega
        · intro x b d' hs e hd'
          rw [List.mem_append]
          rcases (hseen x b).1 hs with hs | ⟨rfl, rfl⟩
          · exact Or.inl (h.cover x b d' hs e hd')
          · rw [hd] at e; cases e; simp
        · intro x hx
          rcases List.mem_append.1 hx with hx | hx
          · rcases h.only x hx with e | ⟨j, b, h1, h2⟩
            · exact Or.inl e
            · exact Or.inr ⟨j, b, (hseen j b).2 (Or.inl h1), h2⟩
          · simp only [List.mem_singleton] at hx
            subst hx
            exact Or.inr ⟨i, a, (hseen i a).2 (Or.inr ⟨rfl, rfl⟩), hiP, ha, hd⟩
        · intro x b
          show (x, b) ∈ s.boundaries ↔ _
          rw [h.bd, hseen]
          constructor
          · rintro ⟨h1, h2⟩; exact ⟨Or.inl h1, h2⟩
          · rintro ⟨h1 | ⟨rfl, rfl⟩, h2⟩
            · exact ⟨h1, h2⟩
            · obtain ⟨d', e, h3⟩ := h2
              rw [hd] at e; cases e
              exact absurd hdP h3
        · show s.queue ++ [H.length] = _
          rw [h.queue]
          simp only [List.length_append, List.length_singleton, List.range_succ]
          rw [List.drop_append_of_le_length (by simpa using h.kq)]
        · have := h.kq; simp; omega
        · intro q b hq
          have hlt := h.bound q b hq
          have := h.lists q b hq
          rw [hind q hlt, n3, Function.update_of_ne (by omega)]
          refine this.mono ?_ (fun _ => Iff.rfl)
          rintro x t _ ⟨d', p', e1, e2, e3, e4, e5⟩
          exact ⟨d', p', e1, e2, e3, n4 _ _ e4, e5⟩
        · intro q b hq
          rw [n3]
          by_cases e : q = H.length
          · subst e; simp
          · rw [Function.update_of_ne e]; exact h.empty q b hq
      · dsimp only
        rw [sourceAdd_new]
        · refine (hm.mono (R' := Entry T ((s.build.addState d m).addAll H.length l).toState a) ?_ (fun _ => Iff.rfl)).snoc
            (i := i) ⟨d, p, hd, hdP, hp, ?_, rfl⟩ ?_ ?_
          · rintro x t _ ⟨d', p', e1, e2, e3, e4, e5⟩
            exact ⟨d', p', e1, e2, e3, n4 _ _ e4, e5⟩
          · rw [n1.toState, n2]; simp
          · exact fun h' => hSi h'.1
          · intro x
            constructor
            · rintro ⟨h1 | rfl, h2⟩
              · exact Or.inl ⟨h1, h2⟩
              · exact Or.inr rfl
            · rintro (⟨h1, h2⟩ | rfl)
              · exact ⟨Or.inl h1, h2⟩
              · exact ⟨Or.inr rfl, d, hdP, hd⟩
        · intro e he' hc
          obtain ⟨x, _, d', p', e1, e2, e3, e4, e5⟩ := hm.exists_right he'
          have := h.b.lt ((h.b.toState _ _).1 e4)
          omega
      · intro q hq
        dsimp only
        rw [n2, Function.update_of_ne (by omega)]
    · have hb : T.inP d = false := by rw [Bool.eq_false_iff, ne_eq, inP_iff]; exact hdP
      rw [hb]
      simp only [Bool.not_false, if_true]
      refine OrAbort.ok (same _ rfl rfl rfl (by rintro ⟨d', h1, e⟩; rw [hd] at e; cases e; exact hdP h1) ?_)
      intro x b
      rw [List.mem_append, h.bd]
      unfold Seen
      simp only [List.mem_singleton, Prod.mk.injEq]
      constructor
      · rintro (⟨h1, h2⟩ | ⟨rfl, rfl⟩)
        · exact ⟨h1.elim Or.inl fun h => Or.inr (Or.inl h), h2⟩
        · exact ⟨Or.inr (Or.inr ⟨rfl, rfl⟩), d, hd, hdP⟩
      · rintro ⟨h1 | h1 | ⟨rfl, rfl⟩, h2⟩
        · exact Or.inl ⟨Or.inl h1, h2⟩
        · exact Or.inl ⟨Or.inr h1, h2⟩
        · exact Or.inr ⟨rfl, rfl⟩

end ObsTable
end LearnTA
