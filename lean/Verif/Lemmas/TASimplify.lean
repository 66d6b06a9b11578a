import Verif.Lemmas.TAPasses

namespace LearnTA
namespace TA

/-! ### simplifyTransitions -/

theorem simplifyTransitions_eq (A : TA) (hn : A.states.Nodup) : A.simplifyTransitions =
    { A with loc := fun p => if p ∈ A.states then
        { A.loc p with next := fun a => reduceTrans ((A.loc p).next a) } else A.loc p } :=
  foldl_setLoc (fun s => { s with next := fun a => reduceTrans (s.next a) }) A.states A hn

/-- The test of `reduceTrans`. -/
def covers (u t : Trans) : Bool :=
  decide (t.target = u.target) && decide (t.resets = u.resets) && Guard.isWeaker u.guard t.guard

theorem covers_iff (u t : Trans) : covers u t = true ↔
    t.target = u.target ∧ t.resets = u.resets ∧ Guard.isWeaker u.guard t.guard = true := by
  simp [covers, and_assoc]

/-- `reduceTrans` from an arbitrary intermediate state of the loop. -/
def reduceFrom (kept ts : List Trans) : List Trans :=
  ts.foldl (fun kept t => if kept.any (fun u => covers u t) then kept else kept ++ [t]) kept

theorem reduceTrans_eq (ts : List Trans) : reduceTrans ts = reduceFrom [] ts := rfl

theorem reduceFrom_prefix (kept ts : List Trans) :
    ∃ l, reduceFrom kept ts = kept ++ l ∧ l.Sublist ts := by
  induction ts generalizing kept with
  | nil => exact ⟨[], by simp [reduceFrom], List.Sublist.slnil⟩
  | cons t ts ih =>
    simp only [reduceFrom, List.foldl_cons]
    split
    · obtain ⟨l, h1, h2⟩ := ih kept
      exact ⟨l, h1, h2.cons t⟩
    · obtain ⟨l, h1, h2⟩ := ih (kept ++ [t])
      refine ⟨t :: l, ?_, h2.cons_cons t⟩
      rw [List.append_cons kept t l]; exact h1

theorem reduceTrans_sublist (ts : List Trans) : (reduceTrans ts).Sublist ts := by
  obtain ⟨l, h1, h2⟩ := reduceFrom_prefix [] ts
  rw [reduceTrans_eq, h1]; simpa using h2

theorem mem_reduceFrom_covered (kept ts : List Trans) (t : Trans) (ht : t ∈ ts) :
    ∃ u ∈ reduceFrom kept ts, t.target = u.target ∧ t.resets = u.resets ∧
      Guard.isWeaker u.guard t.guard = true := by
  induction ts generalizing kept with
  | nil => simp at ht
  | cons x ts ih =>
    simp only [List.mem_cons] at ht
    simp only [reduceFrom, List.foldl_cons]
    rcases ht with rfl | ht
    · split
      · rename_i h
        rw [List.any_eq_true] at h
        obtain ⟨u, hu, hc⟩ := h
        obtain ⟨l, h1, -⟩ := reduceFrom_prefix kept ts
        refine ⟨u, ?_, (covers_iff u t).1 hc⟩
        show u ∈ reduceFrom kept ts
        rw [h1]; simp [hu]
      · obtain ⟨l, h1, -⟩ := reduceFrom_prefix (kept ++ [t]) ts
        refine ⟨t, ?_, rfl, rfl, Guard.isWeaker_refl _⟩
        show t ∈ reduceFrom (kept ++ [t]) ts
        rw [h1]; simp
    · exact ih _ ht

theorem reduceFrom_find (v : Valuation) (kept ts : List Trans)
    (hk : ∀ u ∈ kept, u.guard.satisfy v = false) :
    (reduceFrom kept ts).find? (fun t => t.guard.satisfy v) =
      ts.find? (fun t => t.guard.satisfy v) := by
  induction ts generalizing kept with
  | nil => simpa [reduceFrom] using hk
  | cons t ts ih =>
    simp only [reduceFrom, List.foldl_cons]
    by_cases hs : t.guard.satisfy v = true
    · rw [List.find?_cons_of_pos (p := fun t : Trans => t.guard.satisfy v) hs]
      rw [if_neg]
      · obtain ⟨l, h1, -⟩ := reduceFrom_prefix (kept ++ [t]) ts
        show (reduceFrom (kept ++ [t]) ts).find? _ = _
        rw [h1, List.append_assoc, List.find?_append]
        have : kept.find? (fun t => t.guard.satisfy v) = none := by
          rw [List.find?_eq_none]
          intro u hu
          simp [hk u hu]
        rw [this]
        simp [List.find?_cons, hs]
      · rw [List.any_eq_true]
        rintro ⟨u, hu, hc⟩
        have hw := ((covers_iff u t).1 hc).2.2
        have := Guard.isWeaker_sound hw v ((Guard.satisfy_iff _ _).1 hs)
        rw [← Guard.satisfy_iff] at this
        rw [hk u hu] at this; simp at this
    · rw [List.find?_cons_of_neg (p := fun t : Trans => t.guard.satisfy v) hs]
      split
      · exact ih kept hk
      · refine ih (kept ++ [t]) ?_
        intro u hu
        simp only [List.mem_append, List.mem_singleton] at hu
        rcases hu with hu | rfl
        · exact hk u hu
        · simpa using hs

/-- The runner takes the same transition before and after. -/
theorem reduceTrans_find (v : Valuation) (ts : List Trans) :
    (reduceTrans ts).find? (fun t => t.guard.satisfy v) =
      ts.find? (fun t => t.guard.satisfy v) :=
  reduceFrom_find v [] ts (by simp)

theorem simplifyTransitions_accepts (A : TA) (hn : A.states.Nodup) (w : TimedWord) :
    A.simplifyTransitions.Accepts w ↔ A.Accepts w := by
  rw [simplifyTransitions_eq A hn]
  constructor
  · apply accepts_of_sim (fun c d => c = d)
    · intro q hq; exact ⟨q, hq, rfl⟩
    · rintro c d q rfl _; rfl
    · rintro c d rfl a t ht hg
      refine ⟨t, ?_, hg, rfl⟩
      simp only at ht
      split at ht
      · exact (reduceTrans_sublist _).subset ht
      · exact ht
    · rintro c d rfl
      simp only
      split <;> exact id
  · apply accepts_of_sim (fun c d => c = d)
    · intro q hq; exact ⟨q, hq, rfl⟩
    · rintro c d q rfl _; rfl
    · rintro c d rfl a t ht hg
      simp only
      split
      · obtain ⟨u, hu, h1, h2, h3⟩ := mem_reduceFrom_covered [] _ t ht
        exact ⟨u, hu, Guard.isWeaker_sound h3 _ hg, by rw [h1, h2]⟩
      · exact ⟨t, ht, hg, rfl⟩
    · rintro c d rfl
      simp only
      split <;> exact id

/-! ### Sublists of transitions keep well-formedness -/

/-- All transitions of `B` are transitions of `A`. -/
structure Sub (B A : TA) : Prop where
  states : B.states.Sublist A.states
  init : ∀ q ∈ B.init, q ∈ A.init
  next : ∀ p ∈ B.states, ∀ a, ((B.loc p).next a).Sublist ((A.loc p).next a)

theorem Sub.refl (A : TA) : Sub A A := ⟨List.Sublist.refl _, fun _ h => h, fun _ _ _ => List.Sublist.refl _⟩

theorem Sub.trans {A B C : TA} (h1 : Sub C B) (h2 : Sub B A) : Sub C A :=
  ⟨h1.states.trans h2.states, fun q hq => h2.init q (h1.init q hq),
   fun p hp a => (h1.next p hp a).trans (h2.next p (h1.states.subset hp) a)⟩

theorem Sub.epsFree {A B : TA} (h : Sub B A) (he : A.EpsFree) : B.EpsFree := by
  intro p hp
  have := h.next p hp unobservable
  rw [he p (h.states.subset hp)] at this
  simpa using this

theorem Sub.deterministic {A B : TA} (h : Sub B A) (he : A.Deterministic) : B.Deterministic :=
  fun p hp a => (he p (h.states.subset hp) a).sublist (h.next p hp a)

theorem Sub.resets {A B : TA} (h : Sub B A) (hr : A.NonnegResets) : B.NonnegResets :=
  fun p hp a t ht => hr p (h.states.subset hp) a t ((h.next p hp a).subset ht)

theorem Sub.small {A B : TA} (h : Sub B A) (hr : A.SmallGuards) : B.SmallGuards :=
  fun p hp a t ht => hr p (h.states.subset hp) a t ((h.next p hp a).subset ht)

theorem Sub.wf {A B : TA} (h : Sub B A) (hw : A.WF) (hc : B.Closed) (hm : B.maxC = A.maxC) :
    B.WF where
  nodup := hw.nodup.sublist h.states
  closed := hc
  clocks := by
    intro p hp a t ht
    unfold clockSize
    rw [hm]
    exact hw.clocks p (h.states.subset hp) a t ((h.next p hp a).subset ht)
  resets := h.resets hw.resets
  small := h.small hw.small

theorem simplifyTransitions_sub (A : TA) (hn : A.states.Nodup) : Sub A.simplifyTransitions A := by
  rw [simplifyTransitions_eq A hn]
  refine ⟨List.Sublist.refl _, fun _ h => h, ?_⟩
  intro p hp a
  simp only [show p ∈ A.states from hp, if_true]
  exact reduceTrans_sublist _

theorem simplifyTransitions_wf (A : TA) (hw : A.WF) : A.simplifyTransitions.WF := by
  have hs := simplifyTransitions_sub A hw.nodup
  refine hs.wf hw ?_ (by rw [simplifyTransitions_eq A hw.nodup])
  have h1 : A.simplifyTransitions.states = A.states := by rw [simplifyTransitions_eq A hw.nodup]
  constructor
  · intro q hq; rw [h1]; exact hw.closed.1 q (hs.init q hq)
  · intro p hp a t ht
    rw [h1]
    exact hw.closed.2 p (hs.states.subset hp) a t ((hs.next p hp a).subset ht)

/-! ### Breadth-first search -/

theorem bfsVisit_spec (l : List ℕ) (s : List ℕ × List ℕ) :
    (l.foldl bfsVisit s).1 = s.1 ++ (l.foldl bfsVisit s).1.drop s.1.length ∧
    (l.foldl bfsVisit s).2 = s.2 ++ (l.foldl bfsVisit s).1.drop s.1.length ∧
    (∀ x, x ∈ (l.foldl bfsVisit s).1 ↔ x ∈ s.1 ∨ x ∈ l) ∧
    (s.1.Nodup → (l.foldl bfsVisit s).1.Nodup) := by
  induction l generalizing s with
  | nil => simp
  | cons q l ih =>
    simp only [List.foldl_cons]
    by_cases hq : q ∈ s.1
    · have : bfsVisit s q = s := by simp [bfsVisit, hq]
      rw [this]
      obtain ⟨h1, h2, h3, h4⟩ := ih s
      refine ⟨h1, h2, ?_, h4⟩
      intro x
      rw [h3, List.mem_cons]
      constructor
      · rintro (h | h) <;> simp [h]
      · rintro (h | rfl | h)
        · exact Or.inl h
        · exact Or.inl hq
        · exact Or.inr h
    · have e : bfsVisit s q = (s.1 ++ [q], s.2 ++ [q]) := by simp [bfsVisit, hq]
      rw [e]
      obtain ⟨h1, h2, h3, h4⟩ := ih (s.1 ++ [q], s.2 ++ [q])
      generalize hr : l.foldl bfsVisit (s.1 ++ [q], s.2 ++ [q]) = r at h1 h2 h3 h4 ⊢
      simp only at h1 h2 h3 h4
      have hd : r.1.drop s.1.length = q :: r.1.drop (s.1 ++ [q]).length := by
        conv_lhs => rw [h1]
        rw [List.append_assoc, List.drop_append]
        simp
      refine ⟨?_, ?_, ?_, ?_⟩
      · rw [hd]; conv_lhs => rw [h1]
        simp
      · rw [hd, h2]; simp
      · intro x; rw [h3]; simp [or_assoc]
      · intro hn
        refine h4 ?_
        rw [List.nodup_append]
        refine ⟨hn, by simp, ?_⟩
        intro a ha b hb
        simp only [List.mem_singleton] at hb
        subst hb
        intro hab; subst hab; exact hq ha

/-- Loop invariant of the breadth-first search. -/
structure BfsInv (succ : ℕ → List ℕ) (U S : List ℕ) (s : List ℕ × List ℕ) : Prop where
  nodup : s.1.Nodup
  sub : ∀ x ∈ s.1, x ∈ U
  queue : ∀ x ∈ s.2, x ∈ s.1
  start : ∀ x ∈ S, x ∈ s.1
  done : ∀ x ∈ s.1, x ∈ s.2 ∨ ∀ y ∈ succ x, y ∈ s.1
  reach : ∀ x ∈ s.1, ∃ y ∈ S, Relation.ReflTransGen (fun a b => b ∈ succ a) y x

theorem bfsInv_step {succ : ℕ → List ℕ} {U S : List ℕ} (hU : ∀ x ∈ U, ∀ y ∈ succ x, y ∈ U)
    {visited queue : List ℕ} {p : ℕ} (h : BfsInv succ U S (visited, p :: queue)) :
    BfsInv succ U S ((succ p).foldl bfsVisit (visited, queue)) := by
  obtain ⟨h1, h2, h3, h4⟩ := bfsVisit_spec (succ p) (visited, queue)
  generalize (succ p).foldl bfsVisit (visited, queue) = r at h1 h2 h3 h4 ⊢
  simp only at h1 h2 h3 h4
  have hp : p ∈ visited := h.queue p (by simp)
  refine ⟨h4 h.nodup, ?_, ?_, ?_, ?_, ?_⟩
  · intro x hx
    rw [h3] at hx
    rcases hx with hx | hx
    · exact h.sub x hx
    · exact hU p (h.sub p hp) x hx
  · intro x hx
    rw [h2, List.mem_append] at hx
    rcases hx with hx | hx
    · rw [h3]; exact Or.inl (h.queue x (by simp [hx]))
    · exact List.mem_of_mem_drop hx
  · intro x hx; rw [h3]; exact Or.inl (h.start x hx)
  · intro x hx
    rw [h1, List.mem_append] at hx
    rcases hx with hx | hx
    · rcases h.done x hx with hd | hd
      · simp only [List.mem_cons] at hd
        rcases hd with rfl | hd
        · right; intro y hy; rw [h3]; exact Or.inr hy
        · left; rw [h2]; simp [hd]
      · right; intro y hy; rw [h3]; exact Or.inl (hd y hy)
    · left; rw [h2]; simp [hx]
  · intro x hx
    rw [h3] at hx
    rcases hx with hx | hx
    · exact h.reach x hx
    · obtain ⟨y, hy, hr⟩ := h.reach p hp
      exact ⟨y, hy, hr.tail hx⟩

theorem bfs_inv {succ : ℕ → List ℕ} {U S : List ℕ} (hU : ∀ x ∈ U, ∀ y ∈ succ x, y ∈ U)
    (fuel : ℕ) (s : List ℕ × List ℕ) (h : BfsInv succ U S s)
    (hf : U.length + s.2.length ≤ fuel + s.1.length) :
    BfsInv succ U S (bfs succ fuel s) ∧ (bfs succ fuel s).2 = [] := by
  induction fuel generalizing s with
  | zero =>
    refine ⟨h, ?_⟩
    have hle : s.1.length ≤ U.length := by
      have := (h.nodup.subperm (fun x hx => h.sub x hx))
      exact this.length_le
    have : s.2.length = 0 := by omega
    simpa [bfs] using this
  | succ fuel ih =>
    rcases s with ⟨visited, _ | ⟨p, queue⟩⟩
    · exact ⟨h, rfl⟩
    · simp only [bfs]
      refine ih _ (bfsInv_step hU h) ?_
      obtain ⟨h1, h2, -, -⟩ := bfsVisit_spec (succ p) (visited, queue)
      generalize (succ p).foldl bfsVisit (visited, queue) = r at h1 h2 ⊢
      simp only [List.length_cons] at h1 h2 hf
      have e1 : r.1.length = visited.length + (r.1.drop visited.length).length := by
        conv_lhs => rw [h1]
        simp only [List.length_append]
      have e2 : r.2.length = queue.length + (r.1.drop visited.length).length := by
        conv_lhs => rw [h2]
        simp only [List.length_append]
      omega

/-- The search visits exactly the states reachable from the start states. -/
theorem bfs_spec (succ : ℕ → List ℕ) (U S : List ℕ)
    (hU : ∀ x ∈ U, ∀ y ∈ succ x, y ∈ U) (hS : ∀ x ∈ S, x ∈ U) (x : ℕ) :
    x ∈ (bfs succ (U.length + 1) (S.foldl bfsVisit ([], []))).1 ↔
      ∃ y ∈ S, Relation.ReflTransGen (fun a b => b ∈ succ a) y x := by
  obtain ⟨h1, h2, h3, h4⟩ := bfsVisit_spec S ([], [])
  have hinv : BfsInv succ U S (S.foldl bfsVisit ([], [])) := by
    generalize S.foldl bfsVisit ([], []) = r at h1 h2 h3 h4 ⊢
    simp at h1 h2 h3 h4
    refine ⟨h4, fun x hx => hS x ((h3 x).1 hx), ?_, fun x hx => (h3 x).2 hx, ?_, ?_⟩
    · rw [h2]; exact fun _ h => h
    · intro x hx; left; rw [h2]; exact hx
    · intro x hx; exact ⟨x, (h3 x).1 hx, .refl⟩
  have hlen : (S.foldl bfsVisit ([], [])).2.length = (S.foldl bfsVisit ([], [])).1.length := by
    generalize S.foldl bfsVisit ([], []) = r at h1 h2 ⊢
    simp at h2; rw [h2]
  obtain ⟨hi, he⟩ := bfs_inv hU (U.length + 1) _ hinv (by omega)
  constructor
  · exact hi.reach x
  · rintro ⟨y, hy, hr⟩
    induction hr with
    | refl => exact hi.start y hy
    | tail _ hb ih =>
      rcases hi.done _ ih with h | h
      · rw [he] at h; simp at h
      · exact h _ hb

theorem bfs_nodup (succ : ℕ → List ℕ) (U S : List ℕ)
    (hU : ∀ x ∈ U, ∀ y ∈ succ x, y ∈ U) (hS : ∀ x ∈ S, x ∈ U) :
    (bfs succ (U.length + 1) (S.foldl bfsVisit ([], []))).1.Nodup := by
  obtain ⟨h1, h2, h3, h4⟩ := bfsVisit_spec S ([], [])
  have hinv : BfsInv succ U S (S.foldl bfsVisit ([], [])) := by
    generalize S.foldl bfsVisit ([], []) = r at h1 h2 h3 h4 ⊢
    simp at h1 h2 h3 h4
    refine ⟨h4, fun x hx => hS x ((h3 x).1 hx), ?_, fun x hx => (h3 x).2 hx, ?_, ?_⟩
    · rw [h2]; exact fun _ h => h
    · intro x hx; left; rw [h2]; exact hx
    · intro x hx; exact ⟨x, (h3 x).1 hx, .refl⟩
  have hlen : (S.foldl bfsVisit ([], [])).2.length = (S.foldl bfsVisit ([], [])).1.length := by
    generalize S.foldl bfsVisit ([], []) = r at h1 h2 ⊢
    simp at h2; rw [h2]
  exact (bfs_inv hU (U.length + 1) _ hinv (by omega)).1.nodup

theorem mem_succs (A : TA) (p q : ℕ) :
    q ∈ A.succs p ↔ ∃ a, ∃ t ∈ (A.loc p).next a, t.target = q := by
  simp [succs]

/-- Graph reachability: some sequence of transitions leads from `p` to `q`. -/
def Edge (A : TA) (p q : ℕ) : Prop := ∃ a, ∃ t ∈ (A.loc p).next a, t.target = q

theorem mem_reachableStates (A : TA) (hc : A.Closed) (x : ℕ) :
    x ∈ A.reachableStates ↔ ∃ q ∈ A.init, Relation.ReflTransGen A.Edge q x := by
  have := bfs_spec A.succs A.states A.init (fun p hp y hy => by
    obtain ⟨a, t, ht, rfl⟩ := (mem_succs A p y).1 hy
    exact hc.2 p hp a t ht) hc.1 x
  have he : (fun a b => b ∈ A.succs a) = A.Edge := by
    funext a b; exact propext (mem_succs A a b)
  rw [he] at this
  exact this

end TA
end LearnTA
