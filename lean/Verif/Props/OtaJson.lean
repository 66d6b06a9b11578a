import Verif.Lemmas.OtaJson
import Verif.Props.Experiment

/-!
# Properties of the parser of one-clock automata: C77
-/

namespace LearnTA.Props
open OtaJson

/-- The transition of an edge. -/
def edgeTrans (l : List Str) (e : Edge) : Trans :=
  ⟨l.idxOf e.target, if e.reset then [(0, .const 0)] else [], e.interval.guard⟩

/-- The states after some edges have been added. -/
def addEdges (l : List Str) (edges : List Edge) (loc : ℕ → TAState) (p : ℕ) : TAState :=
  ⟨(loc p).isMatch, fun a => (loc p).next a ++
    (edges.filter fun e => decide (l.idxOf e.source = p ∧ e.label = a)).map (edgeTrans l)⟩

/-- The text of an edge. -/
def edgeText (e : Edge) : List Str :=
  [e.source, [e.label], e.interval.text, [if e.reset then 114 else 110], e.target]

theorem addTransition_edge (l : List Str) (e : Edge) (h1 : e.source ∈ l) (h2 : e.target ∈ l) (h3 : e.interval.Below intMax)
    (s : (ℕ → TAState) × ℤ) : addTransition l s (edgeText e) = .ok (addEdges l [e] s.1, e.interval.maxC s.2) := by
  obtain ⟨loc, m⟩ := s
  unfold edgeText addTransition
  simp only [parseRange_text e.interval h3, find, if_pos h1, if_pos h2]
  have hr : ((if e.reset then 114 else 110 : Action) :: [] = [cR]) ↔ e.reset = true := by
    cases e.reset <;> decide
  refine congrArg Except.ok (Prod.ext ?_ rfl)
  funext p
  simp only [hr]
  by_cases hp : p = l.idxOf e.source
  · subst hp
    rw [Function.update_self]
    unfold addEdges TAState.setNext
    congr 1
    funext a
    by_cases ha : a = e.label
    · subst ha
      rw [Function.update_self]
      simp [edgeTrans]
    · rw [Function.update_of_ne ha]
      simp [Ne.symm ha]
  · rw [Function.update_of_ne hp]
    unfold addEdges
    simp [Ne.symm hp]

theorem addEdges_cons (l : List Str) (e : Edge) (es : List Edge) (loc : ℕ → TAState) :
    addEdges l es (addEdges l [e] loc) = addEdges l (e :: es) loc := by
  funext p
  unfold addEdges
  simp only [TAState.mk.injEq, true_and]
  funext a
  rw [List.append_assoc, ← List.map_append, ← List.filter_append, List.singleton_append]

theorem addTransitions_edges (l : List Str) (es : List Edge) (h : ∀ e ∈ es, e.source ∈ l ∧ e.target ∈ l ∧ e.interval.Below intMax)
    (s : (ℕ → TAState) × ℤ) : addTransitions l s (es.map edgeText) =
      .ok (addEdges l es s.1, es.foldl (fun m e => e.interval.maxC m) s.2) := by
  induction es generalizing s with
  | nil =>
    refine congrArg Except.ok (Prod.ext ?_ rfl)
    funext p
    simp [addEdges]
  | cons e es ih =>
    obtain ⟨h1, h2, h3⟩ := h e (by simp)
    rw [List.map_cons, addTransitions, addTransition_edge l e h1 h2 h3 s]
    simp only
    rw [ih (fun f hf => h f (by simp [hf])), addEdges_cons]
    rfl

/-- The automaton of a description. -/
def autOf (order : List Str → List Str) (D : Description) : TA where
  loc := addEdges D.locations D.edges (initialStates D.doc)
  states := (order D.locations.dedup).map fun n => D.locations.idxOf n
  init := [D.locations.idxOf D.initial]
  maxC := [D.edges.foldl (fun m e => e.interval.maxC m) 0]

theorem parse_eq (order : List Str → List Str) (D : Description) (h : D.WellFormed) :
    parse order D.doc = if (autOf order D).deterministic then .ok (D.alphabet, autOf order D) else .error .exception := by
  have e1 : D.doc.sigma.any (fun s => s.length != 1) = false := by
    rw [List.any_eq_false]
    intro s hs
    obtain ⟨a, -, rfl⟩ := List.mem_map.1 hs
    simp
  have e2 : D.doc.sigma.filterMap List.head? = D.alphabet := by
    unfold Description.doc
    simp only [List.filterMap_map]
    rw [show (List.head? ∘ fun a : Action => [a]) = some from rfl, List.filterMap_some]
  have e3 : D.doc.tran = D.edges.map edgeText := rfl
  have e4 : find D.doc.l D.doc.init = .ok (D.locations.idxOf D.initial) := if_pos h.initial
  unfold parse
  rw [e1, e2, e3, e4]
  have e5 : D.doc.l = D.locations := rfl
  rw [e5, addTransitions_edges D.locations D.edges (fun e he => ⟨h.source e he, h.target e he, h.small e he⟩)]
  simp only [Bool.false_eq_true, ↓reduceIte]
  rfl

/-! ### Arbitrary documents -/

/-- What holds of the states while the transitions are added. -/
def Good (l : List Str) (s : (ℕ → TAState) × ℤ) : Prop :=
  0 ≤ s.2 ∧ ∀ p a, ∀ t ∈ (s.1 p).next a, (∃ n ∈ l, t.target = l.idxOf n) ∧ (t.resets = [] ∨ t.resets = [(0, .const 0)]) ∧
    ∀ c ∈ t.guard, c.x = 0 ∧ c.c ≤ s.2

theorem parseLower_good {s : Str} {m m' : ℤ} {g : Guard} (h : parseLower s m = .ok (g, m')) :
    m ≤ m' ∧ ∀ c ∈ g, c.x = 0 ∧ c.c ≤ m' := by
  unfold parseLower at h
  split at h
  · cases h; simp
  · split at h
    · cases h
    · split at h
      · cases h
      · cases h; simp

theorem parseUpper_good {s : Str} {m m' : ℤ} {g : Guard} (h : parseUpper s m = .ok (g, m')) :
    m ≤ m' ∧ ∀ c ∈ g, c.x = 0 ∧ c.c ≤ m' := by
  unfold parseUpper at h
  split at h
  · cases h; simp
  · split at h
    · cases h
    · split at h
      · cases h
      · cases h; simp

theorem parseRange_good {s : Str} {m m' : ℤ} {g : Guard} (h : parseRange s m = .ok (g, m')) :
    m ≤ m' ∧ ∀ c ∈ g, c.x = 0 ∧ c.c ≤ m' := by
  unfold parseRange at h
  split at h
  · cases h
  · rename_i h1
    split at h
    · cases h
    · rename_i h2
      cases h
      obtain ⟨a1, a2⟩ := parseLower_good h1
      obtain ⟨b1, b2⟩ := parseUpper_good h2
      refine ⟨a1.trans b1, fun c hc => ?_⟩
      rcases List.mem_append.1 hc with hc | hc
      · exact ⟨(a2 c hc).1, (a2 c hc).2.trans b1⟩
      · exact b2 c hc

theorem find_ok {l : List Str} {n : Str} {p : ℕ} (h : find l n = .ok p) : n ∈ l ∧ p = l.idxOf n := by
  unfold find at h
  split at h
  · rename_i hn; cases h; exact ⟨hn, rfl⟩
  · cases h

theorem addTransition_good {l : List Str} {s s' : (ℕ → TAState) × ℤ} {t : List Str} (h : addTransition l s t = .ok s')
    (hs : Good l s) : Good l s' ∧ ∀ p, (s'.1 p).isMatch = (s.1 p).isMatch := by
  unfold addTransition at h
  split at h
  · split at h
    · rename_i source label rest a range reset target rest'
      cases h1 : parseRange range s.2 with
      | error x => rw [h1] at h; cases h
      | ok r =>
        obtain ⟨g, m⟩ := r
        rw [h1] at h
        simp only at h
        cases h2 : find l source with
        | error x => rw [h2] at h; cases h
        | ok p =>
          rw [h2] at h
          simp only at h
          cases h3 : find l target with
          | error x => rw [h3] at h; cases h
          | ok q =>
            rw [h3] at h
            simp only at h
            cases h
            obtain ⟨a1, a2⟩ := parseRange_good h1
            obtain ⟨b1, rfl⟩ := find_ok h2
            obtain ⟨c1, rfl⟩ := find_ok h3
            have old : ∀ p a, ∀ t ∈ (s.1 p).next a, (∃ n ∈ l, t.target = l.idxOf n) ∧
                (t.resets = [] ∨ t.resets = [(0, .const 0)]) ∧ ∀ c ∈ t.guard, c.x = 0 ∧ c.c ≤ m := by
              intro p a t ht
              obtain ⟨k1, k2, k3⟩ := hs.2 p a t ht
              exact ⟨k1, k2, fun c hc => ⟨(k3 c hc).1, (k3 c hc).2.trans a1⟩⟩
            refine ⟨⟨hs.1.trans a1, fun p' a' t ht => ?_⟩, fun p' => ?_⟩
            · simp only at ht ⊢
              by_cases hp : p' = l.idxOf source
              · subst hp
                rw [Function.update_self] at ht
                unfold TAState.setNext at ht
                simp only at ht
                by_cases ha : a' = a
                · subst ha
                  rw [Function.update_self] at ht
                  rcases List.mem_append.1 ht with ht | ht
                  · exact old _ _ t ht
                  · rw [List.mem_singleton] at ht
                    subst ht
                    refine ⟨⟨target, c1, rfl⟩, ?_, a2⟩
                    simp only
                    split <;> simp
                · rw [Function.update_of_ne ha] at ht
                  exact old _ _ t ht
              · rw [Function.update_of_ne hp] at ht
                exact old _ _ t ht
            · simp only
              by_cases hp : p' = l.idxOf source
              · subst hp; rw [Function.update_self]; rfl
              · rw [Function.update_of_ne hp]
    · cases h
    · cases h
  · cases h

theorem addTransitions_good {l : List Str} {ts : List (List Str)} {s s' : (ℕ → TAState) × ℤ}
    (h : addTransitions l s ts = .ok s') (hs : Good l s) : Good l s' ∧ ∀ p, (s'.1 p).isMatch = (s.1 p).isMatch := by
  induction ts generalizing s with
  | nil => cases h; exact ⟨hs, fun _ => rfl⟩
  | cons t ts ih =>
    rw [addTransitions] at h
    cases h1 : addTransition l s t with
    | error x => rw [h1] at h; cases h
    | ok s1 =>
      rw [h1] at h
      obtain ⟨a1, a2⟩ := addTransition_good h1 hs
      obtain ⟨b1, b2⟩ := ih h a1
      exact ⟨b1, fun p => (b2 p).trans (a2 p)⟩

/-- C77: whatever the document, if it is accepted the result is a deterministic automaton with one initial state and one clock
which is only set to 0; its recorded constant bounds all constants, and if this is below the largest `int`, the automaton is
well-formed.  The alphabet consists of single characters. -/
theorem C77_accepted (order : List Str → List Str) (ho : ∀ l, (order l).Perm l) (d : Doc) (alphabet : List Action) (A : TA)
    (h : parse order d = .ok (alphabet, A)) :
    d.sigma = alphabet.map (fun a => [a]) ∧ A.deterministic = true ∧ A.init.length = 1 ∧ A.clockSize = 1 ∧ A.ConstResets ∧
      A.UpdatesInOrder ∧ A.ResetsOrdered ∧ A.MaxOK ∧ A.states.length = d.l.dedup.length ∧
      (A.maxC.getD 0 0 < intMax → A.WF) := by
  unfold parse at h
  split at h
  · cases h
  · rename_i hsig
    cases h1 : find d.l d.init with
    | error x => rw [h1] at h; cases h
    | ok i =>
      rw [h1] at h
      simp only at h
      cases h2 : addTransitions d.l (initialStates d, 0) d.tran with
      | error x => rw [h2] at h; cases h
      | ok r =>
        obtain ⟨loc, m⟩ := r
        rw [h2] at h
        simp only at h
        split at h
        · rename_i hdet
          cases h
          obtain ⟨⟨g1, g2⟩, -⟩ := addTransitions_good h2 ⟨le_refl 0, fun p a t ht => (by cases ht)⟩
          obtain ⟨i1, rfl⟩ := find_ok h1
          have hmem : ∀ n ∈ d.l, d.l.idxOf n ∈ (order d.l.dedup).map fun n => d.l.idxOf n := fun n hn =>
            List.mem_map_of_mem ((ho _).mem_iff.2 (List.mem_dedup.2 hn))
          have hconst : TA.ConstResets ⟨loc, (order d.l.dedup).map fun n => d.l.idxOf n, [d.l.idxOf d.init], [m]⟩ := by
            intro p hp a t ht r hr
            rcases (g2 p a t ht).2.1 with e | e <;> rw [e] at hr
            · cases hr
            · rw [List.mem_singleton] at hr; subst hr; exact ⟨0, by simp⟩
          refine ⟨?_, hdet, rfl, rfl, hconst, ?_, ?_, ⟨?_, ?_⟩, ?_, fun hm => ⟨?_, ⟨?_, ?_⟩, ?_, ?_, ?_⟩⟩
          · rw [Bool.not_eq_true, List.any_eq_false] at hsig
            have key : ∀ l : List Str, (∀ s ∈ l, ¬ (s.length != 1) = true) → l = (l.filterMap List.head?).map fun a => [a] := by
              intro l
              induction l with
              | nil => intro _; rfl
              | cons s l ih =>
                intro hl
                have h0 := hl s (by simp)
                simp only [bne_iff_ne, ne_eq, not_not] at h0
                obtain ⟨a, rfl⟩ := List.length_eq_one_iff.1 h0
                rw [List.filterMap_cons_some (f := List.head?) (a := [a]) (b := a) rfl, List.map_cons, ← ih fun t ht => hl t (by simp [ht])]
            exact key _ hsig
          · intro p hp a t ht
            rcases (g2 p a t ht).2.1 with e | e <;> rw [e] <;> decide +kernel
          · intro p hp a t ht
            rcases (g2 p a t ht).2.1 with e | e <;> rw [e]
            · exact ⟨List.nodup_nil, trivial⟩
            · exact ⟨by simp, fun y hy => (by cases hy), trivial⟩
          · intro k hk
            rw [List.mem_singleton] at hk
            subst hk; exact g1
          · intro p hp a t ht
            refine ⟨fun c hc => ?_, fun r hr y hy => ?_⟩
            · obtain ⟨k1, k2⟩ := (g2 p a t ht).2.2 c hc
              rw [k1]; exact k2
            · obtain ⟨k, hk⟩ := hconst p hp a t ht r hr
              rw [hk] at hy; cases hy
          · rw [List.length_map, (ho _).length_eq]
          · refine List.Nodup.map_on ?_ ((ho _).nodup_iff.2 (List.nodup_dedup _))
            intro x hx y hy e
            have hx' := List.mem_dedup.1 ((ho _).mem_iff.1 hx)
            exact (List.idxOf_inj hx').1 e
          · intro q hq
            rw [List.mem_singleton.1 hq]
            exact hmem _ i1
          · intro p hp a t ht
            obtain ⟨⟨n, hn, e⟩, -⟩ := g2 p a t ht
            rw [e]; exact hmem n hn
          · intro p hp a t ht
            refine ⟨fun c hc => ?_, fun r hr => ?_⟩
            · rw [((g2 p a t ht).2.2 c hc).1]; exact Nat.one_pos
            · refine ⟨?_, fun y hy => ?_⟩
              · rcases (g2 p a t ht).2.1 with e | e <;> rw [e] at hr
                · cases hr
                · rw [List.mem_singleton] at hr; subst hr; exact Nat.one_pos
              · obtain ⟨k, hk⟩ := hconst p hp a t ht r hr
                rw [hk] at hy; cases hy
          · intro p hp a t ht r hr q hq
            rcases (g2 p a t ht).2.1 with e | e <;> rw [e] at hr
            · cases hr
            · rw [List.mem_singleton] at hr; subst hr; cases hq; exact le_refl _
          · intro p hp a t ht c hc
            exact lt_of_le_of_lt ((g2 p a t ht).2.2 c hc).2 hm
        · cases h

/-! ### Descriptions -/

theorem autOf_next (order : List Str → List Str) (D : Description) (p : ℕ) (a : Action) (t : Trans) :
    t ∈ ((autOf order D).loc p).next a ↔ ∃ e ∈ D.edges, D.locations.idxOf e.source = p ∧ e.label = a ∧ t = edgeTrans D.locations e := by
  unfold autOf addEdges initialStates
  simp only [List.nil_append, List.mem_map, List.mem_filter, decide_eq_true_eq]
  constructor
  · rintro ⟨e, ⟨h1, h2, h3⟩, rfl⟩; exact ⟨e, h1, h2, h3, rfl⟩
  · rintro ⟨e, h1, h2, h3, rfl⟩; exact ⟨e, ⟨h1, h2, h3⟩, rfl⟩

theorem autOf_isMatch (order : List Str → List Str) (D : Description) (q : Str) (hq : q ∈ D.locations) :
    ((autOf order D).loc (D.locations.idxOf q)).isMatch = true ↔ q ∈ D.accepting := by
  unfold autOf addEdges initialStates
  simp only [decide_eq_true_eq]
  constructor
  · rintro ⟨n, hn, h1, h2⟩
    have : n = q := (List.idxOf_inj hn).1 h1
    exact this ▸ h2
  · intro h; exact ⟨q, hq, rfl, h⟩

theorem autOf_small (D : Description) (h : D.WellFormed) : D.edges.foldl (fun m e => e.interval.maxC m) 0 < intMax := by
  have key : ∀ (es : List Edge), (∀ e ∈ es, e.interval.Below intMax) → ∀ m : ℤ, m < intMax →
      es.foldl (fun m e => e.interval.maxC m) m < intMax := by
    intro es
    induction es with
    | nil => intro _ m hm; exact hm
    | cons e es ih =>
      intro he m hm
      rw [List.foldl_cons]
      refine ih (fun f hf => he f (by simp [hf])) _ ?_
      obtain ⟨h1, h2⟩ := he e (by simp)
      unfold Interval.maxC
      have h3 : (if e.interval.lower = 0 ∧ e.interval.lowerClosed = true then m else max m e.interval.lower) < intMax := by
        split
        · exact hm
        · exact max_lt hm h1
      cases hu : e.interval.upper with
      | none => exact h3
      | some p =>
        obtain ⟨u, b⟩ := p
        exact max_lt h3 (h2 u b hu)
  exact key _ h.small 0 (by decide)

/-- The run of the automaton as a run of the description. -/
theorem run_of_steps (order : List Str → List Str) (D : Description) (h : D.WellFormed) {c c' : Config} {es : List Event}
    (hs : (autOf order D).Steps c es c') : ∀ q ∈ D.locations, c.loc = D.locations.idxOf q → 0 ≤ c.val 0 →
      ∃ q' ∈ D.locations, ∃ x', c'.loc = D.locations.idxOf q' ∧ D.Run q (c.val 0) es q' x' := by
  induction hs with
  | nil c => intro q hq hc _; exact ⟨q, hq, _, hc, .nil _ _⟩
  | eps t ht hg _ ih =>
    intro q hq hc hv
    obtain ⟨e, he, -, h2, -⟩ := (autOf_next order D _ _ t).1 ht
    exact absurd h2 (h.label e he)
  | delay d hd _ ih =>
    intro q hq hc hv
    obtain ⟨q', h1, x', h2, h3⟩ := ih q hq hc (by simp only [Valuation.shift]; linarith)
    exact ⟨q', h1, x', h2, .delay d hd h3⟩
  | split d1 d2 h1 h2 _ ih =>
    intro q hq hc hv
    obtain ⟨q', k1, x', k2, k3⟩ := ih q hq hc hv
    refine ⟨q', k1, x', k2, .delay _ (by linarith) ?_⟩
    cases k3 with
    | delay _ _ k4 =>
      cases k4 with
      | delay _ _ k5 => rwa [add_assoc] at k5
  | act a ha t ht hg _ ih =>
    intro q hq hc hv
    obtain ⟨e, he, h1, rfl, rfl⟩ := (autOf_next order D _ _ t).1 ht
    have hsrc : e.source = q := (List.idxOf_inj (h.source e he)).1 (h1.trans hc)
    have hx := (guard_holds e.interval _ hv).1 hg
    rename_i c0 _ _ _
    have hval : (Resets.apply (edgeTrans D.locations e).resets c0.val) 0 = if e.reset then 0 else c0.val 0 := by
      unfold edgeTrans
      cases e.reset <;> simp [Resets.apply, Upd.eval]
    obtain ⟨q', k1, x', k2, k3⟩ := ih e.target (h.target e he) rfl (by
      simp only
      rw [hval]
      split
      · exact le_refl _
      · exact hv)
    refine ⟨q', k1, x', k2, .edge e he hsrc hx ?_⟩
    simp only at k3
    rwa [hval] at k3

theorem steps_of_run (order : List Str → List Str) (D : Description) (h : D.WellFormed) {q q' : Str} {x x' : ℚ} {es : List Event}
    (hr : D.Run q x es q' x') : ∀ v : Valuation, v 0 = x → 0 ≤ x → q ∈ D.locations →
      ∃ v', (autOf order D).Steps ⟨D.locations.idxOf q, v⟩ es ⟨D.locations.idxOf q', v'⟩ ∧ q' ∈ D.locations := by
  induction hr with
  | nil q x => intro v _ _ hq; exact ⟨v, .nil _, hq⟩
  | delay d hd _ ih =>
    intro v hv hx hq
    obtain ⟨v', h1, h2⟩ := ih (v.shift d) (by simp [Valuation.shift, hv]) (by linarith) hq
    exact ⟨v', .delay d hd h1, h2⟩
  | edge e he hs hx _ ih =>
    intro v hv h0 hq
    subst hs
    have hval : (Resets.apply (edgeTrans D.locations e).resets v) 0 = if e.reset then 0 else v 0 := by
      unfold edgeTrans
      cases e.reset <;> simp [Resets.apply, Upd.eval]
    obtain ⟨v', h1, h2⟩ := ih (Resets.apply (edgeTrans D.locations e).resets v) (by rw [hval, hv]) (by
      split
      · exact le_refl _
      · exact h0) (h.target e he)
    exact ⟨v', .act e.label (h.label e he) (edgeTrans D.locations e)
      ((autOf_next order D _ _ _).2 ⟨e, he, rfl, rfl, rfl⟩)
      ((guard_holds e.interval v (by rw [hv]; exact h0)).2 (by rw [hv]; exact hx)) h1, h2⟩

/-- C77: the automaton that is read accepts exactly the timed words that the document describes; the alphabet is the one of the
document. -/
theorem C77_language (order : List Str → List Str) (D : Description) (h : D.WellFormed)
    (alphabet : List Action) (A : TA) (hp : parse order D.doc = .ok (alphabet, A)) :
    alphabet = D.alphabet ∧ ∀ w : TimedWord, (A.Accepts w ↔ D.Accepts w) := by
  rw [parse_eq order D h] at hp
  split at hp
  · cases hp
    refine ⟨rfl, fun w => ⟨?_, ?_⟩⟩
    · rintro ⟨q, hq, c, hs, hm⟩
      rw [List.mem_singleton.1 (show q ∈ [_] from hq)] at hs
      obtain ⟨q', h1, x', h2, h3⟩ := run_of_steps order D h hs D.initial h.initial rfl (le_refl _)
      rw [h2] at hm
      exact ⟨q', x', h3, (autOf_isMatch order D q' h1).1 hm⟩
    · rintro ⟨q, x, hr, hq⟩
      obtain ⟨v', h1, h2⟩ := steps_of_run order D h hr Valuation.zero rfl (le_refl _) h.initial
      exact ⟨_, List.mem_singleton.2 rfl, _, h1, (autOf_isMatch order D q h2).2 hq⟩
  · cases hp

theorem autOf_deterministic (order : List Str → List Str) (ho : ∀ l, (order l).Perm l) (D : Description) (h : D.WellFormed) :
    (autOf order D).deterministic = true ↔ D.Deterministic := by
  have hsmall : (autOf order D).SmallGuards := by
    intro p hp a t ht c hc
    obtain ⟨e, he, -, -, rfl⟩ := (autOf_next order D p a t).1 ht
    obtain ⟨h1, h2⟩ := h.small e he
    have hc' : c ∈ e.interval.guard := hc
    unfold Interval.guard at hc'
    rcases List.mem_append.1 hc' with hc' | hc'
    · split at hc'
      · cases hc'
      · rw [List.mem_singleton] at hc'
        subst hc'; exact h1
    · cases hu : e.interval.upper with
      | none => rw [hu] at hc'; cases hc'
      | some q =>
        obtain ⟨u, b⟩ := q
        rw [hu] at hc'
        rw [List.mem_singleton.1 (show c ∈ [_] from hc')]
        exact h2 u b hu
  rw [TA.deterministic_iff _ hsmall]
  have hnext : ∀ p a, ((autOf order D).loc p).next a =
      (D.edges.filter fun e => decide (D.locations.idxOf e.source = p ∧ e.label = a)).map (edgeTrans D.locations) :=
    fun p a => List.nil_append _
  unfold TA.Deterministic Description.Deterministic
  simp only [hnext, List.pairwise_map, List.pairwise_filter, decide_eq_true_eq]
  constructor
  · intro hA
    rw [List.pairwise_iff_forall_sublist]
    intro e f hs hef hl x hx hc
    have hsub := hs.subset
    have he : e ∈ D.edges := hsub (by simp)
    have := List.pairwise_iff_forall_sublist.1 (hA (D.locations.idxOf e.source)
      (List.mem_map_of_mem ((ho _).mem_iff.2 (List.mem_dedup.2 (h.source e he)))) e.label) hs ⟨rfl, rfl⟩ ⟨by rw [hef], hl.symm⟩
      (fun _ => x) (fun _ => hx)
    exact this ⟨(guard_holds e.interval (fun _ => x) hx).2 hc.1, (guard_holds f.interval (fun _ => x) hx).2 hc.2⟩
  · intro hD p _ a
    refine hD.imp_of_mem fun {e f} he hf hr => ?_
    rintro ⟨h1, h2⟩ ⟨h3, h4⟩ v hv ⟨k1, k2⟩
    exact hr ((List.idxOf_inj (h.source e he)).1 (h1.trans h3.symm)) (h2.trans h4.symm) (v 0) (hv 0)
      ⟨(guard_holds _ v (hv 0)).1 k1, (guard_holds _ v (hv 0)).1 k2⟩

/-- C77: a document is accepted exactly if what it describes is deterministic; otherwise an exception is thrown. -/
theorem C77_total (order : List Str → List Str) (ho : ∀ l, (order l).Perm l) (D : Description) (h : D.WellFormed) :
    (D.Deterministic → ∃ A, parse order D.doc = .ok (D.alphabet, A)) ∧
    (¬ D.Deterministic → parse order D.doc = .error .exception) := by
  rw [parse_eq order D h]
  have hd := autOf_deterministic order ho D h
  exact ⟨fun hD => ⟨_, if_pos (hd.2 hD)⟩, fun hD => if_neg fun e => hD (hd.1 e)⟩

/-- C77: undeclared names and labels or letters of more than one character are exceptions. -/
theorem C77_rejected (order : List Str → List Str) (d : Doc) (r : List Action × TA) (h : parse order d = .ok r) :
    (∀ s ∈ d.sigma, s.length = 1) ∧ d.init ∈ d.l ∧
      ∀ t ∈ d.tran, ∃ source a range reset target rest, t = source :: [a] :: range :: reset :: target :: rest ∧
        source ∈ d.l ∧ target ∈ d.l := by
  unfold parse at h
  split at h
  · cases h
  · rename_i hsig
    rw [Bool.not_eq_true, List.any_eq_false] at hsig
    cases h1 : find d.l d.init with
    | error x => rw [h1] at h; cases h
    | ok i =>
      rw [h1] at h
      simp only at h
      refine ⟨fun s hs => by simpa using hsig s hs, (find_ok h1).1, ?_⟩
      cases h2 : addTransitions d.l (initialStates d, 0) d.tran with
      | error x => rw [h2] at h; cases h
      | ok s1 =>
        clear h h1
        generalize initialStates d = loc at h2
        generalize (0 : ℤ) = m at h2
        generalize d.tran = ts at h2 ⊢
        induction ts generalizing loc m with
        | nil => intro t ht; cases ht
        | cons t ts ih =>
          rw [addTransitions] at h2
          cases h3 : addTransition d.l (loc, m) t with
          | error x => rw [h3] at h2; cases h2
          | ok s2 =>
            rw [h3] at h2
            obtain ⟨loc2, m2⟩ := s2
            intro t' ht'
            rcases List.mem_cons.1 ht' with rfl | ht'
            · unfold addTransition at h3
              split at h3
              · split at h3
                · rename_i source label rest a range reset target rest'
                  refine ⟨source, a, range, reset, target, rest', rfl, ?_⟩
                  cases k1 : parseRange range m with
                  | error x => simp only [k1] at h3; cases h3
                  | ok r =>
                    simp only [k1] at h3
                    cases k2 : find d.l source with
                    | error x => rw [k2] at h3; cases h3
                    | ok p =>
                      rw [k2] at h3
                      simp only at h3
                      cases k3 : find d.l target with
                      | error x => rw [k3] at h3; cases h3
                      | ok q => exact ⟨(find_ok k2).1, (find_ok k3).1⟩
                · cases h3
                · cases h3
              · cases h3
            · exact ih _ _ h2 t' ht'

/-- A document from which `learn_ota_json` can learn: the labels are in the alphabet, which consists of distinct characters
between 1 and 126. -/
structure _root_.LearnTA.OtaJson.Description.Learnable (D : Description) : Prop where
  wellFormed : D.WellFormed
  deterministic : D.Deterministic
  labels : ∀ e ∈ D.edges, e.label ∈ D.alphabet
  nodup : D.alphabet.Nodup
  chars : ∀ a ∈ D.alphabet, a ≠ 0 ∧ a.val < 127

/-- C77 with C76: the program `learn_ota_json`.  The automaton that is read can be learned, and what is learned accepts exactly
the timed words that the document describes, unless the sampling has missed an accepting state (C68). -/
theorem C77_learn (order : List Str → List Str) (ho : ∀ l, (order l).Perm l) (D : Description) (hD : D.Learnable) :
    ∃ A, parse order D.doc = .ok (D.alphabet, A) ∧ Experiment.Config.Ok ⟨D.alphabet, A, []⟩ ∧
      ∀ (env : Env Runner) (henv : ObsTable.HypEnv) (zones : HashOrder) (rounds fuel n : ℕ) (H : TA)
        (o : List Experiment.Member × ByTest) (log : List (TA × Option TimedWord)) (T : ObsTable Runner),
        Simulates env A → env.Lawful → henv.Lawful →
        Experiment.loggedRun ⟨D.alphabet, A, []⟩ env henv zones rounds (fuel + 1) n = .ok ((H, (o, log)), T) →
        (∀ x ∈ log, ∀ w, x.2 = some w → w.Nonneg) → T.Regular → ObsTable.SmallPrefixes T →
        (∀ x ∈ log, ∀ w, x.2 = some w → (H.Accepts w ↔ D.Accepts w)) ∧
        (H.ResetsOrdered →
          (∀ w : TimedWord, w.WF → w.Nonneg → (∀ a ∈ w.word, a ∈ D.alphabet) → (H.Accepts w ↔ D.Accepts w)) ∨
          ∃ Cm, Experiment.complement ⟨D.alphabet, A, []⟩ zones rounds = some Cm ∧
            (SampleMisses (ComplementOracle.subsetTA Cm H) zones rounds ∨
              SampleMisses (ComplementOracle.supersetTA A H D.alphabet) zones rounds)) := by
  obtain ⟨A, hA⟩ := (C77_total order ho D hD.wellFormed).1 hD.deterministic
  have hlang := (C77_language order D hD.wellFormed _ _ hA).2
  obtain ⟨-, a2, a3, a4, a5, a6, a7, a8, -, a10⟩ := C77_accepted order ho D.doc _ A hA
  have hA' : A = autOf order D := by
    rw [parse_eq order D hD.wellFormed] at hA
    split at hA
    · cases hA; rfl
    · cases hA
  have hwf : A.WF := a10 (by rw [hA']; exact autOf_small D hD.wellFormed)
  have hok : Experiment.Config.Ok ⟨D.alphabet, A, []⟩ :=
    { wf := hwf
      eps := fun p hp => List.eq_nil_iff_forall_not_mem.2 fun t ht => by
        rw [hA'] at ht
        obtain ⟨e, he, -, h2, -⟩ := (autOf_next order D p _ t).1 ht
        exact hD.wellFormed.label e he h2
      det := a2
      init := a3
      ordered := a7
      over := fun p hp a hne => by
        obtain ⟨t, ht⟩ := List.exists_mem_of_ne_nil _ hne
        rw [hA'] at ht
        obtain ⟨e, he, -, h2, -⟩ := (autOf_next order D p a t).1 ht
        exact h2 ▸ hD.labels e he
      nodup := hD.nodup
      observable := fun h0 => (hD.chars _ h0).1 rfl
      chars := fun a ha => (hD.chars a ha).2
      words := fun w hw => (by cases hw) }
  refine ⟨A, hA, hok, fun env henv zones rounds fuel n H o log T h1 h2 h3 h4 h5 h6 h7 => ?_⟩
  have hI : A.IntResets := fun p hp a t ht r hr q hq => by
    obtain ⟨k, hk⟩ := a5 p hp a t ht r hr
    rw [hk] at hq
    cases hq
    exact ⟨k, rfl⟩
  obtain ⟨-, -, -, -, -, -, m1, m2⟩ := C76_learned hok hI h1 h2 h3 h4 h5 h6 h7
  refine ⟨fun x hx w hw => (m1 x hx w hw).trans (hlang w), fun hord => (m2 hord).imp (fun h w w1 w2 w3 => ?_) id⟩
  exact (h w w1 w2 w3).trans (hlang w)

/-- The characters that separate words: space, tab, line feed, vertical tab, form feed and carriage return. -/
def Blank (w : Str) : Prop := ∀ c ∈ w, c ∈ ([32, 9, 10, 11, 12, 13] : List Action)

theorem dropWhile_blank {w : Str} (hw : Blank w) (s : Str) : (w ++ s).dropWhile isSpace = s.dropWhile isSpace := by
  refine List.dropWhile_append_of_pos fun c hc => ?_
  have := hw c hc
  simp only [List.mem_cons, List.not_mem_nil, or_false] at this
  rcases this with rfl | rfl | rfl | rfl | rfl | rfl <;> decide

theorem atoi_blank {w : Str} (hw : Blank w) (s : Str) : atoi (w ++ s) = atoi s := by
  unfold atoi
  rw [dropWhile_blank hw]

theorem blank_ne {w : Str} (hw : Blank w) (d : Action) (hd : d ∉ ([32, 9, 10, 11, 12, 13] : List Action)) : d ∉ w :=
  fun h => hd (hw d h)

/-- C77: blanks before the end points do not change the interval that is read, for every interval and all blanks: `( 1,\t2]` is
`(1,2]`. -/
theorem C77_blank (lower upper : ℕ) (b b' : Bool) (w w' : Str) (hw : Blank w) (hw' : Blank w')
    (h1 : (lower : ℤ) ≤ intMax) (h2 : (upper : ℤ) ≤ intMax) (m : ℤ) (hm : 0 ≤ m) :
    ∃ g, parseRange ((if b then 91 /- [ -/ else 40 /- ( -/) :: (w ++ decimal lower) ++ 44 /- , -/ ::
        (w' ++ decimal upper ++ [if b' then 93 /- ] -/ else 41 /- ) -/])) m = .ok (g, max m (max lower upper)) ∧
      ∀ v : Valuation, v.Nonneg → (g.Holds v ↔ (⟨lower, b, some (upper, b')⟩ : Interval).Contains (v 0)) := by
  have hne : ∀ c ∈ ((if b then 91 else 40) :: (w ++ decimal lower) : Str), (c != cComma) = true := by
    intro c hc
    rw [bne_iff_ne]
    rcases List.mem_cons.1 hc with rfl | hc
    · cases b <;> decide
    · rcases List.mem_append.1 hc with hc | hc
      · rintro rfl
        exact blank_ne hw _ (by decide) hc
      · exact isDigit_ne (decimal_digits _ c hc) (by decide)
  have hl : ∃ g m', parseLower ((if b then 91 else 40) :: (w ++ decimal lower)) m = .ok (g, m') ∧ m' = max m lower ∧
      ∀ v : Valuation, v.Nonneg → (Guard.Holds g v ↔ if b then (lower : ℚ) ≤ v 0 else (lower : ℚ) < v 0) := by
    by_cases h : (if b then 91 else 40) :: (w ++ decimal lower) = [cOpen, cZero]
    · obtain ⟨e1, e2⟩ := List.cons.inj h
      have hb : b = true := by
        cases b
        · exact absurd e1 (by decide)
        · rfl
      have hk : lower = 0 := by
        have hnil : w = [] := by
          cases w with
          | nil => rfl
          | cons c w =>
            rw [List.cons_append] at e2
            have := (List.append_eq_nil_iff.1 (List.cons.inj e2).2).2
            exact absurd this (decimal_ne_nil _)
        rw [hnil, List.nil_append] at e2
        rw [← digits_decimal lower, e2]
        decide
      refine ⟨[], m, by unfold parseLower; rw [if_pos h], by rw [hk]; exact (max_eq_left hm).symm, fun v hv => ?_⟩
      rw [hb, hk]
      simpa [Guard.Holds] using hv 0
    · refine ⟨[⟨0, if b then .ge else .gt, lower⟩], max m lower, ?_, rfl, fun v _ => ?_⟩
      · unfold parseLower
        rw [if_neg h]
        simp only [atoi_blank hw, atoi_decimal lower h1]
        cases b <;> rfl
      · cases b <;> simp [Guard.Holds, Constraint.Holds]
  have hu : ∀ m : ℤ, parseUpper (w' ++ decimal upper ++ [if b' then 93 else 41]) m =
      .ok ([⟨0, if b' then .le else .lt, upper⟩], max m upper) := by
    intro m
    unfold parseUpper
    rw [if_neg]
    · rw [List.getLast?_append]
      simp only [List.getLast?_singleton, Option.some_or]
      cases b' with
      | true =>
        simp only [↓reduceIte]
        rw [if_pos (by decide), List.dropLast_concat, atoi_blank hw', atoi_decimal _ h2, if_pos (by decide)]
      | false =>
        simp only [Bool.false_eq_true, ↓reduceIte]
        rw [if_neg (by decide), if_neg (by decide), List.append_assoc, atoi_blank hw']
        have := atoi_decimal_paren _ h2
        unfold cParen at this
        rw [this]
    · intro e
      have : cPlus ∈ w' ++ decimal upper ++ [if b' then 93 else 41] := by rw [e]; simp
      simp only [List.mem_append, List.mem_singleton] at this
      rcases this with (h | h) | h
      · exact blank_ne hw' _ (by decide) h
      · exact isDigit_ne (decimal_digits _ _ h) (by decide) rfl
      · cases b' <;> exact absurd h (by decide)
  obtain ⟨g, m', e1, rfl, hg⟩ := hl
  refine ⟨g ++ [⟨0, if b' then .le else .lt, upper⟩], ?_, fun v hv => ?_⟩
  · unfold parseRange
    have hmem : cComma ∈ ((if b then 91 else 40) :: (w ++ decimal lower) ++ 44 ::
        (w' ++ decimal upper ++ [if b' then 93 else 41])) := List.mem_append_right _ List.mem_cons_self
    rw [if_pos hmem, List.takeWhile_append_of_pos hne, List.takeWhile_cons_of_neg (by decide), List.append_nil,
      List.dropWhile_append_of_pos hne, List.dropWhile_cons_of_neg (by decide), e1]
    simp only [List.drop_succ_cons, List.drop_zero, hu, max_assoc]
  · have e : (g ++ [⟨0, if b' then .le else .lt, upper⟩] : Guard).Holds v ↔
        Guard.Holds g v ∧ Guard.Holds [⟨0, if b' then .le else .lt, upper⟩] v := by
      unfold Guard.Holds
      simp only [List.mem_append, or_imp, forall_and]
    rw [e, hg v hv]
    unfold Interval.Contains
    cases b' <;> simp [Guard.Holds, Constraint.Holds]

/-- The hypotheses of `C77_blank` are met by `( 1,\t\r2]`. -/
example : Blank [32] ∧ Blank [9, 13] ∧ ((1 : ℕ) : ℤ) ≤ intMax ∧ ((2 : ℕ) : ℤ) ≤ intMax ∧
    (40 :: ([32] ++ decimal 1) ++ 44 :: ([9, 13] ++ decimal 2 ++ [93]) : Str) = [40, 32, 49, 44, 9, 13, 50, 93] := by
  refine ⟨?_, ?_, by decide, by decide, by decide +kernel⟩ <;> simp [Blank]

/-- C77: a limit.  A space before `+` turns "no upper bound" into "below 0": the edge is read without an error, but can never be
taken. -/
theorem C77_space_witness :
    parseRange [91, 48, 44, 32, 43, 41] 0 = .ok ([⟨0, .lt, 0⟩], 0) ∧ parseRange [91, 48, 44, 43, 41] 0 = .ok ([], 0) ∧
      ∀ v : Valuation, v.Nonneg → ¬ Guard.Holds [⟨0, .lt, 0⟩] v := by
  refine ⟨by decide +kernel, by decide +kernel, fun v hv h => ?_⟩
  have h1 := h _ (List.mem_singleton.2 rfl)
  have h2 := hv 0
  simp only [Constraint.Holds, Int.cast_zero] at h1
  exact absurd h1 (not_lt.2 h2)

/-- C77: a limit.  A transition whose label is not in the alphabet is read without an error. -/
theorem C77_label_witness : ((parse id ⟨[[97]], [[49]], [], [49], [[[49], [98], [91, 48, 44, 43, 41], [110], [49]]]⟩).toOption.map fun r =>
    (r.1, ((r.2.loc 0).next 98).length)) = some ([97], 1) := by
  decide +kernel

/-- `example_small.json`. -/
def smallD : Description where
  alphabet := [97, 98]
  locations := [[49], [50]]
  accepting := [[50]]
  initial := [49]
  edges := [⟨[49], 97, ⟨1, false, some (2, false)⟩, false, [50]⟩, ⟨[49], 98, ⟨0, true, none⟩, true, [49]⟩,
    ⟨[50], 98, ⟨2, true, some (2, true)⟩, true, [50]⟩]

/-- The hypotheses of C77 are met by the example of the repository (`/repo/examples/example_small.json`), which accepts `a` at
1.5. -/
example : smallD.Learnable ∧ smallD.doc.tran.map (fun t => t.getD 2 []) =
    [[40, 49, 44, 50, 41], [91, 48, 44, 43, 41], [91, 50, 44, 50, 93]] ∧ smallD.Accepts ⟨[97], [3/2, 0]⟩ := by
  refine ⟨⟨⟨by decide +kernel, by decide +kernel, by decide +kernel, by decide +kernel, ?_⟩, ?_, by decide +kernel, by decide +kernel, by decide +kernel⟩,
    by decide +kernel, ?_⟩
  · intro e he
    simp only [smallD, List.mem_cons, List.not_mem_nil, or_false] at he
    rcases he with rfl | rfl | rfl <;> refine ⟨by decide, fun u b h => ?_⟩ <;> cases h <;> decide
  · refine .cons (fun f hf => ?_) (.cons (fun f hf => ?_) (.cons (fun f hf => (by cases hf)) .nil))
    all_goals
      simp only [List.mem_cons, List.not_mem_nil, or_false] at hf
    · rcases hf with rfl | rfl
      · intro _ h; exact absurd h (by decide)
      · intro h; exact absurd h (by decide)
    · subst hf
      intro h; exact absurd h (by decide)
  · refine ⟨[50], 3/2 + 0, .delay _ (by norm_num) (.edge ⟨[49], 97, ⟨1, false, some (2, false)⟩, false, [50]⟩ (by simp [smallD]) rfl ?_
      (.delay 0 (le_refl _) ?_)), by decide⟩
    · norm_num [Interval.Contains]
    · norm_num
      exact .nil _ _

end LearnTA.Props
