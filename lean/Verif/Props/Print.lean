import Verif.Lemmas.Print2
import Verif.Props.TA

/-!
# Properties of the printed automata: C81
-/

namespace LearnTA.Props
open Print

/-- The lines of the printed automaton. -/
def linesOf (keys : ℕ → List Action) (A : TA) : List Line :=
  A.states.map (fun p => .state (number A p) (decide (p ∈ A.init)) (A.loc p).isMatch) ++
    A.states.flatMap fun p => (transitions keys A p).map fun x =>
      .edge (number A p) (number A x.2.target) x.1 x.2.guard x.2.resets

theorem automaton_lines {keys : ℕ → List Action} {A : TA} {s : Text} (h : automaton keys A = some s) :
    s = str ['d', 'i', 'g', 'r', 'a', 'p', 'h', ' ', 'G', ' ', '{', '\n'] ++
      ((linesOf keys A).flatMap Line.text ++ str ['}', '\n']) := by
  unfold automaton at h
  split at h
  · rw [← Option.some.inj h]
    simp only [linesOf, List.flatMap_append, List.flatMap_map, List.flatMap_assoc, List.append_assoc]
    rfl
  · cases h

theorem mem_transitions {keys : ℕ → List Action} {A : TA} (hk : A.KeysOf keys) {p : ℕ} (hp : p ∈ A.states) {a : Action} {t : Trans} :
    (a, t) ∈ transitions keys A p ↔ t ∈ (A.loc p).next a := by
  unfold transitions
  simp only [List.mem_flatMap, List.mem_map, Prod.mk.injEq]
  constructor
  · rintro ⟨b, hb, u, hu, rfl, rfl⟩
    exact hu
  · intro ht
    exact ⟨a, hk p hp a (List.ne_nil_of_mem ht), t, ht, rfl, rfl⟩

theorem linesOf_ok {keys : ℕ → List Action} {A : TA} (hk : A.KeysOf keys) (hs : A.ShortConstants) : ∀ l ∈ linesOf keys A, l.Ok := by
  intro l hl
  rcases List.mem_append.1 hl with hl | hl
  · obtain ⟨p, -, rfl⟩ := List.mem_map.1 hl
    trivial
  · obtain ⟨p, hp, hl⟩ := List.mem_flatMap.1 hl
    obtain ⟨⟨a, t⟩, hx, rfl⟩ := List.mem_map.1 hl
    exact fun r hr q hq => hs p hp a t ((mem_transitions hk hp).1 hx) r hr q hq

theorem number_eq {A : TA} (hn : A.states.Nodup) {i p : ℕ} (h : A.states[i]? = some p) : number A p = i := by
  obtain ⟨hi, rfl⟩ := List.getElem?_eq_some_iff.1 h
  exact hn.idxOf_getElem i hi

theorem number_get {A : TA} {p : ℕ} (h : p ∈ A.states) : A.states[number A p]? = some p := by
  unfold number
  rw [List.getElem?_eq_some_iff]
  exact ⟨List.idxOf_lt_length_iff.2 h, List.getElem_idxOf _⟩

theorem mem_state {keys : ℕ → List Action} {A : TA} (hn : A.states.Nodup) {i : ℕ} {b c : Bool} :
    Line.state i b c ∈ linesOf keys A ↔ ∃ p, A.states[i]? = some p ∧ b = decide (p ∈ A.init) ∧ c = (A.loc p).isMatch := by
  unfold linesOf
  simp only [List.mem_append, List.mem_map, List.mem_flatMap]
  constructor
  · rintro (⟨p, hp, h⟩ | ⟨p, -, x, -, h⟩)
    · simp only [Line.state.injEq] at h
      obtain ⟨rfl, rfl, rfl⟩ := h
      exact ⟨p, number_get hp, rfl, rfl⟩
    · cases h
  · rintro ⟨p, hp, rfl, rfl⟩
    exact .inl ⟨p, List.mem_of_getElem? hp, by rw [number_eq hn hp]⟩

theorem mem_edge {keys : ℕ → List Action} {A : TA} (hn : A.states.Nodup) (hc : A.Closed) (hk : A.KeysOf keys) {i j : ℕ} {a : Action}
    {g : Guard} {r : Resets} : Line.edge i j a g r ∈ linesOf keys A ↔ A.HasEdge i j a g r := by
  unfold linesOf
  simp only [List.mem_append, List.mem_map, List.mem_flatMap]
  constructor
  · rintro (⟨p, hp, h⟩ | ⟨p, hp, ⟨b, t⟩, hx, h⟩)
    · cases h
    · simp only [Line.edge.injEq] at h
      obtain ⟨rfl, rfl, rfl, rfl, rfl⟩ := h
      have ht := (mem_transitions hk hp).1 hx
      exact ⟨p, t.target, number_get hp, number_get (hc.2 p hp b t ht), ht⟩
  · rintro ⟨p, q, hp, hq, ht⟩
    have hp' := List.mem_of_getElem? hp
    exact .inr ⟨p, hp', (a, _), (mem_transitions hk hp').2 ht, by simp only [number_eq hn hp, number_eq hn hq]⟩

theorem count_states {keys : ℕ → List Action} (A : TA) :
    ((linesOf keys A).filter fun l => match l with | .state _ _ _ => true | .edge _ _ _ _ _ => false).length = A.states.length := by
  unfold linesOf
  rw [List.filter_append, List.filter_eq_self.2, List.filter_eq_nil_iff.2]
  · simp
  · intro l hl
    obtain ⟨p, -, hl⟩ := List.mem_flatMap.1 hl
    obtain ⟨x, -, rfl⟩ := List.mem_map.1 hl
    simp
  · intro l hl
    obtain ⟨p, -, rfl⟩ := List.mem_map.1 hl
    rfl

/-- C81: every automaton without dangling pointers is printed. -/
theorem C81_prints (A : TA) (hc : A.Closed) (keys : ℕ → List Action) : ∃ s, automaton keys A = some s := by
  unfold automaton
  rw [if_pos]
  · exact ⟨_, rfl⟩
  · rw [List.all_eq_true]
    intro p hp
    rw [List.all_eq_true]
    rintro ⟨a, t⟩ hx
    unfold transitions at hx
    simp only [List.mem_flatMap, List.mem_map, Prod.mk.injEq] at hx
    obtain ⟨b, -, u, hu, rfl, rfl⟩ := hx
    simpa using hc.2 p hp b u hu

/-- C81: for an automaton whose states are all listed, an exception is thrown exactly if a target is not among the states. -/
theorem C81_dangling (A : TA) (keys : ℕ → List Action) (hk : A.KeysOf keys) (hi : ∀ q ∈ A.init, q ∈ A.states) :
    automaton keys A = none ↔ ¬ A.Closed := by
  constructor
  · intro h hc
    obtain ⟨s, hs⟩ := C81_prints A hc keys
    rw [h] at hs; cases hs
  · intro h
    unfold automaton
    rw [if_neg]
    intro hall
    refine h ⟨hi, fun p hp a t ht => ?_⟩
    have h1 := List.all_eq_true.1 (List.all_eq_true.1 hall p hp) (a, t) ((mem_transitions hk hp).2 ht)
    exact of_decide_eq_true h1

/-- C81: a number is printed as a number with at most six significant digits that differs from it by at most half a unit of the sixth
digit (the sixth digit of a number is at least one hundred-thousandth of it). -/
theorem C81_rounding (q : ℚ) : ∃ d, SixDigits d ∧ double q = double d ∧ |q - d| * (2 * 10 ^ 5) ≤ |q| := by
  rcases lt_trichotomy q 0 with h | rfl | h
  · have hx : 0 < -q := by linarith
    obtain ⟨h1, h2⟩ := rounded_sixDigits hx
    obtain ⟨_, _, h3⟩ := significant_near hx
    refine ⟨-rounded (-q), ?_, ?_, ?_⟩
    · obtain ⟨m, e, a, b⟩ := h1
      exact ⟨-m, e, by rwa [abs_neg], by rw [b]; push_cast; ring⟩
    · unfold double
      rw [if_neg h.ne, if_pos h, if_neg (by linarith), if_pos (by linarith), neg_neg, ← positive_rounded hx]
    · rw [abs_of_neg h, show q - -rounded (-q) = -(-q - rounded (-q)) by ring, abs_neg]
      exact h3
  · exact ⟨0, ⟨0, 0, by norm_num, by norm_num⟩, rfl, by norm_num⟩
  · obtain ⟨h1, h2⟩ := rounded_sixDigits h
    obtain ⟨_, _, h3⟩ := significant_near h
    refine ⟨rounded q, h1, ?_, ?_⟩
    · unfold double
      rw [if_neg h.ne', if_neg (by linarith), if_neg h2.ne', if_neg (by linarith), ← positive_rounded h]
    · rw [abs_of_pos h]; exact h3

/-- C81: the printed text determines the automaton up to the names of its states: two automata with the same text have the same
number of states, and the `i`-th states agree on being initial and accepting and on their transitions (action, guard, updates and
number of the target).  The orders in which the hash maps list the actions do not matter. -/
theorem C81_faithful (A B : TA) (keys keys' : ℕ → List Action) (hA : A.states.Nodup) (hB : B.states.Nodup) (cA : A.Closed)
    (cB : B.Closed) (kA : A.KeysOf keys) (kB : B.KeysOf keys') (sA : A.ShortConstants) (sB : B.ShortConstants) (s : Text)
    (h : automaton keys A = some s) (h' : automaton keys' B = some s) : A.SamePicture B := by
  have e := (automaton_lines h).symm.trans (automaton_lines h')
  have e := lines_injective _ _ (linesOf_ok kA sA) (linesOf_ok kB sB) (List.append_cancel_left e)
  have hst : ∀ i p q : ℕ, A.states[i]? = some p → B.states[i]? = some q →
      decide (p ∈ A.init) = decide (q ∈ B.init) ∧ (A.loc p).isMatch = (B.loc q).isMatch := by
    intro i p q hp hq
    have := (mem_state (keys := keys) hA).2 ⟨p, hp, rfl, rfl⟩
    rw [e, mem_state hB] at this
    obtain ⟨q', hq', h1, h2⟩ := this
    rw [hq] at hq'
    cases hq'
    exact ⟨h1, h2⟩
  refine ⟨?_, fun i p q hp hq => ?_, fun i p q hp hq => (hst i p q hp hq).2, fun i j a g r => ?_⟩
  · rw [← count_states (keys := keys) A, ← count_states (keys := keys') B, e]
  · exact decide_eq_decide.1 (hst i p q hp hq).1
  · rw [← mem_edge hA cA kA, ← mem_edge hB cB kB, e]

theorem same_steps {A B : TA} (h : A.SamePicture B) (cA : A.Closed) {c c' : Config} {es : List Event}
    (hs : A.Steps c es c') : ∀ i q : ℕ, A.states[i]? = some c.loc → B.states[i]? = some q →
      ∃ j q' : ℕ, A.states[j]? = some c'.loc ∧ B.states[j]? = some q' ∧ B.Steps ⟨q, c.val⟩ es ⟨q', c'.val⟩ := by
  have move : ∀ (p : ℕ) (a : Action) (t : Trans), t ∈ (A.loc p).next a → ∀ i q : ℕ, A.states[i]? = some p → B.states[i]? = some q →
      ∃ j q' : ℕ, A.states[j]? = some t.target ∧ B.states[j]? = some q' ∧ ⟨q', t.resets, t.guard⟩ ∈ (B.loc q).next a := by
    intro p a t ht i q hp hq
    have hm := cA.2 p (List.mem_of_getElem? hp) a t ht
    obtain ⟨j, hj⟩ := List.getElem?_of_mem hm
    obtain ⟨q1, q2, h1, h2, h3⟩ := (h.edges i j a t.guard t.resets).1 ⟨p, t.target, hp, hj, ht⟩
    rw [hq] at h1
    cases h1
    exact ⟨j, q2, hj, h2, h3⟩
  induction hs with
  | nil c => exact fun i q hp hq => ⟨i, q, hp, hq, .nil _⟩
  | eps t ht hg _ ih =>
    intro i q hp hq
    obtain ⟨j, q', h1, h2, h3⟩ := move _ _ t ht i q hp hq
    obtain ⟨k, q'', h4, h5, h6⟩ := ih j q' h1 h2
    exact ⟨k, q'', h4, h5, .eps _ h3 hg h6⟩
  | delay d hd _ ih =>
    intro i q hp hq
    obtain ⟨k, q'', h4, h5, h6⟩ := ih i q hp hq
    exact ⟨k, q'', h4, h5, .delay d hd h6⟩
  | split d1 d2 h1 h2 _ ih =>
    intro i q hp hq
    obtain ⟨k, q'', h4, h5, h6⟩ := ih i q hp hq
    exact ⟨k, q'', h4, h5, .split d1 d2 h1 h2 h6⟩
  | act a ha t ht hg _ ih =>
    intro i q hp hq
    obtain ⟨j, q', h1, h2, h3⟩ := move _ _ t ht i q hp hq
    obtain ⟨k, q'', h4, h5, h6⟩ := ih j q' h1 h2
    exact ⟨k, q'', h4, h5, .act a ha _ h3 hg h6⟩

theorem SamePicture.symm {A B : TA} (h : A.SamePicture B) : B.SamePicture A :=
  ⟨h.size.symm, fun i p q hp hq => (h.init i q p hq hp).symm, fun i p q hp hq => (h.accepting i q p hq hp).symm,
    fun i j a g r => (h.edges i j a g r).symm⟩

theorem same_accepts {A B : TA} (h : A.SamePicture B) (cA : A.Closed) {w : TimedWord} (hw : A.Accepts w) : B.Accepts w := by
  obtain ⟨p, hp, c, hs, hm⟩ := hw
  obtain ⟨i, hi⟩ := List.getElem?_of_mem (cA.1 p hp)
  have hlt := (List.getElem?_eq_some_iff.1 hi).1
  have hq : B.states[i]? = some (B.states[i]'(h.size ▸ hlt)) := List.getElem?_eq_getElem _
  obtain ⟨j, q', h1, h2, h3⟩ := same_steps h cA hs i _ hi hq
  exact ⟨_, (h.init i _ _ hi hq).1 hp, _, h3, (h.accepting j _ _ h1 h2).symm.trans hm⟩

/-- C81: automata with the same text accept the same timed words. -/
theorem C81_language (A B : TA) (keys keys' : ℕ → List Action) (hA : A.states.Nodup) (hB : B.states.Nodup) (cA : A.Closed)
    (cB : B.Closed) (kA : A.KeysOf keys) (kB : B.KeysOf keys') (sA : A.ShortConstants) (sB : B.ShortConstants) (s : Text)
    (h : automaton keys A = some s) (h' : automaton keys' B = some s) (w : TimedWord) : A.Accepts w ↔ B.Accepts w := by
  have := C81_faithful A B keys keys' hA hB cA cB kA kB sA sB s h h'
  exact ⟨same_accepts this cA, same_accepts (SamePicture.symm this) cB⟩

/-- C81: in particular the constants `k` and `k + 1/2` that the learner assigns are printed exactly if they are less than
`10 ^ 5`. -/
theorem C81_halves (k : ℤ) (hk : |k| < 2 * 10 ^ 5) : SixDigits (k / 2) := by
  refine ⟨5 * k, -1, ?_, ?_⟩
  · rw [abs_mul]
    norm_num
    omega
  · push_cast
    rw [zpow_neg_one]
    ring

/-- An automaton with one transition, which assigns `q` to its clock, and one that checks whether the clock is more than
`100000`. -/
def assigning (q : ℚ) : TA where
  loc p := if p = 0 then ⟨false, fun a => if a = byte 'a' then [⟨1, [(0, .const q)], []⟩] else []⟩
    else if p = 1 then ⟨false, fun a => if a = byte 'b' then [⟨2, [], [⟨0, .gt, 100000⟩]⟩] else []⟩
    else ⟨true, fun _ => []⟩
  states := [0, 1, 2]
  init := [0]
  maxC := [100000]

theorem assigning_next (q : ℚ) (p : ℕ) (a : Action) (t : Trans) (h : t ∈ ((assigning q).loc p).next a) :
    (p = 0 ∧ a = byte 'a' ∧ t = ⟨1, [(0, .const q)], []⟩) ∨ (p = 1 ∧ a = byte 'b' ∧ t = ⟨2, [], [⟨0, .gt, 100000⟩]⟩) := by
  unfold assigning at h
  dsimp only at h
  split at h
  · dsimp only at h
    split at h
    · exact .inl ⟨‹_›, ‹_›, List.mem_singleton.1 h⟩
    · cases h
  · split at h
    · dsimp only at h
      split at h
      · exact .inr ⟨‹_›, ‹_›, List.mem_singleton.1 h⟩
      · cases h
    · cases h

theorem assigning_closed (q : ℚ) : (assigning q).Closed := by
  refine ⟨by simp [assigning], fun p _ a t ht => ?_⟩
  rcases assigning_next q p a t ht with ⟨-, -, rfl⟩ | ⟨-, -, rfl⟩ <;> simp [assigning]

theorem assigning_keys (q : ℚ) : (assigning q).KeysOf fun _ => [byte 'b', byte 'a'] := by
  intro p _ a h
  obtain ⟨t, ht⟩ := List.exists_mem_of_ne_nil _ h
  rcases assigning_next q p a t ht with ⟨-, rfl, -⟩ | ⟨-, rfl, -⟩ <;> simp

/-- C81: why the number of digits matters.  An automaton that assigns `100000` and one that assigns `100000.5` have the same text but
not the same language. -/
theorem C81_precision_witness : ∃ A B : TA, ∃ keys : ℕ → List Action, A.states.Nodup ∧ B.states.Nodup ∧ A.Closed ∧ B.Closed ∧
    A.KeysOf keys ∧ B.KeysOf keys ∧ (∃ s, automaton keys A = some s ∧ automaton keys B = some s) ∧
    ∃ w : TimedWord, w.WF ∧ B.Accepts w ∧ ¬ A.Accepts w := by
  refine ⟨assigning 100000, assigning (200001 / 2), fun _ => [byte 'b', byte 'a'], by decide, by decide, assigning_closed _,
    assigning_closed _, assigning_keys _, assigning_keys _, ?_, ⟨[byte 'a', byte 'b'], [0, 0, 0]⟩, by unfold TimedWord.WF; rfl, ?_, ?_⟩
  · have : automaton (fun _ => [byte 'b', byte 'a']) (assigning 100000) =
        automaton (fun _ => [byte 'b', byte 'a']) (assigning (200001 / 2)) := by decide +kernel
    obtain ⟨s, hs⟩ := C81_prints (assigning 100000) (assigning_closed _) fun _ => [byte 'b', byte 'a']
    exact ⟨s, hs, this ▸ hs⟩
  · refine ⟨0, List.mem_singleton.2 rfl, ⟨2, _⟩, .delay 0 le_rfl (.act (byte 'a') (by decide) ⟨1, [(0, .const (200001 / 2))], []⟩
      (by simp [assigning]) (by intro c hc; cases hc) (.delay 0 le_rfl (.act (byte 'b') (by decide) ⟨2, [], [⟨0, .gt, 100000⟩]⟩
        (by simp [assigning]) ?_ (.delay 0 le_rfl (.nil _))))), by simp [assigning]⟩
    intro c hc
    rw [List.mem_singleton.1 hc]
    simp [Constraint.Holds, Resets.apply, Upd.eval, Valuation.shift]
    norm_num
  · rintro ⟨p, hp, c, hs, hm⟩
    obtain rfl : p = 0 := List.mem_singleton.1 hp
    have heps : (assigning 100000).EpsFree := by
      intro p _
      rw [List.eq_nil_iff_forall_not_mem]
      intro t ht
      have h1 : unobservable ≠ byte 'a' := by decide
      have h2 : unobservable ≠ byte 'b' := by decide
      rcases assigning_next _ p _ t ht with ⟨-, h, -⟩ | ⟨-, h, -⟩
      · exact h1 h
      · exact h2 h
    have hpl := hs.plain (assigning_closed _) heps (by simp [assigning])
    have hab : byte 'b' ≠ byte 'a' := by decide
    change (assigning 100000).Plain _ [.delay 0, .act (byte 'a'), .delay 0, .act (byte 'b'), .delay 0] c at hpl
    cases hpl with
    | delay _ _ hpl =>
    cases hpl with
    | act _ _ t ht _ hpl =>
    rcases assigning_next _ _ _ t ht with ⟨-, -, rfl⟩ | ⟨h, -, -⟩
    · cases hpl with
      | delay _ _ hpl =>
      cases hpl with
      | act _ _ t ht hg hpl =>
      rcases assigning_next _ _ _ t ht with ⟨h, -, -⟩ | ⟨-, -, rfl⟩
      · cases h
      · have := hg _ List.mem_cons_self
        simp [Constraint.Holds, Resets.apply, Upd.eval, Valuation.shift] at this
    · cases h

/-- The text of an automaton with a guard and an update. -/
example : automaton (fun _ => [byte 'b', byte 'a']) (assigning (1 / 2)) = some (str (
    "digraph G {\n        loc0 [init=1, match=0]\n        loc1 [init=0, match=0]\n        loc2 [init=0, match=1]\n".toList ++
    "        loc0->loc1 [label=\"a\", reset=\"{x0 := 0.5}\"]\n        loc1->loc2 [label=\"b\", guard=\"{x0 > 100000}\"]\n}\n".toList)) := by
  decide +kernel

/-- It meets the hypotheses of `C81_faithful`. -/
example : (assigning (1 / 2)).states.Nodup ∧ (assigning (1 / 2)).Closed ∧ (assigning (1 / 2)).ShortConstants := by
  refine ⟨by decide, assigning_closed _, fun p _ a t ht r hr q hq => ?_⟩
  rcases assigning_next _ p a t ht with ⟨-, -, rfl⟩ | ⟨-, -, rfl⟩
  · rw [List.mem_singleton.1 hr] at hq
    cases hq
    have := C81_halves 1 (by norm_num)
    simpa using this
  · cases hr

end LearnTA.Props
