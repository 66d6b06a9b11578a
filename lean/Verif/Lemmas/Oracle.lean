import Verif.Model.Oracle
import Verif.Lemmas.TimedWord
import Verif.Spec.Oracle

namespace LearnTA

namespace MemCache
variable {σ : Type} (ask : σ → TimedWord → σ × Bool)

theorem answerAll_count (c : MemCache σ) (ws : List TimedWord) :
    (answerAll ask c ws).1.countNoCache = c.countNoCache + ws.length ∧
    (answerAll ask c ws).2.length = ws.length := by
  induction ws generalizing c with
  | nil => simp [answerAll]
  | cons w ws ih =>
    simp only [answerAll, List.length_cons]
    rw [(ih _).1, (ih _).2]
    refine ⟨?_, rfl⟩
    unfold answerQuery
    split <;> simp <;> omega

/-- Answers come from the cache built up so far. -/
theorem answerQuery_lookup (c : MemCache σ) (w : TimedWord) :
    (answerQuery ask c w).1.cache.lookup w = some (answerQuery ask c w).2 ∧
    ∀ u b, c.cache.lookup u = some b → (answerQuery ask c w).1.cache.lookup u = some b := by
  unfold answerQuery
  split
  · rename_i b h; exact ⟨h, fun u b h => h⟩
  · rename_i h
    refine ⟨by simp, fun u b hu => ?_⟩
    simp only [List.lookup_cons]
    by_cases e : u = w
    · subst e; rw [h] at hu; cases hu
    · rw [beq_eq_false_iff_ne.2 e]; exact hu

theorem answerAll_mono (c : MemCache σ) (ws : List TimedWord) :
    ∀ u b, c.cache.lookup u = some b → (answerAll ask c ws).1.cache.lookup u = some b := by
  induction ws generalizing c with
  | nil => exact fun u b h => h
  | cons w ws ih =>
    intro u b h
    exact ih _ u b ((answerQuery_lookup ask c w).2 u b h)

theorem answerAll_final (c : MemCache σ) (ws : List TimedWord) (i : ℕ) (hi : i < ws.length) :
    (answerAll ask c ws).2[i]? = (answerAll ask c ws).1.cache.lookup ws[i] := by
  induction ws generalizing c i with
  | nil => simp at hi
  | cons w ws ih =>
    cases i with
    | zero =>
      simp only [answerAll, List.getElem?_cons_zero, List.getElem_cons_zero]
      exact (answerAll_mono ask _ ws w _ (answerQuery_lookup ask c w).1).symm
    | succ i =>
      simp only [answerAll, List.getElem?_cons_succ, List.getElem_cons_succ]
      exact ih _ i (by simpa using hi)

theorem answerAll_det (f : TimedWord → Bool) (hf : ∀ s w, (ask s w).2 = f w) (c : MemCache σ)
    (hc : ∀ u b, c.cache.lookup u = some b → b = f u) (ws : List TimedWord) :
    (answerAll ask c ws).2 = ws.map f := by
  induction ws generalizing c with
  | nil => rfl
  | cons w ws ih =>
    have hq : (answerQuery ask c w).2 = f w := by
      unfold answerQuery
      split
      · rename_i b h; exact hc w b h
      · exact hf _ _
    simp only [answerAll, List.map_cons, hq, List.cons.injEq, true_and]
    apply ih
    unfold answerQuery
    split
    · exact hc
    · rename_i h
      intro u b hu
      simp only [List.lookup_cons] at hu
      by_cases e : u = w
      · subst e
        simp only [beq_self_eq_true, Option.some.injEq] at hu
        rw [← hu]; exact hf _ _
      · rw [beq_eq_false_iff_ne.2 e] at hu; exact hc u b hu

theorem answerAll_recorded (c : MemCache (σ × List TimedWord)) (ws : List TimedWord)
    (hn : c.oracle.2.Nodup) (hc : ∀ u, (c.cache.lookup u).isSome ↔ u ∈ c.oracle.2) :
    (answerAll (recorded ask) c ws).1.oracle.2.Nodup ∧
    ∀ u, u ∈ (answerAll (recorded ask) c ws).1.oracle.2 ↔ u ∈ c.oracle.2 ∨ u ∈ ws := by
  induction ws generalizing c with
  | nil => simpa [answerAll] using hn
  | cons w ws ih =>
    cases hl : c.cache.lookup w with
    | some b =>
      have e : answerQuery (recorded ask) c w = ({ c with countNoCache := c.countNoCache + 1 }, b) := by
        unfold answerQuery; rw [hl]
      have := ih { c with countNoCache := c.countNoCache + 1 } hn hc
      simp only [answerAll, e]
      refine ⟨this.1, fun u => (this.2 u).trans ?_⟩
      have hw := (hc w).1 (by rw [hl]; rfl)
      simp only [List.mem_cons]
      constructor
      · rintro (h | h) <;> simp [h]
      · rintro (h | rfl | h)
        · exact .inl h
        · exact .inl hw
        · exact .inr h
    | none =>
      have e : answerQuery (recorded ask) c w = (⟨(recorded ask c.oracle w).1,
          (w, (recorded ask c.oracle w).2) :: c.cache, c.countNoCache + 1⟩,
          (recorded ask c.oracle w).2) := by
        unfold answerQuery; rw [hl]
      have hw : w ∉ c.oracle.2 := fun h => by
        have := (hc w).2 h
        rw [hl] at this; cases this
      have := ih ⟨(recorded ask c.oracle w).1, (w, (recorded ask c.oracle w).2) :: c.cache,
          c.countNoCache + 1⟩ (by
            simp only [recorded]
            rw [List.nodup_append]
            refine ⟨hn, by simp, ?_⟩
            rintro a ha b hb rfl
            simp only [List.mem_singleton] at hb
            subst hb; exact hw ha) (by
          intro u
          simp only [recorded, List.mem_append, List.mem_singleton, List.lookup_cons]
          by_cases h : u = w
          · subst h; simp
          · rw [beq_false_of_ne h]; simp only [h, or_false]; exact hc u)
      simp only [answerAll, e]
      refine ⟨this.1, fun u => (this.2 u).trans ?_⟩
      simp only [recorded, List.mem_append, List.mem_cons, List.not_mem_nil, or_false]
      tauto

end MemCache

namespace Runner

/-- Time passing zero is no step. -/
theorem stepDelay_zero (A : TA) (fuel : ℕ) (r : Runner) (a : Action) :
    stepDelay A (fuel + 1) (stepAct A r a).1 0 = some ((stepAct A r a).1, (stepAct A r a).2) := by
  unfold stepDelay stepAct
  by_cases h : A.states.isEmpty
  · simp [h]
  · simp only [h]
    cases hl : r.loc with
    | none => simp [hl]
    | some p =>
      simp only
      cases hf : ((A.loc p).next a).find? fun t => t.guard.satisfy r.val with
      | none => simp
      | some t => simp

/-- The runner `r` is where `A` is after the actions `pw` with the delays `pd` before them. -/
def AtPre (A : TA) (fuel : ℕ) (pw : List Action) (pd : List ℚ) (r : Runner) : Prop :=
  ∀ as d ds, answerQuery A fuel (start A) ⟨pw ++ as, pd ++ d :: ds⟩ =
    (stepDelay A fuel r d).bind fun p => runFrom A fuel p.1 p.2 as ds

theorem atPre_nil (A : TA) (fuel : ℕ) : AtPre A fuel [] [] (pre A (start A)) := by
  intro as d ds
  simp only [List.nil_append, answerQuery, List.headD_cons, List.tail_cons, post]
  cases stepDelay A fuel (pre A (start A)) d with
  | none => rfl
  | some p =>
    simp only [Option.bind_some]
    cases runFrom A fuel p.1 p.2 as ds <;> rfl

theorem atPre_succ {A : TA} {fuel : ℕ} {pw : List Action} {pd : List ℚ} {r r' : Runner} {b : Bool}
    {a : Action} {d : ℚ} (h : AtPre A fuel pw pd r) (hs : stepDelay A fuel r d = some (r', b)) :
    AtPre A fuel (pw ++ [a]) (pd ++ [d]) (stepAct A r' a).1 := by
  intro as e ds
  have := h (a :: as) d (e :: ds)
  simp only [List.append_assoc, List.singleton_append]
  rw [this, hs]
  simp only [Option.bind_some, runFrom]
  cases stepDelay A fuel (stepAct A r' a).1 e <;> rfl

theorem atPre_end {A : TA} {fuel : ℕ} {pw : List Action} {pd : List ℚ} {r r' : Runner} {b : Bool}
    {d : ℚ} (h : AtPre A fuel pw pd r) (hs : stepDelay A fuel r d = some (r', b)) :
    answerQuery A fuel (start A) ⟨pw, pd ++ [d]⟩ = some (r', b) := by
  have := h [] d []
  rw [hs] at this
  simpa [runFrom] using this

/-- The runner `r` is where `A` is after the first `i` actions of `w`, before the next delay. -/
def At (A : TA) (fuel : ℕ) (w : TimedWord) (i : ℕ) (r : Runner) : Prop :=
  ∀ as d ds, answerQuery A fuel (start A) ⟨w.word.take i ++ as, w.durations.take i ++ d :: ds⟩ =
    (stepDelay A fuel r d).bind fun p => runFrom A fuel p.1 p.2 as ds

theorem at_zero (A : TA) (fuel : ℕ) (w : TimedWord) : At A fuel w 0 (pre A (start A)) :=
  atPre_nil A fuel

theorem at_succ {A : TA} {fuel : ℕ} {w : TimedWord} {i : ℕ} {r r' : Runner} {b : Bool} {a : Action}
    {d : ℚ} (h : At A fuel w i r) (ha : w.word[i]? = some a) (hd : w.durations[i]? = some d)
    (hs : stepDelay A fuel r d = some (r', b)) : At A fuel w (i + 1) (stepAct A r' a).1 := by
  have h1 : w.word.take (i + 1) = w.word.take i ++ [a] := by
    rw [List.take_succ, ha]; rfl
  have h2 : w.durations.take (i + 1) = w.durations.take i ++ [d] := by
    rw [List.take_succ, hd]; rfl
  have := atPre_succ (a := a) h hs
  rw [← h1, ← h2] at this
  exact this

end Runner

section
variable {A H : TA} {fuel : ℕ} {w : TimedWord}

theorem answer_end {A : TA} {i : ℕ} {r r' : Runner} {b : Bool} {d : ℚ} (h : Runner.At A fuel w i r)
    (hs : Runner.stepDelay A fuel r d = some (r', b)) :
    Runner.answerQuery A fuel (Runner.start A) ⟨w.word.take i, w.durations.take i ++ [d]⟩ =
      some (r', b) := by
  have := h [] d []
  rw [hs] at this
  simpa [Runner.runFrom] using this

theorem fuel_pos {A : TA} {r : Runner} {d : ℚ} {p} (hs : Runner.stepDelay A fuel r d = some p) :
    ∃ k, fuel = k + 1 := by
  cases fuel with
  | zero => simp [Runner.stepDelay] at hs
  | succ k => exact ⟨k, rfl⟩

theorem answer_zero {A : TA} {i : ℕ} {r r' : Runner} {b : Bool} {d : ℚ} {a : Action}
    (h : Runner.At A fuel w i r) (ha : w.word[i]? = some a) (hd : w.durations[i]? = some d)
    (hs : Runner.stepDelay A fuel r d = some (r', b)) :
    Runner.answerQuery A fuel (Runner.start A)
      ⟨w.word.take (i + 1), w.durations.take (i + 1) ++ [0]⟩ = some (Runner.stepAct A r' a) := by
  have h1 := Runner.at_succ h ha hd hs
  obtain ⟨k, rfl⟩ := fuel_pos hs
  exact answer_end h1 (Runner.stepDelay_zero A k r' a)

end

namespace ByTest

/-- As `Derived`, the position being at least `i`. -/
def DerivedFrom (w : TimedWord) (i : ℕ) (c : TimedWord) : Prop :=
  c = w ∨ ∃ j, i ≤ j ∧ j < w.word.length ∧ (c = ⟨w.word.take j, w.durations.take (j + 1)⟩ ∨
    c = ⟨w.word.take (j + 1), w.durations.take (j + 1) ++ [0]⟩)

theorem testFrom_spec {A H : TA} {fuel : ℕ} {w : TimedWord} (hwf : w.WF) (ho : w.Observable)
    (i : ℕ) (r h : Runner) (hr : Runner.At A fuel w i r) (hh : Runner.At H fuel w i h)
    (as : List Action) (ds : List ℚ) (has : as = w.word.drop i) (hds : ds = w.durations.drop i)
    (hi : i ≤ w.word.length) (res : Option TimedWord)
    (ht : testFrom A H fuel w i r h as ds = some res) :
    res.elim (∀ c, DerivedFrom w i c → Agree A H fuel c) fun c => Differ A H fuel c ∧
      Derived w c := by
  have hwf' : w.durations.length = w.word.length + 1 := hwf
  induction as generalizing i r h ds with
  | nil =>
    have hil : i = w.word.length := by
      have := congrArg List.length has
      simp at this; omega
    cases ds with
    | nil => simp [testFrom] at ht
    | cons d ds =>
      have hd : w.durations[i]? = some d := by
        have := congrArg List.head? hds
        simpa [List.head?_drop] using this.symm
      have hw1 : w.word.take i = w.word := by rw [hil, List.take_length]
      have hw2 : w.durations.take i ++ [d] = w.durations := by
        have : w.durations.take (i + 1) = w.durations.take i ++ [d] := by
          rw [List.take_succ, hd]; rfl
        rw [← this, hil, ← hwf', List.take_length]
      unfold testFrom at ht
      cases hx : Runner.stepDelay A fuel r d with
      | none => rw [hx] at ht; cases ht
      | some p =>
        cases hy : Runner.stepDelay H fuel h d with
        | none => rw [hx, hy] at ht; cases ht
        | some q =>
          rw [hx, hy] at ht
          simp only [Option.some.injEq] at ht
          have e1 := answer_end hr hx
          have e2 := answer_end hh hy
          rw [hw1, hw2] at e1 e2
          by_cases hxy : p.2 ≠ q.2
          · rw [if_pos hxy] at ht
            subst ht
            exact ⟨⟨p.1, q.1, p.2, q.2, e1, e2, hxy⟩, .inl rfl⟩
          · rw [if_neg hxy] at ht
            subst ht
            rw [not_not] at hxy
            rintro c (rfl | ⟨j, h1, h2, -⟩)
            · exact ⟨p.1, q.1, p.2, e1, by rw [hxy]; exact e2⟩
            · omega
  | cons a as ih =>
    have ha : w.word[i]? = some a := by
      have := congrArg List.head? has
      simpa [List.head?_drop] using this.symm
    have hil : i < w.word.length := by
      have := congrArg List.length has
      simp at this; omega
    have has' : as = w.word.drop (i + 1) := by
      have := congrArg List.tail has
      simpa [List.tail_drop] using this
    have hobs : ∀ n, ∀ a ∈ w.word.take n, a ≠ unobservable := fun n a h => ho a (List.mem_of_mem_take h)
    cases ds with
    | nil => simp [testFrom] at ht
    | cons d ds =>
      have hd : w.durations[i]? = some d := by
        have := congrArg List.head? hds
        simpa [List.head?_drop] using this.symm
      have hds' : ds = w.durations.drop (i + 1) := by
        have := congrArg List.tail hds
        simpa [List.tail_drop] using this
      have hw2 : w.durations.take (i + 1) = w.durations.take i ++ [d] := by
        rw [List.take_succ, hd]; rfl
      unfold testFrom at ht
      cases hx : Runner.stepDelay A fuel r d with
      | none => rw [hx] at ht; cases ht
      | some p =>
        cases hy : Runner.stepDelay H fuel h d with
        | none => rw [hx, hy] at ht; cases ht
        | some q =>
          obtain ⟨r', x⟩ := p
          obtain ⟨h', y⟩ := q
          rw [hx, hy] at ht
          simp only at ht
          by_cases hxy : x ≠ y
          · rw [if_pos hxy, Option.some.injEq] at ht
            subst ht
            have e : prefixOf w i = ⟨w.word.take i, w.durations.take (i + 1)⟩ :=
              TimedWord.make_observable (u := ⟨w.word.take i, w.durations.take (i + 1)⟩)
                (by simp only [TimedWord.WF, List.length_take]; omega) (hobs i)
            rw [e]
            have e1 := answer_end hr hx
            have e2 := answer_end hh hy
            rw [← hw2] at e1 e2
            exact ⟨⟨r', h', x, y, e1, e2, hxy⟩, .inr ⟨i, hil, .inl rfl⟩⟩
          · rw [if_neg hxy] at ht
            by_cases hpq : (Runner.stepAct A r' a).2 ≠ (Runner.stepAct H h' a).2
            · rw [if_pos hpq, Option.some.injEq] at ht
              subst ht
              have e : prefixZero w i = ⟨w.word.take (i + 1), w.durations.take (i + 1) ++ [0]⟩ :=
                TimedWord.make_observable
                  (u := ⟨w.word.take (i + 1), w.durations.take (i + 1) ++ [0]⟩)
                  (by simp only [TimedWord.WF, List.length_take, List.length_append,
                        List.length_singleton]; omega) (hobs (i + 1))
              rw [e]
              have e1 := answer_zero hr ha hd hx
              have e2 := answer_zero hh ha hd hy
              exact ⟨⟨_, _, _, _, e1, e2, hpq⟩, .inr ⟨i, hil, .inr rfl⟩⟩
            · rw [if_neg hpq] at ht
              have := ih (i + 1) _ _ (Runner.at_succ hr ha hd hx) (Runner.at_succ hh ha hd hy) ds
                has' hds' hil ht
              cases res with
              | some c => exact this
              | none =>
                rw [not_not] at hxy hpq
                rintro c (rfl | ⟨j, h1, h2, h3⟩)
                · exact this _ (.inl rfl)
                · rcases Nat.lt_or_ge i j with hij | hij
                  · exact this _ (.inr ⟨j, hij, h2, h3⟩)
                  · have : j = i := by omega
                    subst this
                    rcases h3 with rfl | rfl
                    · have e1 := answer_end hr hx
                      have e2 := answer_end hh hy
                      rw [← hw2] at e1 e2
                      exact ⟨_, _, _, e1, by rw [hxy]; exact e2⟩
                    · have e1 := answer_zero hr ha hd hx
                      have e2 := answer_zero hh ha hd hy
                      refine ⟨(Runner.stepAct A r' a).1, (Runner.stepAct H h' a).1,
                        (Runner.stepAct A r' a).2, e1, ?_⟩
                      rw [hpq]; exact e2

theorem findFrom_spec {A H : TA} {fuel : ℕ} (ws : List TimedWord)
    (hws : ∀ w ∈ ws, w.WF ∧ w.Observable) (res : Option TimedWord)
    (h : findFrom A H fuel ws = some res) :
    res.elim (∀ w ∈ ws, ∀ c, Derived w c → Agree A H fuel c) fun c => Differ A H fuel c ∧
      ∃ w ∈ ws, Derived w c := by
  induction ws with
  | nil =>
    simp only [findFrom, Option.some.injEq] at h
    subst h; simp
  | cons w ws ih =>
    unfold findFrom at h
    have hw := hws w List.mem_cons_self
    have key := testFrom_spec (fuel := fuel) hw.1 hw.2 0 _ _ (Runner.at_zero A fuel w)
      (Runner.at_zero H fuel w) w.word w.durations (by simp) (by simp) (by simp)
    cases ht : testFrom A H fuel w 0 (Runner.pre A (Runner.start A)) (Runner.pre H (Runner.start H))
        w.word w.durations with
    | none => rw [ht] at h; cases h
    | some r =>
      have k := key r ht
      cases r with
      | some c =>
        rw [ht] at h
        simp only [Option.some.injEq] at h
        subst h
        exact ⟨k.1, w, List.mem_cons_self, k.2⟩
      | none =>
        rw [ht] at h
        have := ih (fun u hu => hws u (List.mem_cons_of_mem _ hu)) h
        cases res with
        | some c =>
          obtain ⟨h1, u, hu, h2⟩ := this
          exact ⟨h1, u, List.mem_cons_of_mem _ hu, h2⟩
        | none =>
          intro u hu
          rcases List.mem_cons.1 hu with rfl | hu
          · rintro c (h | ⟨j, h⟩)
            · exact k c (.inl h)
            · exact k c (.inr ⟨j, Nat.zero_le _, h⟩)
          · exact this u hu

end ByTest

namespace RandomTest

theorem testFrom_spec {A H : TA} {fuel : ℕ} (pw : List Action) (pd : List ℚ) (r h : Runner)
    (hl : pd.length = pw.length) (ho : ∀ a ∈ pw, a ≠ unobservable)
    (hr : Runner.AtPre A fuel pw pd r) (hh : Runner.AtPre H fuel pw pd h) (last : ℚ)
    (draws : List (ℚ × Action)) (hd : ∀ p ∈ draws, p.2 ≠ unobservable) (res : Option TimedWord)
    (ht : testFrom A H fuel pw pd r h last draws = some res) :
    res.elim (Agree A H fuel ⟨pw ++ draws.map Prod.snd, pd ++ draws.map Prod.fst ++ [last]⟩)
      (Differ A H fuel) := by
  have mk : ∀ (pw : List Action) (ds : List ℚ), ds.length = pw.length + 1 →
      (∀ a ∈ pw, a ≠ unobservable) → TimedWord.make pw ds = ⟨pw, ds⟩ := fun pw ds h1 h2 =>
    TimedWord.make_observable (u := ⟨pw, ds⟩) h1 h2
  induction draws generalizing pw pd r h with
  | nil =>
    unfold testFrom at ht
    cases hx : Runner.stepDelay A fuel r last with
    | none => rw [hx] at ht; cases ht
    | some p =>
      cases hy : Runner.stepDelay H fuel h last with
      | none => rw [hx, hy] at ht; cases ht
      | some q =>
        rw [hx, hy] at ht
        simp only [Option.some.injEq] at ht
        have e1 := Runner.atPre_end hr hx
        have e2 := Runner.atPre_end hh hy
        by_cases hxy : p.2 ≠ q.2
        · rw [if_pos hxy, mk _ _ (by simp [hl]) ho] at ht
          subst ht
          exact ⟨p.1, q.1, p.2, q.2, e1, e2, hxy⟩
        · rw [if_neg hxy] at ht
          subst ht
          rw [not_not] at hxy
          refine ⟨p.1, q.1, p.2, ?_, ?_⟩
          · simpa using e1
          · rw [hxy]; simpa using e2
  | cons da draws ih =>
    obtain ⟨d, a⟩ := da
    have ha : a ≠ unobservable := hd (d, a) List.mem_cons_self
    have ho' : ∀ b ∈ pw ++ [a], b ≠ unobservable := by
      intro b hb
      rcases List.mem_append.1 hb with hb | hb
      · exact ho b hb
      · rw [List.mem_singleton.1 hb]; exact ha
    unfold testFrom at ht
    cases hx : Runner.stepDelay A fuel r d with
    | none => rw [hx] at ht; cases ht
    | some p =>
      cases hy : Runner.stepDelay H fuel h d with
      | none => rw [hx, hy] at ht; cases ht
      | some q =>
        obtain ⟨r', x⟩ := p
        obtain ⟨h', y⟩ := q
        rw [hx, hy] at ht
        simp only at ht
        by_cases hxy : x ≠ y
        · rw [if_pos hxy, Option.some.injEq, mk _ _ (by simp [hl]) ho] at ht
          subst ht
          exact ⟨_, _, _, _, Runner.atPre_end hr hx, Runner.atPre_end hh hy, hxy⟩
        · rw [if_neg hxy] at ht
          have n1 := Runner.atPre_succ (a := a) hr hx
          have n2 := Runner.atPre_succ (a := a) hh hy
          by_cases hpq : (Runner.stepAct A r' a).2 ≠ (Runner.stepAct H h' a).2
          · rw [if_pos hpq, Option.some.injEq, mk _ _ (by simp [hl]) ho'] at ht
            subst ht
            obtain ⟨k, rfl⟩ := fuel_pos hx
            have e1 := Runner.atPre_end n1 (Runner.stepDelay_zero A k r' a)
            have e2 := Runner.atPre_end n2 (Runner.stepDelay_zero H k h' a)
            simp only [List.append_assoc, List.singleton_append] at e1 e2
            exact ⟨_, _, _, _, e1, e2, hpq⟩
          · rw [if_neg hpq] at ht
            have := ih (pw ++ [a]) (pd ++ [d]) _ _ (by simp [hl]) ho' n1 n2
              (fun p hp => hd p (List.mem_cons_of_mem _ hp)) ht
            simpa using this

theorem find_spec {A H : TA} {fuel : ℕ} (ts : List (List (ℚ × Action) × ℚ))
    (hts : ∀ t ∈ ts, ∀ p ∈ t.1, p.2 ≠ unobservable) (res : Option TimedWord)
    (h : find A H fuel ts = some res) :
    res.elim (∀ t ∈ ts, Agree A H fuel ⟨t.1.map Prod.snd, t.1.map Prod.fst ++ [t.2]⟩)
      (Differ A H fuel) := by
  induction ts with
  | nil =>
    simp only [find, Option.some.injEq] at h
    subst h; simp
  | cons t ts ih =>
    obtain ⟨draws, last⟩ := t
    unfold find at h
    have key := testFrom_spec (fuel := fuel) [] [] _ _ rfl (by simp) (Runner.atPre_nil A fuel)
      (Runner.atPre_nil H fuel) last draws (hts _ List.mem_cons_self)
    cases ht : testFrom A H fuel [] [] (Runner.pre A (Runner.start A))
        (Runner.pre H (Runner.start H)) last draws with
    | none => rw [ht] at h; cases h
    | some r =>
      have k := key r ht
      cases r with
      | some c =>
        rw [ht] at h
        simp only [Option.some.injEq] at h
        subst h; exact k
      | none =>
        rw [ht] at h
        have := ih (fun u hu => hts u (List.mem_cons_of_mem _ hu)) h
        cases res with
        | some c => exact this
        | none =>
          intro u hu
          rcases List.mem_cons.1 hu with rfl | hu
          · simpa using k
          · exact this u hu

end RandomTest

/-! ### Combined oracles -/

theorem EqCall.Sound.step {Ω : Type} {call : EqCall Ω} {P} {o o' : Ω} {H r}
    (h : EqCall.Sound call P o) (hc : call o H = some (o', r)) : EqCall.Sound call P o' :=
  fun hs o'' ha => h (H :: hs) o'' (.cons hc ha)

theorem EqCall.Sound.now {Ω : Type} {call : EqCall Ω} {P} {o o' : Ω} {H w}
    (h : EqCall.Sound call P o) (hc : call o H = some (o', some w)) : P H w :=
  h [] o (.nil o) H o' w hc

theorem EqCall.sound_of_inv {Ω : Type} {call : EqCall Ω} {P} (I : Ω → Prop)
    (hI : ∀ o H o' r, I o → call o H = some (o', r) → I o' ∧ ∀ w, r = some w → P H w) {o : Ω}
    (h : I o) : EqCall.Sound call P o := by
  intro hs o' ha
  induction ha with
  | nil o => intro H o'' w hc; exact (hI o H o'' _ h hc).2 w rfl
  | cons hc _ ih => exact ih (hI _ _ _ _ h hc).1

theorem chainCall_spec {Ω : Type} (call : EqCall Ω) (os os' : List Ω) (H : TA)
    (r : Option TimedWord) (h : chainCall call os H = some (os', r)) :
    r.elim (List.Forall₂ (fun o o' => call o H = some (o', none)) os os') (fun w =>
      ∃ pre o post pre' o', os = pre ++ o :: post ∧ os' = pre' ++ o' :: post ∧
        List.Forall₂ (fun o o' => call o H = some (o', none)) pre pre' ∧
        call o H = some (o', some w)) := by
  induction os generalizing os' with
  | nil =>
    simp only [chainCall, Option.some.injEq, Prod.mk.injEq] at h
    obtain ⟨rfl, rfl⟩ := h
    exact .nil
  | cons o os ih =>
    unfold chainCall at h
    cases hc : call o H with
    | none => rw [hc] at h; cases h
    | some p =>
      obtain ⟨o', r'⟩ := p
      cases r' with
      | some w =>
        rw [hc] at h
        simp only [Option.some.injEq, Prod.mk.injEq] at h
        obtain ⟨rfl, rfl⟩ := h
        exact ⟨[], o, os, [], o', rfl, rfl, .nil, hc⟩
      | none =>
        rw [hc] at h
        simp only [Option.map_eq_some_iff, Prod.exists] at h
        obtain ⟨os1, r1, h1, h2⟩ := h
        rw [Prod.mk.injEq] at h2
        obtain ⟨rfl, rfl⟩ := h2
        have := ih os1 h1
        cases r1 with
        | none => exact .cons hc this
        | some w =>
          obtain ⟨pre, p, post, pre', p', rfl, rfl, h3, h4⟩ := this
          exact ⟨o :: pre, p, post, o' :: pre', p', rfl, rfl, .cons hc h3, h4⟩

theorem chain_sound {Ω : Type} {call : EqCall Ω} {P} {os : List Ω}
    (h : ∀ o ∈ os, EqCall.Sound call P o) : EqCall.Sound (chainCall call) P os := by
  have forall2 : ∀ {H : TA} {pre pre' : List Ω},
      List.Forall₂ (fun o o' => call o H = some (o', none)) pre pre' →
      (∀ o ∈ pre, EqCall.Sound call P o) → ∀ o ∈ pre', EqCall.Sound call P o := by
    intro H pre pre' h2
    induction h2 with
    | nil => simp
    | cons hc _ ih =>
      intro hs o ho
      rcases List.mem_cons.1 ho with rfl | ho
      · exact (hs _ List.mem_cons_self).step hc
      · exact ih (fun o ho => hs o (List.mem_cons_of_mem _ ho)) o ho
  refine EqCall.sound_of_inv (I := fun os => ∀ o ∈ os, EqCall.Sound call P o) ?_ h
  intro os H os' r hs hc
  have := chainCall_spec call os os' H r hc
  cases r with
  | none => exact ⟨forall2 this hs, by simp⟩
  | some w =>
    obtain ⟨pre, o, post, pre', o', rfl, rfl, h3, h4⟩ := this
    have ho := hs o (by simp)
    refine ⟨fun p hp => ?_, fun w' hw => ?_⟩
    · rcases List.mem_append.1 hp with hp | hp
      · exact forall2 h3 (fun o ho => hs o (by simp [ho])) p hp
      · rcases List.mem_cons.1 hp with rfl | hp
        · exact ho.step h4
        · exact hs p (by simp [hp])
    · cases hw; exact ho.now h4

theorem byTest_find {o : ByTest} {fuel : ℕ} {H : TA} {r : ByTest × Option TimedWord}
    (h : o.findCounterExample fuel H = some r) :
    r.1 = { o with eqQueryCount := o.eqQueryCount + 1 } ∧
    ByTest.findFrom o.automaton H fuel o.words = some r.2 := by
  simp only [ByTest.findCounterExample, Option.map_eq_some_iff] at h
  obtain ⟨x, h1, rfl⟩ := h
  exact ⟨rfl, h1⟩

/-- What is remembered: well-formed words. -/
def ByTest.OK (o : ByTest) : Prop := ∀ w ∈ o.words, w.WF ∧ w.Observable

theorem ByTest.derived_ok {w c : TimedWord} (hw : w.WF) (ho : w.Observable)
    (h : ByTest.Derived w c) : c.WF ∧ c.Observable := by
  have hw' : w.durations.length = w.word.length + 1 := hw
  rcases h with rfl | ⟨i, hi, rfl | rfl⟩
  · exact ⟨hw, ho⟩
  · refine ⟨?_, fun a ha => ho a (List.mem_of_mem_take ha)⟩
    show (w.durations.take (i + 1)).length = (w.word.take i).length + 1
    simp only [List.length_take]; omega
  · refine ⟨?_, fun a ha => ho a (List.mem_of_mem_take ha)⟩
    show (w.durations.take (i + 1) ++ [0]).length = (w.word.take (i + 1)).length + 1
    simp only [List.length_take, List.length_append, List.length_singleton]; omega

theorem ByTest.derived_nonneg {w c : TimedWord} (hw : ∀ d ∈ w.durations, 0 ≤ d)
    (h : ByTest.Derived w c) : ∀ d ∈ c.durations, 0 ≤ d := by
  rcases h with rfl | ⟨i, hi, rfl | rfl⟩
  · exact hw
  · exact fun d hd => hw d (List.mem_of_mem_take hd)
  · intro d hd
    rcases List.mem_append.1 hd with hd | hd
    · exact hw d (List.mem_of_mem_take hd)
    · simp only [List.mem_singleton] at hd; simp [hd]

theorem memo_sound {Ω : Type} {call : EqCall Ω} {A : TA} {fuel : ℕ} {P : TA → TimedWord → Prop}
    (hP : ∀ H w, w.WF → w.Observable → Differ A H fuel w → P H w) (hwf : ∀ H w, P H w → w.WF ∧ w.Observable) {o : Ω}
    {t : ByTest} (ht : t.OK) (hA : t.automaton = A) (h : EqCall.Sound call P o) :
    EqCall.Sound (memoCall call fuel) P (o, t) := by
  refine EqCall.sound_of_inv
    (I := fun s => EqCall.Sound call P s.1 ∧ s.2.OK ∧ s.2.automaton = A) ?_ ⟨h, ht, hA⟩
  rintro ⟨o, t⟩ H ⟨o', t'⟩ r ⟨ho, ht, hA⟩ hc
  unfold memoCall at hc
  simp only at hc ho ht hA
  cases hf : t.findCounterExample fuel H with
  | none => rw [hf] at hc; cases hc
  | some p =>
    obtain ⟨t1, r1⟩ := p
    obtain ⟨e1, e2⟩ := byTest_find hf
    simp only at e1 e2
    have ht1 : t1.OK := by rw [e1]; exact ht
    have hA1 : t1.automaton = A := by rw [e1]; exact hA
    cases r1 with
    | some w =>
      rw [hf] at hc
      simp only [Option.some.injEq, Prod.mk.injEq] at hc
      obtain ⟨⟨rfl, rfl⟩, rfl⟩ := hc
      refine ⟨⟨ho, ht1, hA1⟩, fun w' hw => ?_⟩
      cases hw
      obtain ⟨h1, u, hu, h2⟩ := ByTest.findFrom_spec t.words ht _ e2
      rw [hA] at h1
      have := ByTest.derived_ok (ht u hu).1 (ht u hu).2 h2
      exact hP H w this.1 this.2 h1
    | none =>
      rw [hf] at hc
      simp only at hc
      cases hq : call o H with
      | none => rw [hq] at hc; cases hc
      | some q =>
        obtain ⟨o1, r2⟩ := q
        cases r2 with
        | none =>
          rw [hq] at hc
          simp only [Option.some.injEq, Prod.mk.injEq] at hc
          obtain ⟨⟨rfl, rfl⟩, rfl⟩ := hc
          exact ⟨⟨ho.step hq, ht1, hA1⟩, by simp⟩
        | some w =>
          rw [hq] at hc
          simp only [Option.some.injEq, Prod.mk.injEq] at hc
          obtain ⟨⟨rfl, rfl⟩, rfl⟩ := hc
          refine ⟨⟨ho.step hq, ?_, hA1⟩, fun w' hw => ?_⟩
          · intro u hu
            simp only [ByTest.pushBack, List.mem_append, List.mem_singleton] at hu
            rcases hu with hu | rfl
            · exact ht1 u hu
            · exact hwf H u (ho.now hq)
          · cases hw; exact ho.now hq

/-- What one call of the memo does to the remembered words. -/
theorem memo_words {Ω : Type} {call : EqCall Ω} {fuel : ℕ} {s s' : Ω × ByTest} {H : TA}
    {r : Option TimedWord} (hok : s.2.OK) (h : memoCall call fuel s H = some (s', r)) :
    s'.2.automaton = s.2.automaton ∧ s.2.words <+: s'.2.words ∧
    (∀ w, r = some w → ∃ u ∈ s'.2.words, ByTest.Derived u w) ∧
    (r = none → s'.2.words = s.2.words ∧ call s.1 H = some (s'.1, none) ∧
      ∀ u ∈ s.2.words, ∀ c, ByTest.Derived u c → Agree s.2.automaton H fuel c) := by
  obtain ⟨o, t⟩ := s
  unfold memoCall at h
  simp only at h
  cases hf : t.findCounterExample fuel H with
  | none => rw [hf] at h; cases h
  | some p =>
    obtain ⟨t1, r1⟩ := p
    obtain ⟨e1, e2⟩ := byTest_find hf
    simp only at e1 e2
    cases r1 with
    | some w =>
      rw [hf] at h
      simp only [Option.some.injEq, Prod.mk.injEq] at h
      obtain ⟨rfl, rfl⟩ := h
      obtain ⟨-, u, hu, h2⟩ := ByTest.findFrom_spec t.words hok _ e2
      refine ⟨by rw [e1], by simp [e1], ?_, by simp⟩
      rintro w' hw
      cases hw
      exact ⟨u, by rw [e1]; exact hu, h2⟩
    | none =>
      rw [hf] at h
      simp only at h
      have hag := ByTest.findFrom_spec t.words hok _ e2
      cases hq : call o H with
      | none => rw [hq] at h; cases h
      | some q =>
        obtain ⟨o1, r2⟩ := q
        cases r2 with
        | none =>
          rw [hq] at h
          simp only [Option.some.injEq, Prod.mk.injEq] at h
          obtain ⟨rfl, rfl⟩ := h
          refine ⟨by rw [e1], by simp [e1], by simp, fun _ => ⟨by rw [e1], rfl, hag⟩⟩
        | some w =>
          rw [hq] at h
          simp only [Option.some.injEq, Prod.mk.injEq] at h
          obtain ⟨rfl, rfl⟩ := h
          refine ⟨by simp [ByTest.pushBack, e1], by simp [ByTest.pushBack, e1], ?_, by simp⟩
          rintro w' hw
          cases hw
          exact ⟨w, by simp [ByTest.pushBack], .inl rfl⟩

/-! ### The learner -/

namespace Learner
variable {τ σ : Type}

theorem saturate_spec (T : Table τ) (fuel : ℕ) (t t' : τ) (h : saturate T fuel t = some t') :
    ∃ t0 t1 t2 t3, T.close t0 = (t1, true) ∧ T.consistent t1 = (t2, true) ∧
      T.exteriorConsistent t2 = (t3, true) ∧ T.timeSaturate t3 = (t', true) := by
  induction fuel generalizing t with
  | zero => simp [saturate] at h
  | succ fuel ih =>
    unfold saturate at h
    simp only at h
    split at h
    · rename_i hs
      simp only [Option.some.injEq] at h
      subst h
      unfold saturateStep at hs ⊢
      simp only at hs ⊢
      cases h1 : (T.close t).2 with
      | false => simp [h1] at hs
      | true =>
        simp only [h1] at hs ⊢
        cases h2 : (T.consistent (T.close t).1).2 with
        | false => simp [h2] at hs
        | true =>
          simp only [h2] at hs ⊢
          cases h3 : (T.exteriorConsistent (T.consistent (T.close t).1).1).2 with
          | false => simp [h3] at hs
          | true =>
            simp only [h3] at hs ⊢
            exact ⟨t, _, _, _, Prod.ext rfl h1, Prod.ext rfl h2, Prod.ext rfl h3,
              Prod.ext rfl hs⟩
    · exact ih _ h

theorem saturate_logged (T : Table τ) (fuel : ℕ) (t t' : τ × List TimedWord)
    (h : saturate (loggedTable T) fuel t = some t') : t'.2 = t.2 := by
  induction fuel generalizing t with
  | zero => simp [saturate] at h
  | succ fuel ih =>
    have hstep : (saturateStep (loggedTable T) t).1.2 = t.2 := by
      unfold saturateStep loggedTable
      simp only
      split
      · rfl
      · split
        · rfl
        · split <;> rfl
    unfold saturate at h
    simp only at h
    split at h
    · simp only [Option.some.injEq] at h
      rw [← h, hstep]
    · rw [ih _ h, hstep]

theorem run_spec (T : Table τ) (eq : EqCall σ) (post : TA → Option TA) (fuel : ℕ)
    (t t' : τ × List TimedWord) (s s' : σ × List (TA × Option TimedWord)) (H : TA)
    (h : run (loggedTable T) (logged eq) post fuel t s = some (H, t', s')) :
    (∃ s1, eq s1 H = some (s'.1, none)) ∧
    (∃ H0, post H0 = some H ∧ ∃ t0 t1 t2 t3 t4, T.close t0 = (t1, true) ∧
      T.consistent t1 = (t2, true) ∧ T.exteriorConsistent t2 = (t3, true) ∧
      T.timeSaturate t3 = (t4, true) ∧ T.generateHypothesis t4 = (t'.1, H0)) ∧
    ∃ cexs : List (TA × TimedWord),
      s'.2 = s.2 ++ cexs.map (fun p => (p.1, some p.2)) ++ [(H, none)] ∧
      t'.2 = t.2 ++ cexs.map Prod.snd := by
  induction fuel generalizing t s with
  | zero => simp [run] at h
  | succ fuel ih =>
    unfold run at h
    cases hsat : saturate (loggedTable T) fuel t with
    | none => rw [hsat] at h; cases h
    | some t1 =>
      rw [hsat] at h
      simp only at h
      have hlog := saturate_logged T fuel t t1 hsat
      cases hp : post ((loggedTable T).generateHypothesis t1).2 with
      | none => rw [hp] at h; cases h
      | some H1 =>
        rw [hp] at h
        simp only at h
        cases he : eq s.1 H1 with
        | none => simp [logged, he] at h
        | some r =>
          obtain ⟨s1, r⟩ := r
          cases r with
          | none =>
            simp only [logged, he, Option.map_some, Option.some.injEq, Prod.mk.injEq] at h
            obtain ⟨rfl, rfl, rfl⟩ := h
            refine ⟨⟨s.1, he⟩, ⟨_, hp, ?_⟩, [], by simp, ?_⟩
            · obtain ⟨a, b, c, d, h1, h2, h3, h4⟩ := saturate_spec _ _ _ _ hsat
              exact ⟨a.1, b.1, c.1, d.1, t1.1,
                Prod.ext (congrArg (fun p => p.1.1) h1) (congrArg (fun p => p.2) h1),
                Prod.ext (congrArg (fun p => p.1.1) h2) (congrArg (fun p => p.2) h2),
                Prod.ext (congrArg (fun p => p.1.1) h3) (congrArg (fun p => p.2) h3),
                Prod.ext (congrArg (fun p => p.1.1) h4) (congrArg (fun p => p.2) h4), rfl⟩
            · simp only [loggedTable, List.map_nil, List.append_nil]; exact hlog
          | some w =>
            simp only [logged, he, Option.map_some] at h
            obtain ⟨h1, h2, cexs, h3, h4⟩ := ih _ _ h
            refine ⟨h1, h2, (H1, w) :: cexs, ?_, ?_⟩
            · rw [h3]; simp
            · rw [h4]; simp [loggedTable, hlog]

theorem saturate_proj (T : Table τ) (fuel : ℕ) (t : τ × List TimedWord) :
    (saturate (loggedTable T) fuel t).map Prod.fst = saturate T fuel t.1 := by
  induction fuel generalizing t with
  | zero => rfl
  | succ fuel ih =>
    have hstep : (saturateStep (loggedTable T) t).1.1 = (saturateStep T t.1).1 ∧
        (saturateStep (loggedTable T) t).2 = (saturateStep T t.1).2 := by
      unfold saturateStep loggedTable
      simp only
      split
      · exact ⟨rfl, rfl⟩
      · split
        · exact ⟨rfl, rfl⟩
        · split <;> exact ⟨rfl, rfl⟩
    unfold saturate
    simp only [hstep.2]
    split
    · simp [hstep.1]
    · rw [ih, hstep.1]

/-- The records do not influence the execution. -/
theorem run_proj (T : Table τ) (eq : EqCall σ) (post : TA → Option TA) (fuel : ℕ)
    (t : τ × List TimedWord) (s : σ × List (TA × Option TimedWord)) :
    (run (loggedTable T) (logged eq) post fuel t s).map (fun r => (r.1, r.2.1.1, r.2.2.1)) =
      run T eq post fuel t.1 s.1 := by
  induction fuel generalizing t s with
  | zero => rfl
  | succ fuel ih =>
    unfold run
    rw [← saturate_proj T fuel t]
    cases saturate (loggedTable T) fuel t with
    | none => rfl
    | some t1 =>
      simp only [Option.map_some]
      have hg : ((loggedTable T).generateHypothesis t1).2 = (T.generateHypothesis t1.1).2 := rfl
      have hg1 : ((loggedTable T).generateHypothesis t1).1.1 = (T.generateHypothesis t1.1).1 := rfl
      rw [hg]
      cases hp : post (T.generateHypothesis t1.1).2 with
      | none => rfl
      | some H =>
        simp only
        cases he : eq s.1 H with
        | none => simp [logged, he]
        | some r =>
          obtain ⟨s1, r⟩ := r
          cases r with
          | none => simp [logged, he, hg1]
          | some w =>
            simp only [logged, he, Option.map_some]
            exact ih _ _

end Learner
end LearnTA
