import Verif.Spec.Termination
import Verif.Lemmas.RegionTA
import Verif.Lemmas.TAReach
import Verif.Lemmas.Counterexample

/-!
# Automata without unobservable transitions forget long waits
-/

namespace LearnTA
namespace TA

theorem Plain.append_iff {A : TA} (es es' : List Event) (c c' : Config) :
    A.Plain c (es ++ es') c' ↔ ∃ m, A.Plain c es m ∧ A.Plain m es' c' := by
  induction es generalizing c with
  | nil =>
    constructor
    · exact fun h => ⟨c, .nil c, h⟩
    · rintro ⟨m, h, h'⟩
      cases h with
      | nil _ => exact h'
  | cons e es ih =>
    constructor
    · intro h
      cases h with
      | delay d hd h =>
        obtain ⟨m, h1, h2⟩ := (ih _).1 h
        exact ⟨m, .delay d hd h1, h2⟩
      | act a ha t ht hg h =>
        obtain ⟨m, h1, h2⟩ := (ih _).1 h
        exact ⟨m, .act a ha t ht hg h1, h2⟩
    · rintro ⟨m, h, h'⟩
      cases h with
      | delay d hd h => exact .delay d hd ((ih _).2 ⟨m, h, h'⟩)
      | act a ha t ht hg h => exact .act a ha t ht hg ((ih _).2 ⟨m, h, h'⟩)

theorem Plain.delay_iff {A : TA} {c c' : Config} {d : ℚ} {es : List Event} :
    A.Plain c (.delay d :: es) c' ↔ 0 ≤ d ∧ A.Plain ⟨c.loc, c.val.shift d⟩ es c' := by
  constructor
  · intro h
    cases h with
    | delay _ hd h => exact ⟨hd, h⟩
  · rintro ⟨hd, h⟩; exact .delay d hd h

theorem Plain.eventsOf_append {A : TA} (ws : List Action) (ds : List ℚ) (us : List Action) (e : ℚ) (es : List ℚ)
    (hl : ds.length = ws.length + 1) (hd : ∀ d ∈ ds, 0 ≤ d) (he : 0 ≤ e) (c c' : Config) :
    A.Plain c (eventsOf (ws ++ us) (TimedWord.addBack ds e ++ es)) c' ↔
      ∃ m, A.Plain c (eventsOf ws ds) m ∧ A.Plain m (eventsOf us (e :: es)) c' := by
  induction ws generalizing ds c with
  | nil =>
    obtain ⟨d, rfl⟩ : ∃ d, ds = [d] := List.length_eq_one_iff.1 hl
    have h0 : 0 ≤ d := hd d (by simp)
    have e1 : TimedWord.addBack [d] e ++ es = (d + e) :: es := by simp [TimedWord.addBack]
    rw [e1, List.nil_append]
    have key : ∀ (q : ℚ), ∃ rest, eventsOf us (q :: es) = .delay q :: rest ∧ rest = (match us with
        | [] => []
        | a :: as => .act a :: eventsOf as es) := by
      intro q
      cases us with
      | nil => exact ⟨_, rfl, rfl⟩
      | cons a as => exact ⟨_, rfl, rfl⟩
    obtain ⟨r1, k1, k2⟩ := key (d + e)
    obtain ⟨r2, k3, k4⟩ := key e
    have k5 : r2 = r1 := by rw [k2, k4]
    subst k5
    rw [k1, k3]
    constructor
    · intro h
      rw [Plain.delay_iff] at h
      refine ⟨⟨c.loc, c.val.shift d⟩, .delay d h0 (.nil _), ?_⟩
      rw [Plain.delay_iff]
      exact ⟨he, by rw [Valuation.shift_shift]; exact h.2⟩
    · rintro ⟨m, h, h'⟩
      simp only [eventsOf] at h
      rw [Plain.delay_iff] at h
      obtain ⟨_, h⟩ := h
      cases h with
      | nil _ =>
        rw [Plain.delay_iff] at h' ⊢
        refine ⟨add_nonneg h0 he, ?_⟩
        rw [← Valuation.shift_shift]
        exact h'.2
  | cons a ws ih =>
    cases ds with
    | nil => simp at hl
    | cons d ds =>
      cases hds : ds with
      | nil => rw [hds] at hl; simp at hl
      | cons d1 ds1 =>
        have e1 : TimedWord.addBack (d :: d1 :: ds1) e ++ es = d :: (TimedWord.addBack (d1 :: ds1) e ++ es) := by
          simp [TimedWord.addBack]
        rw [e1]
        simp only [List.cons_append, eventsOf]
        have ih' := fun c => ih (d1 :: ds1) (by rw [← hds]; simpa using hl)
          (fun x hx => hd x (by rw [hds]; exact List.mem_cons_of_mem _ hx)) c
        constructor
        · intro h
          rw [Plain.delay_iff] at h
          obtain ⟨h0, h⟩ := h
          cases h with
          | act _ ha t ht hg h =>
            obtain ⟨m, h1, h2⟩ := (ih' _).1 h
            exact ⟨m, .delay d h0 (.act a ha t ht hg h1), h2⟩
        · rintro ⟨m, h, h'⟩
          rw [Plain.delay_iff] at h
          obtain ⟨h0, h⟩ := h
          cases h with
          | act _ ha t ht hg h =>
            exact .delay d h0 (.act a ha t ht hg ((ih' _).2 ⟨m, h, h'⟩))

theorem Plain.events_append {A : TA} {w u : TimedWord} (hw : w.WF) (hu : u.WF) (hn : w.Nonneg) (hn' : u.Nonneg) (c c' : Config) :
    A.Plain c (w.append u).events c' ↔ ∃ m, A.Plain c w.events m ∧ A.Plain m u.events c' := by
  obtain ⟨ws, ds⟩ := w
  obtain ⟨us, es⟩ := u
  cases es with
  | nil => simp [TimedWord.WF] at hu
  | cons e es => exact eventsOf_append ws ds us e es hw hn (hn' e (by simp)) c c'

/-- Wait words: no action. -/
theorem appendDelay_eq (w : TimedWord) (δ : ℚ) : w.appendDelay δ = w.append ⟨[], [δ]⟩ := by
  simp [TimedWord.appendDelay, TimedWord.append]

/-- The values are the same, or both are large. -/
def NearVal (K : ℕ) (v v' : Valuation) : Prop := ∀ x, v x = v' x ∨ ((K : ℚ) < v x ∧ (K : ℚ) < v' x)

theorem NearVal.symm {K : ℕ} {v v' : Valuation} (h : NearVal K v v') : NearVal K v' v :=
  fun x => (h x).imp Eq.symm And.symm

theorem NearVal.shift {K : ℕ} {v v' : Valuation} (h : NearVal K v v') {d : ℚ} (hd : 0 ≤ d) :
    NearVal K (v.shift d) (v'.shift d) := by
  intro x
  unfold Valuation.shift
  rcases h x with h | ⟨h1, h2⟩
  · exact Or.inl (by rw [h])
  · exact Or.inr ⟨by linarith, by linarith⟩

theorem NearVal.holds {K : ℕ} {v v' : Valuation} (h : NearVal K v v') {g : Guard} (hg : ∀ c ∈ g, c.c ≤ K)
    (hh : g.Holds v) : g.Holds v' := by
  intro c hc
  have h1 := hh c hc
  have h2 : (c.c : ℚ) ≤ K := by exact_mod_cast hg c hc
  obtain ⟨x, o, k⟩ := c
  rcases h x with h | ⟨h3, h4⟩
  · cases o <;> simp only [Constraint.Holds] at h1 ⊢ <;> rw [← h] <;> exact h1
  · cases o <;> simp only [Constraint.Holds] at h1 h2 ⊢ <;> linarith

theorem NearVal.apply {K : ℕ} {v v' : Valuation} (h : NearVal K v v') (r : Resets) : NearVal K (r.apply v) (r.apply v') := by
  unfold Resets.apply
  have key : ∀ (r : Resets) (w w' : Valuation), NearVal K w w' →
      NearVal K (r.foldl (fun (w : Valuation) p => Function.update w p.1 (p.2.eval v)) w)
        (r.foldl (fun (w : Valuation) p => Function.update w p.1 (p.2.eval v')) w') := by
    intro r
    induction r with
    | nil => intro w w' hw; exact hw
    | cons p r ih =>
      intro w w' hw
      refine ih _ _ ?_
      intro x
      by_cases hx : x = p.1
      · subst hx
        dsimp only
        rw [Function.update_self, Function.update_self]
        rcases p.2 with q | y
        · exact Or.inl rfl
        · exact h y
      · dsimp only
        rw [Function.update_of_ne hx, Function.update_of_ne hx]; exact hw x
  exact key r v v' h

theorem Plain.near {A : TA} (hA : A.Closed) {K : ℕ} (hK : A.GuardsUpTo K) {c c' : Config} {es : List Event} (h : A.Plain c es c')
    (hl : c.loc ∈ A.states) (v : Valuation) (hv : NearVal K c.val v) : ∃ v', A.Plain ⟨c.loc, v⟩ es ⟨c'.loc, v'⟩ := by
  induction h generalizing v with
  | nil c => exact ⟨v, .nil _⟩
  | delay d hd _ ih =>
    obtain ⟨v', h'⟩ := ih hl (v.shift d) (hv.shift hd)
    exact ⟨v', .delay d hd h'⟩
  | act a ha t ht hg _ ih =>
    obtain ⟨v', h'⟩ := ih (hA.2 _ hl _ t ht) (t.resets.apply v) (hv.apply _)
    exact ⟨v', .act a ha t ht (hv.holds (hK _ hl _ t ht) hg) h'⟩

/-- The location `l` can be reached by the word. -/
def Leads (A : TA) (w : TimedWord) (l : ℕ) : Prop := ∃ q ∈ A.init, ∃ v, A.Steps ⟨q, Valuation.zero⟩ w.events ⟨l, v⟩

/-- The automaton with `l` as the only accepting state. -/
def onlyAt (A : TA) (l : ℕ) : TA := { A with loc := fun p => { A.loc p with isMatch := decide (p = l) } }

theorem Steps.onlyAt {A : TA} (l : ℕ) {c c' : Config} {es : List Event} :
    (A.onlyAt l).Steps c es c' ↔ A.Steps c es c' := by
  constructor
  · intro h
    obtain ⟨d, h1, h2⟩ := h.sim (B := A) (fun c d => c = d) (by rintro c _ q rfl _; rfl)
      (by rintro c _ rfl a t ht hg; exact ⟨t, ht, hg, rfl⟩) c rfl
    rw [h2]; exact h1
  · intro h
    obtain ⟨d, h1, h2⟩ := h.sim (B := A.onlyAt l) (fun c d => c = d) (by rintro c _ q rfl _; rfl)
      (by rintro c _ rfl a t ht hg; exact ⟨t, ht, hg, rfl⟩) c rfl
    rw [h2]; exact h1

theorem leads_iff (A : TA) (w : TimedWord) (l : ℕ) : (A.onlyAt l).Accepts w ↔ A.Leads w l := by
  constructor
  · rintro ⟨q, hq, ⟨l', v⟩, hs, hm⟩
    have : l' = l := by simpa [TA.onlyAt] using hm
    subst this
    exact ⟨q, hq, v, (Steps.onlyAt _).1 hs⟩
  · rintro ⟨q, hq, v, hs⟩
    exact ⟨q, hq, ⟨l, v⟩, (Steps.onlyAt _).2 hs, by simp [TA.onlyAt]⟩

theorem Leads.region {A : TA} (hA : A.Closed) (hI : A.IntResets) {w w' : TimedWord} (hw : w.WF) (h : w.SameRegion w') {l : ℕ}
    (hl : A.Leads w l) : A.Leads w' l := by
  rw [← leads_iff] at hl ⊢
  refine RegionTA.accepts_of_sameRegion ?_ ?_ hw h hl
  · exact hA
  · exact hI

/-- The word leads from the location with large values of the clocks to an accepting state. -/
def AcceptsLate (A : TA) (K : ℕ) (l : ℕ) (u : TimedWord) : Prop :=
  ∃ c, A.Plain ⟨l, fun _ => (K : ℚ) + 1⟩ u.events c ∧ (A.loc c.loc).isMatch = true

theorem AcceptsLate.region {A : TA} (hA : A.Closed) (he : A.EpsFree) (hI : A.IntResets) {K l : ℕ} (hl : l ∈ A.states)
    {u u' : TimedWord} (hu : u.Legal) (hu' : u'.Legal) (h : u.SameRegion u') (ha : A.AcceptsLate K l u) :
    A.AcceptsLate K l u' := by
  let B : TA := { A with init := [l] }
  let z : TimedWord := ⟨[], [(K : ℚ) + 1]⟩
  have hz : z.WF := by unfold TimedWord.WF; rfl
  have hzn : z.Nonneg := by
    intro d hd
    have : d = (K : ℚ) + 1 := by simpa [z] using hd
    rw [this]; positivity
  have hB : B.Closed := ⟨by intro q hq; simp [B] at hq; subst hq; exact hl, hA.2⟩
  have hloc : ∀ {c c' : Config} {es : List Event}, B.Steps c es c' ↔ A.Steps c es c' := fun {c c' es} =>
    Steps.congr (A := A) (B := B) rfl
  have key : ∀ x : TimedWord, x.Legal → (A.AcceptsLate K l x ↔ B.Accepts (z.append x)) := by
    intro x hx
    constructor
    · rintro ⟨c, h1, h2⟩
      refine ⟨l, by simp [B], c, hloc.2 (Plain.steps ?_), h2⟩
      rw [Plain.events_append hz hx.wf hzn hx.nonneg]
      refine ⟨⟨l, fun _ => (K : ℚ) + 1⟩, ?_, h1⟩
      show A.Plain _ [.delay ((K : ℚ) + 1)] _
      refine .delay _ (by positivity) ?_
      have : Valuation.shift Valuation.zero ((K : ℚ) + 1) = fun _ => (K : ℚ) + 1 := by
        funext i; simp [Valuation.shift, Valuation.zero]
      simp only [this]
      exact .nil _
    · rintro ⟨q, hq, c, h1, h2⟩
      have hq' : q = l := by simpa [B] using hq
      subst hq'
      have h3 := (hloc.1 h1).plain hA he hl
      rw [Plain.events_append hz hx.wf hzn hx.nonneg] at h3
      obtain ⟨m, h4, h5⟩ := h3
      have h6 : A.Plain ⟨q, Valuation.zero⟩ [.delay ((K : ℚ) + 1)] m := h4
      rw [Plain.delay_iff] at h6
      obtain ⟨_, h6⟩ := h6
      have : Valuation.shift Valuation.zero ((K : ℚ) + 1) = fun _ => (K : ℚ) + 1 := by
        funext i; simp [Valuation.shift, Valuation.zero]
      simp only [this] at h6
      cases h6 with
      | nil _ => exact ⟨c, h5, h2⟩
  rw [key u hu] at ha
  rw [key u' hu']
  refine RegionTA.accepts_of_sameRegion hB hI ?_ ?_ ha
  · have := hu.wf
    unfold TimedWord.WF at this ⊢
    obtain ⟨us, ds⟩ := u
    cases ds with
    | nil => simp at this
    | cons d ds => simpa [TimedWord.append, z, TimedWord.addBack, Nat.add_comm] using this
  · obtain ⟨us, ds⟩ := u
    obtain ⟨us', ds'⟩ := u'
    obtain ⟨e1, e2, e3⟩ := h
    cases ds with
    | nil => have := hu.wf; simp [TimedWord.WF] at this
    | cons d ds =>
      cases ds' with
      | nil => have := hu'.wf; simp [TimedWord.WF] at this
      | cons d' ds' =>
        simp only at e1
        subst e1
        refine ⟨rfl, by simpa [TimedWord.append, z, TimedWord.addBack] using e2, ?_⟩
        intro i j hij hj
        have hj' : j < (d :: ds).length := by simpa [TimedWord.append, z, TimedWord.addBack] using hj
        have h1 := e3 i j hij hj'
        have a1 : (z.append ⟨us, d :: ds⟩).durations = ((K : ℚ) + 1 + d) :: ds := by simp [TimedWord.append, z, TimedWord.addBack]
        have a2 : (z.append ⟨us, d' :: ds'⟩).durations = ((K : ℚ) + 1 + d') :: ds' := by simp [TimedWord.append, z, TimedWord.addBack]
        rw [a1, a2]
        cases i with
        | succ i => exact h1
        | zero =>
          have b : ∀ (q : ℚ) (l : List ℚ), TimedCondition.T (((K : ℚ) + 1 + q) :: l) 0 j =
              TimedCondition.T (q :: l) 0 j + ((K + 1 : ℤ) : ℚ) := by
            intro q l
            unfold TimedCondition.T
            simp only [List.drop_zero, Nat.sub_zero, List.take_succ_cons, List.sum_cons]
            push_cast; ring
          rw [b, b, Int.floor_add_intCast, Int.floor_add_intCast, Int.ceil_add_intCast, Int.ceil_add_intCast, h1.1, h1.2]
          exact ⟨rfl, rfl⟩

theorem accepts_late_iff {A : TA} (hA : A.Closed) (hn : A.NonnegResets) (he : A.EpsFree) {K : ℕ} (hK : A.GuardsUpTo K)
    {w u : TimedWord} (hw : w.Legal) (hu : u.Legal) {δ : ℚ} (hδ : (K : ℚ) < δ) :
    A.Accepts ((w.appendDelay δ).append u) ↔ ∃ l, A.Leads w l ∧ A.AcceptsLate K l u := by
  have hδ0 : 0 ≤ δ := le_trans (by positivity) hδ.le
  have hz : (⟨[], [δ]⟩ : TimedWord).WF := by unfold TimedWord.WF; rfl
  have hzn : (⟨[], [δ]⟩ : TimedWord).Nonneg := by
    intro d hd
    have : d = δ := by simpa using hd
    rw [this]; exact hδ0
  have hwz : (w.appendDelay δ).WF := by
    have := hw.wf
    unfold TimedWord.WF at this ⊢
    simp only [TimedWord.appendDelay, TimedWord.addBack, List.length_append, List.length_dropLast, List.length_singleton]
    omega
  have hwn : (w.appendDelay δ).Nonneg := by
    intro d hd
    simp only [TimedWord.appendDelay, TimedWord.addBack, List.mem_append, List.mem_singleton] at hd
    rcases hd with hd | rfl
    · exact hw.nonneg d (List.dropLast_subset _ hd)
    · refine add_nonneg ?_ hδ0
      have hne : w.durations ≠ [] := by
        intro e
        have := hw.wf
        unfold TimedWord.WF at this
        rw [e] at this; simp at this
      rw [List.getLastD_eq_getLast?, List.getLast?_eq_some_getLast hne]
      exact hw.nonneg _ (List.getLast_mem hne)
  have late : ∀ (v : Valuation), v.Nonneg → NearVal K (v.shift δ) (fun _ => (K : ℚ) + 1) := by
    intro v hv x
    refine Or.inr ⟨?_, by linarith⟩
    have := hv x
    unfold Valuation.shift
    linarith
  constructor
  · rintro ⟨q, hq, c, hs, hm⟩
    have hqs := hA.1 q hq
    have hp := hs.plain hA he hqs
    rw [Plain.events_append hwz hu.wf hwn hu.nonneg] at hp
    obtain ⟨m, h1, h2⟩ := hp
    rw [appendDelay_eq, Plain.events_append hw.wf hz hw.nonneg hzn] at h1
    obtain ⟨m0, h3, h4⟩ := h1
    have h5 : A.Plain m0 [.delay δ] m := h4
    rw [Plain.delay_iff] at h5
    obtain ⟨_, h5⟩ := h5
    cases h5 with
    | nil _ =>
      obtain ⟨i1, i2⟩ := Steps.inv hA hn h3.steps hqs Valuation.Nonneg.zero
      obtain ⟨v', h6⟩ := h2.near hA hK i1 _ (late _ i2)
      exact ⟨m0.loc, ⟨q, hq, m0.val, h3.steps⟩, ⟨c.loc, v'⟩, h6, hm⟩
  · rintro ⟨l, ⟨q, hq, v, hs⟩, c, h1, h2⟩
    have hqs := hA.1 q hq
    obtain ⟨i1, i2⟩ := Steps.inv hA hn hs hqs Valuation.Nonneg.zero
    obtain ⟨v', h3⟩ := h1.near hA hK i1 (v.shift δ) (late _ i2).symm
    refine ⟨q, hq, ⟨c.loc, v'⟩, Plain.steps ?_, h2⟩
    rw [Plain.events_append hwz hu.wf hwn hu.nonneg]
    refine ⟨⟨l, v.shift δ⟩, ?_, h3⟩
    rw [appendDelay_eq, Plain.events_append hw.wf hz hw.nonneg hzn]
    exact ⟨⟨l, v⟩, hs.plain hA he hqs, .delay δ hδ0 (.nil _)⟩

theorem forgetful {A : TA} (hA : A.Closed) (hn : A.NonnegResets) (he : A.EpsFree) (hI : A.IntResets) {K : ℕ} (hK : A.GuardsUpTo K)
    {f : TimedWord → Bool} (hf : ∀ w, w.Legal → (f w = true ↔ A.Accepts w)) : Forgetful f K := by
  have legal : ∀ {w u : TimedWord} {δ : ℚ}, w.Legal → u.Legal → (K : ℚ) < δ → ((w.appendDelay δ).append u).Legal := by
    intro w u δ hw hu hδ
    rw [appendDelay_eq]
    refine append_legal (append_legal hw ⟨by unfold TimedWord.WF; rfl, by intro a ha; simp at ha, ?_⟩) hu
    intro d hd
    have : d = δ := by simpa using hd
    rw [this]
    exact le_trans (by positivity) hδ.le
  have half : ∀ w w' u u' : TimedWord, w.Legal → w'.Legal → u.Legal → u'.Legal → w.SameRegion w' → u.SameRegion u' →
      ∀ δ ε : ℚ, (K : ℚ) < δ → (K : ℚ) < ε → f ((w.appendDelay δ).append u) = true → f ((w'.appendDelay ε).append u') = true := by
    intro w w' u u' hw hw' hu hu' h h' δ ε hδ hε hh
    rw [hf _ (legal hw hu hδ), accepts_late_iff hA hn he hK hw hu hδ] at hh
    rw [hf _ (legal hw' hu' hε), accepts_late_iff hA hn he hK hw' hu' hε]
    obtain ⟨l, h1, h2⟩ := hh
    obtain ⟨q, hq, v, hs⟩ := h1
    have hl := (Steps.inv hA hn hs (hA.1 q hq) Valuation.Nonneg.zero).1
    exact ⟨l, Leads.region hA hI hw.wf h ⟨q, hq, v, hs⟩, h2.region hA he hI hl hu hu' h'⟩
  intro w w' u u' hw hw' hu hu' h h' δ ε hδ hε
  have hs : ∀ {x y : TimedWord}, x.SameRegion y → y.SameRegion x := by
    intro x y hxy
    refine ⟨hxy.1.symm, hxy.2.1.symm, fun i j hij hj => ?_⟩
    have := hxy.2.2 i j hij (by rw [hxy.2.1]; exact hj)
    exact ⟨this.1.symm, this.2.symm⟩
  rw [Bool.eq_iff_iff]
  exact ⟨half w w' u u' hw hw' hu hu' h h' δ ε hδ hε, half w' w u' u hw' hw hu' hu (hs h) (hs h') ε δ hε hδ⟩

end TA
end LearnTA
