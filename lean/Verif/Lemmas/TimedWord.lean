import Verif.Spec.TimedWord
import Mathlib.Tactic.Linarith
import Mathlib.Tactic.Ring

namespace LearnTA.TimedWord

@[simp] theorem addBack_append (l : List ℚ) (a q : ℚ) : addBack (l ++ [a]) q = l ++ [a + q] := by
  simp [addBack]

@[simp] theorem addBack_singleton (a q : ℚ) : addBack [a] q = [a + q] := by simp [addBack]

theorem addBack_length (l : List ℚ) (q : ℚ) (h : l ≠ []) : (addBack l q).length = l.length := by
  rcases List.eq_nil_or_concat l with rfl | ⟨l', a, rfl⟩
  · exact absurd rfl h
  · simp

theorem addBack_sum (l : List ℚ) (q : ℚ) (h : l ≠ []) : (addBack l q).sum = l.sum + q := by
  rcases List.eq_nil_or_concat l with rfl | ⟨l', a, rfl⟩
  · exact absurd rfl h
  · simp; ring

theorem WF.ne {u : TimedWord} (h : u.WF) : u.durations ≠ [] := by
  intro e; unfold WF at h; rw [e] at h; simp at h

theorem append_wf {u v : TimedWord} (hu : u.WF) (hv : v.WF) : (u.append v).WF := by
  unfold WF at *
  simp only [append, List.length_append, List.length_tail]
  rw [addBack_length _ _ (WF.ne hu)]
  omega

theorem exists_last {u : TimedWord} (h : u.WF) : ∃ l a, u.durations = l ++ [a] := by
  rcases List.eq_nil_or_concat u.durations with e | ⟨l', a, e⟩
  · exact absurd e h.ne
  · exact ⟨l', a, by simpa using e⟩

theorem exists_head {u : TimedWord} (h : u.WF) : ∃ a l, u.durations = a :: l := by
  rcases hd : u.durations with _ | ⟨a, l⟩
  · exact absurd hd h.ne
  · exact ⟨a, l, rfl⟩

theorem append_assoc {u v w : TimedWord} (hu : u.WF) (hv : v.WF) (hw : w.WF) :
    (u.append v).append w = u.append (v.append w) := by
  rcases u with ⟨uw, ud⟩; rcases v with ⟨vw, vd⟩; rcases w with ⟨ww, wd⟩
  obtain ⟨l, a, e1⟩ := exists_last hu
  obtain ⟨b, m, e2⟩ := exists_head hv
  obtain ⟨c, n, e3⟩ := exists_head hw
  simp only at e1 e2 e3
  subst e1; subst e2; subst e3
  simp only [append, mk.injEq, List.append_assoc, true_and]
  rcases List.eq_nil_or_concat m with rfl | ⟨m', z, rfl⟩
  · simp [add_assoc]
  · have h1 : b :: (m' ++ [z]) = (b :: m') ++ [z] := rfl
    have h2 : l ++ [a + b] ++ (m' ++ [z]) = (l ++ [a + b] ++ m') ++ [z] := by simp
    simp only [List.headD_cons, List.tail_cons, addBack_append, List.concat_eq_append]
    rw [h1, h2, addBack_append, addBack_append]
    simp

theorem append_empty {u : TimedWord} (hu : u.WF) : u.append empty = u := by
  rcases u with ⟨uw, ud⟩
  obtain ⟨l, a, e1⟩ := exists_last hu
  simp only at e1; subst e1
  simp [append, empty]

theorem empty_append {u : TimedWord} (hu : u.WF) : empty.append u = u := by
  rcases u with ⟨uw, ud⟩
  obtain ⟨a, l, e1⟩ := exists_head hu
  simp only at e1; subst e1
  simp [append, empty]

theorem append_total {u v : TimedWord} (hu : u.WF) (hv : v.WF) :
    (u.append v).total = u.total + v.total := by
  obtain ⟨b, m, e2⟩ := exists_head hv
  simp only [total, append, List.sum_append]
  rw [addBack_sum _ _ hu.ne, e2]
  simp; ring

/-! ### The constructor -/

theorem absorb_observable (ps : List (Action × ℚ)) (h : ∀ p ∈ ps, p.1 ≠ unobservable)
    (s : List Action × List ℚ) :
    ps.foldl absorbStep s = (s.1 ++ ps.map Prod.fst, s.2 ++ ps.map Prod.snd) := by
  induction ps generalizing s with
  | nil => simp
  | cons p ps ih =>
    rw [List.foldl_cons, ih (fun q hq => h q (by simp [hq]))]
    simp [absorbStep, h p (by simp)]

theorem make_observable {u : TimedWord} (hu : u.WF) (ho : u.Observable) :
    make u.word u.durations = u := by
  rcases u with ⟨w, d⟩
  obtain ⟨a, l, e⟩ := exists_head hu
  simp only at e; subst e
  unfold WF at hu
  simp only [List.length_cons, add_left_inj] at hu
  have ho' : ∀ p ∈ w.zip l, p.1 ≠ unobservable := by
    intro p hp
    exact ho p.1 (List.of_mem_zip hp).1
  simp only [make, List.tail_cons, List.headD_cons]
  rw [absorb_observable _ ho']
  simp only [List.nil_append, List.cons_append, mk.injEq]
  constructor
  · rw [List.map_fst_zip]; omega
  · rw [List.map_snd_zip]; omega

theorem getSuffix_append {u v : TimedWord} (hu : u.WF) (hv : v.WF) (ho : v.Observable) :
    (u.append v).getSuffix u = v := by
  have key : ((u.append v).word.drop u.word.length) = v.word := by simp [append]
  have key2 : subFront ((u.append v).durations.drop u.word.length) (u.durations.getLastD 0)
      = v.durations := by
    obtain ⟨l, a, e1⟩ := exists_last hu
    obtain ⟨b, m, e2⟩ := exists_head hv
    have hl : l.length = u.word.length := by
      unfold WF at hu; rw [e1] at hu; simpa using hu
    simp only [append, e1, e2, List.headD_cons, List.tail_cons, addBack_append]
    rw [List.append_assoc, List.drop_append_of_le_length (by omega), ← hl, List.drop_length]
    simp [subFront]
  unfold getSuffix
  rw [key, key2]
  exact make_observable hv ho

/-! ### Accumulated durations -/

theorem accumulate_length (l : List ℚ) : (accumulate l).length = l.length := by
  induction l with
  | nil => rfl
  | cons d ds ih =>
    cases ds with
    | nil => rfl
    | cons e es => simp only [accumulate, List.length_cons] at ih ⊢; omega

theorem accumulate_headD (l : List ℚ) (h : l ≠ []) : (accumulate l).headD 0 = l.sum := by
  induction l with
  | nil => exact absurd rfl h
  | cons d ds ih =>
    cases ds with
    | nil => simp [accumulate]
    | cons e es =>
      have := ih (by simp)
      simp only [accumulate, List.headD_cons] at this ⊢
      rw [this]; simp; ring

theorem accumulate_getElem? (l : List ℚ) (i : ℕ) (hi : i < l.length) :
    (accumulate l)[i]? = some (l.drop i).sum := by
  induction l generalizing i with
  | nil => simp at hi
  | cons d ds ih =>
    cases ds with
    | nil => simp at hi; subst hi; simp [accumulate]
    | cons e es =>
      cases i with
      | zero =>
        have := accumulate_headD (e :: es) (by simp)
        simp only [accumulate] at this ⊢
        simp only [List.getElem?_cons_zero, List.drop_zero, Option.some.injEq]
        rw [this]; simp; ring
      | succ i =>
        have := ih i (by simpa using hi)
        simp only [accumulate, List.getElem?_cons_succ] at this ⊢
        simpa using this

/-! ### Absorbing unobservable actions -/

theorem stampsFrom_append (t : ℚ) (w : List Action) (d : List ℚ) (h : w.length = d.length)
    (w' : List Action) (d' : List ℚ) :
    stampsFrom t (w ++ w') (d ++ d') = stampsFrom t w d ++ stampsFrom (t + d.sum) w' d' := by
  induction w generalizing d t with
  | nil =>
    have : d = [] := by simpa using h.symm
    subst this; simp [stampsFrom]
  | cons a w ih =>
    cases d with
    | nil => simp at h
    | cons q d =>
      simp only [List.cons_append, stampsFrom]
      rw [ih _ d (by simpa using h)]
      simp [add_assoc]

theorem stampsFrom_cut (t : ℚ) (w : List Action) (d d' : List ℚ) (h : w.length ≤ d.length) :
    stampsFrom t w (d ++ d') = stampsFrom t w d := by
  induction w generalizing d t with
  | nil => cases d <;> cases d' <;> rfl
  | cons a w ih =>
    cases d with
    | nil => simp at h
    | cons q d => simp only [List.cons_append, stampsFrom]; rw [ih _ d (by simpa using h)]

theorem absorb_spec (ps : List (Action × ℚ)) (w0 : List Action) (d0 : List ℚ)
    (h : d0.length = w0.length + 1) (ho : ∀ a ∈ w0, a ≠ unobservable) :
    let r := ps.foldl absorbStep (w0, d0)
    r.2.length = r.1.length + 1 ∧ (∀ a ∈ r.1, a ≠ unobservable) ∧
    stampsFrom 0 r.1 r.2 = (stampsFrom 0 (w0 ++ ps.map Prod.fst) (d0 ++ ps.map Prod.snd)).filter
      (·.1 ≠ unobservable) ∧
    r.2.sum = (d0 ++ ps.map Prod.snd).sum := by
  induction ps generalizing w0 d0 with
  | nil =>
    refine ⟨h, ho, ?_, by simp⟩
    simp only [List.foldl_nil, List.map_nil, List.append_nil]
    symm
    rw [List.filter_eq_self]
    have : ∀ (t : ℚ) (w : List Action) (d : List ℚ), (∀ a ∈ w, a ≠ unobservable) →
        ∀ p ∈ stampsFrom t w d, p.1 ≠ unobservable := by
      intro t w
      induction w generalizing t with
      | nil => intro d _ p hp; cases d <;> simp [stampsFrom] at hp
      | cons a w ih =>
        intro d hw p hp
        cases d with
        | nil => simp [stampsFrom] at hp
        | cons q d =>
          simp only [stampsFrom, List.mem_cons] at hp
          rcases hp with rfl | hp
          · exact hw a (by simp)
          · exact ih _ d (fun b hb => hw b (by simp [hb])) p hp
    intro p hp
    simpa using this 0 w0 d0 ho p hp
  | cons p ps ih =>
    rcases p with ⟨a, q⟩
    simp only [List.foldl_cons]
    by_cases ha : a = unobservable
    · have hd : d0 ≠ [] := by intro e; rw [e] at h; simp at h
      obtain ⟨l, z, rfl⟩ : ∃ l z, d0 = l ++ [z] := by
        rcases List.eq_nil_or_concat d0 with e | ⟨l', z, e⟩
        · exact absurd e hd
        · exact ⟨l', z, by simpa using e⟩
      have hl : w0.length = l.length := by simp at h; omega
      have e : absorbStep (w0, l ++ [z]) (a, q) = (w0, l ++ [z + q]) := by
        simp [absorbStep, ha]
      rw [e]
      obtain ⟨i1, i2, i3, i4⟩ := ih w0 (l ++ [z + q]) (by simp [hl]) ho
      refine ⟨i1, i2, ?_, ?_⟩
      · rw [i3]
        simp only [List.map_cons, List.append_assoc]
        rw [stampsFrom_append _ _ _ hl, stampsFrom_append _ _ _ hl]
        rw [List.filter_append, List.filter_append]
        congr 1
        cases ps with
        | nil => simp [stampsFrom, ha]
        | cons p' ps =>
          simp [stampsFrom, ha, add_assoc]
      · rw [i4]; simp; ring
    · have e : absorbStep (w0, d0) (a, q) = (w0 ++ [a], d0 ++ [q]) := by simp [absorbStep, ha]
      rw [e]
      obtain ⟨i1, i2, i3, i4⟩ := ih (w0 ++ [a]) (d0 ++ [q]) (by simp [h]) (by
        intro b hb
        simp only [List.mem_append, List.mem_singleton] at hb
        rcases hb with hb | rfl
        · exact ho b hb
        · exact ha)
      refine ⟨i1, i2, ?_, ?_⟩
      · rw [i3]; simp
      · rw [i4]; simp

end LearnTA.TimedWord
