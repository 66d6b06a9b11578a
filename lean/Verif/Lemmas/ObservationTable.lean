import Verif.Spec.ObservationTable
import Verif.Lemmas.TableM
import Verif.Lemmas.Candidates
import Verif.Lemmas.Queryable
import Verif.Lemmas.RegionTree
import Verif.Props.ElementaryLanguage

/-!
# Lemmas about the observation table
-/

namespace LearnTA
open TimedCondition

theorem mem_legal {e : ElementaryLanguage} (hq : e.Queryable) (hn : e.Nonneg) {w : TimedWord} (h : e.Mem w) :
    w.Legal := by
  refine ⟨?_, ?_, hn w h⟩
  · show w.durations.length = w.word.length + 1
    rw [h.2.1, h.1]; exact hq.wf.symm
  · intro a ha; rw [h.1] at ha; exact hq.observable a ha

theorem addBack_nonneg {d : List ℚ} {q : ℚ} (h : ∀ x ∈ d, 0 ≤ x) (hq : 0 ≤ q) : ∀ x ∈ TimedWord.addBack d q, 0 ≤ x := by
  intro x hx
  unfold TimedWord.addBack at hx
  rcases List.mem_append.1 hx with hx | hx
  · exact h x (List.mem_of_mem_dropLast hx)
  · rw [List.mem_singleton.1 hx]
    refine add_nonneg ?_ hq
    rw [List.getLastD_eq_getLast?]
    cases e : d.getLast? with
    | none => simp
    | some a => exact h a (List.mem_of_getLast? e)

theorem glue_nonneg {d d' : List ℚ} (h : ∀ q ∈ d, 0 ≤ q) (h' : ∀ q ∈ d', 0 ≤ q) : ∀ q ∈ glue d d', 0 ≤ q := by
  intro q hq
  unfold glue at hq
  rcases List.mem_append.1 hq with hq | hq
  · refine addBack_nonneg h ?_ q hq
    cases d' with
    | nil => simp
    | cons a l => exact h' a (by simp)
  · exact h' q (List.mem_of_mem_tail hq)

theorem append_nonneg {a b : ElementaryLanguage} (ha : a.Proper) (hb : b.Proper) (na : a.Nonneg) (nb : b.Nonneg) :
    (a.append b).Nonneg := by
  intro w hw
  obtain ⟨u, v, h1, h2, rfl⟩ := (Props.C23_append_exact a b ha.wf hb.wf ha.canonical hb.canonical w).1 hw
  exact glue_nonneg (na u h1) (nb v h2)

namespace ObsTable
variable {σ : Type} {env : Env σ} {f : TimedWord → Bool} {E : Fail → Prop} {T : ObsTable σ}

/-- A prefix that can be in the table. -/
structure PreOk (p : ForwardRegional) : Prop where
  reach : p.Reach
  obs : ∀ a ∈ p.word, a ≠ unobservable

theorem PreOk.queryable {p : ForwardRegional} (h : PreOk p) : p.toElementaryLanguage.Queryable := h.reach.queryable h.obs

theorem PreOk.simple {p : ForwardRegional} (h : PreOk p) : p.cond.Simple := (Props.C25_reachable h.reach).2.1

theorem query_ok (he : EnvOk env f) (ho : SymOracle.Inv f TimedWord.Legal T.oracle) {p : ForwardRegional} (hp : PreOk p)
    {s : BackwardRegional} (hs : s.Good) :
    Ok E (query env (p.toElementaryLanguage.append s.toElementaryLanguage)) T fun r T' =>
      (IsCell f (p.toElementaryLanguage.append s.toElementaryLanguage) r ∧
        SymOracle.Whole (p.toElementaryLanguage.append s.toElementaryLanguage) f r) ∧
        ∃ o, SymOracle.Inv f TimedWord.Legal o ∧ T' = { T with oracle := o } := by
  have hq := ElementaryLanguage.append_queryable hp.queryable hs.queryable
  have hn := append_nonneg hp.queryable.proper hs.queryable.proper hp.reach.nonneg hs.nonneg
  obtain ⟨o', r, h1, h2, h3, h4, h5, h6⟩ := SymOracle.query_spec env.ask f TimedWord.Legal (fun s w hw => he.answers s w hw)
    (env.near T.oracle (p.toElementaryLanguage.append s.toElementaryLanguage)) T.oracle ho _ hq
    (fun w hw => mem_legal hq hn hw) (fun w w' hw hw' hr => he.inv w w' (mem_legal hq hn hw) (mem_legal hq hn hw') hr)
  unfold Ok query
  rw [h1]
  refine ⟨⟨⟨h3, h4, fun c hc => ⟨(h5 c hc).can, ?_⟩⟩, h6⟩, o', h2, rfl⟩
  have hw : _ + 1 = _ := hq.wf
  have hd := (h5 c hc).dim
  unfold TimedCondition.size
  unfold TimedCondition.size at hw
  omega

/-- A row for the first suffixes. -/
structure RowOk (f : TimedWord → Bool) (ss : List BackwardRegional) (p : ForwardRegional)
    (row : List TimedConditionSet) (cat : List TimedCondition) : Prop where
  whole : List.Forall₂ (fun s cell => SymOracle.Whole (p.toElementaryLanguage.append s.toElementaryLanguage) f cell) ss row
  row : IsRow f p.toElementaryLanguage (ss.map (·.toElementaryLanguage)) row
  cat : cat = (ss.map (·.toElementaryLanguage)).map fun s => (p.toElementaryLanguage.append s).cond

theorem isRow_append {e : ElementaryLanguage} {ss ss' : List ElementaryLanguage} {row row' : List TimedConditionSet}
    (h : IsRow f e ss row) (h' : IsRow f e ss' row') : IsRow f e (ss ++ ss') (row ++ row') := by
  obtain ⟨l1, c1⟩ := h
  obtain ⟨l2, c2⟩ := h'
  refine ⟨by simp [l1, l2], fun i hi => ?_⟩
  by_cases h : i < ss.length
  · rw [List.getD_append _ _ _ _ h, List.getD_append _ _ _ _ (by omega)]; exact c1 i h
  · rw [List.getD_append_right _ _ _ _ (by omega), List.getD_append_right _ _ _ _ (by omega), l1]
    simp only [List.length_append] at hi
    exact c2 _ (by omega)

theorem RowOk.append {ss ss' : List BackwardRegional} {p : ForwardRegional} {row row' : List TimedConditionSet}
    {cat cat' : List TimedCondition} (h : RowOk f ss p row cat) (h' : RowOk f ss' p row' cat') :
    RowOk f (ss ++ ss') p (row ++ row') (cat ++ cat') := by
  refine ⟨?_, ?_, ?_⟩
  · exact List.rel_append h.whole h'.whole
  · rw [List.map_append]; exact isRow_append h.row h'.row
  · rw [h.cat, h'.cat]; simp

theorem RowOk.nil (p : ForwardRegional) : RowOk f [] p [] [] := ⟨.nil, ⟨rfl, by simp⟩, rfl⟩

theorem RowOk.length {ss : List BackwardRegional} {p : ForwardRegional} {row : List TimedConditionSet}
    {cat : List TimedCondition} (h : RowOk f ss p row cat) : row.length = ss.length := by
  have := h.row.1; simpa using this

theorem fillCells_ok (he : EnvOk env f) {p : ForwardRegional} (hp : PreOk p) (ss : List BackwardRegional)
    (hs : ∀ s ∈ ss, s.Good) (ho : SymOracle.Inv f TimedWord.Legal T.oracle) :
    Ok E (fillCells env p ss) T fun r T' => RowOk f ss p r.1 r.2 ∧
      ∃ o, SymOracle.Inv f TimedWord.Legal o ∧ T' = { T with oracle := o } := by
  induction ss generalizing T with
  | nil => exact Ok.pure ⟨RowOk.nil p, T.oracle, ho, rfl⟩
  | cons s ss ih =>
    unfold fillCells
    refine Ok.bind ((query_ok he ho hp (hs s (by simp))).mono ?_)
    rintro cell T1 ⟨⟨h1, h1'⟩, o, h2, rfl⟩
    refine Ok.bind ((ih (fun x hx => hs x (by simp [hx])) h2).mono ?_)
    rintro rest T2 ⟨h3, o', h4, rfl⟩
    refine Ok.pure ⟨?_, o', h4, rfl⟩
    have h5 : RowOk f [s] p [cell] [(p.toElementaryLanguage.append s.toElementaryLanguage).cond] := by
      refine ⟨.cons h1' .nil, ⟨rfl, fun i hi => ?_⟩, rfl⟩
      have : i = 0 := by simp at hi; exact hi
      subst this; exact h1
    exact h5.append h3

theorem fillRows_ok (he : EnvOk env f) (ss : List BackwardRegional) (hs : ∀ s ∈ ss, s.Good)
    (ps : List ForwardRegional) (hp : ∀ p ∈ ps, PreOk p) (rows : List (List TimedConditionSet))
    (cats : List (List TimedCondition))
    (hr : ∀ i p, ps[i]? = some p → ∃ k, RowOk f (ss.take k) p (rows.getD i []) (cats.getD i []))
    (ho : SymOracle.Inv f TimedWord.Legal T.oracle) :
    Ok E (fillRows env ss ps rows cats) T fun r T' =>
      (r.1.length = ps.length ∧ r.2.length = ps.length ∧
        ∀ i p, ps[i]? = some p → RowOk f ss p (r.1.getD i []) (r.2.getD i [])) ∧
      ∃ o, SymOracle.Inv f TimedWord.Legal o ∧ T' = { T with oracle := o } := by
  induction ps generalizing T rows cats with
  | nil => exact Ok.pure ⟨⟨rfl, rfl, by simp⟩, T.oracle, ho, rfl⟩
  | cons p ps ih =>
    unfold fillRows
    obtain ⟨k, hk⟩ := hr 0 p rfl
    have e1 : rows.getD 0 [] = rows.headD [] := by cases rows <;> rfl
    have e2 : cats.getD 0 [] = cats.headD [] := by cases cats <;> rfl
    rw [e1, e2] at hk
    have hkl := hk.length
    refine Ok.bind ((fillCells_ok he (hp p (by simp)) (ss.drop (rows.headD []).length)
      (fun s h => hs s (List.mem_of_mem_drop h)) ho).mono ?_)
    rintro new T1 ⟨h1, o, h2, rfl⟩
    refine Ok.bind ((ih (fun x hx => hp x (by simp [hx])) rows.tail cats.tail ?_ h2).mono ?_)
    · intro i q hq
      obtain ⟨k', hk'⟩ := hr (i + 1) q (by simpa using hq)
      refine ⟨k', ?_⟩
      have a1 : rows.tail.getD i [] = rows.getD (i + 1) [] := by cases rows <;> simp
      have a2 : cats.tail.getD i [] = cats.getD (i + 1) [] := by cases cats <;> simp
      rw [a1, a2]; exact hk'
    · rintro rest T2 ⟨⟨g1, g2, g3⟩, o', h4, rfl⟩
      refine Ok.pure ⟨⟨by simp [g1], by simp [g2], ?_⟩, o', h4, rfl⟩
      intro i q hq
      cases i with
      | zero =>
        simp only [List.getElem?_cons_zero, Option.some.injEq] at hq
        subst hq
        simp only [List.getD_cons_zero]
        have := hk.append h1
        have e3 : ss.take k ++ ss.drop (rows.headD []).length = ss := by
          rw [hkl, List.length_take]
          rcases le_total k ss.length with h | h
          · rw [min_eq_left h, List.take_append_drop]
          · rw [min_eq_right h, List.take_of_length_le h]; simp
        rwa [e3] at this
      | succ i =>
        simp only [List.getElem?_cons_succ] at hq
        simp only [List.getD_cons_succ]
        exact g3 i q hq

/-- The renaming is about clocks of the two regions, right-unique, and empty or total on the right. -/
structure Static (p q : ForwardRegional) (r : RenamingRelation) : Prop where
  inRange : r.InRange p.toElementaryLanguage q.toElementaryLanguage
  unique : (r.map (·.2)).Nodup
  total : r = [] ∨ ∀ x < q.cond.size, q.cond.pointAt x = true ∨ ∃ y ∈ r, y.2 = x

/-- A renaming that was once found to show that `p` can be merged into `q`: as far as the words of `p` and `q` tell, it still
does. -/
structure Recorded (f : TimedWord → Bool) (p q : ForwardRegional) (r : RenamingRelation) : Prop extends Static p q r where
  merges : Merges f p.toElementaryLanguage q.toElementaryLanguage [BackwardRegional.init.toElementaryLanguage] r

/-- What holds of the table at all times, except for the cells. -/
structure Core (f : TimedWord → Bool) (T : ObsTable σ) : Prop where
  alpha : T.alphabet.Nodup ∧ ∀ a ∈ T.alphabet, a ≠ unobservable
  suf0 : T.suffixes[0]? = some .init
  sufs : ∀ s ∈ T.suffixes, s.Good
  oracle : SymOracle.Inv f TimedWord.Legal T.oracle
  rel : ∀ i l, T.closedRelation i = some l → i < T.prefixes.length ∧ (l.map (·.1)).Nodup ∧
    ∀ j r, (j, r) ∈ l → ∃ p q, T.prefixes[i]? = some p ∧ T.prefixes[j]? = some q ∧ Recorded f p q r
  dist : ∀ x ∈ T.distinguishedPrefix, x.1 < T.prefixes.length ∧ x.2 < T.prefixes.length

/-- The cells are filled. -/
structure Rows (f : TimedWord → Bool) (T : ObsTable σ) : Prop where
  len : T.table.length = T.prefixes.length
  len' : T.concatenations.length = T.prefixes.length
  ok : ∀ i p, T.prefixes[i]? = some p → RowOk f T.suffixes p (T.table.getD i []) (T.concatenations.getD i [])

/-- What holds of the table between the operations. -/
structure Inv (f : TimedWord → Bool) (T : ObsTable σ) : Prop extends Core f T where
  closed : T.PrefixClosed
  rows : Rows f T

end ObsTable
end LearnTA
