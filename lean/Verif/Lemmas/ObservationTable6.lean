import Verif.Lemmas.ObservationTable5

/-!
# Reading the table
-/

namespace LearnTA
open TimedCondition Bound Zone

theorem reg_floor_ceil {q q' : ℚ} (h : reg q = reg q') : ⌊q⌋ = ⌊q'⌋ ∧ ⌈q⌉ = ⌈q'⌉ := by
  rcases cases_int q with ⟨n, rfl⟩ | ⟨n, h1, h2⟩
  · rcases cases_int q' with ⟨m, rfl⟩ | ⟨m, g1, g2⟩
    · rw [reg_int, reg_int] at h
      simp only [Bound.fin.injEq, Int.cast_inj, and_true] at h
      subst h; exact ⟨rfl, rfl⟩
    · rw [reg_int, reg_of_between g1 g2] at h; simp at h
  · rcases cases_int q' with ⟨m, rfl⟩ | ⟨m, g1, g2⟩
    · rw [reg_int, reg_of_between h1 h2] at h; simp at h
    · rw [reg_of_between h1 h2, reg_of_between g1 g2] at h
      simp only [Bound.fin.injEq, add_left_inj, Int.cast_inj, and_true] at h
      subst h
      rw [Int.floor_eq_iff.2 ⟨h1.le, h2⟩, Int.floor_eq_iff.2 ⟨g1.le, g2⟩]
      refine ⟨rfl, ?_⟩
      have c : ∀ x : ℚ, (n : ℚ) < x → x < n + 1 → ⌈x⌉ = n + 1 := fun x a b =>
        Int.ceil_eq_iff.2 ⟨by push_cast; linarith, by push_cast; linarith⟩
      rw [c q h1 h2, c q' g1 g2]

/-- Words of a reachable region are in the same region. -/
theorem ForwardRegional.Reach.sameRegion {L : ForwardRegional} (h : L.Reach) {w w' : TimedWord}
    (hw : L.toElementaryLanguage.Mem w) (hw' : L.toElementaryLanguage.Mem w') : w.SameRegion w' := by
  obtain ⟨n, v, ho, _⟩ := h.of
  obtain ⟨a1, a2, a3⟩ := (ho.mem_iff w).1 hw
  obtain ⟨b1, b2, b3⟩ := (ho.mem_iff w').1 hw'
  refine ⟨a1.trans b1.symm, a2.trans b2.symm, ?_⟩
  intro i j hij hj
  rw [T_eq _ hij, T_eq _ hij]
  refine reg_floor_ceil ?_
  have hd := ho.dim
  by_cases hl : j + 1 < n
  · have e1 := a3.region (i + 1) (by omega) (j + 2) (by omega) (by omega)
    have e2 := b3.region (i + 1) (by omega) (j + 2) (by omega) (by omega)
    simp only [ext_succ] at e1 e2
    rw [← e1, ← e2]
  · have e1 := a3.region (i + 1) (by omega) 0 (by omega) (by omega)
    have e2 := b3.region (i + 1) (by omega) 0 (by omega) (by omega)
    simp only [ext_succ, ext_zero] at e1 e2
    rw [accV_ge w.durations (i := j + 1) (by omega), accV_ge w'.durations (i := j + 1) (by omega), ← e1, ← e2]

theorem ForwardRegional.Reach.exists_mem {L : ForwardRegional} (h : L.Reach) : ∃ w, L.toElementaryLanguage.Mem w := by
  obtain ⟨n, v, ho, _⟩ := h.of
  obtain ⟨u, hu⟩ := ho.canonical.nonempty
  refine ⟨⟨L.word, delays u L.cond.size⟩, rfl, ?_⟩
  rw [holds_iff_mem _ ho.canonical.1 ho.diag]
  exact ⟨by simp, mem_delays hu⟩

theorem append_init_mem {e : ElementaryLanguage} (h : e.Proper) (w : TimedWord) :
    (e.append BackwardRegional.init.toElementaryLanguage).Mem w ↔ e.Mem w := by
  have hi := ObsTable.init_good.queryable.proper
  have hmi : ∀ v, BackwardRegional.init.toElementaryLanguage.Mem v ↔ v = ⟨[], [0]⟩ := by
    intro v
    have h1 := (ForwardRegional.init_of).mem_iff v
    have hs : BackwardRegional.init.cond.size = 1 := rfl
    constructor
    · rintro ⟨a, b, c⟩
      have c0 := c 0 0 (le_refl _) (by omega)
      have hu : BackwardRegional.init.cond.upper 0 0 = .fin 0 true := rfl
      have hlo : BackwardRegional.init.cond.lower 0 0 = .fin 0 true := rfl
      rw [hu, hlo] at c0
      rw [hs] at b
      obtain ⟨vw, vd⟩ := v
      simp only at a b c0
      match vd, b with
      | [x], _ =>
        simp [T] at c0
        have : x = 0 := le_antisymm c0.1 c0.2
        subst this
        have : vw = [] := a
        subst this; rfl
    · rintro rfl
      refine ⟨rfl, rfl, ?_⟩
      intro i j hij hj
      have : j = 0 := by rw [hs] at hj; omega
      subst this
      have : i = 0 := by omega
      subst this
      have hu : BackwardRegional.init.cond.upper 0 0 = .fin 0 true := rfl
      have hlo : BackwardRegional.init.cond.lower 0 0 = .fin 0 true := rfl
      rw [hu, hlo]; simp [T]
  rw [Props.C23_append_exact e _ h.wf hi.wf h.canonical hi.canonical]
  have app : ∀ u, e.Mem u → u.append ⟨[], [0]⟩ = u := by
    intro u hu
    have hlen : u.durations.length = e.cond.size := hu.2.1
    have hpos : 0 < u.durations.length := by
      have := h.canonical.1
      rw [hlen]; unfold TimedCondition.size; omega
    obtain ⟨uw, ud⟩ := u
    simp only [TimedWord.append, List.append_nil, TimedWord.mk.injEq, true_and, List.headD_cons, List.tail_cons,
      TimedWord.addBack, add_zero] at hpos ⊢
    have hne : ud ≠ [] := by intro e; subst e; simp at hpos
    rw [List.getLastD_eq_getLast?, List.getLast?_eq_getLast_of_ne_nil hne]
    exact List.dropLast_append_getLast hne
  constructor
  · rintro ⟨u, v, h1, h2, rfl⟩
    rw [(hmi v).1 h2, app u h1]; exact h1
  · intro hw
    exact ⟨w, ⟨[], [0]⟩, hw, (hmi _).2 rfl, (app w hw).symm⟩

namespace ObsTable
variable {σ : Type} {env : Env σ} {f : TimedWord → Bool} {E : Fail → Prop} {T : ObsTable σ}

/-- `isMatch` is the common answer for the words of the prefix. -/
theorem Inv.isMatch (he : EnvOk env f) (h : Inv f T) {i : ℕ} {p : ForwardRegional} (hp : T.prefixes[i]? = some p) :
    ∃ b, T.isMatch i = some b ∧ ∀ w, p.toElementaryLanguage.Mem w → f w = b := by
  have hi := (List.getElem?_eq_some_iff.1 hp).1
  obtain ⟨p', row, cat, h1, h2, h3, h4, h5⟩ := h.get hi
  rw [hp] at h1
  simp only [Option.some.injEq] at h1
  subst h1
  have hs0 := h.suf0
  have hpos : 0 < T.suffixes.length := (List.getElem?_eq_some_iff.1 hs0).1
  have hrl := h5.length
  have hc := h5.row.2 0 (by simpa using hpos)
  have e0 : ((T.suffixes.map (·.toElementaryLanguage)).getD 0 .empty) = BackwardRegional.init.toElementaryLanguage := by
    rw [List.getD_eq_getElem?_getD, List.getElem?_map, hs0]; rfl
  rw [e0] at hc
  have hr0 : row[0]? = some (row.getD 0 []) := by
    rw [List.getD_eq_getElem?_getD, List.getElem?_eq_getElem (by omega)]; rfl
  refine ⟨!(row.getD 0 []).isEmpty, ?_, ?_⟩
  · unfold ObsTable.isMatch; rw [h2]
    show (row[0]?.bind fun cell => some (!cell.isEmpty)) = _
    rw [hr0]; rfl
  · have hexact : ∀ w, p.toElementaryLanguage.Mem w → ((row.getD 0 []).Holds w ↔ f w = true) := by
      intro w hw
      have hm := (append_init_mem h4.queryable.proper w).2 hw
      have := hc.exact w hm.1
      rw [this]; simp [hm]
    intro w hw
    cases hcell : row.getD 0 [] with
    | nil =>
      have := hexact w hw
      rw [hcell] at this
      cases hfw : f w with
      | false => rfl
      | true => obtain ⟨c, hc', _⟩ := this.2 hfw; simp at hc'
    | cons c cs =>
      have hcm : c ∈ row.getD 0 [] := by rw [hcell]; simp
      obtain ⟨k1, k2⟩ := hc.canonical c hcm
      obtain ⟨v, hv⟩ := k1.nonempty
      let w0 : TimedWord := ⟨p.word, delays v c.size⟩
      have hw0 : (row.getD 0 []).Holds w0 := by
        refine ⟨c, hcm, ?_⟩
        rw [holds_iff_mem _ k1.1 k1.diagNN]
        exact ⟨by simp [w0], mem_delays hv⟩
      have hword : w0.word = (p.toElementaryLanguage.append BackwardRegional.init.toElementaryLanguage).word := by
        show p.word = p.word ++ []; simp
      obtain ⟨m1, m2⟩ := (hc.exact w0 hword).1 hw0
      have m1 := (append_init_mem h4.queryable.proper w0).1 m1
      have := he.inv w w0 (mem_legal h4.queryable h4.reach.nonneg hw) (mem_legal h4.queryable h4.reach.nonneg m1)
        (h4.reach.sameRegion hw m1)
      rw [this, m2]; rfl

/-- The morphism is read off the table: from a prefix outside of `P` to one in `P` it is merged into. -/
def FromTable (f : TimedWord → Bool) (T : ObsTable σ) (i : ℕ) (m : SingleMorphism) : Prop :=
  ∃ (j : ℕ) (p q : ForwardRegional), i ∉ T.pIndices ∧ j ∈ T.pIndices ∧ T.prefixes[i]? = some p ∧ T.prefixes[j]? = some q ∧
    m.domain = p.toElementaryLanguage ∧ m.codomain = q.toElementaryLanguage ∧
    T.getRelation i j = some m.rel ∧ Static p q m.rel ∧ Merges f m.domain m.codomain T.sufs m.rel

theorem FromTable.step {T T' : ObsTable σ} {i : ℕ} {m : SingleMorphism} (h : FromTable f T i m) (hs : RelStep T T')
    (hr : ∀ b, T'.getRelation i b = T.getRelation i b) : FromTable f T' i m := by
  obtain ⟨j, p, q, h1, h2, h3, h4, h5, h6, h7, h8, h9⟩ := h
  exact ⟨j, p, q, by rw [hs.pIndices]; exact h1, by rw [hs.pIndices]; exact h2, by rw [hs.prefixes]; exact h3,
    by rw [hs.prefixes]; exact h4, h5, h6, by rw [hr]; exact h7, h8, by rw [hs.sufs]; exact h9⟩

theorem findMorphism_ok (h : Inv f T) {i : ℕ} (hi : i < T.prefixes.length) (hP : i ∉ T.pIndices) (js : List ℕ)
    (hj : ∀ j ∈ js, j < T.prefixes.length) :
    Ok E (findMorphism i js) T fun o T' => RowStep f i T T' ∧ (∀ m, o = some m → FromTable f T' i m) ∧
      (o = none → ∀ j ∈ js, j ∈ T.pIndices → T'.Apart i j) := by
  induction js generalizing T with
  | nil => exact Ok.pure ⟨.refl h i, by simp, by simp⟩
  | cons j js ih =>
    have hjl := hj j (by simp)
    unfold findMorphism
    refine Ok.bind (Ok.get ?_)
    have step : ∀ (m : TableM σ (Option RenamingRelation)),
        Ok E m T (fun o T' => RowStep f i T T' ∧
          (o.isSome = true → j ∈ T.pIndices ∧ ∃ r, T'.getRelation i j = some r ∧ T'.MergesInto f i j) ∧
          (o = none → j ∈ T.pIndices → T'.Apart i j)) →
        Ok E (do
          let r ← m
          if r.isSome then
            let T ← get
            let p ← lift T.prefixes[i]?
            let q ← lift T.prefixes[j]?
            let r ← lift (T.getRelation i j)
            pure (some ⟨p.toElementaryLanguage, q.toElementaryLanguage, r⟩)
          else do
            modify fun T => T.eraseRelation i j
            findMorphism i js) T fun o T' => RowStep f i T T' ∧ (∀ m, o = some m → FromTable f T' i m) ∧
              (o = none → ∀ k ∈ j :: js, k ∈ T.pIndices → T'.Apart i k) := by
      intro m hm
      refine Ok.bind (hm.mono ?_)
      rintro o T1 ⟨g1, g2, g3⟩
      split
      · rename_i ho
        obtain ⟨hjP, r, k1, p, q, r', k2, k3, k4, k5⟩ := g2 ho
        rw [k1] at k4
        simp only [Option.some.injEq] at k4
        subst k4
        obtain ⟨p', q', s1, s2, s3⟩ := g1.inv.static k1
        rw [k2] at s1; rw [k3] at s2
        simp only [Option.some.injEq] at s1 s2
        subst s1; subst s2
        refine Ok.bind (Ok.get ?_)
        refine Ok.bind (Ok.lift k2 ?_)
        refine Ok.bind (Ok.lift k3 ?_)
        refine Ok.bind (Ok.lift k1 ?_)
        refine Ok.pure ⟨g1, fun m hm => ?_, by simp⟩
        simp only [Option.some.injEq] at hm
        subst hm
        exact ⟨j, p, q, by rw [g1.step.pIndices]; exact hP, by rw [g1.step.pIndices]; exact hjP, k2, k3, rfl, rfl, k1,
          s3.toStatic, k5⟩
      · rename_i ho
        have hi1 : i < T1.prefixes.length := by rw [g1.step.prefixes]; exact hi
        refine Ok.bind (Ok.modify ?_)
        have hstep : RowStep f i T1 (T1.eraseRelation i j) :=
          ⟨g1.inv.erase hi1 j, put_step _ _, fun a ha => put_rows _ _ ha⟩
        have h01 := g1.trans hstep
        refine (ih h01.inv hi1 (by rw [h01.step.pIndices]; exact hP) (fun k hk => by
          rw [h01.step.prefixes]; exact hj k (by simp [hk]))).mono ?_
        rintro o' T2 ⟨m1, m2, m3⟩
        refine ⟨h01.trans m1, m2, fun ho' k hk hkP => ?_⟩
        rcases List.mem_cons.1 hk with rfl | hk
        · exact (g3 (by simpa using ho) hkP).imp (fun x => m1.step.dist _ (hstep.step.dist _ x))
            (fun x => m1.step.dist _ (hstep.step.dist _ x))
        · exact m3 ho' k hk (by rw [h01.step.pIndices]; exact hkP)
    by_cases hjP : T.inP j = true
    · rw [if_pos hjP]
      refine step _ ((memo_ok h hi hjl).mono ?_)
      intro o T1 hc
      refine ⟨hc.row, fun ho => ⟨inP_iff.1 hjP, ?_⟩, fun ho _ => hc.no ho⟩
      obtain ⟨r, hr⟩ := Option.isSome_iff_exists.1 ho
      exact ⟨r, (hc.yes r hr).2, (hc.yes r hr).1⟩
    · rw [if_neg hjP]
      exact step _ (Ok.pure ⟨.refl h i, by simp, fun _ e => absurd (inP_iff.2 e) hjP⟩)

theorem orderRow_lt (he : EnvOk env f) (h : Inv f T) (i : ℕ) : ∀ j ∈ env.orderRow T i, j < T.prefixes.length := by
  intro j hj
  obtain ⟨r, hr⟩ := (orderRow_ok he h i).2 j hj
  exact (h.range hr).2

/-- Each morphism is read off the table, at most one for each prefix. -/
def ReadOff (f : TimedWord → Bool) (T : ObsTable σ) (is : List ℕ) (l : List SingleMorphism) : Prop :=
  ∃ ks : List ℕ, ks.Nodup ∧ (∀ k ∈ ks, k ∈ is) ∧ List.Forall₂ (fun k m => FromTable f T k m) ks l

theorem findMorphisms_ok (he : EnvOk env f) (is : List ℕ) (hn : is.Nodup) (h : Inv f T)
    (hi : ∀ i ∈ is, i < T.prefixes.length) :
    Ok E (findMorphisms env is) T fun l T' => Inv f T' ∧ RelStep T T' ∧
      (∀ a b, a ∉ is ∨ a ∈ T.pIndices → T'.getRelation a b = T.getRelation a b) ∧ ReadOff f T' is l ∧
      ∀ i ∈ is, i ∉ T.pIndices → (∃ m ∈ l, FromTable f T' i m) ∨
        ∀ j ∈ T.pIndices, (∃ r, T.getRelation i j = some r) → T'.Apart i j := by
  induction is generalizing T with
  | nil => exact Ok.pure ⟨h, .refl T, fun _ _ _ => rfl, ⟨[], by simp, by simp, .nil⟩, by simp⟩
  | cons i is ih =>
    obtain ⟨hn1, hn2⟩ := List.nodup_cons.1 hn
    have hii := hi i (by simp)
    unfold findMorphisms
    refine Ok.bind (Ok.get ?_)
    have step : ∀ (m : TableM σ (Option SingleMorphism)),
        Ok E m T (fun o T' => RowStep f i T T' ∧ (i ∈ T.pIndices → T' = T) ∧ (∀ m, o = some m → FromTable f T' i m) ∧
          (o = none → i ∉ T.pIndices → ∀ j ∈ env.orderRow T i, j ∈ T.pIndices → T'.Apart i j)) →
        Ok E (do
          let o ← m
          let rest ← findMorphisms env is
          pure (o.toList ++ rest)) T fun l T' => Inv f T' ∧ RelStep T T' ∧
            (∀ a b, a ∉ i :: is ∨ a ∈ T.pIndices → T'.getRelation a b = T.getRelation a b) ∧ ReadOff f T' (i :: is) l ∧
            ∀ k ∈ i :: is, k ∉ T.pIndices → (∃ m ∈ l, FromTable f T' k m) ∨
              ∀ j ∈ T.pIndices, (∃ r, T.getRelation k j = some r) → T'.Apart k j := by
      intro m hm
      refine Ok.bind (hm.mono ?_)
      rintro o T1 ⟨g1, g2, g3, g4⟩
      refine Ok.bind ((ih hn2 g1.inv fun k hk => by rw [g1.step.prefixes]; exact hi k (by simp [hk])).mono ?_)
      rintro rest T2 ⟨k1, k2, k3, ⟨ks, q1, q2, q3⟩, k5⟩
      have hsame : ∀ b, T2.getRelation i b = T1.getRelation i b := fun b => k3 i b (Or.inl hn1)
      refine Ok.pure ⟨k1, g1.step.trans k2, ?_, ?_, ?_⟩
      · intro a b hab
        by_cases ha : a = i
        · subst ha
          rw [hsame]
          rcases hab with hab | hab
          · simp at hab
          · rw [g2 hab]
        · rw [k3 a b (hab.imp (fun x y => x (by simp [y])) (fun x => by rw [g1.step.pIndices]; exact x)), g1.rel a b ha]
      · cases o with
        | none => exact ⟨ks, q1, fun k hk => by simp [q2 k hk], q3⟩
        | some m =>
          refine ⟨i :: ks, List.nodup_cons.2 ⟨fun e => hn1 (q2 i e), q1⟩, ?_, .cons ((g3 m rfl).step k2 hsame) q3⟩
          intro k hk
          rcases List.mem_cons.1 hk with rfl | hk
          · simp
          · simp [q2 k hk]
      · intro k hk hkP
        rcases List.mem_cons.1 hk with rfl | hk'
        · cases o with
          | some m => exact Or.inl ⟨m, by simp, (g3 m rfl).step k2 hsame⟩
          | none =>
            refine Or.inr fun j hj ⟨r, hr⟩ => ?_
            have hmem : j ∈ env.orderRow T k := by
              rw [(he.lawful.orderRow T k).mem_iff]
              unfold getRelation at hr
              cases hl : T.closedRelation k with
              | none => rw [hl] at hr; simp at hr
              | some l =>
                rw [hl] at hr
                exact List.mem_map.2 ⟨(j, r), by simpa using lookup_mem hr, rfl⟩
            exact (g4 rfl hkP j hmem hj).imp (k2.dist _) (k2.dist _)
        · rcases k5 k hk' (by rw [g1.step.pIndices]; exact hkP) with ⟨m, a1, a2⟩ | a
          · exact Or.inl ⟨m, by simp [a1], a2⟩
          · refine Or.inr fun j hj ⟨r, hr⟩ => a j (by rw [g1.step.pIndices]; exact hj) ⟨r, ?_⟩
            rw [g1.rel k j (by rintro rfl; exact hn1 hk')]; exact hr
    by_cases hP : T.inP i = true
    · rw [if_pos hP]
      exact step _ (Ok.pure ⟨.refl h i, fun _ => rfl, by simp, fun _ e => absurd (inP_iff.1 hP) e⟩)
    · rw [if_neg hP]
      have hP' : i ∉ T.pIndices := fun e => hP (inP_iff.2 e)
      refine step _ ((findMorphism_ok h hii hP' _ (orderRow_lt he h i)).mono ?_)
      rintro o T1 ⟨g1, g2, g3⟩
      exact ⟨g1, fun e => absurd e hP', g2, fun ho _ => g3 ho⟩

/-- The language that `toRecognizable` reads off the table. -/
structure Recognized (f : TimedWord → Bool) (T : ObsTable σ) (R : RecognizableLanguage) : Prop where
  prefixes : ∀ e, e ∈ R.prefixes ↔ ∃ i ∈ T.pIndices, ∃ p, T.prefixes[i]? = some p ∧ e = p.toElementaryLanguage
  final : ∀ e, e ∈ R.final ↔ ∃ i ∈ T.pIndices, ∃ p, T.prefixes[i]? = some p ∧ e = p.toElementaryLanguage ∧
    ∀ w, e.Mem w → f w = true
  morphisms : ∃ ks : List ℕ, ks.Nodup ∧ List.Forall₂ (fun k m => FromTable f T k m) ks R.morphisms

theorem mapM_option {α β : Type} {g : α → Option β} {h : α → β} (l : List α) (hg : ∀ a ∈ l, g a = some (h a)) :
    l.mapM g = some (l.map h) := by
  induction l with
  | nil => rfl
  | cons a l ih => rw [List.mapM_cons, hg a (by simp), ih fun x hx => hg x (by simp [hx])]; rfl

theorem toRecognizable_ok (he : EnvOk env f) (h : Inv f T) :
    Ok E (toRecognizable env) T fun R T' => Inv f T' ∧ RelStep T T' ∧ Recognized f T' R ∧
      ∀ i < T.prefixes.length, i ∉ T.pIndices → (∃ m ∈ R.morphisms, FromTable f T' i m) ∨
        ∀ j ∈ T.pIndices, (∃ r, T.getRelation i j = some r) → T'.Apart i j := by
  unfold toRecognizable
  refine Ok.bind (Ok.get ?_)
  dsimp only
  generalize hin : (List.range T.prefixes.length).filter (fun i => T.inP i) = inside
  have hmi : ∀ i, i ∈ inside ↔ i ∈ T.pIndices := by
    intro i
    rw [← hin]
    simp only [List.mem_filter, List.mem_range, inP_iff]
    exact ⟨fun x => x.2, fun x => ⟨h.closed.inside.2 i x, x⟩⟩
  have hlt : ∀ i ∈ inside, i < T.prefixes.length := fun i hi => h.closed.inside.2 i ((hmi i).1 hi)
  have hP : inside.mapM (fun i => T.prefixes[i]?) = some (inside.map fun i => T.prefixes.getD i .init) := by
    refine mapM_option _ fun i hi => ?_
    rw [List.getD_eq_getElem?_getD, List.getElem?_eq_getElem (hlt i hi)]; rfl
  have hget : ∀ i ∈ inside, T.prefixes[i]? = some (T.prefixes.getD i .init) := by
    intro i hi
    rw [List.getD_eq_getElem?_getD, List.getElem?_eq_getElem (hlt i hi)]; rfl
  have hM : inside.mapM (fun i => T.isMatch i) = some (inside.map fun i => (T.isMatch i).getD false) := by
    refine mapM_option _ fun i hi => ?_
    obtain ⟨b, hb, _⟩ := h.isMatch he (hget i hi)
    rw [hb]; rfl
  refine Ok.bind (Ok.lift hP ?_)
  refine Ok.bind (Ok.lift hM ?_)
  obtain ⟨o1, o2, o3⟩ := he.lawful.orderRel T
  refine Ok.bind ((findMorphisms_ok he _ o1 h ?_).mono ?_)
  · intro i hi
    obtain ⟨l, hl⟩ := Option.isSome_iff_exists.1 (o2 i hi)
    exact (h.rel i l hl).1
  rintro l T' ⟨k1, k2, k3, ⟨ks, q1, q2, q3⟩, k5⟩
  refine Ok.pure ⟨k1, k2, ⟨?_, ?_, ks, q1, q3⟩, ?_⟩
  · intro e
    simp only [List.map_map, List.mem_map, Function.comp]
    rw [k2.pIndices, k2.prefixes]
    constructor
    · rintro ⟨i, hi, rfl⟩
      exact ⟨i, (hmi i).1 hi, _, hget i hi, rfl⟩
    · rintro ⟨i, hi, p, hp, rfl⟩
      refine ⟨i, (hmi i).2 hi, ?_⟩
      have := hget i ((hmi i).2 hi)
      rw [hp] at this
      simp only [Option.some.injEq] at this
      rw [← this]
  · intro e
    rw [k2.pIndices, k2.prefixes]
    rw [show (inside.map fun i => T.prefixes.getD i .init).zip (inside.map fun i => (T.isMatch i).getD false) =
      inside.map fun i => (T.prefixes.getD i .init, (T.isMatch i).getD false) from by
        rw [List.zip_map']]
    simp only [List.mem_map, List.mem_filter]
    constructor
    · rintro ⟨x, ⟨⟨i, hi, rfl⟩, hx⟩, rfl⟩
      refine ⟨i, (hmi i).1 hi, _, hget i hi, rfl, fun w hw => ?_⟩
      obtain ⟨b, hb, hall⟩ := h.isMatch he (hget i hi)
      simp only [hb, Option.getD_some] at hx
      rw [hall w hw]; exact hx
    · rintro ⟨i, hi, p, hp, rfl, hall⟩
      have hi' := (hmi i).2 hi
      have hg := hget i hi'
      rw [hp] at hg
      simp only [Option.some.injEq] at hg
      refine ⟨_, ⟨⟨i, hi', rfl⟩, ?_⟩, by rw [← hg]⟩
      obtain ⟨b, hb, hall'⟩ := h.isMatch he hp
      obtain ⟨w, hw⟩ := (h.preOk (List.mem_of_getElem? hp)).reach.exists_mem
      simp only [hb, Option.getD_some]
      rw [← hall' w hw, hall w hw]
  · intro i hi hiP
    by_cases hr : (T.closedRelation i).isSome = true
    · exact k5 i (o3 i hi hr) hiP
    · refine Or.inr fun j _ ⟨r, hr'⟩ => ?_
      unfold getRelation at hr'
      cases hl : T.closedRelation i with
      | none => rw [hl] at hr'; simp at hr'
      | some l => rw [hl] at hr; simp at hr

end ObsTable
end LearnTA
