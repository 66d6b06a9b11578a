import Verif.Lemmas.ObservationTable3

/-!
# Closing the table
-/

namespace LearnTA
open TimedCondition
namespace ObsTable
variable {σ : Type} {env : Env σ} {f : TimedWord → Bool} {E : Fail → Prop} {T : ObsTable σ}

/-- Only relations of the row `i` change. -/
structure RowStep (f : TimedWord → Bool) (i : ℕ) (T T' : ObsTable σ) : Prop where
  inv : Inv f T'
  step : RelStep T T'
  rows : ∀ a, a ≠ i → T'.closedRelation a = T.closedRelation a

theorem getRelation_congr {T T' : ObsTable σ} {a : ℕ} (h : T'.closedRelation a = T.closedRelation a) (b : ℕ) :
    T'.getRelation a b = T.getRelation a b := by
  unfold getRelation; rw [h]

theorem RowStep.rel {i : ℕ} {T T' : ObsTable σ} (h : RowStep f i T T') (a b : ℕ) (ha : a ≠ i) :
    T'.getRelation a b = T.getRelation a b := getRelation_congr (h.rows a ha) b

theorem RowStep.refl (h : Inv f T) (i : ℕ) : RowStep f i T T := ⟨h, .refl T, fun _ _ => rfl⟩

theorem RowStep.trans {i : ℕ} {T T' T'' : ObsTable σ} (h : RowStep f i T T') (h' : RowStep f i T' T'') :
    RowStep f i T T'' :=
  ⟨h'.inv, h.step.trans h'.step, fun a ha => (h'.rows a ha).trans (h.rows a ha)⟩

theorem Compared.row {i j : ℕ} {T T' : ObsTable σ} {o : Option RenamingRelation} (h : Compared f i j T o T') :
    RowStep f i T T' := ⟨h.inv, h.step, h.rows⟩

theorem Inv.range (h : Inv f T) {i j : ℕ} {r : RenamingRelation} (hr : T.getRelation i j = some r) :
    i < T.prefixes.length ∧ j < T.prefixes.length := by
  obtain ⟨p, q, h1, h2, _⟩ := h.static hr
  exact ⟨(List.getElem?_eq_some_iff.1 h1).1, (List.getElem?_eq_some_iff.1 h2).1⟩

theorem confirm_ok (i : ℕ) (js : List ℕ) (h : Inv f T) (hn : js.Nodup)
    (hk : ∀ j ∈ js, ∃ r, T.getRelation i j = some r) :
    Ok E (confirm i js) T fun b T' => RowStep f i T T' ∧ (b = true → Target f T' i) := by
  induction js generalizing T with
  | nil => exact Ok.pure ⟨.refl h i, by simp⟩
  | cons j js ih =>
    obtain ⟨hn1, hn2⟩ := List.nodup_cons.1 hn
    obtain ⟨r, hr⟩ := hk j (by simp)
    obtain ⟨hi, hj⟩ := h.range hr
    obtain ⟨b, h1, h2⟩ := rowsEquivalent_ok h hi hj r
    unfold confirm
    refine Ok.bind (Ok.get ?_)
    refine Ok.bind (Ok.lift hr ?_)
    refine Ok.bind (Ok.lift h1 ?_)
    cases b with
    | true =>
      simp only [if_true]
      split
      · rename_i hp
        refine Ok.pure ⟨.refl h i, fun _ => ?_⟩
        obtain ⟨p, q, k1, k2, k3⟩ := h.static hr
        exact ⟨j, inP_iff.1 hp, p, q, r, k1, k2, hr, h2 rfl p q k1 k2 k3.toStatic⟩
      · exact ih h hn2 fun k hk' => hk k (by simp [hk'])
    | false =>
      simp only [Bool.false_eq_true, if_false]
      refine Ok.bind (Ok.modify ?_)
      refine (ih (h.erase hi j) hn2 ?_).mono ?_
      · intro k hk'
        rw [getRelation_erase i j i k (Or.inr (by rintro rfl; exact hn1 hk'))]
        exact hk k (by simp [hk'])
      · rintro b T' ⟨g1, g2⟩
        refine ⟨RowStep.trans ⟨h.erase hi j, put_step _ _, fun a ha => put_rows _ _ ha⟩ g1, g2⟩

theorem orderRow_ok (he : EnvOk env f) (h : Inv f T) (i : ℕ) : (env.orderRow T i).Nodup ∧
    ∀ j ∈ env.orderRow T i, ∃ r, T.getRelation i j = some r := by
  have hp := he.lawful.orderRow T i
  obtain ⟨h1, _⟩ := h.rel_getD i
  refine ⟨hp.nodup_iff.2 h1, fun j hj => ?_⟩
  have hj := hp.mem_iff.1 hj
  obtain ⟨r, hr⟩ := lookup_of_mem hj
  refine ⟨r, ?_⟩
  unfold getRelation
  cases hl : T.closedRelation i with
  | none => rw [hl] at hr; simp at hr
  | some l => rw [hl] at hr; exact hr

theorem orderP_mem (he : EnvOk env f) {j : ℕ} : j ∈ env.orderP T ↔ j ∈ T.pIndices :=
  (he.lawful.orderP T).mem_iff

theorem memo_any (h : Inv f T) {i : ℕ} (hi : i < T.prefixes.length) (l : List ℕ) (hl : ∀ j ∈ l, j ∈ T.pIndices)
    (p : ℕ → TableM σ Bool)
    (hp : ∀ j ∈ l, ∀ T', RowStep f i T T' → Ok E (p j) T' fun b T'' => RowStep f i T' T'' ∧
      (b = true → T''.MergesInto f i j)) :
    Ok E (l.anyM p) T fun b T' => RowStep f i T T' ∧ (b = true → Target f T' i) := by
  refine (Ok.anyM (fun T' => RowStep f i T T') (fun T' => RowStep f i T T' ∧ Target f T' i) (fun _ _ => True)
    ?_ (.refl h i)).mono ?_
  · intro j hj T' hT'
    refine (hp j hj T' hT').mono ?_
    rintro b T'' ⟨h1, h2⟩
    refine ⟨fun hb => ⟨hT'.trans h1, j, ?_, h2 hb⟩, fun _ => ⟨hT'.trans h1, trivial, fun _ _ => trivial⟩⟩
    rw [h1.step.pIndices, hT'.step.pIndices]
    exact hl j hj
  · rintro b T' ⟨h1, h2⟩
    cases b with
    | true => exact ⟨(h1 rfl).1, fun _ => (h1 rfl).2⟩
    | false => exact ⟨(h2 rfl).1, by simp⟩

theorem findTarget_ok (he : EnvOk env f) (h : Inv f T) {i : ℕ} (hi : i < T.prefixes.length) :
    Ok E (findTarget env i) T fun b T' => RowStep f i T T' ∧ (b = true → Target f T' i) := by
  unfold findTarget
  refine Ok.bind (Ok.get ?_)
  obtain ⟨h1, h2⟩ := orderRow_ok he h i
  refine Ok.bind ((confirm_ok i _ h h1 h2).mono ?_)
  rintro b T1 ⟨g1, g2⟩
  have hi1 : i < T1.prefixes.length := by rw [g1.step.prefixes]; exact hi
  split
  · rename_i hb
    exact Ok.pure ⟨g1, fun _ => g2 hb⟩
  refine Ok.bind (Ok.get ?_)
  have hmem : ∀ j ∈ env.orderP T1, j ∈ T1.pIndices := fun j hj => (orderP_mem he).1 hj
  have comp : ∀ (j : ℕ), j ∈ T1.pIndices → ∀ T', RowStep f i T1 T' →
      Ok E (do let r ← equivalentWithMemo i j; pure r.isSome) T' fun b T'' => RowStep f i T' T'' ∧
        (b = true → T''.MergesInto f i j) := by
    intro j hj T' hT'
    have hj' := g1.inv.closed.inside.2 j hj
    refine Ok.bind ((memo_ok hT'.inv (by rw [hT'.step.prefixes]; exact hi1)
      (by rw [hT'.step.prefixes]; exact hj')).mono ?_)
    intro o T'' ho
    refine Ok.pure ⟨ho.row, fun hs => ?_⟩
    obtain ⟨r, hr⟩ := Option.isSome_iff_exists.1 hs
    exact (ho.yes r hr).1
  refine Ok.bind ((memo_any g1.inv hi1 _ hmem _ ?_).mono ?_)
  · intro j hj T' hT'
    have hjP := hmem j hj
    have hj' := g1.inv.closed.inside.2 j hjP
    obtain ⟨c, hc, _⟩ := g1.inv.closed.time j hjP _ (List.getElem?_eq_getElem hj')
    refine Ok.bind (Ok.lift hc ?_)
    split
    · exact comp j hjP T' hT'
    · exact Ok.pure ⟨.refl hT'.inv i, by simp⟩
  · rintro b T2 ⟨k1, k2⟩
    split
    · rename_i hb
      exact Ok.pure ⟨g1.trans k1, fun _ => k2 hb⟩
    · refine (memo_any k1.inv (by rw [k1.step.prefixes]; exact hi1) (env.orderP T1) ?_ _ ?_).mono ?_
      · intro j hj; rw [k1.step.pIndices]; exact hmem j hj
      · intro j hj T' hT'
        exact comp j (hmem j hj) T' (k1.trans hT')
      · rintro b T3 ⟨m1, m2⟩
        exact ⟨(g1.trans k1).trans m1, m2⟩

/-- `P` has grown. -/
structure MorePI (f : TimedWord → Bool) (T T' : ObsTable σ) : Prop where
  inv : Inv f T'
  grew : Grew T T'
  suffixes : T'.suffixes = T.suffixes
  more : ∃ i ∈ T'.pIndices, i ∉ T.pIndices ∧ i < T.prefixes.length

theorem closeLoop_ok (he : EnvOk env f) (hE : E .fuel ∨ ∀ p ∈ T.prefixes, Enough f env.fuel p) (is : List ℕ) (hn : is.Nodup) (h : Inv f T)
    (hi : ∀ i ∈ is, i < T.prefixes.length) :
    Ok E (closeLoop env is) T fun b T' =>
      (b = true → Inv f T' ∧ RelStep T T' ∧ (∀ i ∈ is, Covered f T' i) ∧
        ∀ a b, a ∉ is → T'.getRelation a b = T.getRelation a b) ∧
      (b = false → MorePI f T T') := by
  induction is generalizing T with
  | nil => exact Ok.pure ⟨fun _ => ⟨h, .refl T, by simp, fun _ _ _ => rfl⟩, by simp⟩
  | cons i is ih =>
    obtain ⟨hn1, hn2⟩ := List.nodup_cons.1 hn
    have hii := hi i (by simp)
    unfold closeLoop
    refine Ok.bind (Ok.get ?_)
    split
    · rename_i hp
      refine (ih hE hn2 h fun k hk => hi k (by simp [hk])).mono ?_
      rintro b T' ⟨g1, g2⟩
      refine ⟨fun hb => ?_, g2⟩
      obtain ⟨k1, k2, k3, k4⟩ := g1 hb
      refine ⟨k1, k2, ?_, fun a b ha => k4 a b (by simp at ha; tauto)⟩
      intro k hk
      rcases List.mem_cons.1 hk with rfl | hk
      · exact Or.inl (by rw [k2.pIndices]; exact inP_iff.1 hp)
      · exact k3 k hk
    · rename_i hp
      have hp : i ∉ T.pIndices := fun e => hp (inP_iff.2 e)
      refine Ok.bind ((findTarget_ok he h hii).mono ?_)
      rintro b T1 ⟨g1, g2⟩
      split
      · rename_i hb
        obtain ⟨j, j1, j2⟩ := g2 hb
        refine (ih (by rw [g1.step.prefixes]; exact hE) hn2 g1.inv fun k hk => by rw [g1.step.prefixes]; exact hi k (by simp [hk])).mono ?_
        rintro b T' ⟨m1, m2⟩
        refine ⟨fun hb => ?_, fun hb => ?_⟩
        · obtain ⟨k1, k2, k3, k4⟩ := m1 hb
          refine ⟨k1, g1.step.trans k2, ?_, fun a b ha => ?_⟩
          · intro k hk
            rcases List.mem_cons.1 hk with rfl | hk
            · exact Or.inr ⟨j, by rw [k2.pIndices]; exact j1, j2.step k2 (k4 _ _ hn1)⟩
            · exact k3 k hk
          · simp only [List.mem_cons, not_or] at ha
            rw [k4 a b ha.2, g1.rel a b ha.1]
        · have := m2 hb
          refine ⟨this.inv, g1.step.grew.trans this.grew, this.suffixes.trans g1.step.suffixes, ?_⟩
          obtain ⟨k, k1, k2, k3⟩ := this.more
          exact ⟨k, k1, by rwa [g1.step.pIndices] at k2, by rwa [g1.step.prefixes] at k3⟩
      · refine Ok.bind ((moveToP_ok he _ g1.inv (by rw [g1.step.prefixes]; exact hii)
          (by rw [g1.step.pIndices]; exact hp)
          (by rw [g1.step.prefixes]; exact hE.imp id fun hen q hq => hen q (List.mem_of_getElem? hq))).mono ?_)
        intro _ T2 m
        refine Ok.bind ((refresh_inv he m.inv).mono ?_)
        rintro _ T3 ⟨h3, o, t, c, rfl⟩
        refine Ok.pure ⟨by simp, fun _ => ⟨h3, (g1.step.grew.trans m.grew).trans (grew_fill _ _ _ _),
          m.suffixes.trans g1.step.suffixes, i, ?_, hp, hii⟩⟩
        exact m.moved i (by simp)

theorem close_ok (he : EnvOk env f) (hE : E .fuel ∨ ∀ p ∈ T.prefixes, Enough f env.fuel p) (h : Inv f T) :
    Ok E (close env) T fun b T' =>
      (b = true → Inv f T' ∧ RelStep T T' ∧ ∀ i < T'.prefixes.length, Covered f T' i) ∧
      (b = false → MorePI f T T') := by
  unfold close
  refine Ok.bind (Ok.get ?_)
  refine (closeLoop_ok he hE _ List.nodup_range h fun i hi => List.mem_range.1 hi).mono ?_
  rintro b T' ⟨g1, g2⟩
  refine ⟨fun hb => ?_, g2⟩
  obtain ⟨k1, k2, k3, _⟩ := g1 hb
  refine ⟨k1, k2, fun i hi => k3 i ?_⟩
  rw [k2.prefixes] at hi
  exact List.mem_range.2 hi

/-! ### Exterior consistency and saturation -/

theorem moveAll_ok (he : EnvOk env f) (new : List ℕ) (hn : new.Nodup) (h : Inv f T)
    (hi : ∀ i ∈ new, i < T.prefixes.length) (hP : ∀ i ∈ new, i ∉ T.pIndices)
    (hE : E .fuel ∨ ∀ i ∈ new, ∀ p, T.prefixes[i]? = some p → Enough f env.fuel p) :
    Ok E (moveAll env new) T fun _ T' => Moved f new T T' := by
  induction new generalizing T with
  | nil => exact Ok.pure ⟨h, .refl T, rfl, by simp, fun k hk => Or.inl hk⟩
  | cons i is ih =>
    obtain ⟨hn1, hn2⟩ := List.nodup_cons.1 hn
    unfold moveAll
    refine Ok.bind ((moveToP_ok he _ h (hi i (by simp)) (hP i (by simp)) (hE.imp id fun hen => hen i (by simp))).mono ?_)
    intro _ T1 m
    refine (ih hn2 m.inv (fun k hk => lt_of_lt_of_le (hi k (by simp [hk])) m.grew.length) ?_ ?_).mono ?_
    rotate_left
    · refine hE.imp id fun hen k hk q hq => hen k (by simp [hk]) q ?_
      have hlt := hi k (by simp [hk])
      rw [m.grew.get (List.getElem?_eq_getElem hlt)] at hq
      rw [List.getElem?_eq_getElem hlt]; exact hq
    rotate_right
    · intro k hk hk'
      rcases m.only k hk' with e | e | e
      · exact hP k (by simp [hk]) e
      · simp only [List.mem_singleton] at e; exact hn1 (e ▸ hk)
      · have := hi k (by simp [hk]); omega
    · intro _ T2 m2
      refine ⟨m2.inv, m.grew.trans m2.grew, m2.suffixes.trans m.suffixes, ?_, ?_⟩
      · intro k hk
        rcases List.mem_cons.1 hk with rfl | hk
        · exact m2.grew.inside _ (m.moved _ (by simp))
        · exact m2.moved k hk
      · intro k hk
        have := m.grew.length
        rcases m2.only k hk with e | e | e
        · rcases m.only k e with e | e | e
          · exact Or.inl e
          · simp only [List.mem_singleton] at e; exact Or.inr (Or.inl (by simp [e]))
          · exact Or.inr (Or.inr e)
        · exact Or.inr (Or.inl (by simp [e]))
        · exact Or.inr (Or.inr (by omega))

theorem moveAll_more (he : EnvOk env f) (hE : E .fuel ∨ ∀ p ∈ T.prefixes, Enough f env.fuel p) {new : List ℕ} (hne : new ≠ []) (hn : new.Nodup) (h : Inv f T)
    (hi : ∀ i ∈ new, i < T.prefixes.length) (hP : ∀ i ∈ new, i ∉ T.pIndices) :
    Ok E (do moveAll env new; refreshTable env; pure false : TableM σ Bool) T fun b T' =>
      b = false ∧ MorePI f T T' := by
  refine Ok.bind ((moveAll_ok he new hn h hi hP (hE.imp id fun hen i _ q hq => hen q (List.mem_of_getElem? hq))).mono ?_)
  intro _ T1 m
  refine Ok.bind ((refresh_inv he m.inv).mono ?_)
  rintro _ T2 ⟨h2, o, t, c, rfl⟩
  obtain ⟨i, him⟩ := List.exists_mem_of_ne_nil _ hne
  exact Ok.pure ⟨rfl, h2, m.grew.trans (grew_fill _ _ _ _), m.suffixes, i, m.moved i him, hP i him, hi i him⟩

/-- Different elements of `P` have different time successors. -/
theorem Inv.time_inj (h : Inv f T) {i i' j : ℕ} (hi : i ∈ T.pIndices) (hi' : i' ∈ T.pIndices)
    (e : T.continuousSuccessors i = some j) (e' : T.continuousSuccessors i' = some j) : i = i' := by
  have l := h.closed.inside.2 i hi
  have l' := h.closed.inside.2 i' hi'
  have p := List.getElem?_eq_getElem l
  have p' := List.getElem?_eq_getElem l'
  obtain ⟨k, h1, h2⟩ := h.closed.time i hi _ p
  obtain ⟨k', h1', h2'⟩ := h.closed.time i' hi' _ p'
  rw [e] at h1; rw [e'] at h1'
  simp only [Option.some.injEq] at h1 h1'
  subst h1; subst h1'
  rw [h2] at h2'
  simp only [Option.some.injEq] at h2'
  have r := (h.closed.region _ (List.getElem_mem l)).1
  have r' := (h.closed.region _ (List.getElem_mem l')).1
  have rs : T.prefixes[i].successor.Reach := .time r
  have hb : T.prefixes[i].successor.beq T.prefixes[i'].successor = true := by rw [← h2']; exact rs.beq_refl
  exact h.closed.distinct i i' _ _ p p' (ForwardRegional.successor_inj r r' hb)

theorem exteriorCandidates_ok (h : Inv f T) (ps : List ℕ) (hp : ∀ p ∈ ps, p ∈ T.pIndices) (hn : ps.Nodup) :
    ∃ new, T.exteriorCandidates ps = some new ∧ new.Nodup ∧
      ∀ s, s ∈ new ↔ s ∉ T.pIndices ∧ ∃ p ∈ ps, T.continuousSuccessors p = some s ∧
        ∃ L, T.prefixes[p]? = some L ∧ L.cond.hasEqualityN = false := by
  induction ps with
  | nil => exact ⟨[], rfl, by simp, by simp⟩
  | cons p ps ih =>
    obtain ⟨hn1, hn2⟩ := List.nodup_cons.1 hn
    obtain ⟨rest, h1, h2, h3⟩ := ih (fun q hq => hp q (by simp [hq])) hn2
    have hpP := hp p (by simp)
    have hl := h.closed.inside.2 p hpP
    have hL := List.getElem?_eq_getElem hl
    obtain ⟨s, hs, _⟩ := h.closed.time p hpP _ hL
    unfold exteriorCandidates
    rw [hs, hL, h1]
    refine ⟨_, rfl, ?_, ?_⟩
    · split
      · exact h2
      · refine List.nodup_cons.2 ⟨?_, h2⟩
        intro hm
        obtain ⟨_, q, hq, hq', _⟩ := (h3 s).1 hm
        have := h.time_inj hpP (hp q (by simp [hq])) hs hq'
        exact hn1 (this ▸ hq)
    · intro s'
      constructor
      · intro hm
        split at hm
        · obtain ⟨a, q, hq, b⟩ := (h3 s').1 hm
          exact ⟨a, q, by simp [hq], b⟩
        · rename_i hc
          simp only [Bool.or_eq_true, inP_iff, not_or, Bool.not_eq_true] at hc
          rcases List.mem_cons.1 hm with rfl | hm
          · exact ⟨hc.1, p, by simp, hs, _, hL, hc.2⟩
          · obtain ⟨a, q, hq, b⟩ := (h3 s').1 hm
            exact ⟨a, q, by simp [hq], b⟩
      · rintro ⟨a, q, hq, b1, L, b2, b3⟩
        rcases List.mem_cons.1 hq with rfl | hq
        · rw [hs] at b1
          simp only [Option.some.injEq] at b1
          subst b1
          rw [hL] at b2
          simp only [Option.some.injEq] at b2
          subst b2
          rw [if_neg]
          · simp
          · simp only [Bool.or_eq_true, inP_iff, not_or, Bool.not_eq_true]; exact ⟨a, b3⟩
        · have := (h3 s').2 ⟨a, q, hq, b1, L, b2, b3⟩
          split
          · exact this
          · exact List.mem_cons_of_mem _ this

theorem exterior_ok (he : EnvOk env f) (hE : E .fuel ∨ ∀ p ∈ T.prefixes, Enough f env.fuel p) (h : Inv f T) :
    Ok E (exteriorConsistent env) T fun b T' =>
      (b = true → T' = T ∧ ∀ i ∈ T.pIndices, ∀ s L, T.continuousSuccessors i = some s → T.prefixes[i]? = some L →
        s ∈ T.pIndices ∨ L.cond.hasEqualityN = true) ∧
      (b = false → MorePI f T T') := by
  unfold exteriorConsistent
  refine Ok.bind (Ok.get ?_)
  have hperm := he.lawful.orderP T
  obtain ⟨new, h1, h2, h3⟩ := exteriorCandidates_ok h (env.orderP T) (fun p hp => (orderP_mem he).1 hp)
    (hperm.nodup_iff.2 h.closed.inside.1)
  refine Ok.bind (Ok.lift h1 ?_)
  split
  · rename_i hem
    have hem : new = [] := by simpa using hem
    subst hem
    refine Ok.pure ⟨fun _ => ⟨rfl, fun i hi s L hs hL => ?_⟩, by simp⟩
    by_contra hcon
    simp only [not_or, Bool.not_eq_true] at hcon
    have := (h3 s).2 ⟨hcon.1, i, (orderP_mem he).2 hi, hs, L, hL, hcon.2⟩
    simp at this
  · rename_i hem
    refine (moveAll_more he hE (by simpa using hem) h2 h ?_ ?_).mono ?_
    · intro s hs
      obtain ⟨_, p, hp, hs', _⟩ := (h3 s).1 hs
      have hpP := (orderP_mem he).1 hp
      obtain ⟨j, k1, k2⟩ := h.closed.time p hpP _ (List.getElem?_eq_getElem (h.closed.inside.2 p hpP))
      rw [hs'] at k1
      simp only [Option.some.injEq] at k1
      subst k1
      exact (List.getElem?_eq_some_iff.1 k2).1
    · intro s hs
      exact ((h3 s).1 hs).1
    · rintro b T' ⟨rfl, hm⟩
      exact ⟨by simp, fun _ => hm⟩

/-- As `Saturated`, with the outcome of the comparison of the rows. -/
def Settled (f : TimedWord → Bool) (T : ObsTable σ) (p : ℕ) : Prop :=
  ∃ s, T.continuousSuccessors p = some s ∧ (s ∈ T.pIndices ∨ (T.closedRelation s = some [(p, [])] ∧ T.MergesInto f s p) ∧
    T.rowsEquivalent s p [] = some true)

theorem Settled.saturated {p : ℕ} (h : Settled f T p) : Saturated f T p := by
  obtain ⟨s, h1, h2⟩ := h
  exact ⟨s, h1, h2.imp id (·.1)⟩

theorem saturateOne_ok (h : Inv f T) {p : ℕ} (hp : p ∈ T.pIndices) :
    Ok E (saturateOne p) T fun o T' => ∃ s, T.continuousSuccessors p = some s ∧ RowStep f s T T' ∧
      (o = none → Settled f T' p) ∧ (s ∈ T.pIndices → T' = T) ∧ ∀ x, o = some x → x = s ∧ s ∉ T.pIndices := by
  have hl := h.closed.inside.2 p hp
  have hL := List.getElem?_eq_getElem hl
  obtain ⟨s, hs, hsp⟩ := h.closed.time p hp _ hL
  have hsl := (List.getElem?_eq_some_iff.1 hsp).1
  unfold saturateOne
  refine Ok.bind (Ok.get ?_)
  refine Ok.bind (Ok.lift hs ?_)
  split
  · rename_i hin
    exact Ok.pure ⟨s, hs, .refl h s, fun _ => ⟨s, hs, Or.inl (inP_iff.1 hin)⟩, fun _ => rfl, by simp⟩
  · rename_i hin
    have hin : s ∉ T.pIndices := fun e => hin (inP_iff.2 e)
    refine Ok.bind ((memo_ok h hsl hl).mono ?_)
    intro o T1 hc
    have hcs : T1.continuousSuccessors p = some s := by rw [hc.step.cont]; exact hs
    split
    · rename_i ho
      obtain ⟨r, hr⟩ := Option.isSome_iff_exists.1 ho
      obtain ⟨k1, k2⟩ := hc.yes r hr
      have hsl1 : s < T1.prefixes.length := by rw [hc.step.prefixes]; exact hsl
      have hl1 : p < T1.prefixes.length := by rw [hc.step.prefixes]; exact hl
      obtain ⟨ps, pp, q1, q2, q3⟩ := hc.inv.static k2
      -- the table after the update
      have upd : Static ps pp [] → Merges f ps.toElementaryLanguage pp.toElementaryLanguage T1.sufs [] →
          T1.rowsEquivalent s p [] = some true →
          RowStep f s T (T1.putRelations s [(p, [])]) ∧ Settled f (T1.putRelations s [(p, [])]) p := by
        intro a1 a2 a3
        refine ⟨hc.row.trans ⟨hc.inv.put hsl1 (by simp) ?_, put_step _ _, fun a ha => put_rows _ _ ha⟩, s, hcs, Or.inr ⟨⟨?_, ?_⟩, by rw [(put_step s _).rowsEquivalent]; exact a3⟩⟩
        · intro j r hm
          simp only [List.mem_singleton, Prod.mk.injEq] at hm
          obtain ⟨rfl, rfl⟩ := hm
          exact ⟨ps, pp, q1, q2, a1, Merges.init a2 hc.inv.suf0⟩
        · unfold putRelations; simp
        · exact ⟨ps, pp, [], q1, q2, by rw [getRelation_put, if_pos rfl]; simp, a2⟩
      refine Ok.bind (Ok.get ?_)
      refine Ok.bind (Ok.lift k2 ?_)
      split
      · rename_i hre
        have hre : r = [] := by simpa using hre
        subst hre
        obtain ⟨ps', pp', r', m1, m2, m3, m4⟩ := k1
        rw [q1] at m1; rw [q2] at m2; rw [k2] at m3
        simp only [Option.some.injEq] at m1 m2 m3
        subst m1; subst m2; subst m3
        obtain ⟨u1, u2⟩ := upd q3.toStatic m4 (hc.equal _ hr)
        exact Ok.bind (Ok.modify (Ok.pure ⟨s, hs, u1, fun _ => u2, fun e => absurd e hin, by simp⟩))
      · obtain ⟨b, b1, b2⟩ := rowsEquivalent_ok hc.inv hsl1 hl1 []
        have hst : Static ps pp [] := ⟨by intro x hx; simp at hx, by simp, Or.inl rfl⟩
        refine Ok.bind (Ok.lift b1 ?_)
        cases b with
        | true =>
          obtain ⟨u1, u2⟩ := upd hst (b2 rfl ps pp q1 q2 hst) b1
          exact Ok.bind (Ok.modify (Ok.pure ⟨s, hs, u1, fun _ => u2, fun e => absurd e hin, by simp⟩))
        | false =>
          refine Ok.pure ⟨s, hs, hc.row, by simp, fun e => absurd e hin, fun x hx => ?_⟩
          simp only [Option.some.injEq] at hx
          exact ⟨hx.symm, hin⟩
    · refine Ok.pure ⟨s, hs, hc.row, by simp, fun e => absurd e hin, fun x hx => ?_⟩
      simp only [Option.some.injEq] at hx
      exact ⟨hx.symm, hin⟩

theorem saturateCandidates_ok (ps : List ℕ) (h : Inv f T) (hp : ∀ p ∈ ps, p ∈ T.pIndices) (hn : ps.Nodup) :
    Ok E (saturateCandidates ps) T fun new T' => Inv f T' ∧ RelStep T T' ∧ new.Nodup ∧
      (∀ s ∈ new, s ∉ T.pIndices ∧ ∃ p ∈ ps, T.continuousSuccessors p = some s) ∧
      (new = [] → ∀ p ∈ ps, Settled f T' p) ∧
      ∀ a, (∀ p ∈ ps, T.continuousSuccessors p = some a → a ∈ T.pIndices) →
        T'.closedRelation a = T.closedRelation a := by
  induction ps generalizing T with
  | nil => exact Ok.pure ⟨h, .refl T, by simp, by simp, by simp, fun _ _ => rfl⟩
  | cons p ps ih =>
    obtain ⟨hn1, hn2⟩ := List.nodup_cons.1 hn
    have hpP := hp p (by simp)
    unfold saturateCandidates
    refine Ok.bind ((saturateOne_ok h hpP).mono ?_)
    rintro o T1 ⟨s, hs, g1, g2, g3, g4⟩
    refine Ok.bind ((ih g1.inv (fun q hq => by rw [g1.step.pIndices]; exact hp q (by simp [hq])) hn2).mono ?_)
    rintro rest T2 ⟨k1, k2, k3, k4, k5, k6⟩
    refine Ok.pure ⟨k1, g1.step.trans k2, ?_, ?_, ?_, ?_⟩
    · cases o with
      | none => exact k3
      | some x =>
        obtain ⟨rfl, hx⟩ := g4 x rfl
        show (x :: rest).Nodup
        refine List.nodup_cons.2 ⟨?_, k3⟩
        intro hm
        obtain ⟨_, q, hq, hq'⟩ := k4 x hm
        rw [g1.step.cont] at hq'
        have := h.time_inj hpP (hp q (by simp [hq])) hs hq'
        exact hn1 (this ▸ hq)
    · intro x hx
      rcases List.mem_append.1 hx with hx | hx
      · simp only [Option.mem_toList] at hx
        obtain ⟨rfl, hx⟩ := g4 x hx
        exact ⟨hx, p, by simp, hs⟩
      · obtain ⟨a, q, hq, hq'⟩ := k4 x hx
        rw [g1.step.pIndices] at a
        rw [g1.step.cont] at hq'
        exact ⟨a, q, by simp [hq], hq'⟩
    · intro hne q hq
      rw [List.append_eq_nil_iff] at hne
      rcases List.mem_cons.1 hq with rfl | hq
      · have ho : o = none := by cases o <;> simp_all
        obtain ⟨s', e1, e2⟩ := g2 ho
        refine ⟨s', by rw [k2.cont]; exact e1, ?_⟩
        rcases e2 with e2 | ⟨⟨e2, e3⟩, e4⟩
        · exact Or.inl (by rw [k2.pIndices]; exact e2)
        · by_cases hsP : s' ∈ T1.pIndices
          · exact Or.inl (by rw [k2.pIndices]; exact hsP)
          · have e1' := e1
            rw [g1.step.cont] at e1'
            have hsame : T2.closedRelation s' = T1.closedRelation s' := by
              refine k6 s' ?_
              intro q' hq' hq''
              rw [g1.step.cont] at hq''
              have := h.time_inj hpP (hp q' (by simp [hq'])) e1' hq''
              exact absurd (this ▸ hq') hn1
            exact Or.inr ⟨⟨by rw [hsame]; exact e2, e3.step k2 (getRelation_congr hsame _)⟩, by rw [k2.rowsEquivalent]; exact e4⟩
      · exact k5 hne.2 q hq
    · intro a hab
      have h1 : T2.closedRelation a = T1.closedRelation a := by
        refine k6 a ?_
        intro q hq hq'
        rw [g1.step.cont] at hq'
        rw [g1.step.pIndices]
        exact hab q (by simp [hq]) hq'
      rw [h1]
      by_cases e : a = s
      · subst e
        have := g3 (hab p (by simp) hs)
        rw [this]
      · exact g1.rows a e

theorem timeSaturate_ok (he : EnvOk env f) (hE : E .fuel ∨ ∀ p ∈ T.prefixes, Enough f env.fuel p) (h : Inv f T) :
    Ok E (timeSaturate env) T fun b T' =>
      (b = true → Inv f T' ∧ RelStep T T' ∧ (∀ i ∈ T'.pIndices, Settled f T' i) ∧
        ∀ a, (∀ p ∈ T.pIndices, T.continuousSuccessors p = some a → a ∈ T.pIndices) →
          T'.closedRelation a = T.closedRelation a) ∧
      (b = false → MorePI f T T') := by
  unfold timeSaturate
  refine Ok.bind (Ok.get ?_)
  have hperm := he.lawful.orderP T
  refine Ok.bind ((saturateCandidates_ok (env.orderP T) h (fun p hp => (orderP_mem he).1 hp)
    (hperm.nodup_iff.2 h.closed.inside.1)).mono ?_)
  rintro new T1 ⟨k1, k2, k3, k4, k5, k6⟩
  split
  · rename_i hem
    have hem : new = [] := by simpa using hem
    refine Ok.pure ⟨fun _ => ⟨k1, k2, fun i hi => ?_, fun a hab => ?_⟩, by simp⟩
    · rw [k2.pIndices] at hi
      exact k5 hem i ((orderP_mem he).2 hi)
    · exact k6 a fun p hp => hab p ((orderP_mem he).1 hp)
  · rename_i hem
    refine (moveAll_more he (by rw [k2.prefixes]; exact hE) (by simpa using hem) k3 k1 ?_ ?_).mono ?_
    · intro s hs
      obtain ⟨_, p, hp, hs'⟩ := k4 s hs
      have hpP := (orderP_mem he).1 hp
      obtain ⟨j, m1, m2⟩ := h.closed.time p hpP _ (List.getElem?_eq_getElem (h.closed.inside.2 p hpP))
      rw [hs'] at m1
      simp only [Option.some.injEq] at m1
      subst m1
      rw [k2.prefixes]
      exact (List.getElem?_eq_some_iff.1 m2).1
    · intro s hs
      rw [k2.pIndices]
      exact (k4 s hs).1
    · rintro b T' ⟨rfl, hm⟩
      refine ⟨by simp, fun _ => ⟨hm.inv, k2.grew.trans hm.grew, hm.suffixes.trans k2.suffixes, ?_⟩⟩
      obtain ⟨i, a1, a2, a3⟩ := hm.more
      exact ⟨i, a1, by rwa [k2.pIndices] at a2, by rwa [k2.prefixes] at a3⟩

end ObsTable
end LearnTA
