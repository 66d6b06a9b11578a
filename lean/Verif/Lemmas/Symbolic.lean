import Verif.Spec.Symbolic
import Verif.Lemmas.Enumerate
import Verif.Lemmas.ElementarySample
import Verif.Lemmas.Regional

/-!
# Lemmas about symbolic membership queries
-/

namespace LearnTA
namespace TimedCondition
open Zone Bound

/-- A condition with finite integral bounds in `n - 1` variables. -/
structure Fine (n : ℕ) (c : TimedCondition) : Prop where
  can : c.Canonical
  int : c.Integral
  bnd : c.Bounded
  dim : c.zone.dim = n

/-- The entries of the matrix off the diagonal. -/
def key (n : ℕ) (c : TimedCondition) : ℕ → ℕ → Bound := fun i j =>
  if i < n ∧ j < n ∧ i ≠ j then c.zone.val i j else 0

theorem key_iff {n : ℕ} {a b : TimedCondition} : key n a = key n b ↔
    ∀ i < n, ∀ j < n, i ≠ j → a.zone.val i j = b.zone.val i j := by
  constructor
  · intro h i hi j hj hij
    have := congrFun (congrFun h i) j
    simpa [key, hi, hj, hij] using this
  · intro h
    funext i j
    unfold key
    split
    · rename_i h1; exact h i h1.1 j h1.2.1 h1.2.2
    · rfl

theorem sat_of_key {n : ℕ} {a b : TimedCondition} (ha : a.zone.dim = n) (hb : Fine n b) (h : key n a = key n b)
    {w : ℕ → ℚ} (hs : a.zone.Sat w) : b.zone.Sat w := by
  rw [key_iff] at h
  intro i hi j hj
  rw [hb.dim] at hi hj
  by_cases hij : i = j
  · subst hij; rw [sub_self, sat_self_zero]; exact hb.can.diagNN i (hb.dim ▸ hi)
  · rw [← h i hi j hj hij]; exact hs i (ha ▸ hi) j (ha ▸ hj)

theorem key_of_common {n : ℕ} {a b : TimedCondition} (ha : Fine n a) (hb : Fine n b)
    (sa : a.isSimple = true) (sb : b.isSimple = true) {u : ℕ → ℚ} (h : a.zone.Sat u) (h' : b.zone.Sat u) :
    key n a = key n b := by
  rw [key_iff]
  obtain ⟨v, hv⟩ := ha.can.nonempty
  obtain ⟨v', hv'⟩ := hb.can.nonempty
  have := (isRegion_of_simple ha.int sa hv).unique (isRegion_of_simple hb.int sb hv')
    (by rw [ha.dim, hb.dim]) h h'
  rwa [ha.dim] at this

theorem nodup_keys {n : ℕ} {l : List TimedCondition} (hl : ∀ x ∈ l, Fine n x ∧ x.isSimple = true)
    (hd : l.Pairwise Disj) : (l.map (key n)).Nodup := by
  rw [List.Nodup, List.pairwise_map]
  refine hd.imp_of_mem ?_
  intro x y hx hy hxy he
  obtain ⟨v, hv⟩ := (hl x hx).1.can.nonempty
  exact hxy _ ⟨hv, sat_of_key (hl x hx).1.dim (hl y hy).1 he hv⟩

/-- A family of disjoint regions inside the union of as many disjoint regions covers it. -/
theorem count_exact {n : ℕ} {A B : List TimedCondition} (hA : ∀ x ∈ A, Fine n x ∧ x.isSimple = true)
    (hB : ∀ x ∈ B, Fine n x ∧ x.isSimple = true) (dA : A.Pairwise Disj) (dB : B.Pairwise Disj)
    (hsub : ∀ x ∈ A, ∀ w, x.zone.Sat w → ∃ y ∈ B, y.zone.Sat w) (hlen : B.length = A.length) (w : ℕ → ℚ) :
    (∃ x ∈ A, x.zone.Sat w) ↔ ∃ y ∈ B, y.zone.Sat w := by
  constructor
  · rintro ⟨x, hx, hw⟩; exact hsub x hx w hw
  · rintro ⟨y, hy, hw⟩
    have hs : A.map (key n) ⊆ B.map (key n) := by
      intro k hk
      obtain ⟨x, hx, rfl⟩ := List.mem_map.1 hk
      obtain ⟨v, hv⟩ := (hA x hx).1.can.nonempty
      obtain ⟨y, hy, hv'⟩ := hsub x hx _ hv
      exact List.mem_map.2 ⟨y, hy, (key_of_common (hA x hx).1 (hB y hy).1 (hA x hx).2 (hB y hy).2 hv hv').symm⟩
    have hp := ((nodup_keys hA dA).subperm hs).perm_of_length_le (by simp [hlen])
    obtain ⟨x, hx, he⟩ := List.mem_map.1 (hp.symm.subset (List.mem_map.2 ⟨y, hy, rfl⟩))
    exact ⟨x, hx, sat_of_key (hB y hy).1.dim (hA x hx).1 he.symm hw⟩

theorem Fine.hull {n : ℕ} {a b : TimedCondition} (ha : Fine n a) (hb : Fine n b) : Fine n (a.convexHull b) := by
  have hd : a.zone.dim = b.zone.dim := by rw [ha.dim, hb.dim]
  refine ⟨convexHull_canonical hd ha.can hb.can, ?_, ?_, ha.dim⟩
  · intro i hi j hj
    exact (ha.int i hi j hj).max (hb.int i (hd ▸ hi) j (hd ▸ hj))
  · intro i hi j hj hij h
    have h1 := ha.bnd i hi j hj hij
    have h2 := hb.bnd i (hd ▸ hi) j (hd ▸ hj) hij
    rw [convexHull_val] at h
    rcases max_choice (a.zone.val i j) (b.zone.val i j) with e | e <;> rw [e] at h
    · exact h1 h
    · exact h2 h

theorem Fine.enumerate {n : ℕ} {c : TimedCondition} (h : Fine n c) :
    ∃ l, c.enumerate = some l ∧ (∀ x ∈ l, Fine n x ∧ x.isSimple = true) ∧
      (∀ w, c.zone.Sat w ↔ ∃ x ∈ l, x.zone.Sat w) ∧ l.Pairwise Disj := by
  obtain ⟨l, h1, h2, h3, h4⟩ := enumerate_spec h.can h.bnd h.int
  refine ⟨l, h1, fun x hx => ?_, h3, h4⟩
  obtain ⟨g1, g2, g3, g4, g5⟩ := h2 x hx
  exact ⟨⟨g2, g3, g4, g5.trans h.dim⟩, g1⟩

end TimedCondition

namespace TimedConditionSet
open TimedCondition

/-- `c` is the exact union of the disjoint regions `R`, and `k` is their number. -/
structure Exact (n : ℕ) (c : TimedCondition × ℕ) (R : List TimedCondition) : Prop where
  fine : Fine n c.1
  regions : ∀ x ∈ R, Fine n x ∧ x.isSimple = true
  disj : R.Pairwise Disj
  union : ∀ w, c.1.zone.Sat w ↔ ∃ x ∈ R, x.zone.Sat w
  count : c.2 = R.length

/-- `l` consists of unions of the regions `R`. -/
def Parts (n : ℕ) (l : List (TimedCondition × ℕ)) (R : List TimedCondition) : Prop :=
  ∃ Rs : List (List TimedCondition), List.Forall₂ (Exact n) l Rs ∧ Rs.flatten.Pairwise Disj ∧
    (∀ w, (∃ x ∈ Rs.flatten, x.zone.Sat w) ↔ ∃ x ∈ R, x.zone.Sat w)

theorem pairwise_flatten_erase {α : Type*} {S : α → α → Prop} {a : List α} {L : List (List α)}
    (h : (a :: L).flatten.Pairwise S) : L.flatten.Pairwise S := by
  rw [List.flatten_cons, List.pairwise_append] at h; exact h.2.1

theorem exact_merge {n : ℕ} {c d : TimedCondition × ℕ} {Rc Rd : List TimedCondition} (hc : Exact n c Rc)
    (hd : Exact n d Rd) (hdis : (Rc ++ Rd).Pairwise Disj) :
    ∃ e, (c.1.convexHull d.1).enumerate = some e ∧ (e.length = c.2 + d.2 →
      Exact n (c.1.convexHull d.1, c.2 + d.2) (Rc ++ Rd)) := by
  have hf := hc.fine.hull hd.fine
  obtain ⟨e, h1, h2, h3, h4⟩ := hf.enumerate
  refine ⟨e, h1, fun hl => ?_⟩
  have hreg : ∀ x ∈ Rc ++ Rd, Fine n x ∧ x.isSimple = true := by
    intro x hx
    rcases List.mem_append.1 hx with hx | hx
    · exact hc.regions x hx
    · exact hd.regions x hx
  refine ⟨hf, hreg, hdis, ?_, by simp [hc.count, hd.count]⟩
  intro w
  show (c.1.convexHull d.1).zone.Sat w ↔ _
  rw [h3 w, count_exact hreg h2 hdis h4 ?_ (by rw [hl, hc.count, hd.count]; simp) w]
  intro x hx w hw
  rw [← h3 w]
  rcases List.mem_append.1 hx with hx | hx
  · exact convexHull_left ((hc.union w).2 ⟨x, hx, hw⟩)
  · exact convexHull_right (by rw [hc.fine.dim, hd.fine.dim]) ((hd.union w).2 ⟨x, hx, hw⟩)

theorem mergeFirst_spec {n : ℕ} {c : TimedCondition × ℕ} {Rc : List TimedCondition} (hc : Exact n c Rc)
    (l : List (TimedCondition × ℕ)) (Rs : List (List TimedCondition)) (hl : List.Forall₂ (Exact n) l Rs)
    (hdis : (Rc :: Rs).flatten.Pairwise Disj) :
    mergeFirst c l = some none ∨
    ∃ m l' Rm Rs', mergeFirst c l = some (some (m, l')) ∧ l'.length + 1 = l.length ∧ Exact n m Rm ∧
      List.Forall₂ (Exact n) l' Rs' ∧ (Rm :: Rs').flatten.Perm (Rc :: Rs).flatten := by
  induction l generalizing Rs with
  | nil => exact Or.inl rfl
  | cons d l ih =>
    cases hl with
    | @cons _ Rd _ Rs hd hl =>
      have hp : (Rd :: Rc :: Rs).flatten.Perm (Rc :: Rd :: Rs).flatten := by
        simp only [List.flatten_cons, ← List.append_assoc]
        exact List.Perm.append_right _ List.perm_append_comm
      have hdis' : (Rd :: Rc :: Rs).flatten.Pairwise Disj :=
        (hp.symm.pairwise_iff (fun {a b} h => Disj.symm h)).1 hdis
      have hcd : (Rc ++ Rd).Pairwise Disj := by
        simp only [List.flatten_cons, ← List.append_assoc] at hdis
        exact (List.pairwise_append.1 hdis).1
      obtain ⟨e, h1, h2⟩ := exact_merge hc hd hcd
      unfold mergeFirst
      rw [h1]
      simp only
      by_cases he : e.length = c.2 + d.2
      · rw [if_pos he]
        refine Or.inr ⟨_, l, Rc ++ Rd, Rs, rfl, rfl, h2 he, hl, ?_⟩
        simp
      · rw [if_neg he]
        rcases ih Rs hl (pairwise_flatten_erase hdis') with h | ⟨m, l', Rm, Rs', g1, g2, g3, g4, g5⟩
        · rw [h]; exact Or.inl rfl
        · rw [g1]
          refine Or.inr ⟨m, d :: l', Rm, Rd :: Rs', rfl, by simp [g2], g3, .cons hd g4, ?_⟩
          refine List.Perm.trans ?_ hp
          refine List.Perm.trans ?_ (List.Perm.append_left Rd g5)
          simp only [List.flatten_cons, ← List.append_assoc]
          exact List.Perm.append_right _ List.perm_append_comm

theorem reduceLoop_spec {n : ℕ} (R : List TimedCondition) (fuel : ℕ) (done rest : List (TimedCondition × ℕ))
    (h : Parts n (done ++ rest) R) (hf : (done.length + rest.length) ^ 2 + rest.length < fuel) :
    ∃ r, reduceLoop fuel done rest = some r ∧ Parts n r R ∧ r.length ≤ done.length + rest.length := by
  induction fuel generalizing done rest with
  | zero => omega
  | succ f ih =>
    cases rest with
    | nil => exact ⟨done, by simp [reduceLoop], by simpa using h, by simp⟩
    | cons c rest =>
      obtain ⟨Rs, h1, h2, h3⟩ := h
      obtain ⟨R1, R2, e1, e2, rfl⟩ : ∃ R1 R2, List.Forall₂ (Exact n) done R1 ∧
          List.Forall₂ (Exact n) (c :: rest) R2 ∧ Rs = R1 ++ R2 := by
        refine ⟨Rs.take done.length, Rs.drop done.length, ?_, ?_, (List.take_append_drop _ _).symm⟩
        · have := List.forall₂_take done.length h1; simpa using this
        · have := List.forall₂_drop done.length h1; simpa using this
      cases e2 with
      | @cons _ Rc _ R2 hc e2 =>
        have hd : (Rc :: R2).flatten.Pairwise Disj := by
          rw [List.flatten_append, List.pairwise_append] at h2; exact h2.2.1
        unfold reduceLoop
        rcases mergeFirst_spec hc rest R2 e2 hd with hm | ⟨m, l', Rm, Rs', g1, g2, g3, g4, g5⟩
        · rw [hm]
          simp only
          obtain ⟨r, k1, k2, k3⟩ := ih (done ++ [c]) rest ⟨R1 ++ Rc :: R2, by simpa using h1, h2, h3⟩ (by
            simp only [List.length_append, List.length_cons, List.length_nil] at hf ⊢
            have : done.length + (0 + 1) + rest.length = done.length + (rest.length + 1) := by ring
            rw [this]; omega)
          exact ⟨r, k1, k2, by simp only [List.length_append, List.length_cons, List.length_nil] at k3 ⊢; omega⟩
        · rw [g1]
          simp only
          have hperm : (R1 ++ Rm :: Rs').flatten.Perm (R1 ++ Rc :: R2).flatten := by
            simp only [List.flatten_append]; exact List.Perm.append_left _ g5
          have hP : Parts n ([] ++ (done ++ m :: l')) R := by
            refine ⟨R1 ++ Rm :: Rs', ?_, ?_, ?_⟩
            · simp only [List.nil_append]
              exact List.rel_append e1 (.cons g3 g4)
            · exact (hperm.symm.pairwise_iff (fun {a b} h => Disj.symm h)).1 h2
            · intro w
              rw [← h3 w]
              constructor <;> rintro ⟨x, hx, hw⟩
              · exact ⟨x, hperm.subset hx, hw⟩
              · exact ⟨x, hperm.symm.subset hx, hw⟩
          obtain ⟨r, k1, k2, k3⟩ := ih [] (done ++ m :: l') hP (by
            simp only [List.length_append, List.length_cons, List.length_nil] at hf ⊢
            have : 0 + (done.length + (l'.length + 1)) = done.length + rest.length := by omega
            rw [this, g2]
            nlinarith)
          refine ⟨r, k1, k2, ?_⟩
          simp only [List.length_append, List.length_cons, List.length_nil] at k3 ⊢; omega

theorem reduce_spec {n : ℕ} (l : List ElementaryLanguage) (hl : ∀ x ∈ l, Fine n x.cond ∧ x.cond.isSimple = true)
    (hd : (l.map (·.cond)).Pairwise Disj) :
    ∃ r, reduce l = some r ∧ (∀ c ∈ r, Fine n c) ∧ r.length ≤ l.length ∧
      (∀ w, (∃ c ∈ r, c.zone.Sat w) ↔ ∃ x ∈ l, x.cond.zone.Sat w) ∧ r.Pairwise Disj := by
  unfold reduce
  split
  · rename_i h
    have : l = [] := by simpa using h
    subst this
    exact ⟨[], rfl, by simp, by simp, by simp, by simp⟩
  · have h0 : Parts n ([] ++ l.map fun e => (e.cond, 1)) (l.map (·.cond)) := by
      refine ⟨l.map fun e => [e.cond], ?_, ?_, ?_⟩
      · simp only [List.nil_append]
        rw [List.forall₂_map_left_iff, List.forall₂_map_right_iff, List.forall₂_same]
        intro x hx
        exact ⟨(hl x hx).1, by simp [hl x hx], by simp, by simp, by simp⟩
      · have : ∀ l : List ElementaryLanguage, (l.map fun e => [e.cond]).flatten = l.map (·.cond) := by
          intro l
          induction l with
          | nil => rfl
          | cons a l ih => simp [ih]
        rw [this]; exact hd
      · intro w; simp
    obtain ⟨r, h1, ⟨Rs, h2, h3, h4⟩, h5⟩ := reduceLoop_spec (l.map (·.cond)) ((l.length + 1) ^ 2) [] _ h0 (by
      simp; nlinarith)
    refine ⟨r.map (·.1), by rw [h1]; rfl, ?_, by simpa using h5, ?_, ?_⟩
    · intro c hc
      obtain ⟨p, hp, rfl⟩ := List.mem_map.1 hc
      clear h1 h4 h5 hc h3
      induction h2 with
      | nil => simp at hp
      | cons h _ ih =>
        rcases List.mem_cons.1 hp with rfl | hp
        · exact h.fine
        · exact ih hp
    · intro w
      have : (∃ x ∈ l, x.cond.zone.Sat w) ↔ ∃ x ∈ l.map (·.cond), x.zone.Sat w := by simp
      rw [this, ← h4 w]
      clear h1 h3 h4 h5 this
      induction h2 with
      | nil => simp
      | @cons a b _ _ h _ ih =>
        simp only [List.map_cons, List.mem_cons, exists_eq_or_imp, List.flatten_cons, List.mem_append,
          or_and_right, exists_or]
        exact or_congr (by rw [← h.union w]; simp) ih
    · clear h1 h4 h5
      induction h2 with
      | nil => simp
      | @cons a b l' bs h h2 ih =>
        simp only [List.map_cons, List.pairwise_cons]
        rw [List.flatten_cons, List.pairwise_append] at h3
        refine ⟨?_, ih h3.2.1⟩
        intro c hc w hw
        obtain ⟨x, hx, hxw⟩ := (h.union w).1 hw.1
        obtain ⟨p, hp, rfl⟩ := List.mem_map.1 hc
        have : ∃ y ∈ bs.flatten, y.zone.Sat w := by
          clear ih h3 hc
          induction h2 with
          | nil => simp at hp
          | cons h' _ ih' =>
            rcases List.mem_cons.1 hp with rfl | hp
            · obtain ⟨y, hy, hyw⟩ := (h'.union w).1 hw.2
              exact ⟨y, by simp [hy], hyw⟩
            · obtain ⟨y, hy, hyw⟩ := ih' hp
              exact ⟨y, by simp only [List.flatten_cons, List.mem_append]; exact Or.inr hy, hyw⟩
        obtain ⟨y, hy, hyw⟩ := this
        exact h3.2.2 x hx y hy w ⟨hxw, hyw⟩

end TimedConditionSet
end LearnTA

namespace LearnTA
namespace TimedCondition
open Zone Bound

theorem Fine.holds_iff {n : ℕ} {c : TimedCondition} (h : Fine n c) {d : List ℚ} (hl : d.length + 1 = n) :
    c.Holds d ↔ c.zone.Mem (accV d) := by
  rw [holds_iff_mem _ h.can.1 h.can.diagNN]
  refine and_iff_right ?_
  unfold TimedCondition.size; rw [h.dim]; omega

theorem Fine.length {n : ℕ} {c : TimedCondition} (h : Fine n c) {d : List ℚ} (hh : c.Holds d) :
    d.length + 1 = n := by
  have h1 := hh.1
  have := h.can.1
  unfold TimedCondition.size at h1
  rw [h.dim] at h1 this
  omega

theorem Simple.floor_eq {c : TimedCondition} (h : c.Simple) {d d' : List ℚ} (hd : c.Holds d) (hd' : c.Holds d')
    {i j : ℕ} (hij : i ≤ j) (hj : j < c.size) : ⌊T d i j⌋ = ⌊T d' i j⌋ ∧ ⌈T d i j⌉ = ⌈T d' i j⌉ := by
  obtain ⟨a1, a2⟩ := hd.2 i j hij hj
  obtain ⟨b1, b2⟩ := hd'.2 i j hij hj
  obtain ⟨n, ⟨e1, e2⟩ | ⟨e1, e2⟩⟩ := h i j hij hj
  · rw [e1] at a1 b1
    rw [e2] at a2 b2
    replace a1 : T d i j ≤ n := by simpa [Bound.Sat] using a1
    replace b1 : T d' i j ≤ n := by simpa [Bound.Sat] using b1
    replace a2 : n ≤ T d i j := by simpa [Bound.Sat] using a2
    replace b2 : n ≤ T d' i j := by simpa [Bound.Sat] using b2
    have h1 : T d i j = n := le_antisymm a1 a2
    have h2 : T d' i j = n := le_antisymm b1 b2
    rw [h1, h2]; exact ⟨rfl, rfl⟩
  · rw [e1] at a1 b1
    rw [e2] at a2 b2
    replace a1 : T d i j < n + 1 := by simpa [Bound.Sat] using a1
    replace b1 : T d' i j < n + 1 := by simpa [Bound.Sat] using b1
    replace a2 : n < T d i j := by simpa [Bound.Sat] using a2
    replace b2 : n < T d' i j := by simpa [Bound.Sat] using b2
    have f : ∀ q : ℚ, (n : ℚ) < q → q < n + 1 → ⌊q⌋ = n ∧ ⌈q⌉ = n + 1 := by
      intro q h1 h2
      refine ⟨Int.floor_eq_iff.2 ⟨h1.le, h2⟩, Int.ceil_eq_iff.2 ⟨?_, ?_⟩⟩ <;> push_cast <;> linarith
    rw [(f _ a2 a1).1, (f _ a2 a1).2, (f _ b2 b1).1, (f _ b2 b1).2]; exact ⟨rfl, rfl⟩

theorem Fine.simple {n : ℕ} {c : TimedCondition} (h : Fine n c) (hs : c.isSimple = true) : c.Simple := by
  obtain ⟨v, hv⟩ := h.can.nonempty
  exact .of_isRegion (isRegion_of_simple h.int hs hv)

end TimedCondition

namespace ElementaryLanguage
open TimedCondition

theorem sample_mem' {n : ℕ} {c : TimedCondition} {u : List Action} (h : Fine n c) (hl : u.length + 2 = n)
    (ho : ∀ a ∈ u, a ≠ unobservable) : Mem ⟨u, c⟩ (sample ⟨u, c⟩) := by
  have hb : ∀ i < c.size, c.upper i i ≠ .inf ∧ c.lower i i ≠ .inf := by
    intro i hi
    have h1 := eidx_lt hi
    have h2 : i + 1 < c.zone.dim := by unfold TimedCondition.size at hi; omega
    rw [upper_eq, lower_eq]
    exact ⟨h.bnd _ h2 _ h1 (Ne.symm (eidx_ne (le_refl i))), h.bnd _ h1 _ h2 (eidx_ne (le_refl i))⟩
  have hh := sampleDurations_holds c h.can hb
  have hs : u.length + 1 = c.size := by unfold TimedCondition.size; rw [h.dim]; omega
  have hwf : TimedWord.WF ⟨u, sampleDurations c c.size⟩ := by
    show (sampleDurations c c.size).length = u.length + 1
    rw [hh.1, hs]
  have hm := TimedWord.make_observable hwf ho
  have e1 : sample ⟨u, c⟩ = ⟨u, sampleDurations c c.size⟩ := by
    unfold sample; simp only; rw [hs]; exact hm
  rw [e1]; exact ⟨rfl, hh⟩

theorem enumerate_eq (e : ElementaryLanguage) {l : List TimedCondition} (h : e.cond.enumerate = some l) :
    e.enumerate = some (l.map fun c => ⟨e.word, c⟩) := by
  unfold enumerate
  split
  · rename_i hs
    have : e.cond.enumerate = some [e.cond] := by
      unfold TimedCondition.enumerate; exact if_pos hs
    rw [this] at h
    cases h
    rfl
  · rw [h]; rfl

theorem hull_fine {n : ℕ} (u : List Action) (c : TimedCondition) (l : List TimedCondition)
    (h : ∀ x ∈ c :: l, Fine n x) :
    Fine n (convexHull ((c :: l).map fun c => ⟨u, c⟩)).cond ∧
      ∀ x ∈ c :: l, ∀ w, x.zone.Sat w → (convexHull ((c :: l).map fun c => ⟨u, c⟩)).cond.zone.Sat w := by
  have key : ∀ (l : List TimedCondition) (c : TimedCondition), Fine n c → (∀ x ∈ l, Fine n x) →
      let r := (l.map fun c => (⟨u, c⟩ : ElementaryLanguage)).foldl (fun c e' => c.convexHull e'.cond) c
      Fine n r ∧ (∀ w, c.zone.Sat w → r.zone.Sat w) ∧ ∀ x ∈ l, ∀ w, x.zone.Sat w → r.zone.Sat w := by
    intro l
    induction l with
    | nil => intro c h _; exact ⟨h, fun _ h => h, by simp⟩
    | cons a l ih =>
      intro c hc hl
      have ha := hl a (by simp)
      obtain ⟨g1, g2, g3⟩ := ih (c.convexHull a) (hc.hull ha) fun x hx => hl x (by simp [hx])
      refine ⟨g1, fun w hw => g2 w (convexHull_left hw), ?_⟩
      intro x hx w hw
      rcases List.mem_cons.1 hx with rfl | hx
      · exact g2 w (convexHull_right (by rw [hc.dim, ha.dim]) hw)
      · exact g3 x hx w hw
  obtain ⟨g1, g2, g3⟩ := key (c :: l) c (h c (by simp)) h
  exact ⟨g1, fun x hx w hw => g3 x hx w hw⟩

end ElementaryLanguage

namespace SymOracle
open TimedCondition ElementaryLanguage
variable {σ : Type}

/-- The result is the exact set of the words of `e` in `f`. -/
def ExactFor (e : ElementaryLanguage) (f : TimedWord → Bool) (r : TimedConditionSet) : Prop :=
  ∀ w, w.word = e.word → (r.Holds w ↔ e.Mem w ∧ f w = true)

theorem _root_.LearnTA.ElementaryLanguage.Queryable.fine {e : ElementaryLanguage} (h : e.Queryable) :
    Fine (e.word.length + 2) e.cond := by
  refine ⟨h.canonical, h.integral, h.bounded, ?_⟩
  have h1 : e.word.length + 1 = e.cond.size := h.wf
  have := h.canonical.1
  unfold TimedCondition.size at h1
  omega

theorem build_spec {e : ElementaryLanguage} {f : TimedWord → Bool} (he : e.Queryable) (hf : e.Regional f)
    {l : List TimedCondition} (h1 : ∀ x ∈ l, Fine (e.word.length + 2) x ∧ x.isSimple = true)
    (h2 : ∀ w, e.cond.zone.Sat w ↔ ∃ x ∈ l, x.zone.Sat w) (h3 : l.Pairwise Disj) :
    let g : ElementaryLanguage → Bool := fun x => f x.sample
    let L := l.map fun c => (⟨e.word, c⟩ : ElementaryLanguage)
    ∃ r, build e (L.filter g) (L.all g) = some r ∧ ExactFor e f r ∧ r.Pairwise Disj ∧
      ∀ c ∈ r, Fine (e.word.length + 2) c := by
  intro g L
  have hfe := he.fine
  set n := e.word.length + 2 with hn
  -- a word of `e` is in exactly the regions where `f` has its value
  have hreg : ∀ x ∈ l, ∀ w : TimedWord, w.word = e.word → x.Holds w.durations → f w = g ⟨e.word, x⟩ := by
    intro x hx w hw hh
    have hs := sample_mem' (u := e.word) (h1 x hx).1 hn.symm he.observable
    have up : ∀ w : TimedWord, w.word = e.word → x.Holds w.durations → e.Mem w := by
      intro w hw hh
      refine ⟨hw, ?_⟩
      have hl := (h1 x hx).1.length hh
      rw [hfe.holds_iff hl]
      exact (h2 _).2 ⟨x, hx, ((h1 x hx).1.holds_iff hl).1 hh⟩
    have el := (h1 x hx).1.length hh
    have el' := (h1 x hx).1.length hs.2
    refine hf w _ (up w hw hh) (up _ hs.1 hs.2) ⟨hw.trans hs.1.symm, by omega, fun i j hij hj => ?_⟩
    exact ((h1 x hx).1.simple (h1 x hx).2).floor_eq hh hs.2 hij (by rw [← hh.1]; exact hj)
  -- it is enough to be the union of the chosen regions
  have suff : ∀ r : TimedConditionSet, (∀ c ∈ r, Fine n c) →
      (∀ w, (∃ c ∈ r, c.zone.Sat w) ↔ ∃ x ∈ l, g ⟨e.word, x⟩ = true ∧ x.zone.Sat w) → ExactFor e f r := by
    intro r hr hu w hw
    constructor
    · rintro ⟨c, hc, hh⟩
      have hl := (hr c hc).length hh
      obtain ⟨x, hx, hgx, hs⟩ := (hu _).1 ⟨c, hc, ((hr c hc).holds_iff hl).1 hh⟩
      have hxh : x.Holds w.durations := ((h1 x hx).1.holds_iff hl).2 hs
      exact ⟨⟨hw, (hfe.holds_iff hl).2 ((h2 _).2 ⟨x, hx, hs⟩)⟩, (hreg x hx w hw hxh).trans hgx⟩
    · rintro ⟨hm, hfw⟩
      have hl := hfe.length hm.2
      obtain ⟨x, hx, hs⟩ := (h2 _).1 ((hfe.holds_iff hl).1 hm.2)
      have hxh : x.Holds w.durations := ((h1 x hx).1.holds_iff hl).2 hs
      obtain ⟨c, hc, hs'⟩ := (hu _).2 ⟨x, hx, (hreg x hx w hw hxh).symm.trans hfw, hs⟩
      exact ⟨c, hc, ((hr c hc).holds_iff hl).2 hs'⟩
  have hL : L.filter g = (l.filter fun x => g ⟨e.word, x⟩).map fun c => ⟨e.word, c⟩ := by
    simp only [L, List.filter_map]; rfl
  set k := l.filter fun x => g ⟨e.word, x⟩ with hk
  have hkm : ∀ x, x ∈ k ↔ x ∈ l ∧ g ⟨e.word, x⟩ = true := by intro x; simp [hk]
  have hk1 : ∀ x ∈ k, Fine n x ∧ x.isSimple = true := fun x hx => h1 x ((hkm x).1 hx).1
  have hk3 : k.Pairwise Disj := h3.filter _
  have hkr : ∀ w, (∃ x ∈ k, x.zone.Sat w) ↔ ∃ x ∈ l, g ⟨e.word, x⟩ = true ∧ x.zone.Sat w := by
    intro w; simp only [hkm, and_assoc]
  rw [hL]
  unfold build
  by_cases hke : k = []
  · rw [if_pos (by simp [hke])]
    refine ⟨[], rfl, suff [] (by simp) fun w => ?_, by simp, by simp⟩
    rw [← hkr w, hke]
  · rw [if_neg (by simpa using hke)]
    by_cases ha : L.all g = true
    · rw [if_pos ha]
      refine ⟨[e.cond], rfl, suff _ (by simpa using hfe) fun w => ?_, by simp, by simpa using hfe⟩
      simp only [List.mem_singleton, exists_eq_left]
      rw [h2 w]
      have : ∀ x ∈ l, g ⟨e.word, x⟩ = true := by simpa [L] using ha
      constructor
      · rintro ⟨x, hx, hs⟩; exact ⟨x, hx, this x hx, hs⟩
      · rintro ⟨x, hx, _, hs⟩; exact ⟨x, hx, hs⟩
    · rw [if_neg ha]
      obtain ⟨c, k', hck⟩ : ∃ c k', k = c :: k' := List.exists_cons_of_ne_nil hke
      obtain ⟨g1, g2⟩ := hull_fine (n := n) e.word c k' (by rw [← hck]; exact fun x hx => (hk1 x hx).1)
      rw [← hck] at g1 g2
      set H := ElementaryLanguage.convexHull (k.map fun c => (⟨e.word, c⟩ : ElementaryLanguage)) with hH
      obtain ⟨m, m1, m2, m3, m4⟩ := g1.enumerate
      simp only
      rw [H.enumerate_eq m1]
      simp only [List.length_map]
      by_cases hlen : m.length = k.length
      · rw [if_pos hlen]
        refine ⟨[H.cond], rfl, suff _ (by simpa using g1) fun w => ?_, by simp, by simpa using g1⟩
        rw [← hkr w, count_exact hk1 m2 hk3 m4 (fun x hx w hw => (m3 w).1 (g2 x hx w hw)) hlen w, ← m3 w]
        simp
      · rw [if_neg hlen]
        obtain ⟨r, r1, r2, r3, r4, r5⟩ := TimedConditionSet.reduce_spec (n := n)
          (k.map fun c => (⟨e.word, c⟩ : ElementaryLanguage)) (by
            intro x hx
            obtain ⟨y, hy, rfl⟩ := List.mem_map.1 hx
            exact hk1 y hy) (by simpa [Function.comp_def] using hk3)
        refine ⟨r, r1, suff r r2 fun w => ?_, r5, r2⟩
        rw [r4 w, ← hkr w]; simp

/-- If all words of `e` are accepted, the answer is the condition of `e`. -/
def Whole (e : ElementaryLanguage) (f : TimedWord → Bool) (r : TimedConditionSet) : Prop :=
  (∀ w, e.Mem w → f w = true) → ∃ c, r = [c] ∧ c.beq e.cond = true

theorem _root_.LearnTA.TimedCondition.beq_refl' (c : TimedCondition) : c.beq c = true := by
  simp [TimedCondition.beq, Zone.strictEqual]

theorem _root_.LearnTA.TimedCondition.beq_trans {a b c : TimedCondition} {n : ℕ} (hb : b.zone.dim = n) (ha : a.zone.dim = n)
    (h : a.beq b = true) (h' : b.beq c = true) : a.beq c = true := by
  unfold TimedCondition.beq Zone.strictEqual at *
  simp only [Bool.and_eq_true, beq_iff_eq, List.all_eq_true, List.mem_range, decide_eq_true_eq] at *
  refine ⟨h.1.trans h'.1, fun i hi j hj => ?_⟩
  rcases h.2 i hi j hj with e | e
  · exact Or.inl e
  · rw [ha, ← hb] at hi hj
    exact (h'.2 i hi j hj).imp id e.trans

theorem build_whole {e : ElementaryLanguage} {f : TimedWord → Bool} (he : e.Queryable)
    {l : List TimedCondition} (h1 : ∀ x ∈ l, Fine (e.word.length + 2) x ∧ x.isSimple = true)
    (h2 : ∀ w, e.cond.zone.Sat w ↔ ∃ x ∈ l, x.zone.Sat w) (hw : ∀ w, e.Mem w → f w = true) :
    let g : ElementaryLanguage → Bool := fun x => f x.sample
    let L := l.map fun c => (⟨e.word, c⟩ : ElementaryLanguage)
    build e (L.filter g) (L.all g) = some [e.cond] := by
  intro g L
  have hfe := he.fine
  have hg : ∀ x ∈ L, g x = true := by
    intro x hx
    obtain ⟨c, hc, rfl⟩ := List.mem_map.1 hx
    have hm := sample_mem' (h1 c hc).1 rfl he.observable
    refine hw _ ⟨hm.1, ?_⟩
    have hl := (h1 c hc).1.length hm.2
    rw [hfe.holds_iff hl]
    exact (h2 _).2 ⟨c, hc, ((h1 c hc).1.holds_iff hl).1 hm.2⟩
  have hne : L ≠ [] := by
    intro e0
    have hm := sample_mem' hfe rfl he.observable
    have hl := hfe.length hm.2
    obtain ⟨x, hx, -⟩ := (h2 _).1 ((hfe.holds_iff hl).1 hm.2)
    have : (⟨e.word, x⟩ : ElementaryLanguage) ∈ L := List.mem_map.2 ⟨x, hx, rfl⟩
    rw [e0] at this
    simp at this
  have hf : L.filter g = L := List.filter_eq_self.2 hg
  unfold build
  rw [hf, if_neg (by simpa using hne), if_pos (by rw [List.all_eq_true]; exact hg)]

theorem answerQuery_det (ask : σ → TimedWord → σ × Bool) (f : TimedWord → Bool) (Q : TimedWord → Prop)
    (hf : ∀ s w, Q w → (ask s w).2 = f w) (m : MemCache σ)
    (hm : ∀ u b, Q u → m.cache.lookup u = some b → b = f u) (w : TimedWord) (hw : Q w) :
    (m.answerQuery ask w).2 = f w ∧
      ∀ u b, Q u → (m.answerQuery ask w).1.cache.lookup u = some b → b = f u := by
  unfold MemCache.answerQuery
  split
  · rename_i b h; exact ⟨hm w b hw h, hm⟩
  · refine ⟨hf _ _ hw, fun u b hu h => ?_⟩
    simp only [List.lookup_cons] at h
    by_cases e : u = w
    · subst e; simp at h; rw [← h]; exact hf _ _ hw
    · rw [beq_eq_false_iff_ne.2 e] at h; exact hm u b hu h

theorem askAll_spec (ask : σ → TimedWord → σ × Bool) (f : TimedWord → Bool) (Q : TimedWord → Prop)
    (hf : ∀ s w, Q w → (ask s w).2 = f w) (l : List ElementaryLanguage) (hl : ∀ x ∈ l, Q x.sample) (m : MemCache σ)
    (hm : ∀ u b, Q u → m.cache.lookup u = some b → b = f u) :
    (askAll ask m l).2.1 = l.filter (fun x => f x.sample) ∧
      (askAll ask m l).2.2 = l.all (fun x => f x.sample) ∧
      ∀ u b, Q u → (askAll ask m l).1.cache.lookup u = some b → b = f u := by
  induction l generalizing m with
  | nil => exact ⟨rfl, rfl, hm⟩
  | cons x l ih =>
    obtain ⟨a1, a2⟩ := answerQuery_det ask f Q hf m hm x.sample (hl x (by simp))
    obtain ⟨b1, b2, b3⟩ := ih (fun y hy => hl y (by simp [hy])) _ a2
    simp only [askAll]
    rw [b1, b2, a1]
    refine ⟨?_, by simp, b3⟩
    by_cases hx : f x.sample = true <;> simp [hx]

/-- No delays satisfy two of the conditions. -/
def Apart (r : TimedConditionSet) : Prop := r.Pairwise fun c c' => ∀ d, ¬ (c.Holds d ∧ c'.Holds d)

theorem apart_of_disj {n : ℕ} {r : TimedConditionSet} (hf : ∀ c ∈ r, Fine n c) (h : r.Pairwise Disj) : Apart r := by
  refine h.imp_of_mem ?_
  intro x y hx hy hxy d hd
  have hl := (hf x hx).length hd.1
  exact hxy _ ⟨((hf x hx).holds_iff hl).1 hd.1, ((hf y hy).holds_iff hl).1 hd.2⟩

/-- What holds of the object at all times. -/
structure Inv (f : TimedWord → Bool) (Q : TimedWord → Prop) (o : SymOracle σ) : Prop where
  mem : ∀ u b, Q u → o.mem.cache.lookup u = some b → b = f u
  cache : ∀ p ∈ o.cache, p.1.Queryable ∧ ExactFor p.1 f p.2 ∧ Apart p.2 ∧
    (∀ c ∈ p.2, Fine (p.1.word.length + 2) c) ∧ Whole p.1 f p.2

theorem beq_fine {e e' : ElementaryLanguage} (he : e.Queryable) (he' : e'.Queryable) (hb : e.beq e' = true) :
    e.word = e'.word ∧ ∀ w, e.Mem w ↔ e'.Mem w := by
  unfold ElementaryLanguage.beq TimedCondition.beq Zone.strictEqual at hb
  simp only [Bool.and_eq_true, beq_iff_eq, List.all_eq_true, List.mem_range, decide_eq_true_eq] at hb
  obtain ⟨h1, h2, h3⟩ := hb
  have f1 := he.fine
  have f2 := he'.fine
  rw [← h1] at f2
  have hk : key (e.word.length + 2) e.cond = key (e.word.length + 2) e'.cond := by
    rw [key_iff]
    intro i hi j hj hij
    rw [← f1.dim] at hi hj
    exact (h3 i hi j hj).resolve_left hij
  refine ⟨h1, fun w => ?_⟩
  unfold Mem
  rw [h1]
  refine and_congr_right fun _ => ?_
  constructor
  · intro h
    have hl := f1.length h
    rw [f2.holds_iff hl]; exact sat_of_key f1.dim f2 hk ((f1.holds_iff hl).1 h)
  · intro h
    have hl := f2.length h
    rw [f1.holds_iff hl]; exact sat_of_key f2.dim f1 hk.symm ((f2.holds_iff hl).1 h)

theorem query_spec (ask : σ → TimedWord → σ × Bool) (f : TimedWord → Bool) (Q : TimedWord → Prop)
    (hf : ∀ s w, Q w → (ask s w).2 = f w) (near : ElementaryLanguage → Bool) (o : SymOracle σ) (ho : Inv f Q o)
    (e : ElementaryLanguage) (he : e.Queryable) (hQ : ∀ w, e.Mem w → Q w) (hr : e.Regional f) :
    ∃ o' r, query ask near o e = some (o', r) ∧ Inv f Q o' ∧ ExactFor e f r ∧ Apart r ∧
      (∀ c ∈ r, Fine (e.word.length + 2) c) ∧ Whole e f r := by
  unfold query
  split
  · rename_i p hp
    have h1 := List.find?_some hp
    have h2 := List.mem_of_find?_eq_some hp
    simp only [Bool.and_eq_true] at h1
    obtain ⟨g1, g2, g3, g4, g5⟩ := ho.cache p h2
    obtain ⟨k1, k2⟩ := beq_fine g1 he h1.2
    refine ⟨_, _, rfl, ⟨ho.mem, ho.cache⟩, ?_, g3, by rwa [← k1], fun hw => ?_⟩
    · intro w hw
      rw [g2 w (hw.trans k1.symm), k2]
    · obtain ⟨c, e1, e2⟩ := g5 fun w hm => hw w ((k2 w).1 hm)
      refine ⟨c, e1, TimedCondition.beq_trans g1.fine.dim (g4 c (by rw [e1]; simp)).dim e2 ?_⟩
      have := h1.2
      unfold ElementaryLanguage.beq at this
      rw [Bool.and_eq_true] at this
      exact this.2
  · obtain ⟨l, l1, l2, l3, l4⟩ := he.fine.enumerate
    rw [e.enumerate_eq l1]
    simp only
    have hs : ∀ x ∈ l.map fun c => (⟨e.word, c⟩ : ElementaryLanguage), Q x.sample := by
      intro x hx
      obtain ⟨c, hc, rfl⟩ := List.mem_map.1 hx
      have hm := sample_mem' (l2 c hc).1 rfl he.observable
      refine hQ _ ⟨hm.1, ?_⟩
      have hl := (l2 c hc).1.length hm.2
      rw [he.fine.holds_iff hl]
      exact (l3 _).2 ⟨c, hc, ((l2 c hc).1.holds_iff hl).1 hm.2⟩
    obtain ⟨a1, a2, a3⟩ := askAll_spec ask f Q hf _ hs o.mem ho.mem
    obtain ⟨r, r1, r2, r3, r4⟩ := build_spec he hr l2 l3 l4
    rw [a1, a2, r1]
    have r5 := apart_of_disj r4 r3
    have r6 : Whole e f r := by
      intro hw
      have := build_whole he l2 l3 hw
      simp only at this r1
      rw [r1, Option.some.injEq] at this
      exact ⟨e.cond, this, e.cond.beq_refl'⟩
    refine ⟨_, _, rfl, ⟨a3, ?_⟩, r2, r5, r4, r6⟩
    intro p hp
    rcases List.mem_cons.1 hp with rfl | hp
    · exact ⟨he, r2, r5, r4, r6⟩
    · exact ho.cache p hp

end SymOracle
end LearnTA
