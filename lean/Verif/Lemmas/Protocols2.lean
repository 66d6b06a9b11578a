import Verif.Lemmas.Protocols

/-!
# Lemmas: "Light", "CAS" and "PC"
-/

namespace LearnTA
namespace Fixture

/-- The events take the target from `p` to an accepting state. -/
def Goes (acc : ℕ → Bool) (edges : List Edge) : ℕ → Valuation → List Action → List ℚ → Prop
  | p, _, [], ds => ∃ d, ds = [d] ∧ 0 ≤ d ∧ acc p = true
  | p, u, a :: as, ds => ∃ d ds', ds = d :: ds' ∧ 0 ≤ d ∧ ∃ e ∈ edges, e.src = p ∧ e.act = a ∧ e.guard.Holds (u.shift d) ∧
      Goes acc edges e.tgt (e.trans.resets.apply (u.shift d)) as ds'

theorem goes_iff {n : ℕ} {acc : ℕ → Bool} {edges : List Edge} {maxC : List ℤ} (hu : ∀ e ∈ edges, e.act ≠ unobservable) :
    ∀ (as : List Action) (ds : List ℚ), ds.length = as.length + 1 → ∀ p u, Goes acc edges p u as ds ↔
      ∃ p' v, (build n acc edges maxC).Plain ⟨p, u⟩ (eventsOf as ds) ⟨p', v⟩ ∧ acc p' = true := by
  intro as
  induction as with
  | nil =>
    intro ds hl p u
    obtain ⟨d, rfl⟩ := List.length_eq_one_iff.1 hl
    constructor
    · rintro ⟨d', h1, h2, h3⟩
      cases h1
      exact ⟨p, _, .delay d h2 (.nil _), h3⟩
    · rintro ⟨p', v, hp, h⟩
      change (build n acc edges maxC).Plain _ [.delay d] _ at hp
      cases hp with
      | delay d hd hp =>
        cases hp with
        | nil c => exact ⟨d, rfl, hd, h⟩
  | cons a as ih =>
    intro ds hl p u
    rcases ds with _ | ⟨d, ds⟩
    · simp at hl
    have hl' : ds.length = as.length + 1 := by simpa using hl
    constructor
    · rintro ⟨d', ds', h1, hd, e, he, h2, h3, h4, h5⟩
      cases h1
      obtain ⟨p', v, h6, h7⟩ := (ih ds hl' _ _).1 h5
      subst h2 h3
      exact ⟨p', v, .delay d hd (.act e.act (hu e he) e.trans (mem_locs.2 ⟨e, he, rfl, rfl, rfl⟩) h4 h6), h7⟩
    · rintro ⟨p', v, hp, h⟩
      obtain ⟨hd, e, h1, h2, h3, h4, h5⟩ := plain_cons hp
      exact ⟨d, ds, rfl, hd, e, h1, h2, h3, h4, (ih ds hl' _ _).2 ⟨p', v, h5, h⟩⟩

theorem accepts_goes {n : ℕ} {acc : ℕ → Bool} {edges : List Edge} {maxC : List ℤ} {al : List Action}
    (hu : ∀ e ∈ edges, e.act ≠ unobservable) (hn : 0 < n) (hL : (build n acc edges maxC).Learnable al) (w : TimedWord)
    (hw : w.WF) : (build n acc edges maxC).Accepts w ↔ Goes acc edges 0 Valuation.zero w.word w.durations := by
  rw [goes_iff (n := n) (maxC := maxC) hu w.word w.durations hw]
  constructor
  · rintro ⟨q, hq, ⟨p, v⟩, hs, hm⟩
    obtain rfl : q = 0 := List.mem_singleton.1 hq
    exact ⟨p, v, hs.plain hL.wf.closed hL.eps (List.mem_range.2 hn), hm⟩
  · rintro ⟨p, v, hp, hm⟩
    exact ⟨0, List.mem_singleton.2 rfl, _, hp.steps, hm⟩

/-! ### Light -/

/-- What may follow in the state `p` when the clock is `x`. -/
def LightRest (scale : ℤ) : ℕ → ℚ → List (ℚ × Action) → Prop
  | p, _, [] => p < 5
  | p, x, (d, a) :: r =>
    (p = 0 ∧ a = act 'p' ∧ LightRest scale 1 0 r) ∨
    (p = 1 ∧ a = act 'r' ∧ x + d < scale ∧ LightRest scale 0 (x + d) r) ∨
    (p = 1 ∧ a = act 'r' ∧ scale ≤ x + d ∧ LightRest scale 4 (x + d) r) ∨
    (p = 1 ∧ a = act 's' ∧ 2 * scale ≤ x + d ∧ LightRest scale 2 (x + d) r) ∨
    (p = 1 ∧ a = act 's' ∧ x + d < 2 * scale ∧ LightRest scale 5 (x + d) r) ∨
    (p = 2 ∧ a = act 'r' ∧ LightRest scale 3 (x + d) r) ∨
    (p = 3 ∧ a = act 'e' ∧ LightRest scale 0 (x + d) r) ∨
    (p = 4 ∧ a = act 't' ∧ LightRest scale 0 (x + d) r)

theorem light_goes (scale : ℤ) : ∀ (as : List Action) (ds : List ℚ), ds.length = as.length + 1 → ∀ p (u : Valuation),
    Goes (fun p => decide (p < 5)) (lightEdges scale) p u as ds ↔
      (∀ d ∈ ds, 0 ≤ d) ∧ LightRest scale p (u 0) (ds.zip as) := by
  intro as
  induction as with
  | nil =>
    intro ds hl p u
    obtain ⟨d, rfl⟩ := List.length_eq_one_iff.1 hl
    simp [Goes, LightRest]
  | cons a as ih =>
    intro ds hl p u
    rcases ds with _ | ⟨d, ds⟩
    · simp at hl
    have hl' : ds.length = as.length + 1 := by simpa using hl
    have ih := ih ds hl'
    have hs : ∀ v : Valuation, (v.shift d) 0 = v 0 + d := fun v => rfl
    simp only [Goes, List.cons.injEq, List.zip_cons_cons, LightRest, List.mem_cons, forall_eq_or_imp]
    constructor
    · rintro ⟨d', ds', ⟨rfl, rfl⟩, hd, e, he, rfl, rfl, hg, hr⟩
      obtain ⟨h1, h2⟩ := (ih _ _).1 hr
      refine ⟨⟨hd, h1⟩, ?_⟩
      simp only [lightEdges, List.mem_cons, List.not_mem_nil, or_false] at he
      rcases he with rfl | rfl | rfl | rfl | rfl | rfl | rfl | rfl
      · exact .inl ⟨rfl, rfl, h2⟩
      · exact .inr (.inl ⟨rfl, rfl, hg _ List.mem_cons_self, h2⟩)
      · exact .inr (.inr (.inl ⟨rfl, rfl, hg _ List.mem_cons_self, h2⟩))
      · have := hg _ List.mem_cons_self
        simp only [Constraint.Holds, hs] at this
        push_cast at this
        exact .inr (.inr (.inr (.inl ⟨rfl, rfl, this, h2⟩)))
      · have := hg _ List.mem_cons_self
        simp only [Constraint.Holds, hs] at this
        push_cast at this
        exact .inr (.inr (.inr (.inr (.inl ⟨rfl, rfl, this, h2⟩))))
      · exact .inr (.inr (.inr (.inr (.inr (.inl ⟨rfl, rfl, h2⟩)))))
      · exact .inr (.inr (.inr (.inr (.inr (.inr (.inl ⟨rfl, rfl, h2⟩))))))
      · exact .inr (.inr (.inr (.inr (.inr (.inr (.inr ⟨rfl, rfl, h2⟩))))))
    · rintro ⟨⟨hd, h1⟩, h⟩
      have fin : ∀ e ∈ lightEdges scale, e.src = p → e.act = a → e.guard.Holds (u.shift d) →
          LightRest scale e.tgt ((e.trans.resets.apply (u.shift d)) 0) (ds.zip as) →
          ∃ d' ds', (d = d' ∧ ds = ds') ∧ 0 ≤ d' ∧ ∃ e ∈ lightEdges scale, e.src = p ∧ e.act = a ∧ e.guard.Holds (u.shift d') ∧
            Goes (fun p => decide (p < 5)) (lightEdges scale) e.tgt (e.trans.resets.apply (u.shift d')) as ds' :=
        fun e he h2 h3 h4 h5 => ⟨d, ds, ⟨rfl, rfl⟩, hd, e, he, h2, h3, h4, (ih _ _).2 ⟨h1, h5⟩⟩
      have none : Guard.Holds [] (u.shift d) := by intro c hc; cases hc
      rcases h with ⟨rfl, rfl, h⟩ | ⟨rfl, rfl, hk, h⟩ | ⟨rfl, rfl, hk, h⟩ | ⟨rfl, rfl, hk, h⟩ | ⟨rfl, rfl, hk, h⟩ |
        ⟨rfl, rfl, h⟩ | ⟨rfl, rfl, h⟩ | ⟨rfl, rfl, h⟩
      · exact fin ⟨0, act 'p', 1, [0], []⟩ (by simp [lightEdges]) rfl rfl none h
      · exact fin ⟨1, act 'r', 0, [], [⟨0, .lt, scale⟩]⟩ (by simp [lightEdges]) rfl rfl (guard_one hk) h
      · exact fin ⟨1, act 'r', 4, [], [⟨0, .ge, scale⟩]⟩ (by simp [lightEdges]) rfl rfl (guard_one hk) h
      · exact fin ⟨1, act 's', 2, [], [⟨0, .ge, 2 * scale⟩]⟩ (by simp [lightEdges]) rfl rfl
          (guard_one (by simp only [Constraint.Holds, hs]; push_cast; exact hk)) h
      · exact fin ⟨1, act 's', 5, [], [⟨0, .lt, 2 * scale⟩]⟩ (by simp [lightEdges]) rfl rfl
          (guard_one (by simp only [Constraint.Holds, hs]; push_cast; exact hk)) h
      · exact fin ⟨2, act 'r', 3, [], []⟩ (by simp [lightEdges]) rfl rfl none h
      · exact fin ⟨3, act 'e', 0, [], []⟩ (by simp [lightEdges]) rfl rfl none h
      · exact fin ⟨4, act 't', 0, [], []⟩ (by simp [lightEdges]) rfl rfl none h

/-- The beginning of a sequence of uses. -/
def LightBegin (scale : ℤ) (evs : List (ℚ × Action)) : Prop :=
  ∃ uses : List (List (ℚ × Action)), (∀ l ∈ uses, LightUse scale l) ∧ evs <+: uses.flatten

theorem LightBegin.cons {scale : ℤ} {l evs : List (ℚ × Action)} (hl : LightUse scale l) (h : LightBegin scale evs) :
    LightBegin scale (l ++ evs) := by
  obtain ⟨uses, h1, h2⟩ := h
  refine ⟨l :: uses, fun k hk => ?_, ?_⟩
  · rcases List.mem_cons.1 hk with rfl | hk
    · exact hl
    · exact h1 k hk
  · rw [List.flatten_cons]
    exact (List.prefix_append_right_inj l).2 h2

theorem LightBegin.of_prefix {scale : ℤ} {l evs : List (ℚ × Action)} (hl : LightUse scale l) (h : evs <+: l) :
    LightBegin scale evs :=
  ⟨[l], by simpa using hl, by simpa using h⟩

theorem light_rest (scale : ℤ) : ∀ (n : ℕ) (evs : List (ℚ × Action)), evs.length ≤ n → ∀ x,
    LightRest scale 0 x evs ↔ LightBegin scale evs := by
  intro n
  induction n with
  | zero =>
    intro evs hn x
    obtain rfl := List.length_eq_zero_iff.1 (Nat.le_zero.1 hn)
    exact ⟨fun _ => ⟨[], by simp, by simp⟩, fun _ => by simp [LightRest]⟩
  | succ n ih =>
    intro evs hn x
    rcases evs with _ | ⟨⟨d1, a1⟩, r1⟩
    · exact ⟨fun _ => ⟨[], by simp, by simp⟩, fun _ => by simp [LightRest]⟩
    have l1 : r1.length ≤ n := by simpa using hn
    have hps : act 's' ≠ act 'r' := by decide
    constructor
    · intro h
      simp only [LightRest, true_and, zero_ne_one, OfNat.zero_ne_ofNat, false_and, or_false] at h
      obtain ⟨rfl, h⟩ := h
      rcases r1 with _ | ⟨⟨d2, a2⟩, r2⟩
      · exact .of_prefix (.short d1 (scale - 1) (by linarith)) (by simp)
      have l2 : r2.length ≤ n := by simp at l1; omega
      simp only [LightRest, true_and, one_ne_zero, OfNat.one_ne_ofNat, false_and, or_false, false_or, zero_add] at h
      rcases h with ⟨rfl, h2, h⟩ | ⟨rfl, h2, h⟩ | ⟨rfl, h2, h⟩ | ⟨rfl, h2, h⟩
      · exact .cons (.short d1 d2 h2) ((ih r2 l2 _).1 h)
      · rcases r2 with _ | ⟨⟨d3, a3⟩, r3⟩
        · exact .of_prefix (.touch d1 d2 0 h2) (by simp)
        · have l3 : r3.length ≤ n := by simp at l2; omega
          simp [LightRest] at h
          obtain ⟨rfl, h⟩ := h
          exact .cons (.touch d1 d2 d3 h2) ((ih r3 l3 _).1 h)
      · rcases r2 with _ | ⟨⟨d3, a3⟩, r3⟩
        · exact .of_prefix (.hold d1 d2 0 0 h2) (by simp)
        · have l3 : r3.length ≤ n := by simp at l2; omega
          simp [LightRest] at h
          obtain ⟨rfl, h⟩ := h
          rcases r3 with _ | ⟨⟨d4, a4⟩, r4⟩
          · exact .of_prefix (.hold d1 d2 d3 0 h2) (by simp)
          · have l4 : r4.length ≤ n := by simp at l3; omega
            simp [LightRest] at h
            obtain ⟨rfl, h⟩ := h
            exact .cons (.hold d1 d2 d3 d4 h2) ((ih r4 l4 _).1 h)
      · rcases r2 with _ | ⟨⟨d3, a3⟩, r3⟩ <;> simp [LightRest] at h
    · rintro ⟨uses, h1, h2⟩
      rcases uses with _ | ⟨l, uses⟩
      · simp at h2
      have hu := h1 l List.mem_cons_self
      have h1' : ∀ l ∈ uses, LightUse scale l := fun k hk => h1 k (List.mem_cons_of_mem _ hk)
      rw [List.flatten_cons] at h2
      cases hu with
      | short d1' d2 hd =>
        simp only [List.cons_append, List.nil_append, List.cons_prefix_cons, Prod.mk.injEq] at h2
        obtain ⟨⟨rfl, rfl⟩, h2⟩ := h2
        refine .inl ⟨rfl, rfl, ?_⟩
        rcases r1 with _ | ⟨⟨d2', a2⟩, r2⟩
        · simp [LightRest]
        simp only [List.cons_prefix_cons, Prod.mk.injEq] at h2
        obtain ⟨⟨rfl, rfl⟩, h2⟩ := h2
        exact .inr (.inl ⟨rfl, rfl, by linarith, (ih r2 (by simp at l1; omega) _).2 ⟨uses, h1', h2⟩⟩)
      | touch d1' d2 d3 hd =>
        simp only [List.cons_append, List.nil_append, List.cons_prefix_cons, Prod.mk.injEq] at h2
        obtain ⟨⟨rfl, rfl⟩, h2⟩ := h2
        refine .inl ⟨rfl, rfl, ?_⟩
        rcases r1 with _ | ⟨⟨d2', a2⟩, r2⟩
        · simp [LightRest]
        simp only [List.cons_prefix_cons, Prod.mk.injEq] at h2
        obtain ⟨⟨rfl, rfl⟩, h2⟩ := h2
        refine .inr (.inr (.inl ⟨rfl, rfl, by linarith, ?_⟩))
        rcases r2 with _ | ⟨⟨d3', a3⟩, r3⟩
        · simp [LightRest]
        simp only [List.cons_prefix_cons, Prod.mk.injEq] at h2
        obtain ⟨⟨rfl, rfl⟩, h2⟩ := h2
        have := (ih r3 (by simp at l1; omega) (0 + d2' + d3')).2 ⟨uses, h1', h2⟩
        simp only [LightRest]
        simpa using this
      | hold d1' d2 d3 d4 hd =>
        simp only [List.cons_append, List.nil_append, List.cons_prefix_cons, Prod.mk.injEq] at h2
        obtain ⟨⟨rfl, rfl⟩, h2⟩ := h2
        refine .inl ⟨rfl, rfl, ?_⟩
        rcases r1 with _ | ⟨⟨d2', a2⟩, r2⟩
        · simp [LightRest]
        simp only [List.cons_prefix_cons, Prod.mk.injEq] at h2
        obtain ⟨⟨rfl, rfl⟩, h2⟩ := h2
        refine .inr (.inr (.inr (.inl ⟨rfl, rfl, by linarith, ?_⟩)))
        rcases r2 with _ | ⟨⟨d3', a3⟩, r3⟩
        · simp [LightRest]
        simp only [List.cons_prefix_cons, Prod.mk.injEq] at h2
        obtain ⟨⟨rfl, rfl⟩, h2⟩ := h2
        rcases r3 with _ | ⟨⟨d4', a4⟩, r4⟩
        · simp [LightRest]
        simp only [List.cons_prefix_cons, Prod.mk.injEq] at h2
        obtain ⟨⟨rfl, rfl⟩, h2⟩ := h2
        have := (ih r4 (by simp at l1; omega) (0 + d2' + d3' + d4')).2 ⟨uses, h1', h2⟩
        simp only [LightRest]
        simpa using this

end Fixture
end LearnTA
