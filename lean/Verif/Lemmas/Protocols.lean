import Verif.Spec.Protocols
import Verif.Lemmas.Fixtures

/-!
# Lemmas: the protocols behind the example programs
-/

namespace LearnTA
namespace Fixture

theorem plain_cons {n : ℕ} {acc : ℕ → Bool} {edges : List Edge} {maxC : List ℤ} {p : ℕ} {v : Valuation} {d : ℚ} {a : Action}
    {es : List Event} {c' : Config} (h : (build n acc edges maxC).Plain ⟨p, v⟩ (.delay d :: .act a :: es) c') :
    0 ≤ d ∧ ∃ e ∈ edges, e.src = p ∧ e.act = a ∧ e.guard.Holds (v.shift d) ∧
      (build n acc edges maxC).Plain ⟨e.tgt, e.trans.resets.apply (v.shift d)⟩ es c' := by
  cases h with
  | delay d hd h =>
    cases h with
    | act a ha t ht hg h =>
      obtain ⟨e, h1, h2, h3, rfl⟩ := mem_locs.1 ht
      exact ⟨hd, e, h1, h2, h3, hg, h⟩

/-- The edges are the steps of a protocol. -/
structure Implements {S : Type} (rule : S → Valuation → Action → S → Valuation → Prop) (enc : S → ℕ) (Inv : S → Prop)
    (edges : List Edge) : Prop where
  sound : ∀ s, Inv s → ∀ u : Valuation, ∀ e ∈ edges, e.src = enc s → e.guard.Holds u →
    ∃ s', Inv s' ∧ e.tgt = enc s' ∧ rule s u e.act s' (e.trans.resets.apply u)
  complete : ∀ s, Inv s → ∀ u a s' u', rule s u a s' u' → Inv s' ∧ ∃ e ∈ edges, e.src = enc s ∧ e.act = a ∧
    e.guard.Holds u ∧ e.tgt = enc s' ∧ e.trans.resets.apply u = u'

theorem Implements.run {S : Type} {rule : S → Valuation → Action → S → Valuation → Prop} {enc : S → ℕ} {Inv : S → Prop}
    {n : ℕ} {acc : ℕ → Bool} {edges : List Edge} {maxC : List ℤ} (h : Implements rule enc Inv edges)
    (hu : ∀ e ∈ edges, e.act ≠ unobservable) : ∀ (as : List Action) (ds : List ℚ) (s : S) (u : Valuation), Inv s →
    ds.length = as.length + 1 → ∀ p, (∃ v, (build n acc edges maxC).Plain ⟨enc s, u⟩ (eventsOf as ds) ⟨p, v⟩) ↔
      ∃ s', p = enc s' ∧ ProtocolRun rule s u as ds s' := by
  intro as
  induction as with
  | nil =>
    intro ds s u hi hl p
    obtain ⟨d, rfl⟩ := List.length_eq_one_iff.1 hl
    constructor
    · rintro ⟨v, hp⟩
      change (build n acc edges maxC).Plain _ [.delay d] _ at hp
      cases hp with
      | delay d hd hp =>
        cases hp with
        | nil c => exact ⟨s, rfl, .stop d hd⟩
    · rintro ⟨s', rfl, hr⟩
      cases hr with
      | stop d hd => exact ⟨_, .delay d hd (.nil _)⟩
  | cons a as ih =>
    intro ds s u hi hl p
    rcases ds with _ | ⟨d, ds⟩
    · simp at hl
    have hl' : ds.length = as.length + 1 := by simpa using hl
    constructor
    · rintro ⟨v, hp⟩
      obtain ⟨hd, e, h1, h2, rfl, h4, h5⟩ := plain_cons hp
      obtain ⟨s', q1, q2, q3⟩ := h.sound s hi _ e h1 h2 h4
      rw [q2] at h5
      obtain ⟨s'', e1, e2⟩ := (ih ds s' _ q1 hl' p).1 ⟨v, h5⟩
      exact ⟨s'', e1, .step d hd _ q3 e2⟩
    · rintro ⟨s'', rfl, hr⟩
      cases hr with
      | step d hd a hrule hr =>
        obtain ⟨q1, e, h1, h2, rfl, h4, h5, h6⟩ := h.complete s hi _ _ _ _ hrule
        obtain ⟨v, hp⟩ := (ih ds _ _ q1 hl' _).2 ⟨s'', rfl, hr⟩
        refine ⟨v, .delay d hd (.act e.act (hu e h1) e.trans (mem_locs.2 ⟨e, h1, h2, rfl, rfl⟩) h4 ?_)⟩
        rw [h6]
        show (build n acc edges maxC).Plain ⟨e.tgt, _⟩ _ _
        rw [h5]
        exact hp

theorem Implements.accepts {S : Type} {rule : S → Valuation → Action → S → Valuation → Prop} {enc : S → ℕ} {Inv : S → Prop}
    {n : ℕ} {acc : ℕ → Bool} {edges : List Edge} {maxC : List ℤ} {al : List Action} (h : Implements rule enc Inv edges)
    (hu : ∀ e ∈ edges, e.act ≠ unobservable) (hn : 0 < n) (hL : (build n acc edges maxC).Learnable al) (s : S) (hi : Inv s)
    (h0 : enc s = 0) (w : TimedWord) (hw : w.WF) : (build n acc edges maxC).Accepts w ↔
      ∃ s', acc (enc s') = true ∧ ProtocolRun rule s Valuation.zero w.word w.durations s' := by
  constructor
  · rintro ⟨q, hq, ⟨p, v⟩, hs, hm⟩
    obtain rfl : q = 0 := List.mem_singleton.1 hq
    have hp := hs.plain hL.wf.closed hL.eps (List.mem_range.2 hn)
    rw [← h0] at hp
    obtain ⟨s', rfl, hr⟩ := (h.run hu w.word w.durations s _ hi hw p).1 ⟨v, hp⟩
    exact ⟨s', hm, hr⟩
  · rintro ⟨s', hm, hr⟩
    obtain ⟨v, hp⟩ := (h.run (n := n) (acc := acc) (maxC := maxC) hu w.word w.durations s _ hi hw _).2 ⟨s', rfl, hr⟩
    rw [h0] at hp
    exact ⟨0, List.mem_singleton.2 rfl, _, hp.steps, hm⟩

/-! ### Fischer -/

/-- The number of a local state. -/
def FischerLocal.code : FischerLocal → ℕ
  | .idle => 0 | .req => 1 | .wait => 2 | .cs => 3

theorem FischerLocal.code_lt (l : FischerLocal) : l.code < 4 := by cases l <;> decide

theorem FischerLocal.exists_code : ∀ {k : ℕ}, k < 4 → ∃ l : FischerLocal, l.code = k
  | 0, _ => ⟨.idle, rfl⟩
  | 1, _ => ⟨.req, rfl⟩
  | 2, _ => ⟨.wait, rfl⟩
  | 3, _ => ⟨.cs, rfl⟩

/-- The number of a state. -/
def FischerConfig.enc (s : FischerConfig) : ℕ :=
  fischerState (s.proc 0).code (s.proc 1).code (s.proc 2).code s.id

theorem FischerConfig.enc_eq (s : FischerConfig) (hs : s.id < 4) (i : Fin 3) {pA pB l id : ℕ} (hA : pA < 4) (hB : pB < 4)
    (hl : l < 4) (hid : id < 4) : fischerAt i pA pB l id = s.enc ↔
      (s.proc i).code = l ∧ (s.proc (i + 1)).code = pA ∧ (s.proc (i + 2)).code = pB ∧ s.id = id := by
  have h0 := (s.proc 0).code_lt
  have h1 := (s.proc 1).code_lt
  have h2 := (s.proc 2).code_lt
  unfold FischerConfig.enc fischerAt fischerState
  match i with
  | 0 => simp; omega
  | 1 => simp; omega
  | 2 => simp; omega

theorem FischerConfig.enc_update (s : FischerConfig) (i : Fin 3) (l : FischerLocal) (id : ℕ) :
    FischerConfig.enc ⟨Function.update s.proc i l, id⟩ = fischerAt i (s.proc (i + 1)).code (s.proc (i + 2)).code l.code id := by
  unfold FischerConfig.enc fischerAt fischerState
  match i with
  | 0 => simp [Function.update]
  | 1 => simp [Function.update]
  | 2 => simp [Function.update]

theorem fischerAction_eq (i : Fin 3) : fischerAction i = Fin.ofNat 256 ('a'.toNat + i.val) := by
  match i with
  | 0 => decide
  | 1 => decide
  | 2 => decide

theorem mem_fischerEdges {scale : ℤ} {e : Edge} : e ∈ fischerEdges scale ↔
    ∃ i : Fin 3, ∃ pA < 4, ∃ pB < 4, e ∈ fischerStep scale i pA pB := by
  have h4 : ∀ k : ℕ, k ∈ [0, 1, 2, 3] ↔ k < 4 := by intro k; simp; omega
  have h3 : ∀ k : ℕ, k ∈ [0, 1, 2] ↔ k < 3 := by intro k; simp; omega
  unfold fischerEdges
  simp only [List.mem_flatMap, h4, h3]
  constructor
  · rintro ⟨p, hp, pA, hA, pB, hB, h⟩
    exact ⟨⟨p, hp⟩, pA, hA, pB, hB, h⟩
  · rintro ⟨i, pA, hA, pB, hB, h⟩
    exact ⟨i, i.2, pA, hA, pB, hB, h⟩

theorem apply_one (x : ℕ) (u : Valuation) : Resets.apply [(x, Upd.const 0)] u = Function.update u x 0 := rfl

theorem code_inj {l l' : FischerLocal} (h : l.code = l'.code) : l = l' := by
  cases l <;> cases l' <;> first | rfl | (simp [FischerLocal.code] at h)

theorem fischer_implements (scale : ℤ) : Implements
    (fun s u a s' u' => ∃ i, a = fischerAction i ∧ FischerRule scale i s u s' u') FischerConfig.enc (fun s => s.id < 4)
    (fischerEdges scale) := by
  constructor
  · intro s hs u e he hsrc hg
    obtain ⟨i, pA, hA, pB, hB, he⟩ := mem_fischerEdges.1 he
    simp only [fischerStep, List.mem_append, List.mem_cons, List.mem_map, List.not_mem_nil, or_false] at he
    rcases he with (rfl | ⟨id, hid, rfl⟩) | (rfl | rfl | rfl)
    · obtain ⟨h1, rfl, rfl, h4⟩ := (s.enc_eq hs i hA hB (by norm_num) (by norm_num)).1 hsrc
      exact ⟨_, by norm_num, (s.enc_update i .req 0).symm, i, (fischerAction_eq i).symm,
        .request (code_inj h1) h4⟩
    · have hid : id < 4 := by omega
      obtain ⟨h1, rfl, rfl, h4⟩ := (s.enc_eq hs i hA hB (by norm_num) hid).1 hsrc
      exact ⟨_, by norm_num, (s.enc_update i .wait 1).symm, i, (fischerAction_eq i).symm,
        .write (code_inj h1) (hg _ List.mem_cons_self)⟩
    · obtain ⟨h1, rfl, rfl, h4⟩ := (s.enc_eq hs i hA hB (by norm_num) (by norm_num)).1 hsrc
      exact ⟨_, by norm_num, (s.enc_update i .req 0).symm, i, (fischerAction_eq i).symm,
        .retry (code_inj h1) h4⟩
    · obtain ⟨h1, rfl, rfl, h4⟩ := (s.enc_eq hs i hA hB (by norm_num) (by norm_num)).1 hsrc
      exact ⟨_, by norm_num, (s.enc_update i .cs 1).symm, i, (fischerAction_eq i).symm,
        .enter (code_inj h1) h4 (hg _ List.mem_cons_self)⟩
    · obtain ⟨h1, rfl, rfl, h4⟩ := (s.enc_eq hs i hA hB (by norm_num) (by norm_num)).1 hsrc
      exact ⟨_, by norm_num, (s.enc_update i .idle 0).symm, i, (fischerAction_eq i).symm,
        .leave (code_inj h1) h4⟩
  · rintro s hs u a s' u' ⟨i, rfl, hr⟩
    have hA := (s.proc (i + 1)).code_lt
    have hB := (s.proc (i + 2)).code_lt
    have hsrc : ∀ {l : FischerLocal} {id : ℕ}, s.proc i = l → s.id = id →
        fischerAt i (s.proc (i + 1)).code (s.proc (i + 2)).code l.code id = s.enc := fun h1 h2 =>
      (s.enc_eq hs i hA hB (FischerLocal.code_lt _) (h2 ▸ hs)).2 ⟨by rw [h1], rfl, rfl, h2⟩
    obtain ⟨st, hst⟩ : ∃ st, st = fischerAt i (s.proc (i + 1)).code (s.proc (i + 2)).code := ⟨_, rfl⟩
    have hup := s.enc_update i
    rw [← hst] at hsrc hup
    have hm : ∀ {e : Edge}, e ∈
        [⟨st 0 0, fischerAction i, st 1 0, [i.val], []⟩] ++
        [0, 1, 2, 3].map (fun sourceId => (⟨st 1 sourceId, fischerAction i, st 2 1, [i.val], [⟨i.val, .le, scale⟩]⟩ : Edge)) ++
        [⟨st 2 0, fischerAction i, st 1 0, [i.val], []⟩,
         ⟨st 2 1, fischerAction i, st 3 1, [], [⟨i.val, .gt, scale⟩]⟩,
         ⟨st 3 1, fischerAction i, st 0 0, [], []⟩] → e ∈ fischerEdges scale := by
      intro e h
      refine mem_fischerEdges.2 ⟨i, _, hA, _, hB, ?_⟩
      unfold fischerStep
      dsimp only
      rw [← hst, ← fischerAction_eq]
      exact h
    cases hr with
    | request h hid =>
      exact ⟨by norm_num, ⟨st 0 0, fischerAction i, st 1 0, [i.val], []⟩, hm (by simp), hsrc h hid,
        rfl, (by intro c hc; cases hc), (hup .req 0).symm, rfl⟩
    | write h ht =>
      refine ⟨by norm_num, ⟨st 1 s.id, fischerAction i, st 2 1, [i.val], [⟨i.val, .le, scale⟩]⟩, hm ?_, hsrc h rfl,
        rfl, ?_, (hup .wait 1).symm, rfl⟩
      · refine List.mem_append_left _ (List.mem_append_right _ (List.mem_map.2 ⟨s.id, ?_, rfl⟩))
        simp; omega
      · intro c hc
        rw [List.mem_singleton.1 hc]
        exact ht
    | retry h hid =>
      exact ⟨by norm_num, ⟨st 2 0, fischerAction i, st 1 0, [i.val], []⟩, hm (by simp), hsrc h hid,
        rfl, (by intro c hc; cases hc), (hup .req 0).symm, rfl⟩
    | enter h hid ht =>
      refine ⟨by norm_num, ⟨st 2 1, fischerAction i, st 3 1, [], [⟨i.val, .gt, scale⟩]⟩, hm (by simp), hsrc h hid,
        rfl, ?_, (hup .cs 1).symm, rfl⟩
      intro c hc
      rw [List.mem_singleton.1 hc]
      exact ht
    | leave h hid =>
      exact ⟨by norm_num, ⟨st 3 1, fischerAction i, st 0 0, [], []⟩, hm (by simp),
        hsrc h hid, rfl, (by intro c hc; cases hc), (hup .idle 0).symm, rfl⟩

/-! ### FDDI -/

/-- The number of a state. -/
def FddiConfig.enc (s : FddiConfig) : ℕ := fddiState s.p1 s.p2 s.ring

/-- A station is busy exactly if the ring is there. -/
def FddiConfig.Inv (s : FddiConfig) : Prop :=
  (s.ring = 0 ∧ (s.p1 = 0 ∨ s.p1 = 4) ∧ (s.p2 = 0 ∨ s.p2 = 4)) ∨
  (s.ring = 1 ∧ (s.p1 = 1 ∨ s.p1 = 2 ∨ s.p1 = 3 ∨ s.p1 = 5 ∨ s.p1 = 6 ∨ s.p1 = 7) ∧ (s.p2 = 0 ∨ s.p2 = 4)) ∨
  (s.ring = 2 ∧ (s.p1 = 0 ∨ s.p1 = 4) ∧ (s.p2 = 0 ∨ s.p2 = 4)) ∨
  (s.ring = 3 ∧ (s.p1 = 0 ∨ s.p1 = 4) ∧ (s.p2 = 1 ∨ s.p2 = 2 ∨ s.p2 = 3 ∨ s.p2 = 5 ∨ s.p2 = 6 ∨ s.p2 = 7))

theorem zero_of_guard {u : Valuation} {g : Guard} (h : Guard.Holds g u) (h1 : ⟨6, .le, 0⟩ ∈ g) (h2 : ⟨6, .ge, 0⟩ ∈ g) : u 6 = 0 := by
  have a := h _ h1
  have b := h _ h2
  simp only [Constraint.Holds, Int.cast_zero] at a b
  exact le_antisymm a b

theorem eq_of_guard {u : Valuation} {x : ℕ} {k : ℤ} (h : Guard.Holds [⟨x, .ge, k⟩, ⟨x, .le, k⟩] u) : u x = k :=
  le_antisymm (h ⟨x, .le, k⟩ (by simp)) (h ⟨x, .ge, k⟩ (by simp))

theorem guard_of_eq {u : Valuation} {x : ℕ} {k : ℤ} (h : u x = k) : Guard.Holds [⟨x, .ge, k⟩, ⟨x, .le, k⟩] u := by
  intro c hc
  simp only [List.mem_cons, List.not_mem_nil, or_false] at hc
  rcases hc with rfl | rfl
  · exact h.ge
  · exact h.le

theorem guard_cons {u : Valuation} {c : Constraint} {g : Guard} (h : c.Holds u) (h' : Guard.Holds g u) : Guard.Holds (c :: g) u := by
  intro d hd
  rcases List.mem_cons.1 hd with rfl | hd
  · exact h
  · exact h' d hd

theorem guard_zero {u : Valuation} (h : u 6 = 0) : Guard.Holds fddiZero u := by
  intro c hc
  simp only [fddiZero, List.mem_cons, List.not_mem_nil, or_false] at hc
  rcases hc with rfl | rfl <;> simp only [Constraint.Holds, Int.cast_zero, h, le_refl]

theorem guard_one {u : Valuation} {c : Constraint} (h : c.Holds u) : Guard.Holds [c] u :=
  guard_cons h (by intro d hd; cases hd)

theorem fddi_implements (scale : ℤ) : Implements (FddiRule scale) FddiConfig.enc FddiConfig.Inv (fddiEdges scale) := by
  constructor
  · rintro ⟨p1, p2, r⟩ hs u e he hsrc hg
    simp only [FddiConfig.Inv, FddiConfig.enc] at hs hsrc
    simp only [fddiEdges, List.mem_append] at he
    rcases he with ((((he | he) | he) | he) | he) | he
    · simp only [fddiTT1, List.mem_flatMap, List.mem_cons, List.not_mem_nil, or_false] at he
      obtain ⟨q, hq, rfl | rfl | rfl | rfl⟩ := he <;> simp only [fddiState] at hsrc
      · obtain ⟨rfl, rfl, rfl⟩ : p1 = 0 ∧ p2 = q ∧ r = 0 := by omega
        exact ⟨⟨1, p2, 1⟩, by simpa [FddiConfig.Inv] using hq, rfl,
          .get1 (zero_of_guard hg (by simp [fddiZero]) (by simp [fddiZero])) (.late0 (hg _ List.mem_cons_self))⟩
      · obtain ⟨rfl, rfl, rfl⟩ : p1 = 0 ∧ p2 = q ∧ r = 0 := by omega
        exact ⟨⟨2, p2, 1⟩, by simpa [FddiConfig.Inv] using hq, rfl,
          .get1 (zero_of_guard hg (by simp [fddiZero]) (by simp [fddiZero])) (.early0 (hg _ List.mem_cons_self))⟩
      · obtain ⟨rfl, rfl, rfl⟩ : p1 = 4 ∧ p2 = q ∧ r = 0 := by omega
        exact ⟨⟨5, p2, 1⟩, by simpa [FddiConfig.Inv] using hq, rfl,
          .get1 (zero_of_guard hg (by simp [fddiZero]) (by simp [fddiZero])) (.late4 (hg _ List.mem_cons_self))⟩
      · obtain ⟨rfl, rfl, rfl⟩ : p1 = 4 ∧ p2 = q ∧ r = 0 := by omega
        exact ⟨⟨6, p2, 1⟩, by simpa [FddiConfig.Inv] using hq, rfl,
          .get1 (zero_of_guard hg (by simp [fddiZero]) (by simp [fddiZero])) (.early4 (hg _ List.mem_cons_self))⟩
    · simp only [fddiRT1, List.mem_flatMap, List.mem_append, List.map_cons, List.map_nil, List.mem_cons, List.not_mem_nil,
        or_false] at he
      obtain ⟨q, hq, (rfl | rfl) | (rfl | rfl)⟩ := he <;> simp only [fddiState] at hsrc
      · obtain ⟨rfl, rfl, rfl⟩ : p1 = 1 ∧ p2 = q ∧ r = 1 := by omega
        exact ⟨⟨4, p2, 2⟩, by simpa [FddiConfig.Inv] using hq, rfl, .release1 (.done1 (eq_of_guard hg))⟩
      · obtain ⟨rfl, rfl, rfl⟩ : p1 = 5 ∧ p2 = q ∧ r = 1 := by omega
        exact ⟨⟨0, p2, 2⟩, by simpa [FddiConfig.Inv] using hq, rfl, .release1 (.done5 (eq_of_guard hg))⟩
      · obtain ⟨rfl, rfl, rfl⟩ : p1 = 3 ∧ p2 = q ∧ r = 1 := by omega
        exact ⟨⟨4, p2, 2⟩, by simpa [FddiConfig.Inv] using hq, rfl, .release1 (.done3 (hg _ List.mem_cons_self))⟩
      · obtain ⟨rfl, rfl, rfl⟩ : p1 = 7 ∧ p2 = q ∧ r = 1 := by omega
        exact ⟨⟨0, p2, 2⟩, by simpa [FddiConfig.Inv] using hq, rfl, .release1 (.done7 (hg _ List.mem_cons_self))⟩
    · simp only [fddiTau1, List.mem_flatMap, List.map_cons, List.map_nil, List.mem_cons, List.not_mem_nil, or_false] at he
      obtain ⟨q, hq, rfl | rfl⟩ := he <;> simp only [fddiState] at hsrc
      · obtain ⟨rfl, rfl, rfl⟩ : p1 = 2 ∧ p2 = q ∧ r = 1 := by omega
        exact ⟨⟨3, p2, 1⟩, by simpa [FddiConfig.Inv] using hq, rfl, .own1 (.more2 (eq_of_guard hg))⟩
      · obtain ⟨rfl, rfl, rfl⟩ : p1 = 6 ∧ p2 = q ∧ r = 1 := by omega
        exact ⟨⟨7, p2, 1⟩, by simpa [FddiConfig.Inv] using hq, rfl, .own1 (.more6 (eq_of_guard hg))⟩
    · simp only [fddiTT2, List.mem_flatMap, List.mem_cons, List.not_mem_nil, or_false] at he
      obtain ⟨q, hq, rfl | rfl | rfl | rfl⟩ := he <;> simp only [fddiState] at hsrc
      · obtain ⟨rfl, rfl, rfl⟩ : p1 = q ∧ p2 = 0 ∧ r = 2 := by omega
        exact ⟨⟨p1, 1, 3⟩, by simpa [FddiConfig.Inv] using hq, rfl,
          .get2 (zero_of_guard hg (by simp [fddiZero]) (by simp [fddiZero])) (.late0 (hg _ List.mem_cons_self))⟩
      · obtain ⟨rfl, rfl, rfl⟩ : p1 = q ∧ p2 = 0 ∧ r = 2 := by omega
        exact ⟨⟨p1, 2, 3⟩, by simpa [FddiConfig.Inv] using hq, rfl,
          .get2 (zero_of_guard hg (by simp [fddiZero]) (by simp [fddiZero])) (.early0 (hg _ List.mem_cons_self))⟩
      · obtain ⟨rfl, rfl, rfl⟩ : p1 = q ∧ p2 = 4 ∧ r = 2 := by omega
        exact ⟨⟨p1, 5, 3⟩, by simpa [FddiConfig.Inv] using hq, rfl,
          .get2 (zero_of_guard hg (by simp [fddiZero]) (by simp [fddiZero])) (.late4 (hg _ List.mem_cons_self))⟩
      · obtain ⟨rfl, rfl, rfl⟩ : p1 = q ∧ p2 = 4 ∧ r = 2 := by omega
        exact ⟨⟨p1, 6, 3⟩, by simpa [FddiConfig.Inv] using hq, rfl,
          .get2 (zero_of_guard hg (by simp [fddiZero]) (by simp [fddiZero])) (.early4 (hg _ List.mem_cons_self))⟩
    · simp only [fddiRT2, List.mem_flatMap, List.mem_append, List.map_cons, List.map_nil, List.mem_cons, List.not_mem_nil,
        or_false] at he
      obtain ⟨q, hq, (rfl | rfl) | (rfl | rfl)⟩ := he <;> simp only [fddiState] at hsrc
      · obtain ⟨rfl, rfl, rfl⟩ : p1 = q ∧ p2 = 1 ∧ r = 3 := by omega
        exact ⟨⟨p1, 4, 0⟩, by simpa [FddiConfig.Inv] using hq, rfl, .release2 (.done1 (eq_of_guard hg))⟩
      · obtain ⟨rfl, rfl, rfl⟩ : p1 = q ∧ p2 = 5 ∧ r = 3 := by omega
        exact ⟨⟨p1, 0, 0⟩, by simpa [FddiConfig.Inv] using hq, rfl, .release2 (.done5 (eq_of_guard hg))⟩
      · obtain ⟨rfl, rfl, rfl⟩ : p1 = q ∧ p2 = 3 ∧ r = 3 := by omega
        exact ⟨⟨p1, 4, 0⟩, by simpa [FddiConfig.Inv] using hq, rfl, .release2 (.done3 (hg _ List.mem_cons_self))⟩
      · obtain ⟨rfl, rfl, rfl⟩ : p1 = q ∧ p2 = 7 ∧ r = 3 := by omega
        exact ⟨⟨p1, 0, 0⟩, by simpa [FddiConfig.Inv] using hq, rfl, .release2 (.done7 (hg _ List.mem_cons_self))⟩
    · simp only [fddiTau2, List.mem_flatMap, List.map_cons, List.map_nil, List.mem_cons, List.not_mem_nil, or_false] at he
      obtain ⟨q, hq, rfl | rfl⟩ := he <;> simp only [fddiState] at hsrc
      · obtain ⟨rfl, rfl, rfl⟩ : p1 = q ∧ p2 = 2 ∧ r = 3 := by omega
        exact ⟨⟨p1, 3, 3⟩, by simpa [FddiConfig.Inv] using hq, rfl, .own2 (.more2 (eq_of_guard hg))⟩
      · obtain ⟨rfl, rfl, rfl⟩ : p1 = q ∧ p2 = 6 ∧ r = 3 := by omega
        exact ⟨⟨p1, 7, 3⟩, by simpa [FddiConfig.Inv] using hq, rfl, .own2 (.more6 (eq_of_guard hg))⟩
  · intro s hs u a s' u' hr
    have m1 : ∀ {e : Edge} {q : ℕ}, (q = 0 ∨ q = 4) → (e ∈ fddiTT1 scale ∨ e ∈ fddiRT1 scale ∨ e ∈ fddiTau1 scale ∨
        e ∈ fddiTT2 scale ∨ e ∈ fddiRT2 scale ∨ e ∈ fddiTau2 scale) → e ∈ fddiEdges scale := by
      intro e q _ h
      simp only [fddiEdges, List.mem_append]
      tauto
    cases hr with
    | @get1 p1 p2 p1' u u' hz h =>
      have hq : p2 = 0 ∨ p2 = 4 := by simp [FddiConfig.Inv] at hs; omega
      cases h with
      | late0 h =>
        exact ⟨by simpa [FddiConfig.Inv] using hq,
          ⟨fddiState 0 p2 0, act 'a', fddiState 1 p2 1, [0, 2], ⟨0, .ge, scale * 5⟩ :: fddiZero⟩,
          m1 hq (.inl (List.mem_flatMap.2 ⟨p2, by simpa using hq, by simp⟩)), rfl, rfl, guard_cons h (guard_zero hz), rfl, rfl⟩
      | early0 h =>
        exact ⟨by simpa [FddiConfig.Inv] using hq,
          ⟨fddiState 0 p2 0, act 'a', fddiState 2 p2 1, [0, 2], ⟨0, .lt, scale * 5⟩ :: fddiZero⟩,
          m1 hq (.inl (List.mem_flatMap.2 ⟨p2, by simpa using hq, by simp⟩)), rfl, rfl, guard_cons h (guard_zero hz), rfl, rfl⟩
      | late4 h =>
        exact ⟨by simpa [FddiConfig.Inv] using hq,
          ⟨fddiState 4 p2 0, act 'a', fddiState 5 p2 1, [0, 1], ⟨0, .ge, scale * 5⟩ :: fddiZero⟩,
          m1 hq (.inl (List.mem_flatMap.2 ⟨p2, by simpa using hq, by simp⟩)), rfl, rfl, guard_cons h (guard_zero hz), rfl, rfl⟩
      | early4 h =>
        exact ⟨by simpa [FddiConfig.Inv] using hq,
          ⟨fddiState 4 p2 0, act 'a', fddiState 6 p2 1, [0, 1], ⟨0, .lt, scale * 5⟩ :: fddiZero⟩,
          m1 hq (.inl (List.mem_flatMap.2 ⟨p2, by simpa using hq, by simp⟩)), rfl, rfl, guard_cons h (guard_zero hz), rfl, rfl⟩
    | @release1 p1 p2 p1' u u' h =>
      have hq : p2 = 0 ∨ p2 = 4 := by simp [FddiConfig.Inv] at hs; omega
      cases h with
      | done1 h =>
        exact ⟨by simpa [FddiConfig.Inv] using hq,
          ⟨fddiState 1 p2 1, act 'b', fddiState 4 p2 2, [6], [⟨0, .ge, scale⟩, ⟨0, .le, scale⟩]⟩,
          m1 hq (.inr (.inl (List.mem_flatMap.2 ⟨p2, by simpa using hq, by simp⟩))), rfl, rfl, guard_of_eq h, rfl, rfl⟩
      | done5 h =>
        exact ⟨by simpa [FddiConfig.Inv] using hq,
          ⟨fddiState 5 p2 1, act 'b', fddiState 0 p2 2, [6], [⟨0, .ge, scale⟩, ⟨0, .le, scale⟩]⟩,
          m1 hq (.inr (.inl (List.mem_flatMap.2 ⟨p2, by simpa using hq, by simp⟩))), rfl, rfl, guard_of_eq h, rfl, rfl⟩
      | done3 h =>
        exact ⟨by simpa [FddiConfig.Inv] using hq,
          ⟨fddiState 3 p2 1, act 'b', fddiState 4 p2 2, [6], [⟨1, .le, scale * 6⟩]⟩,
          m1 hq (.inr (.inl (List.mem_flatMap.2 ⟨p2, by simpa using hq, by simp⟩))), rfl, rfl, guard_one h, rfl, rfl⟩
      | done7 h =>
        exact ⟨by simpa [FddiConfig.Inv] using hq,
          ⟨fddiState 7 p2 1, act 'b', fddiState 0 p2 2, [6], [⟨2, .le, scale * 6⟩]⟩,
          m1 hq (.inr (.inl (List.mem_flatMap.2 ⟨p2, by simpa using hq, by simp⟩))), rfl, rfl, guard_one h, rfl, rfl⟩
    | @get2 p1 p2 p2' u u' hz h =>
      have hq : p1 = 0 ∨ p1 = 4 := by simp [FddiConfig.Inv] at hs; omega
      cases h with
      | late0 h =>
        exact ⟨by simpa [FddiConfig.Inv] using hq,
          ⟨fddiState p1 0 2, act 'c', fddiState p1 1 3, [3, 5], ⟨3, .ge, scale * 5⟩ :: fddiZero⟩,
          m1 hq (.inr (.inr (.inr (.inl (List.mem_flatMap.2 ⟨p1, by simpa using hq, by simp⟩))))), rfl, rfl,
          guard_cons h (guard_zero hz), rfl, rfl⟩
      | early0 h =>
        exact ⟨by simpa [FddiConfig.Inv] using hq,
          ⟨fddiState p1 0 2, act 'c', fddiState p1 2 3, [3, 5], ⟨3, .lt, scale * 5⟩ :: fddiZero⟩,
          m1 hq (.inr (.inr (.inr (.inl (List.mem_flatMap.2 ⟨p1, by simpa using hq, by simp⟩))))), rfl, rfl,
          guard_cons h (guard_zero hz), rfl, rfl⟩
      | late4 h =>
        exact ⟨by simpa [FddiConfig.Inv] using hq,
          ⟨fddiState p1 4 2, act 'c', fddiState p1 5 3, [3, 4], ⟨3, .ge, scale * 5⟩ :: fddiZero⟩,
          m1 hq (.inr (.inr (.inr (.inl (List.mem_flatMap.2 ⟨p1, by simpa using hq, by simp⟩))))), rfl, rfl,
          guard_cons h (guard_zero hz), rfl, rfl⟩
      | early4 h =>
        exact ⟨by simpa [FddiConfig.Inv] using hq,
          ⟨fddiState p1 4 2, act 'c', fddiState p1 6 3, [3, 4], ⟨3, .lt, scale * 5⟩ :: fddiZero⟩,
          m1 hq (.inr (.inr (.inr (.inl (List.mem_flatMap.2 ⟨p1, by simpa using hq, by simp⟩))))), rfl, rfl,
          guard_cons h (guard_zero hz), rfl, rfl⟩
    | @release2 p1 p2 p2' u u' h =>
      have hq : p1 = 0 ∨ p1 = 4 := by simp [FddiConfig.Inv] at hs; omega
      cases h with
      | done1 h =>
        exact ⟨by simpa [FddiConfig.Inv] using hq,
          ⟨fddiState p1 1 3, act 'd', fddiState p1 4 0, [6], [⟨3, .ge, scale⟩, ⟨3, .le, scale⟩]⟩,
          m1 hq (.inr (.inr (.inr (.inr (.inl (List.mem_flatMap.2 ⟨p1, by simpa using hq, by simp⟩)))))), rfl, rfl,
          guard_of_eq h, rfl, rfl⟩
      | done5 h =>
        exact ⟨by simpa [FddiConfig.Inv] using hq,
          ⟨fddiState p1 5 3, act 'd', fddiState p1 0 0, [6], [⟨3, .ge, scale⟩, ⟨3, .le, scale⟩]⟩,
          m1 hq (.inr (.inr (.inr (.inr (.inl (List.mem_flatMap.2 ⟨p1, by simpa using hq, by simp⟩)))))), rfl, rfl,
          guard_of_eq h, rfl, rfl⟩
      | done3 h =>
        exact ⟨by simpa [FddiConfig.Inv] using hq,
          ⟨fddiState p1 3 3, act 'd', fddiState p1 4 0, [6], [⟨4, .le, scale * 6⟩]⟩,
          m1 hq (.inr (.inr (.inr (.inr (.inl (List.mem_flatMap.2 ⟨p1, by simpa using hq, by simp⟩)))))), rfl, rfl,
          guard_one h, rfl, rfl⟩
      | done7 h =>
        exact ⟨by simpa [FddiConfig.Inv] using hq,
          ⟨fddiState p1 7 3, act 'd', fddiState p1 0 0, [6], [⟨5, .le, scale * 6⟩]⟩,
          m1 hq (.inr (.inr (.inr (.inr (.inl (List.mem_flatMap.2 ⟨p1, by simpa using hq, by simp⟩)))))), rfl, rfl,
          guard_one h, rfl, rfl⟩
    | @own1 p1 p2 r p1' u u' h =>
      cases h with
      | more2 h =>
        have hq : r = 1 ∧ (p2 = 0 ∨ p2 = 4) := by simp [FddiConfig.Inv] at hs; omega
        obtain ⟨rfl, hq⟩ := hq
        exact ⟨by simpa [FddiConfig.Inv] using hq,
          ⟨fddiState 2 p2 1, act 'e', fddiState 3 p2 1, [], [⟨0, .ge, scale⟩, ⟨0, .le, scale⟩]⟩,
          m1 hq (.inr (.inr (.inl (List.mem_flatMap.2 ⟨p2, by simpa using hq, by simp⟩)))), rfl, rfl, guard_of_eq h, rfl, rfl⟩
      | more6 h =>
        have hq : r = 1 ∧ (p2 = 0 ∨ p2 = 4) := by simp [FddiConfig.Inv] at hs; omega
        obtain ⟨rfl, hq⟩ := hq
        exact ⟨by simpa [FddiConfig.Inv] using hq,
          ⟨fddiState 6 p2 1, act 'e', fddiState 7 p2 1, [], [⟨0, .ge, scale⟩, ⟨0, .le, scale⟩]⟩,
          m1 hq (.inr (.inr (.inl (List.mem_flatMap.2 ⟨p2, by simpa using hq, by simp⟩)))), rfl, rfl, guard_of_eq h, rfl, rfl⟩
    | @own2 p1 p2 r p2' u u' h =>
      cases h with
      | more2 h =>
        have hq : r = 3 ∧ (p1 = 0 ∨ p1 = 4) := by simp [FddiConfig.Inv] at hs; omega
        obtain ⟨rfl, hq⟩ := hq
        exact ⟨by simpa [FddiConfig.Inv] using hq,
          ⟨fddiState p1 2 3, act 'e', fddiState p1 3 3, [], [⟨3, .ge, scale⟩, ⟨3, .le, scale⟩]⟩,
          m1 hq (.inr (.inr (.inr (.inr (.inr (List.mem_flatMap.2 ⟨p1, by simpa using hq, by simp⟩)))))), rfl, rfl,
          guard_of_eq h, rfl, rfl⟩
      | more6 h =>
        have hq : r = 3 ∧ (p1 = 0 ∨ p1 = 4) := by simp [FddiConfig.Inv] at hs; omega
        obtain ⟨rfl, hq⟩ := hq
        exact ⟨by simpa [FddiConfig.Inv] using hq,
          ⟨fddiState p1 6 3, act 'e', fddiState p1 7 3, [], [⟨3, .ge, scale⟩, ⟨3, .le, scale⟩]⟩,
          m1 hq (.inr (.inr (.inr (.inr (.inr (List.mem_flatMap.2 ⟨p1, by simpa using hq, by simp⟩)))))), rfl, rfl,
          guard_of_eq h, rfl, rfl⟩

end Fixture
end LearnTA
