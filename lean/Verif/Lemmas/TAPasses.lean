import Verif.Lemmas.TA
import Mathlib.Logic.Relation
import Mathlib.Data.List.Perm.Subperm

namespace LearnTA

/-! ### A simulation lemma for the runner -/

namespace Runner

/-- `B` behaves as `A` when each transition list of `B` is the image of that of `A` under `f`. -/
structure Sim (A B : TA) (f : Trans → Trans) (Q : Config → Config → Prop) : Prop where
  empty : A.states.isEmpty = B.states.isEmpty
  init : A.states.isEmpty = false → match A.init.head?, B.init.head? with
    | some p, some q => Q ⟨p, Valuation.zero⟩ ⟨q, Valuation.zero⟩
    | none, none => True
    | _, _ => False
  shift : ∀ c d q, Q c d → Q ⟨c.loc, c.val.shift q⟩ ⟨d.loc, d.val.shift q⟩
  isMatch : ∀ c d, Q c d → (A.loc c.loc).isMatch = (B.loc d.loc).isMatch
  next : ∀ c d, Q c d → ∀ a, (B.loc d.loc).next a = ((A.loc c.loc).next a).map f
  sat : ∀ c d, Q c d → ∀ a, ∀ t ∈ (A.loc c.loc).next a,
    (f t).guard.satisfy d.val = t.guard.satisfy c.val
  lower : ∀ c d, Q c d → ∀ t ∈ (A.loc c.loc).next unobservable,
    (f t).guard.lowerBoundDurationToSatisfy d.val = t.guard.lowerBoundDurationToSatisfy c.val
  jump : ∀ c d, Q c d → ∀ a, ∀ t ∈ (A.loc c.loc).next a,
    Q ⟨t.target, t.resets.apply c.val⟩ ⟨(f t).target, (f t).resets.apply d.val⟩

/-- Related runner states. -/
def Rel (Q : Config → Config → Prop) (r s : Runner) : Prop :=
  r.numQueries = s.numQueries ∧ match r.loc, s.loc with
    | some p, some q => Q ⟨p, r.val⟩ ⟨q, s.val⟩
    | none, none => True
    | _, _ => False

theorem epsCandidate_map (f : Trans → Trans) (v w : Valuation) (ts : List Trans)
    (h : ∀ t ∈ ts, (f t).guard.lowerBoundDurationToSatisfy w =
      t.guard.lowerBoundDurationToSatisfy v) :
    epsCandidate w (ts.map f) = (epsCandidate v ts).map (fun o => o.map fun p => (f p.1, p.2)) := by
  cases ts with
  | nil => rfl
  | cons t ts =>
    simp only [List.map_cons, epsCandidate]
    rw [h t (by simp)]
    cases t.guard.lowerBoundDurationToSatisfy v with
    | none => rfl
    | some b =>
      simp only
      have h' : ∀ t ∈ ts, (f t).guard.lowerBoundDurationToSatisfy w =
          t.guard.lowerBoundDurationToSatisfy v := fun t ht => h t (by simp [ht])
      have key : ∀ (ts : List Trans), (∀ t ∈ ts, (f t).guard.lowerBoundDurationToSatisfy w =
          t.guard.lowerBoundDurationToSatisfy v) →
          ∀ acc : Option (Option (Trans × Option Bound)),
          (ts.map f).foldl (fun acc t' =>
            match acc, t'.guard.lowerBoundDurationToSatisfy w with
            | some (some (u, bu)), some b' =>
              if ltOpt b' bu then some (some (t', b')) else some (some (u, bu))
            | _, _ => none) (acc.map fun o => o.map fun p => (f p.1, p.2)) =
          (ts.foldl (fun acc t' =>
            match acc, t'.guard.lowerBoundDurationToSatisfy v with
            | some (some (u, bu)), some b' =>
              if ltOpt b' bu then some (some (t', b')) else some (some (u, bu))
            | _, _ => none) acc).map (fun o => o.map fun p => (f p.1, p.2)) := by
        intro ts
        induction ts with
        | nil => intro _ acc; rfl
        | cons t ts ih =>
          intro h acc
          simp only [List.map_cons, List.foldl_cons]
          rw [← ih (fun t ht => h t (by simp [ht])), h t (by simp)]
          congr 1
          rcases acc with _ | _ | ⟨u, bu⟩
          · simp
          · simp
          · simp only [Option.map_some]
            cases t.guard.lowerBoundDurationToSatisfy v with
            | none => rfl
            | some b' => simp only; split <;> simp
      exact key ts h' (some (some (t, b)))

theorem epsCandidate_mem (v : Valuation) (ts : List Trans) (t : Trans) (b : Option Bound)
    (h : epsCandidate v ts = some (some (t, b))) :
    t ∈ ts ∧ t.guard.lowerBoundDurationToSatisfy v = some b := by
  cases ts with
  | nil => simp [epsCandidate] at h
  | cons t0 ts =>
    simp only [epsCandidate] at h
    cases hb : t0.guard.lowerBoundDurationToSatisfy v with
    | none => rw [hb] at h; simp at h
    | some b0 =>
      rw [hb] at h
      simp only at h
      have key : ∀ (ts : List Trans) (acc : Option (Option (Trans × Option Bound))),
          (∀ u bu, acc = some (some (u, bu)) →
            u ∈ t0 :: ts ∧ u.guard.lowerBoundDurationToSatisfy v = some bu) →
          ∀ (L : List Trans), (∀ x ∈ L, x ∈ t0 :: ts) →
          ∀ u bu, L.foldl (fun acc t' =>
            match acc, t'.guard.lowerBoundDurationToSatisfy v with
            | some (some (u, bu)), some b' =>
              if ltOpt b' bu then some (some (t', b')) else some (some (u, bu))
            | _, _ => none) acc = some (some (u, bu)) →
          u ∈ t0 :: ts ∧ u.guard.lowerBoundDurationToSatisfy v = some bu := by
        intro ts acc hacc L
        induction L generalizing acc with
        | nil => intro _ u bu h; exact hacc u bu h
        | cons x L ih =>
          intro hL u bu h
          rw [List.foldl_cons] at h
          refine ih _ ?_ (fun y hy => hL y (by simp [hy])) u bu h
          intro u' bu' e
          rcases acc with _ | _ | ⟨w, bw⟩
          · simp at e
          · simp at e
          · cases hx : x.guard.lowerBoundDurationToSatisfy v with
            | none => rw [hx] at e; simp at e
            | some b' =>
              rw [hx] at e
              simp only at e
              split at e
              · simp at e; obtain ⟨rfl, rfl⟩ := e
                exact ⟨hL x (by simp), hx⟩
              · exact hacc u' bu' e
      exact key ts (some (some (t0, b0)))
        (by intro u bu e; simp at e; obtain ⟨rfl, rfl⟩ := e; exact ⟨by simp, hb⟩)
        ts (fun x hx => by simp [hx]) t b h

theorem Sim.stepAct {A B : TA} {f Q} (h : Sim A B f Q) {r s : Runner} (hrs : Rel Q r s)
    (a : Action) :
    Rel Q (stepAct A r a).1 (stepAct B s a).1 ∧ (stepAct A r a).2 = (stepAct B s a).2 := by
  unfold Runner.stepAct
  rw [← h.empty]
  split
  · exact ⟨hrs, rfl⟩
  · obtain ⟨hq, hrs'⟩ := hrs
    cases hr : r.loc with
    | none =>
      cases hs : s.loc with
      | none => simp only; exact ⟨⟨hq, by rw [hr, hs]; trivial⟩, trivial⟩
      | some q => rw [hr, hs] at hrs'; exact hrs'.elim
    | some p =>
      cases hs : s.loc with
      | none => rw [hr, hs] at hrs'; exact hrs'.elim
      | some q =>
        rw [hr, hs] at hrs'
        simp only at hrs' ⊢
        have hn := h.next _ _ hrs' a
        simp only at hn
        rw [hn, List.find?_map]
        have hcomp : ((A.loc p).next a).find? ((fun t => t.guard.satisfy s.val) ∘ f) =
            ((A.loc p).next a).find? (fun t => t.guard.satisfy r.val) := by
          have hsat := h.sat _ _ hrs' a
          simp only at hsat
          generalize (A.loc p).next a = ts at hsat
          induction ts with
          | nil => rfl
          | cons t ts ih =>
            have := hsat t (by simp)
            simp only [List.find?_cons, Function.comp, this]
            rw [← ih (fun t ht => hsat t (by simp [ht]))]
        rw [hcomp]
        cases hf : ((A.loc p).next a).find? (fun t => t.guard.satisfy r.val) with
        | none => simp [Rel, hq]
        | some t =>
          have hj := h.jump _ _ hrs' a t (List.mem_of_find?_eq_some hf)
          simp only [Option.map_some]
          exact ⟨⟨hq, hj⟩, h.isMatch _ _ hj⟩

theorem Sim.stepDelay {A B : TA} {f Q} (h : Sim A B f Q) (fuel : ℕ) {r s : Runner}
    (hrs : Rel Q r s) (d : ℚ) :
    Option.Rel (fun p q : Runner × Bool => Rel Q p.1 q.1 ∧ p.2 = q.2)
      (Runner.stepDelay A fuel r d) (Runner.stepDelay B fuel s d) := by
  induction fuel generalizing r s d with
  | zero => exact .none
  | succ fuel ih =>
    unfold Runner.stepDelay
    rw [← h.empty]
    by_cases hem : A.states.isEmpty = true
    · rw [if_pos hem, if_pos hem]; exact .some ⟨hrs, rfl⟩
    rw [if_neg hem, if_neg hem]
    obtain ⟨hq, hrs'⟩ := hrs
    cases hr : r.loc with
    | none =>
      cases hs : s.loc with
      | none => exact .some ⟨⟨hq, by rw [hr, hs]; trivial⟩, rfl⟩
      | some q => rw [hr, hs] at hrs'; exact hrs'.elim
    | some p =>
      cases hs : s.loc with
      | none => rw [hr, hs] at hrs'; exact hrs'.elim
      | some q =>
        rw [hr, hs] at hrs'
        simp only at hrs' ⊢
        have hm := h.isMatch _ _ hrs'
        simp only at hm
        have hshift : ∀ x, Rel Q { r with val := r.val.shift x } { s with val := s.val.shift x } :=
          fun x => ⟨hq, by simp only [hr, hs]; exact h.shift _ _ x hrs'⟩
        by_cases hd : d = 0
        · rw [if_pos hd, if_pos hd]
          exact .some ⟨⟨hq, by rw [hr, hs]; exact hrs'⟩, hm⟩
        rw [if_neg hd, if_neg hd]
        have hn := h.next _ _ hrs' unobservable
        simp only at hn
        have hl := h.lower _ _ hrs'
        simp only at hl
        rw [hn, epsCandidate_map f r.val s.val _ hl]
        cases hc : epsCandidate r.val ((A.loc p).next unobservable) with
        | none => exact .none
        | some o =>
          rcases o with _ | ⟨t, _ | b⟩
          · simp only [Option.map_some, Option.map_none]
            exact .some ⟨by have := hshift d; rw [hr, hs] at this; exact this, hm⟩
          · simp only [Option.map_some]
            exact .some ⟨by have := hshift d; rw [hr, hs] at this; exact this, hm⟩
          · have hmem := (epsCandidate_mem _ _ _ _ hc).1
            cases b with
            | inf => 
              simp only [Option.map_some]
              exact .some ⟨by have := hshift d; rw [hr, hs] at this; exact this, hm⟩
            | fin m st =>
              simp only [Option.map_some]
              by_cases hcond : m ≤ 0 ∧ Bound.fin (-d) true ≤ Bound.fin m st
              · rw [if_pos hcond, if_pos hcond]
                refine ih (r := ⟨some t.target, _, r.numQueries⟩) (s := ⟨some (f t).target, _, s.numQueries⟩)
                  ⟨hq, ?_⟩ _
                exact h.jump _ _ (h.shift _ _ (-m) hrs') _ t hmem
              · rw [if_neg hcond, if_neg hcond]
                exact .some ⟨by have := hshift d; rw [hr, hs] at this; exact this, hm⟩

theorem Sim.pre {A B : TA} {f Q} (h : Sim A B f Q) {r s : Runner} (hrs : Rel Q r s) :
    Rel Q (Runner.pre A r) (Runner.pre B s) := by
  unfold Runner.pre
  rw [← h.empty]
  by_cases hem : A.states.isEmpty = true
  · rw [if_pos hem, if_pos hem]; exact ⟨by simp [hrs.1], hrs.2⟩
  · rw [if_neg hem, if_neg hem]
    exact ⟨by simp [hrs.1], h.init (by simpa using hem)⟩

theorem Sim.start {A B : TA} {f Q} (h : Sim A B f Q) : Rel Q (Runner.start A) (Runner.start B) := by
  refine ⟨rfl, ?_⟩
  simp only [Runner.start]
  rw [← h.empty]
  by_cases hem : A.states.isEmpty = true
  · rw [if_pos hem, if_pos hem]; trivial
  · rw [if_neg hem, if_neg hem]
    exact h.init (by simpa using hem)

theorem Sim.call {A B : TA} {f Q} (h : Sim A B f Q) (fuel : ℕ) {r s : Runner} (hrs : Rel Q r s)
    (c : Call) :
    Option.Rel (fun p q : Runner × Option Bool => Rel Q p.1 q.1 ∧ p.2 = q.2)
      (Runner.call A fuel r c) (Runner.call B fuel s c) := by
  cases c with
  | pre => exact .some ⟨h.pre hrs, rfl⟩
  | post => exact .some ⟨hrs, rfl⟩
  | act a =>
    have := h.stepAct hrs a
    exact .some ⟨this.1, by simp [this.2]⟩
  | delay d =>
    have := h.stepDelay fuel hrs d
    simp only [Runner.call]
    cases hr : Runner.stepDelay A fuel r d <;> cases hs : Runner.stepDelay B fuel s d <;>
      rw [hr, hs] at this
    · exact .none
    · cases this
    · cases this
    · cases this with
      | some this => exact .some ⟨this.1, by simp [this.2]⟩

/-- All returned values are the same. -/
theorem Sim.calls {A B : TA} {f Q} (h : Sim A B f Q) (fuel : ℕ) (cs : List Call) {r s : Runner}
    (hrs : Rel Q r s) :
    (Runner.calls A fuel r cs).map (fun p => (p.2, p.1.numQueries)) =
      (Runner.calls B fuel s cs).map (fun p => (p.2, p.1.numQueries)) := by
  induction cs generalizing r s with
  | nil => simp [Runner.calls, hrs.1]
  | cons c cs ih =>
    have := h.call fuel hrs c
    unfold Runner.calls
    cases hr : Runner.call A fuel r c <;> cases hs : Runner.call B fuel s c <;>
      rw [hr, hs] at this
    · cases this
    · cases this
    · rename_i p q
      cases this with
      | some this =>
        have e := ih this.1
        simp only [Option.map_map]
        rw [this.2]
        cases ha : Runner.calls A fuel p.1 cs <;> cases hb : Runner.calls B fuel q.1 cs <;>
          rw [ha, hb] at e <;> simp at e ⊢
        exact e

end Runner
end LearnTA
