import Verif.Lemmas.Ta2zaSem
import Verif.Lemmas.SimplifyZones

/-!
# Every state of the zone automaton is reached from an initial one
-/

namespace LearnTA
namespace Ta2za

/-- There is a path to every state, from an initial one. -/
def Paths (za : ZA) : Prop := ∀ i < za.states.length, ∃ q ∈ za.init, ∃ l, za.Path q l i

theorem path_mono {za za' : ZA} (h : ∀ i a, ∀ e ∈ (za.loc i).next a, e ∈ (za'.loc i).next a) {p q l}
    (hp : za.Path p l q) : za'.Path p l q := by
  induction hp with
  | nil => exact .nil _
  | cons a t j he _ ih => exact .cons a t j (h _ _ _ he) ih

theorem path_snoc {za : ZA} {p q l} (hp : za.Path p l q) {a : Action} {t : Trans} {j : ℕ} (he : (t, j) ∈ (za.loc q).next a) :
    ∃ l', za.Path p l' j :=
  ⟨_, ZA.Path.append hp (.cons a t j he (.nil j))⟩

variable {A : TA} {P : ℕ → Zone → Prop}

theorem addSuccessor_paths (o : HashOrder) (quick : Bool) {s : State} (h : Good A P s) {p : ℕ} (hp : p < s.za.states.length)
    (a : Action) (t : Trans) (z0 : Zone) (hr : Paths s.za) : Paths (addSuccessor A o quick p a s t z0).za := by
  unfold addSuccessor
  split
  · rename_i e he
    intro i hi
    obtain ⟨q, hq, l, hl⟩ := hr i hi
    exact ⟨q, hq, l, path_mono (fun i b e he => (addEdge_next ..).2 (.inl he)) hl⟩
  · have hmono : ∀ i b, ∀ e ∈ (s.za.loc i).next b,
        e ∈ ((((s.za.addNode A t.target (newZone A quick z0)).addEdge p a (t, s.za.states.length)).loc i)).next b := by
      intro i b e he
      rw [addEdge_next]
      left
      by_cases hi : i < s.za.states.length
      · rw [addNode_loc_lt _ _ _ _ _ hi]; exact he
      · rw [h.fresh i (by omega)] at he; cases he
    intro i hi
    simp only [addEdge_states, addNode_len] at hi
    by_cases hi' : i < s.za.states.length
    · obtain ⟨q, hq, l, hl⟩ := hr i hi'
      exact ⟨q, hq, l, path_mono hmono hl⟩
    · have : i = s.za.states.length := by omega
      subst this
      obtain ⟨q, hq, l, hl⟩ := hr p hp
      obtain ⟨l', hl'⟩ := path_snoc (path_mono hmono hl) (a := a) (t := t) (j := s.za.states.length)
        ((addEdge_next ..).2 (.inr ⟨rfl, rfl, rfl⟩))
      exact ⟨q, hq, l', hl'⟩

theorem path_congr {za za' : ZA} (h : za'.loc = za.loc) {p q l} (hp : za.Path p l q) : za'.Path p l q :=
  path_mono (fun i a e he => by rw [h]; exact he) hp

theorem edgeStep_paths (o : HashOrder) (quick : Bool) {s : State} (h : Good A P s) {p : ℕ} (hp : p < s.za.states.length)
    (now : Zone) (a : Action) (t : Trans) (hr : Paths s.za) : Paths (edgeStep A o quick p now a s t).za := by
  by_cases hd : s.done = true
  · rw [edgeStep_none _ _ _ _ _ _ _ _ (.inl hd)]; exact hr
  · rw [Bool.not_eq_true] at hd
    cases hz : succZone now t with
    | none => rw [edgeStep_none _ _ _ _ _ _ _ _ (.inr hz)]; exact hr
    | some z0 =>
      have hs := edgeStep_some A o quick p _ a s t z0 hd hz
      have hr' := addSuccessor_paths o quick h hp a t z0 hr
      intro i hi
      rw [hs.states] at hi
      obtain ⟨q, hq, l, hl⟩ := hr' i hi
      exact ⟨q, by rw [hs.init]; exact hq, l, path_congr hs.loc hl⟩

section
variable (o : HashOrder) (quick : Bool)
  (hP : ∀ p z, P p z → ∀ a, ∀ t ∈ (A.loc p).next a, ∀ z0, succZone z.elapse t = some z0 →
      P t.target (newZone A quick z0))
include hP

theorem edgeFold_paths {s : State} (h : Good A P s) {p : ℕ} (hp : p < s.za.states.length) {a : Action}
    (ts : List Trans) (hts : ∀ t ∈ ts, t ∈ (A.loc (s.za.loc p).ta).next a) (now : Zone)
    (hnow : now = (s.za.loc p).zone.elapse) (hr : Paths s.za) :
    Paths (ts.foldl (edgeStep A o quick p now a) s).za := by
  induction ts generalizing s with
  | nil => exact hr
  | cons t ts ih =>
    simp only [List.foldl_cons]
    subst hnow
    obtain ⟨g1, g2, -⟩ := edgeStep_spec o quick hP h hp (hts t List.mem_cons_self)
    exact ih g1 (hp.trans_le g2.len) (fun u hu => by rw [g2.ta p hp]; exact hts u (List.mem_cons_of_mem _ hu))
      (by rw [g2.zone p hp]) (edgeStep_paths o quick h hp _ a t hr)

theorem actFold_paths {s : State} (h : Good A P s) {p : ℕ} (hp : p < s.za.states.length)
    (as : List Action) (now : Zone)
    (hnow : now = (s.za.loc p).zone.elapse) (st : TAState) (hst : st = A.loc (s.za.loc p).ta) (hr : Paths s.za) :
    Paths (as.foldl (fun s a => (st.next a).foldl (edgeStep A o quick p now a) s) s).za := by
  induction as generalizing s with
  | nil => exact hr
  | cons a as ih =>
    simp only [List.foldl_cons]
    have hts : ∀ t ∈ st.next a, t ∈ (A.loc (s.za.loc p).ta).next a := fun t ht => by rw [hst] at ht; exact ht
    obtain ⟨g1, g2, -⟩ := edgeFold_spec o quick hP h hp (a := a) (st.next a) hts now hnow
    exact ih g1 (hp.trans_le g2.len) (by rw [g2.zone p hp]; exact hnow) (by rw [g2.ta p hp]; exact hst)
      (edgeFold_paths o quick hP h hp _ hts now hnow hr)

theorem loop_paths (fuel : ℕ) (s s' : State) (h : Inv A P quick s) (hr : Paths s.za)
    (hl : loop A o quick fuel s = some s') : Paths s'.za := by
  induction fuel generalizing s with
  | zero => simp [loop] at hl
  | succ fuel ih =>
    unfold loop at hl
    by_cases hd : s.done = true
    · rw [if_pos hd] at hl
      obtain rfl := Option.some.inj hl
      exact hr
    · rw [if_neg hd] at hl
      rw [Bool.not_eq_true] at hd
      split at hl
      · obtain rfl := Option.some.inj hl
        exact hr
      · rename_i p queue hq
        have hp : p < s.za.states.length := h.queue p (by simp [hq])
        have h1 : Good A P { s with queue := queue } :=
          ⟨h.states, h.init, h.initLen, h.initTa, h.initZone, h.node, h.acc, h.edge, h.fresh, h.map,
            fun i hi => h.queue i (by simp [hq, hi])⟩
        exact ih _ (expand_inv o quick hP hd hq h)
          (actFold_paths o quick hP (s := { s with queue := queue }) h1 hp _ _ rfl _ rfl hr) hl

end

theorem ta2za_paths (A : TA) (o : HashOrder) (quick : Bool) (fuel : ℕ) (za : ZA) (h : ta2za A o quick fuel = some za) :
    Paths za := by
  simp only [ta2za, Option.map_eq_some_iff] at h
  obtain ⟨s, hs, rfl⟩ := h
  have hi := (start_inv A (fun _ _ => True) quick (fun _ _ => trivial)).1
  refine loop_paths (P := fun _ _ => True) o quick (fun _ _ _ _ _ _ _ _ => trivial) fuel _ s hi ?_ hs
  intro i hi'
  refine ⟨i, ?_, [], .nil i⟩
  have e : (start A).za.init = (start A).za.states := rfl
  rw [e, hi.states]
  exact List.mem_range.2 hi'

/-- The result of `simplifyWithZones` can be simulated, if there is at most one initial state. -/
theorem _root_.LearnTA.TA.simplifyWithZones_startable {B : TA} (hA : A.WF) (hi : A.init.length ≤ 1) {o : HashOrder} {fuel : ℕ}
    (hab : ∀ za, ta2za A o false fuel = some za → za.Closed ∧ (∀ q ∈ za.init, (za.loc q).ta ∈ A.init) ∧
      TA.Abstracts za.removeDeadStates A) (h : A.simplifyWithZones o fuel = some B) : B.Startable := by
  unfold TA.simplifyWithZones at h
  obtain ⟨za, hza, rfl⟩ := Option.map_eq_some_iff.1 h
  obtain ⟨hc, hin, hab⟩ := hab za hza
  obtain ⟨k1, k2, -⟩ := TA.keepLive_eq hA hab
  by_cases hne : za.removeDeadStates.states = []
  · right
    rw [k1, List.filter_eq_nil_iff]
    intro p _
    simp [hne]
  · left
    obtain ⟨i, hi'⟩ := List.exists_mem_of_ne_nil _ hne
    obtain ⟨h1, l, j, hp, hm⟩ := (ZA.removeDead_states za hc i).1 hi'
    obtain ⟨s, rfl, hI, -⟩ := ta2za_inv A (fun _ _ => True) o false (fun _ _ => trivial) (fun _ _ _ _ _ _ _ _ => trivial)
      fuel _ hza
    have hpaths := ta2za_paths A o false fuel _ hza
    rw [hI.states, List.mem_range] at h1
    obtain ⟨q, hq, l', hl'⟩ := hpaths i h1
    have hqs : q ∈ s.za.removeDeadStates.states :=
      (ZA.removeDead_states _ hc q).2 ⟨hc.1 q hq, _, j, ZA.Path.append hl' hp, hm⟩
    have hmem : (s.za.loc q).ta ∈ (A.keepLive s.za.removeDeadStates).init := by
      rw [k2, List.mem_filter]
      refine ⟨hin q hq, ?_⟩
      simp only [decide_eq_true_eq]
      exact ⟨q, hqs, (ZA.removeDead_node _ q).2.1⟩
    have hlen : (A.keepLive s.za.removeDeadStates).init.length ≤ A.init.length := by
      rw [k2]; exact List.length_filter_le _ _
    have := List.length_pos_of_mem hmem
    omega

end Ta2za
end LearnTA
