import Verif.Spec.ZA
import Verif.Lemmas.TAReach

namespace LearnTA
namespace ZA

theorem mem_succs (za : ZA) (p q : ℕ) :
    q ∈ za.succs p ↔ ∃ a, ∃ e ∈ (za.loc p).next a, e.2 = q := by
  simp only [succs, List.mem_flatMap, List.mem_map]
  constructor
  · rintro ⟨a, _, e, he, rfl⟩; exact ⟨a, e, he, rfl⟩
  · rintro ⟨a, e, he, rfl⟩; exact ⟨a, mem_allActions a, e, he, rfl⟩

/-- An accepting state can be reached. -/
def Live (za : ZA) (p : ℕ) : Prop := ∃ l q, za.Path p l q ∧ (za.loc q).isMatch = true

theorem Path.mem {za : ZA} (hc : za.Closed) {p q l} (h : za.Path p l q) (hp : p ∈ za.states) :
    q ∈ za.states := by
  induction h with
  | nil => exact hp
  | cons a t j he _ ih => exact ih (hc.2 _ hp a _ he)

theorem Path.append {za : ZA} {p q r l l'} (h : za.Path p l q) (h' : za.Path q l' r) :
    za.Path p (l ++ l') r := by
  induction h with
  | nil => exact h'
  | cons a t j he _ ih => exact .cons a t j he (ih h')

theorem mem_liveStates (za : ZA) (p : ℕ) (hp : p ∈ za.states) (hc : za.Closed) :
    p ∈ za.liveStates ↔ za.Live p := by
  have := TA.bfs_spec za.preds za.states (za.states.filter fun p => (za.loc p).isMatch)
    (fun x _ y hy => (List.mem_filter.1 hy).1) (fun x hx => (List.mem_filter.1 hx).1) p
  unfold liveStates
  rw [this]
  constructor
  · rintro ⟨q, hq, hr⟩
    rw [List.mem_filter] at hq
    clear this
    suffices h : ∃ l, za.Path p l q from ⟨h.choose, q, h.choose_spec, hq.2⟩
    induction hr with
    | refl => exact ⟨[], .nil _⟩
    | @tail b c hr hb ih =>
      simp only [preds, List.mem_filter, decide_eq_true_eq] at hb
      obtain ⟨a, e, he, rfl⟩ := (mem_succs za _ _).1 hb.2
      obtain ⟨l, hl⟩ := ih (hc.2 _ hp a e he)
      exact ⟨_, .cons a e.1 e.2 he hl⟩
  · rintro ⟨l, q, hr, hm⟩
    have hq : q ∈ za.states := hr.mem hc hp
    refine ⟨q, by simp [hq, hm], ?_⟩
    clear this hm hq
    induction hr with
    | nil => exact .refl
    | @cons p l q a t j he _ ih =>
      refine (ih (hc.2 _ hp a _ he)).tail ?_
      simp only [preds, List.mem_filter, decide_eq_true_eq]
      exact ⟨hp, (mem_succs za _ _).2 ⟨a, _, he, rfl⟩⟩

theorem liveStates_perm (za : ZA) (h : ¬ za.liveStates.length ≠ za.states.length) :
    za.liveStates.Perm za.states := by
  have hnd : za.liveStates.Nodup :=
    TA.bfs_nodup za.preds za.states (za.states.filter fun p => (za.loc p).isMatch)
      (fun x _ y hy => (List.mem_filter.1 hy).1) (fun x hx => (List.mem_filter.1 hx).1)
  have hsub : ∀ p ∈ za.liveStates, p ∈ za.states := by
    intro p hp
    have := (TA.bfs_spec za.preds za.states (za.states.filter fun p => (za.loc p).isMatch)
      (fun x _ y hy => (List.mem_filter.1 hy).1) (fun x hx => (List.mem_filter.1 hx).1) p).1 hp
    obtain ⟨q, hq, hr⟩ := this
    induction hr with
    | refl => exact (List.mem_filter.1 hq).1
    | tail _ hb _ => exact (List.mem_filter.1 hb).1
  exact (hnd.subperm hsub).perm_of_length_le (by omega)

theorem removeDead_states (za : ZA) (hc : za.Closed) (p : ℕ) :
    p ∈ za.removeDeadStates.states ↔ p ∈ za.states ∧ za.Live p := by
  unfold removeDeadStates
  simp only
  split
  · simp only [List.mem_filter, decide_eq_true_eq]
    exact ⟨fun h => ⟨h.1, (mem_liveStates za p h.1 hc).1 h.2⟩,
      fun h => ⟨h.1, (mem_liveStates za p h.1 hc).2 h.2⟩⟩
  · rename_i h
    refine ⟨fun hp => ⟨hp, (mem_liveStates za p hp hc).1 ?_⟩, fun h => h.1⟩
    exact (liveStates_perm za h).mem_iff.2 hp

theorem removeDead_init (za : ZA) (hc : za.Closed) (p : ℕ) :
    p ∈ za.removeDeadStates.init ↔ p ∈ za.init ∧ za.Live p := by
  unfold removeDeadStates
  simp only
  split
  · simp only [List.mem_filter, decide_eq_true_eq]
    exact ⟨fun h => ⟨h.1, (mem_liveStates za p (hc.1 p h.1) hc).1 h.2⟩,
      fun h => ⟨h.1, (mem_liveStates za p (hc.1 p h.1) hc).2 h.2⟩⟩
  · rename_i h
    refine ⟨fun hp => ⟨hp, (mem_liveStates za p (hc.1 p hp) hc).1 ?_⟩, fun h => h.1⟩
    exact (liveStates_perm za h).mem_iff.2 (hc.1 p hp)

theorem removeDead_node (za : ZA) (p : ℕ) : (za.removeDeadStates.loc p).isMatch = (za.loc p).isMatch ∧
    (za.removeDeadStates.loc p).ta = (za.loc p).ta ∧
    (za.removeDeadStates.loc p).zone = (za.loc p).zone := by
  unfold removeDeadStates
  simp only
  split
  · simp only; split <;> exact ⟨rfl, rfl, rfl⟩
  · exact ⟨rfl, rfl, rfl⟩

theorem removeDead_next (za : ZA) (hc : za.Closed) {p : ℕ} (hp : p ∈ za.removeDeadStates.states)
    (a : Action) (e : Trans × ℕ) : e ∈ (za.removeDeadStates.loc p).next a ↔
      e ∈ (za.loc p).next a ∧ za.Live e.2 := by
  have hps := ((removeDead_states za hc p).1 hp).1
  unfold removeDeadStates at hp ⊢
  simp only at hp ⊢
  by_cases hlen : za.liveStates.length ≠ za.states.length
  · rw [if_pos hlen] at hp ⊢
    simp only [List.mem_filter, decide_eq_true_eq] at hp ⊢
    rw [if_pos hp]
    simp only [List.mem_filter, decide_eq_true_eq]
    exact ⟨fun h => ⟨h.1, (mem_liveStates za _ (hc.2 p hps a e h.1) hc).1 h.2⟩,
      fun h => ⟨h.1, (mem_liveStates za _ (hc.2 p hps a e h.1) hc).2 h.2⟩⟩
  · rw [if_neg hlen]
    refine ⟨fun he => ⟨he, (mem_liveStates za _ (hc.2 p hps a e he) hc).1 ?_⟩, fun h => h.1⟩
    exact (liveStates_perm za hlen).mem_iff.2 (hc.2 p hps a e he)

theorem removeDead_path (za : ZA) (hc : za.Closed) {p : ℕ} (hp : p ∈ za.removeDeadStates.states)
    (l : List (Action × Trans)) (q : ℕ) : za.removeDeadStates.Path p l q ↔ za.Path p l q ∧ za.Live q := by
  constructor
  · intro h
    induction h with
    | nil p => exact ⟨.nil p, ((removeDead_states za hc p).1 hp).2⟩
    | @cons p l q a t j he hr ih =>
      obtain ⟨h1, h2⟩ := (removeDead_next za hc hp a _).1 he
      have hps := ((removeDead_states za hc p).1 hp).1
      obtain ⟨h3, h4⟩ := ih ((removeDead_states za hc j).2 ⟨hc.2 p hps a _ h1, h2⟩)
      exact ⟨.cons a t j h1 h3, h4⟩
  · rintro ⟨h, hl⟩
    induction h with
    | nil p => exact .nil p
    | @cons p l q a t j he hr ih =>
      have hps := ((removeDead_states za hc p).1 hp).1
      have hj : za.Live j := by
        obtain ⟨l', r, h1, h2⟩ := hl
        exact ⟨l ++ l', r, hr.append h1, h2⟩
      exact .cons a t j ((removeDead_next za hc hp a _).2 ⟨he, hj⟩)
        (ih ((removeDead_states za hc j).2 ⟨hc.2 p hps a _ he, hj⟩) hl)

/-! ### `sample` -/

/-- The zones along a sequence of transitions. -/
def _root_.LearnTA.SymRun.tights : Zone → List Trans → List Zone
  | z, [] => [z]
  | z, t :: ts => z :: tights (SymRun.postZone z t) ts

theorem tights_ne (z : Zone) (ts : List Trans) : SymRun.tights z ts ≠ [] := by
  cases ts <;> simp [SymRun.tights]

theorem tights_snoc (z : Zone) (ts : List Trans) (t : Trans) :
    SymRun.tights z (ts ++ [t]) = SymRun.tights z ts ++ [(ts ++ [t]).foldl SymRun.postZone z] ∧
    (SymRun.tights z ts).getLastD (Zone.zero 1) = ts.foldl SymRun.postZone z := by
  induction ts generalizing z with
  | nil => exact ⟨rfl, rfl⟩
  | cons t' ts ih =>
    obtain ⟨h1, h2⟩ := ih (SymRun.postZone z t')
    constructor
    · simp only [List.cons_append, SymRun.tights, h1, List.foldl_cons]
    · simp only [SymRun.tights, List.foldl_cons]
      rw [← h2]
      have := tights_ne (SymRun.postZone z t') ts
      cases h : SymRun.tights (SymRun.postZone z t') ts with
      | nil => exact absurd h this
      | cons a l => simp

/-- The run follows a path from an initial state. -/
def RunOK (za : ZA) (r : SymRun) : Prop :=
  ∃ i ∈ za.init, ∃ q, r.states.getLastD 0 = q ∧
    (r.word.length = r.edges.length ∧ r.tight.length = r.edges.length + 1 ∧
      r.tight = SymRun.tights (za.loc i).zone r.edges) ∧
    za.Path i (r.word.zip r.edges) q

theorem runOK_push {za : ZA} {r : SymRun} (h : za.RunOK r) {a : Action} {e : Trans × ℕ}
    (he : e ∈ (za.loc (r.states.getLastD 0)).next a) : za.RunOK (r.push e.1 a e.2) := by
  obtain ⟨i, hi, q, h1, h2, h3⟩ := h
  refine ⟨i, hi, e.2, by simp [SymRun.push], ⟨by simp [SymRun.push, h2.1],
    by simp [SymRun.push, h2.2.1], ?_⟩, ?_⟩
  · simp only [SymRun.push]
    rw [(tights_snoc _ _ _).1, List.foldl_append, List.foldl_cons, List.foldl_nil, ← h2.2.2]
    congr 2
    rw [h2.2.2, (tights_snoc _ r.edges e.1).2]
  simp only [SymRun.push]
  rw [List.zip_append h2.1]
  refine h3.append ?_
  rw [h1] at he
  exact .cons a e.1 e.2 he (.nil _)

theorem searchRun_ok {za : ZA} {run : SymRun} (h : za.RunOK run) (s : Search)
    (hs : ∀ r ∈ s.nextRuns, za.RunOK r) : ∀ r ∈ (za.searchRun run s).nextRuns, za.RunOK r := by
  unfold searchRun
  generalize charActions = as
  induction as generalizing s with
  | nil => exact hs
  | cons a as ih =>
    simp only [List.foldl_cons]
    apply ih
    have : ∀ (es : List (Trans × ℕ)) (s : Search),
        (∀ e ∈ es, e ∈ (za.loc (run.states.getLastD 0)).next a) →
        (∀ r ∈ s.nextRuns, za.RunOK r) →
        ∀ r ∈ (es.foldl (searchEdge run a) s).nextRuns, za.RunOK r := by
      intro es
      induction es with
      | nil => intro s _ hs; exact hs
      | cons e es ih =>
        intro s he hs
        simp only [List.foldl_cons]
        apply ih _ (fun e' h' => he e' (List.mem_cons_of_mem _ h'))
        unfold searchEdge
        split
        · exact hs
        · intro r hr
          simp only [List.mem_append, List.mem_singleton] at hr
          rcases hr with hr | rfl
          · exact hs r hr
          · exact runOK_push h (he e List.mem_cons_self)
    exact this _ s (fun e he => he) hs

theorem searchRound_ok {za : ZA} (runs : List SymRun) (s : Search) (hr : ∀ r ∈ runs, za.RunOK r)
    (hs : ∀ r ∈ s.nextRuns, za.RunOK r) :
    match za.searchRound runs s with
    | .inl w => ∃ r, za.RunOK r ∧ (za.loc (r.states.getLastD 0)).isMatch = true ∧
        r.reconstructWord = some w
    | .inr s' => ∀ r ∈ s'.nextRuns, za.RunOK r := by
  induction runs generalizing s with
  | nil => exact hs
  | cons run runs ih =>
    unfold searchRound
    have hrun := hr run List.mem_cons_self
    cases hw : (if (za.loc (run.states.getLastD 0)).isMatch then run.reconstructWord else none) with
    | some w =>
      simp only
      split at hw
      · rename_i hm; exact ⟨run, hrun, hm, hw⟩
      · cases hw
    | none =>
      exact ih _ (fun r h => hr r (List.mem_cons_of_mem _ h)) (searchRun_ok hrun s hs)

theorem searchLoop_ok {za : ZA} (fuel : ℕ) (runs : List SymRun) (visited : List ℕ)
    (hr : ∀ r ∈ runs, za.RunOK r) (w : TimedWord) (h : za.searchLoop fuel runs visited = some w) :
    ∃ r, za.RunOK r ∧ (za.loc (r.states.getLastD 0)).isMatch = true ∧ r.reconstructWord = some w := by
  induction fuel generalizing runs visited with
  | zero => simp [searchLoop] at h
  | succ fuel ih =>
    unfold searchLoop at h
    split at h
    · cases h
    · have := searchRound_ok runs ⟨visited, []⟩ hr (by simp)
      cases hs : za.searchRound runs ⟨visited, []⟩ with
      | inl w' =>
        rw [hs] at h this
        simp only [Option.some.injEq] at h
        subst h; exact this
      | inr s =>
        rw [hs] at h this
        exact ih _ _ this h

theorem sample_ok {za : ZA} (w : TimedWord) (h : za.sample = some w) :
    ∃ r, za.RunOK r ∧ (za.loc (r.states.getLastD 0)).isMatch = true ∧ r.reconstructWord = some w := by
  refine searchLoop_ok _ _ _ ?_ w h
  intro r hr
  simp only [List.mem_map] at hr
  obtain ⟨q, hq, rfl⟩ := hr
  exact ⟨q, hq, q, rfl, ⟨rfl, rfl, rfl⟩, .nil q⟩

theorem backLoop_length (l : List (Zone × Trans)) (post ds ds' : List ℚ)
    (h : SymRun.backLoop l post ds = some ds') : ds'.length = l.length + ds.length := by
  induction l generalizing post ds with
  | nil => simp only [SymRun.backLoop, Option.some.injEq] at h; subst h; simp
  | cons p l ih =>
    obtain ⟨z, t⟩ := p
    unfold SymRun.backLoop at h
    cases hb : SymRun.backStep z t post with
    | none => rw [hb] at h; cases h
    | some q =>
      rw [hb] at h
      have := ih _ _ h
      simp only [List.length_cons] at this ⊢
      omega

theorem reconstruct_shape (r : SymRun) (ht : r.word.length = r.edges.length ∧
    r.tight.length = r.edges.length + 1) (w : TimedWord) (h : r.reconstructWord = some w) :
    ∃ ds, ds.length = r.word.length + 1 ∧ w = TimedWord.make r.word ds := by
  unfold SymRun.reconstructWord at h
  simp only at h
  split at h
  · cases h
  · simp only [Option.map_eq_some_iff] at h
    obtain ⟨ds, h1, rfl⟩ := h
    refine ⟨_, ?_, rfl⟩
    have := backLoop_length _ _ _ _ h1
    simp only [List.length_reverse, List.length_zip, List.length_nil, List.length_append,
      List.length_singleton] at this ⊢
    omega

theorem make_word (word : List Action) (ds : List ℚ) (h : ds.length = word.length + 1) :
    (TimedWord.make word ds).word = word.filter (· ≠ unobservable) := by
  have : ∀ (ps : List (Action × ℚ)) (s : List Action × List ℚ),
      (ps.foldl TimedWord.absorbStep s).1 = s.1 ++ (ps.map Prod.fst).filter (· ≠ unobservable) := by
    intro ps
    induction ps with
    | nil => intro s; simp
    | cons p ps ih =>
      intro s
      simp only [List.foldl_cons]
      rw [ih]
      unfold TimedWord.absorbStep
      by_cases hp : p.1 = unobservable
      · simp [hp]
      · simp [hp]
  unfold TimedWord.make
  simp only
  rw [this, List.map_fst_zip (by simp; omega)]
  simp

/-- The search visits every state at most once: the bound on the number of rounds is no
restriction. -/
structure VisitOK (za : ZA) (visited : List ℕ) : Prop where
  nodup : visited.Nodup
  sub : ∀ q ∈ visited, q ∈ za.states

theorem searchRun_visit {za : ZA} (hc : za.Closed) {run : SymRun}
    (hrun : run.states.getLastD 0 ∈ za.states) (s : Search) (hs : za.VisitOK s.visited)
    (hn : ∀ r ∈ s.nextRuns, r.states.getLastD 0 ∈ za.states) :
    let s' := za.searchRun run s
    za.VisitOK s'.visited ∧ s'.visited.length = s.visited.length + (s'.nextRuns.length - s.nextRuns.length) ∧
    s.nextRuns.length ≤ s'.nextRuns.length ∧
    (∀ r ∈ s'.nextRuns, r.states.getLastD 0 ∈ za.states) := by
  intro s'
  have h1 : ∀ (es : List (Trans × ℕ)) (a : Action) (s : Search), (∀ e ∈ es, e.2 ∈ za.states) →
      za.VisitOK s.visited → (∀ r ∈ s.nextRuns, r.states.getLastD 0 ∈ za.states) →
      za.VisitOK (es.foldl (searchEdge run a) s).visited ∧
      (es.foldl (searchEdge run a) s).visited.length + s.nextRuns.length =
        s.visited.length + (es.foldl (searchEdge run a) s).nextRuns.length ∧
      s.nextRuns.length ≤ (es.foldl (searchEdge run a) s).nextRuns.length ∧
      ∀ r ∈ (es.foldl (searchEdge run a) s).nextRuns, r.states.getLastD 0 ∈ za.states := by
    intro es a
    induction es with
    | nil => intro s _ h hn; exact ⟨h, rfl, le_refl _, hn⟩
    | cons e es ih =>
      intro s he h hn
      simp only [List.foldl_cons]
      have hstep : za.VisitOK (searchEdge run a s e).visited ∧
          (searchEdge run a s e).visited.length + s.nextRuns.length =
            s.visited.length + (searchEdge run a s e).nextRuns.length ∧
          s.nextRuns.length ≤ (searchEdge run a s e).nextRuns.length ∧
          ∀ r ∈ (searchEdge run a s e).nextRuns, r.states.getLastD 0 ∈ za.states := by
        unfold searchEdge
        split
        · exact ⟨h, rfl, le_refl _, hn⟩
        · rename_i hnv
          refine ⟨⟨?_, ?_⟩, by simp; omega, by simp, ?_⟩
          · simp only [List.nodup_append]
            refine ⟨h.nodup, by simp, fun x hx y hy => ?_⟩
            simp only [List.mem_singleton] at hy
            subst hy; rintro rfl; exact hnv hx
          · intro q hq
            simp only [List.mem_append, List.mem_singleton] at hq
            rcases hq with hq | rfl
            · exact h.sub q hq
            · exact he e List.mem_cons_self
          · intro r hr
            simp only [List.mem_append, List.mem_singleton] at hr
            rcases hr with hr | rfl
            · exact hn r hr
            · simpa [SymRun.push] using he e List.mem_cons_self
      obtain ⟨k1, k2, k3, k4⟩ := hstep
      obtain ⟨l1, l2, l3, l4⟩ := ih _ (fun e' h' => he e' (List.mem_cons_of_mem _ h')) k1 k4
      exact ⟨l1, by omega, by omega, l4⟩
  have h2 : ∀ (as : List Action) (s : Search), za.VisitOK s.visited →
      (∀ r ∈ s.nextRuns, r.states.getLastD 0 ∈ za.states) →
      let f := as.foldl (fun s a => ((za.loc (run.states.getLastD 0)).next a).foldl (searchEdge run a) s) s
      za.VisitOK f.visited ∧ f.visited.length + s.nextRuns.length =
        s.visited.length + f.nextRuns.length ∧ s.nextRuns.length ≤ f.nextRuns.length ∧
      ∀ r ∈ f.nextRuns, r.states.getLastD 0 ∈ za.states := by
    intro as
    induction as with
    | nil => intro s h hn; exact ⟨h, rfl, le_refl _, hn⟩
    | cons a as ih =>
      intro s h hn
      obtain ⟨k1, k2, k3, k4⟩ := h1 ((za.loc (run.states.getLastD 0)).next a) a s
        (fun e he => hc.2 _ hrun a e he) h hn
      obtain ⟨l1, l2, l3, l4⟩ := ih _ k1 k4
      exact ⟨l1, by simp only [List.foldl_cons]; omega, by simp only [List.foldl_cons]; omega, l4⟩
  obtain ⟨k1, k2, k3, k4⟩ := h2 charActions s hs hn
  refine ⟨k1, ?_, k3, k4⟩
  change _ + _ = _ + s'.nextRuns.length at k2
  have : s'.visited.length + s.nextRuns.length = s.visited.length + s'.nextRuns.length := k2
  have k3' : s.nextRuns.length ≤ s'.nextRuns.length := k3
  omega

theorem searchRound_visit {za : ZA} (hc : za.Closed) (runs : List SymRun) (s s' : Search)
    (hr : ∀ r ∈ runs, r.states.getLastD 0 ∈ za.states) (hs : za.VisitOK s.visited)
    (hn : ∀ r ∈ s.nextRuns, r.states.getLastD 0 ∈ za.states)
    (h : za.searchRound runs s = .inr s') :
    za.VisitOK s'.visited ∧ s'.visited.length = s.visited.length + (s'.nextRuns.length - s.nextRuns.length) ∧
    s.nextRuns.length ≤ s'.nextRuns.length ∧
    (∀ r ∈ s'.nextRuns, r.states.getLastD 0 ∈ za.states) := by
  induction runs generalizing s with
  | nil =>
    simp only [searchRound, Sum.inr.injEq] at h
    subst h; exact ⟨hs, by omega, le_refl _, hn⟩
  | cons run runs ih =>
    unfold searchRound at h
    split at h
    · cases h
    · obtain ⟨k1, k2, k3, k4⟩ := searchRun_visit hc (hr run List.mem_cons_self) s hs hn
      obtain ⟨l1, l2, l3, l4⟩ := ih _ (fun r h => hr r (List.mem_cons_of_mem _ h)) k1 k4 h
      exact ⟨l1, by omega, by omega, l4⟩

theorem searchLoop_fuel {za : ZA} (hc : za.Closed) (fuel : ℕ) : ∀ (fuel' : ℕ)
    (runs : List SymRun) (visited : List ℕ), (∀ r ∈ runs, r.states.getLastD 0 ∈ za.states) →
    za.VisitOK visited → za.states.length + 2 ≤ visited.length + fuel → fuel ≤ fuel' →
    za.searchLoop fuel' runs visited = za.searchLoop fuel runs visited := by
  induction fuel with
  | zero =>
    intro fuel' runs visited _ hv hle _
    have : visited.length ≤ za.states.length := (hv.nodup.subperm hv.sub).length_le
    omega
  | succ fuel ih =>
    intro fuel' runs visited hr hv hle hff
    obtain ⟨k, rfl⟩ : ∃ k, fuel' = k + 1 := ⟨fuel' - 1, by omega⟩
    unfold searchLoop
    split
    · rfl
    · cases hs : za.searchRound runs ⟨visited, []⟩ with
      | inl w => rfl
      | inr s =>
        obtain ⟨k1, k2, k3, k4⟩ := searchRound_visit hc runs ⟨visited, []⟩ s hr hv (by simp) hs
        simp only
        by_cases he : s.nextRuns = []
        · rw [he]
          have : ∀ f v, za.searchLoop f [] v = none := by
            intro f v; cases f <;> simp [searchLoop]
          rw [this, this]
        · have : 0 < s.nextRuns.length := List.length_pos_iff.2 he
          simp only [List.length_nil, Nat.sub_zero] at k2
          exact ih k s.nextRuns s.visited k4 k1 (by omega) (by omega)

theorem sample_rounds (za : ZA) (hc : za.Closed) (hn : za.init.Nodup) (fuel : ℕ)
    (h : za.states.length + 2 ≤ fuel) :
    za.searchLoop fuel (za.init.map (SymRun.start za)) za.init = za.sample := by
  unfold sample
  refine searchLoop_fuel hc _ _ _ _ ?_ ⟨hn, hc.1⟩ (by omega) h
  intro r hr
  simp only [List.mem_map] at hr
  obtain ⟨q, hq, rfl⟩ := hr
  exact hc.1 q hq

end ZA
end LearnTA
