import Verif.Model.ObservationTable

/-!
# Reasoning about computations on the table
-/

namespace LearnTA

/-- Started in `T`, the computation ends with a result and a table that satisfy `Q`, or in a failure that
satisfies `E`. -/
def Ok {σ α : Type} (E : Fail → Prop) (m : TableM σ α) (T : ObsTable σ) (Q : α → ObsTable σ → Prop) : Prop :=
  match m T with
  | .ok (a, T') => Q a T'
  | .error e => E e

namespace Ok
variable {σ α β : Type} {E : Fail → Prop} {T : ObsTable σ}

theorem pure {a : α} {Q : α → ObsTable σ → Prop} (h : Q a T) : Ok E (Pure.pure a : TableM σ α) T Q := h

theorem bind {m : TableM σ α} {k : α → TableM σ β} {Q : β → ObsTable σ → Prop}
    (h : Ok E m T fun a T' => Ok E (k a) T' Q) : Ok E (m >>= k) T Q := by
  unfold Ok at h ⊢
  show match StateT.bind m k T with | .ok (a, T') => Q a T' | .error e => E e
  unfold StateT.bind
  cases hm : m T with
  | error e => rw [hm] at h; exact h
  | ok p => rw [hm] at h; exact h

theorem get {Q : ObsTable σ → ObsTable σ → Prop} (h : Q T T) : Ok E (MonadState.get : TableM σ (ObsTable σ)) T Q := h

theorem get' {Q : ObsTable σ → ObsTable σ → Prop} (h : Q T T) : Ok E (getThe (ObsTable σ)) T Q := h

theorem modify {f : ObsTable σ → ObsTable σ} {Q : Unit → ObsTable σ → Prop} (h : Q () (f T)) :
    Ok E (_root_.modify f : TableM σ Unit) T Q := h

theorem throw {e : Fail} {Q : α → ObsTable σ → Prop} (h : E e) : Ok E (MonadExcept.throw e : TableM σ α) T Q := h

theorem lift {o : Option α} {a : α} {Q : α → ObsTable σ → Prop} (ho : o = some a) (h : Q a T) :
    Ok E (ObsTable.lift o) T Q := by
  subst ho; exact h

theorem mono {m : TableM σ α} {Q Q' : α → ObsTable σ → Prop} (h : Ok E m T Q) (hq : ∀ a T', Q a T' → Q' a T') :
    Ok E m T Q' := by
  unfold Ok at h ⊢
  cases hm : m T with
  | error e => rw [hm] at h; exact h
  | ok p => rw [hm] at h; exact hq _ _ h

theorem weaken {E' : Fail → Prop} {m : TableM σ α} {Q : α → ObsTable σ → Prop} (h : Ok E m T Q) (he : ∀ e, E e → E' e) :
    Ok E' m T Q := by
  unfold Ok at h ⊢
  cases hm : m T with
  | error e => rw [hm] at h; exact he _ h
  | ok p => rw [hm] at h; exact h

/-- The conclusion holds together with the fact that this is the outcome of the run. -/
theorem record {m : TableM σ α} {Q : α → ObsTable σ → Prop} (h : Ok E m T Q) :
    Ok E m T fun a T' => Q a T' ∧ m.run T = .ok (a, T') := by
  unfold Ok at h ⊢
  cases hm : m T with
  | error e => rw [hm] at h; exact h
  | ok p => rw [hm] at h; exact ⟨h, hm⟩

/-- Read off the conclusion for a run. -/
theorem ok {m : TableM σ α} {Q : α → ObsTable σ → Prop} (h : Ok E m T Q) {a : α} {T' : ObsTable σ}
    (hr : m.run T = .ok (a, T')) : Q a T' := by
  unfold Ok at h
  have : m T = .ok (a, T') := hr
  rw [this] at h; exact h

theorem error {m : TableM σ α} {Q : α → ObsTable σ → Prop} (h : Ok E m T Q) {e : Fail}
    (hr : m.run T = .error e) : E e := by
  unfold Ok at h
  have : m T = .error e := hr
  rw [this] at h; exact h

/-- `any_of`: `I` is kept; if the result is true, some element gave true; if it is false, all gave false, and what
that says is kept by the other elements. -/
theorem anyM {p : α → TableM σ Bool} {l : List α} (I : ObsTable σ → Prop) (Y : ObsTable σ → Prop)
    (N : α → ObsTable σ → Prop)
    (h : ∀ a ∈ l, ∀ T, I T → Ok E (p a) T fun b T' =>
      (b = true → Y T') ∧ (b = false → I T' ∧ N a T' ∧ ∀ a', N a' T → N a' T'))
    (hI : I T) : Ok E (l.anyM p) T fun b T' => (b = true → Y T') ∧
      (b = false → I T' ∧ (∀ a ∈ l, N a T') ∧ ∀ a', N a' T → N a' T') := by
  induction l generalizing T with
  | nil => exact Ok.pure ⟨by simp, fun _ => ⟨hI, by simp, fun _ h => h⟩⟩
  | cons a l ih =>
    unfold List.anyM
    refine Ok.bind ((h a (by simp) T hI).mono ?_)
    intro b T1 hb
    cases b with
    | true => exact Ok.pure ⟨fun _ => hb.1 rfl, by simp⟩
    | false =>
      obtain ⟨h1, h2, h3⟩ := hb.2 rfl
      refine (ih (fun a' ha' => h a' (by simp [ha'])) h1).mono ?_
      intro b T2 hb2
      refine ⟨hb2.1, fun e => ?_⟩
      obtain ⟨g1, g2, g3⟩ := hb2.2 e
      refine ⟨g1, ?_, fun a' ha' => g3 _ (h3 _ ha')⟩
      intro a' ha'
      rcases List.mem_cons.1 ha' with rfl | ha'
      · exact g3 _ h2
      · exact g2 _ ha'

end Ok
end LearnTA
