import Verif.Lemmas.TA

/-! Runs as lists of single steps, with the delays in between added up. -/

namespace LearnTA
namespace TA

/-- Delay before the first action, and the actions each with the delay after it. -/
def obsM : List Micro → ℚ × List (Action × ℚ)
  | [] => (0, [])
  | .delay d :: ms => (d + (obsM ms).1, (obsM ms).2)
  | .eps _ :: ms => obsM ms
  | .act a _ :: ms => (0, (a, (obsM ms).1) :: (obsM ms).2)

def obsE : List Event → ℚ × List (Action × ℚ)
  | [] => (0, [])
  | .delay d :: es => (d + (obsE es).1, (obsE es).2)
  | .act a :: es => (0, (a, (obsE es).1) :: (obsE es).2)

/-- The events for an observation. -/
def evs : ℚ → List (Action × ℚ) → List Event
  | d, [] => [.delay d]
  | d, (a, d') :: l => .delay d :: .act a :: evs d' l

theorem obsE_evs (d : ℚ) (l : List (Action × ℚ)) : obsE (evs d l) = (d, l) := by
  induction l generalizing d with
  | nil => simp [evs, obsE]
  | cons p l ih => obtain ⟨a, d'⟩ := p; simp [evs, obsE, ih]

theorem Steps.micro {A : TA} {c c' : Config} {es : List Event} (h : A.Steps c es c') :
    ∃ ms, A.MRun c ms c' ∧ obsM ms = obsE es := by
  induction h with
  | nil c => exact ⟨[], .nil c, rfl⟩
  | eps t ht hg h ih =>
    obtain ⟨ms, h1, h2⟩ := ih
    exact ⟨.eps t :: ms, .eps t ht hg h1, by simp [obsM, h2]⟩
  | delay d hd h ih =>
    obtain ⟨ms, h1, h2⟩ := ih
    exact ⟨.delay d :: ms, .delay d hd h1, by simp [obsM, obsE, h2]⟩
  | split d1 d2 _ _ h ih =>
    obtain ⟨ms, h1, h2⟩ := ih
    exact ⟨ms, h1, by rw [h2]; simp [obsE, add_assoc]⟩
  | act a ha t ht hg h ih =>
    obtain ⟨ms, h1, h2⟩ := ih
    exact ⟨.act a t :: ms, .act a ha t ht hg h1, by simp [obsM, obsE, h2]⟩

theorem MRun.obs_nonneg {A : TA} {c c' : Config} {ms : List Micro} (h : A.MRun c ms c') :
    0 ≤ (obsM ms).1 := by
  induction h with
  | nil => exact le_refl _
  | delay d hd _ ih => exact add_nonneg hd ih
  | eps t _ _ _ ih => exact ih
  | act a _ t _ _ _ ih => exact le_refl _

theorem MRun.steps {A : TA} {c c' : Config} {ms : List Micro} (h : A.MRun c ms c') :
    A.Steps c (evs (obsM ms).1 (obsM ms).2) c' := by
  induction h with
  | nil c =>
    refine .delay 0 (le_refl _) ?_
    rw [Valuation.shift_zero]; exact .nil _
  | @delay c ms c' d hd h ih =>
    simp only [obsM]
    have hn := h.obs_nonneg
    have : ∀ d' l, evs (d + d') l = .delay (d + d') :: (evs d' l).tail ∧
        evs d' l = .delay d' :: (evs d' l).tail := by
      intro d' l; cases l <;> simp [evs]
    rw [(this _ _).1]
    refine .split d _ hd hn (.delay d hd ?_)
    rw [← (this _ _).2]; exact ih
  | eps t ht hg h ih => exact .eps t ht hg ih
  | act a ha t ht hg h ih =>
    refine .delay 0 (le_refl _) ?_
    rw [Valuation.shift_zero]
    exact .act a ha t ht hg ih

theorem evs_events (w : TimedWord) (hwf : w.WF) :
    w.events = evs (obsE w.events).1 (obsE w.events).2 := by
  obtain ⟨word, durs⟩ := w
  simp only [TimedWord.WF] at hwf
  simp only [TimedWord.events]
  induction word generalizing durs with
  | nil =>
    match durs, hwf with
    | [d], _ => simp [eventsOf, obsE, evs]
  | cons a as ih =>
    match durs, hwf with
    | d :: ds, hwf =>
      have := ih ds (by simpa using hwf)
      simp only [eventsOf, obsE, add_zero, evs]
      rw [← this]

/-- Accepting a timed word in terms of runs as lists of single steps. -/
theorem accepts_iff_micro (A : TA) (w : TimedWord) (hwf : w.WF) :
    A.Accepts w ↔ ∃ q ∈ A.init, ∃ c ms, A.MRun ⟨q, Valuation.zero⟩ ms c ∧
      obsM ms = obsE w.events ∧ (A.loc c.loc).isMatch = true := by
  constructor
  · rintro ⟨q, hq, c, hs, hm⟩
    obtain ⟨ms, h1, h2⟩ := hs.micro
    exact ⟨q, hq, c, ms, h1, h2, hm⟩
  · rintro ⟨q, hq, c, ms, h1, h2, hm⟩
    refine ⟨q, hq, c, ?_, hm⟩
    rw [evs_events w hwf, ← h2]
    exact h1.steps

end TA
end LearnTA
