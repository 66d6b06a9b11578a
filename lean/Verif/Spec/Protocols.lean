import Verif.Model.Fixtures
import Verif.Spec.TA

/-!
# Specification: the protocols behind the example programs

Descriptions of the benchmarks "Fischer", "FDDI", "Light", "CAS" and "PC" that do not refer to the numbering of the states.
-/

namespace LearnTA
namespace Fixture

/-- The runs of a system with clocks: `rule s u a s' u'` says that in the state `s` with the clock values `u` the action `a` may
happen and lead to `s'` and `u'`.  Between the actions time passes. -/
inductive ProtocolRun {S : Type} (rule : S → Valuation → Action → S → Valuation → Prop) :
    S → Valuation → List Action → List ℚ → S → Prop where
  | stop {s u} (d : ℚ) (hd : 0 ≤ d) : ProtocolRun rule s u [] [d] s
  | step {s u s' u' as ds s''} (d : ℚ) (hd : 0 ≤ d) (a : Action) (h : rule s (u.shift d) a s' u')
      (hr : ProtocolRun rule s' u' as ds s'') : ProtocolRun rule s u (a :: as) (d :: ds) s''

/-! ### Fischer's protocol -/

/-- The local states of a process. -/
inductive FischerLocal where
  | idle | req | wait | cs
  deriving DecidableEq

/-- The local states of the three processes and the shared variable. -/
structure FischerConfig where
  proc : Fin 3 → FischerLocal
  id : ℕ

/-- The steps of the process `i` (the clock `i` is its clock).  It requests access when the variable is free, writes the variable
within `scale`, and then enters the critical section after more than `scale` if the variable is taken, or starts again if it is
free; on leaving it frees the variable. -/
inductive FischerRule (scale : ℤ) (i : Fin 3) : FischerConfig → Valuation → FischerConfig → Valuation → Prop where
  | request {s : FischerConfig} {u : Valuation} (h : s.proc i = .idle) (hid : s.id = 0) :
      FischerRule scale i s u ⟨Function.update s.proc i .req, 0⟩ (Function.update u i 0)
  | write {s : FischerConfig} {u : Valuation} (h : s.proc i = .req) (ht : u i ≤ scale) :
      FischerRule scale i s u ⟨Function.update s.proc i .wait, 1⟩ (Function.update u i 0)
  | retry {s : FischerConfig} {u : Valuation} (h : s.proc i = .wait) (hid : s.id = 0) :
      FischerRule scale i s u ⟨Function.update s.proc i .req, 0⟩ (Function.update u i 0)
  | enter {s : FischerConfig} {u : Valuation} (h : s.proc i = .wait) (hid : s.id = 1) (ht : scale < u i) :
      FischerRule scale i s u ⟨Function.update s.proc i .cs, 1⟩ u
  | leave {s : FischerConfig} {u : Valuation} (h : s.proc i = .cs) (hid : s.id = 1) :
      FischerRule scale i s u ⟨Function.update s.proc i .idle, 0⟩ u

/-- The action of the process `i`. -/
def fischerAction (i : Fin 3) : Action := [act 'a', act 'b', act 'c'].get i

/-- The timed words of "Fischer": all processes idle and the variable free at the start. -/
def IsFischer (scale : ℤ) (w : TimedWord) : Prop :=
  ∃ s, ProtocolRun (S := FischerConfig) (fun s u a s' u' => ∃ i, a = fischerAction i ∧ FischerRule scale i s u s' u') ⟨fun _ => .idle, 0⟩
    Valuation.zero w.word w.durations s

/-! ### FDDI -/

/-- What a station does: it gets the token, releases it, or makes a step of its own. -/
inductive FddiEvent where
  | get | release | own
  deriving DecidableEq

/-- A station with the clocks `trt` (since it got the token the last time), `xA` and `xB`.  It waits in 0 and 4.  When it gets the
token late, it only sends for `scale`; when it gets the token early, it may go on sending, as long as the time since it got the
token the last but one time is at most `6 * scale`. -/
inductive Station (scale : ℤ) (trt xA xB : ℕ) : ℕ → Valuation → FddiEvent → ℕ → Valuation → Prop where
  | late0 {u : Valuation} (h : (scale * 5 : ℤ) ≤ u trt) :
      Station scale trt xA xB 0 u .get 1 (Function.update (Function.update u trt 0) xB 0)
  | early0 {u : Valuation} (h : u trt < (scale * 5 : ℤ)) :
      Station scale trt xA xB 0 u .get 2 (Function.update (Function.update u trt 0) xB 0)
  | done1 {u : Valuation} (h : u trt = scale) : Station scale trt xA xB 1 u .release 4 u
  | more2 {u : Valuation} (h : u trt = scale) : Station scale trt xA xB 2 u .own 3 u
  | done3 {u : Valuation} (h : u xA ≤ (scale * 6 : ℤ)) : Station scale trt xA xB 3 u .release 4 u
  | late4 {u : Valuation} (h : (scale * 5 : ℤ) ≤ u trt) :
      Station scale trt xA xB 4 u .get 5 (Function.update (Function.update u trt 0) xA 0)
  | early4 {u : Valuation} (h : u trt < (scale * 5 : ℤ)) :
      Station scale trt xA xB 4 u .get 6 (Function.update (Function.update u trt 0) xA 0)
  | done5 {u : Valuation} (h : u trt = scale) : Station scale trt xA xB 5 u .release 0 u
  | more6 {u : Valuation} (h : u trt = scale) : Station scale trt xA xB 6 u .own 7 u
  | done7 {u : Valuation} (h : u xB ≤ (scale * 6 : ℤ)) : Station scale trt xA xB 7 u .release 0 u

/-- The states of the two stations and of the ring (0: on the way to station 1, 1: at station 1, 2: on the way to station 2, 3: at
station 2). -/
structure FddiConfig where
  p1 : ℕ
  p2 : ℕ
  ring : ℕ

/-- The two stations and the ring together.  The ring takes no time (clock 6) and is at one station after the other; a station
makes the steps of its own without the ring. -/
inductive FddiRule (scale : ℤ) : FddiConfig → Valuation → Action → FddiConfig → Valuation → Prop where
  | get1 {p1 p2 p1' : ℕ} {u u' : Valuation} (hz : u 6 = 0) (h : Station scale 0 1 2 p1 u .get p1' u') :
      FddiRule scale ⟨p1, p2, 0⟩ u (act 'a') ⟨p1', p2, 1⟩ u'
  | release1 {p1 p2 p1' : ℕ} {u u' : Valuation} (h : Station scale 0 1 2 p1 u .release p1' u') :
      FddiRule scale ⟨p1, p2, 1⟩ u (act 'b') ⟨p1', p2, 2⟩ (Function.update u' 6 0)
  | get2 {p1 p2 p2' : ℕ} {u u' : Valuation} (hz : u 6 = 0) (h : Station scale 3 4 5 p2 u .get p2' u') :
      FddiRule scale ⟨p1, p2, 2⟩ u (act 'c') ⟨p1, p2', 3⟩ u'
  | release2 {p1 p2 p2' : ℕ} {u u' : Valuation} (h : Station scale 3 4 5 p2 u .release p2' u') :
      FddiRule scale ⟨p1, p2, 3⟩ u (act 'd') ⟨p1, p2', 0⟩ (Function.update u' 6 0)
  | own1 {p1 p2 r p1' : ℕ} {u u' : Valuation} (h : Station scale 0 1 2 p1 u .own p1' u') :
      FddiRule scale ⟨p1, p2, r⟩ u (act 'e') ⟨p1', p2, r⟩ u'
  | own2 {p1 p2 r p2' : ℕ} {u u' : Valuation} (h : Station scale 3 4 5 p2 u .own p2' u') :
      FddiRule scale ⟨p1, p2, r⟩ u (act 'e') ⟨p1, p2', r⟩ u'

/-- The timed words of "FDDI". -/
def IsFddi (scale : ℤ) (w : TimedWord) : Prop :=
  ∃ s, ProtocolRun (FddiRule scale) ⟨0, 0, 0⟩ Valuation.zero w.word w.durations s

/-! ### Light -/

/-- What can be done with the light: press (`p`) and release (`r`) within `scale`; press, release after `scale` and touch (`t`);
press, start to hold (`s`) after `2 * scale`, release and end the hold (`e`). -/
inductive LightUse (scale : ℤ) : List (ℚ × Action) → Prop where
  | short (d₁ d₂ : ℚ) (h : d₂ < scale) : LightUse scale [(d₁, act 'p'), (d₂, act 'r')]
  | touch (d₁ d₂ d₃ : ℚ) (h : (scale : ℚ) ≤ d₂) : LightUse scale [(d₁, act 'p'), (d₂, act 'r'), (d₃, act 't')]
  | hold (d₁ d₂ d₃ d₄ : ℚ) (h : (2 * scale : ℚ) ≤ d₂) :
      LightUse scale [(d₁, act 'p'), (d₂, act 's'), (d₃, act 'r'), (d₄, act 'e')]

/-- The timed words of "Light": the beginnings of sequences of uses. -/
def IsLight (scale : ℤ) (w : TimedWord) : Prop :=
  w.Nonneg ∧ ∃ uses : List (List (ℚ × Action)), (∀ l ∈ uses, LightUse scale l) ∧ w.durations.zip w.word <+: uses.flatten

/-! ### CAS and PC -/

/-- The word with all delays replaced by `d`. -/
def slow (d : ℚ) (w : TimedWord) : TimedWord := ⟨w.word, w.durations.map fun _ => d⟩

/-- The timing of the car alarm system: it is armed (`a`) at least 2 after the previous event; the sound goes off (`t`) at least 3
after it went on (`s`) if nothing happens between; the flash goes off (`g`) at least 27 after that if nothing happens between. -/
def CasTiming (w : TimedWord) : Prop :=
  ∀ i, (w.word[i]? = some (act 'a') → 2 ≤ w.durations.getD i 0) ∧
    (w.word[i]? = some (act 's') → w.word[i + 1]? = some (act 't') → 3 ≤ w.durations.getD (i + 1) 0) ∧
    (w.word[i]? = some (act 's') → w.word[i + 1]? = some (act 't') → w.word[i + 2]? = some (act 'g') →
      27 ≤ w.durations.getD (i + 2) 0)

/-- The actions `x` and `y` alternate in the word, beginning with `x`. -/
def Alternate (x y : Action) : List Action → Prop
  | [] => True
  | a :: as => if a = x then Alternate y x as else a ≠ y ∧ Alternate x y as

/-- The time from the last purge, leakage test or response check (`u`, `e`, `r`) before the event `j` (or from the start) to the
event before `j`. -/
def pcAge (w : TimedWord) : ℕ → ℚ
  | 0 => 0
  | j + 1 => if w.word[j]? = some (act 'u') ∨ w.word[j]? = some (act 'e') ∨ w.word[j]? = some (act 'r') then 0
    else pcAge w j + w.durations.getD j 0

/-- The timing of the particle counter: after the state of the purge, leakage test or response check has been reported (`l`, `c`,
`g`), the controller goes back by itself (`s`, `y`) only when at least 10 have passed since it was started. -/
def PcTiming (w : TimedWord) : Prop :=
  ∀ i, w.word[i]? = some (act 'l') ∨ w.word[i]? = some (act 'c') ∨ w.word[i]? = some (act 'g') →
    w.word[i + 1]? = some (act 's') ∨ w.word[i + 1]? = some (act 'y') →
    10 ≤ pcAge w (i + 1) + w.durations.getD (i + 1) 0

end Fixture
end LearnTA
