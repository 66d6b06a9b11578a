import Verif.Model.OtaJson
import Verif.Spec.TA

/-!
# Specification: one-clock automata as text

What a document describes, independently of the parser: intervals, edges, and the timed words they accept.
-/

namespace LearnTA
namespace OtaJson

/-- An interval with natural numbers as end points; `none` is infinity. -/
structure Interval where
  lower : ℕ
  lowerClosed : Bool
  upper : Option (ℕ × Bool)

/-- The value is in the interval. -/
def Interval.Contains (I : Interval) (x : ℚ) : Prop :=
  (if I.lowerClosed then (I.lower : ℚ) ≤ x else (I.lower : ℚ) < x) ∧
    match I.upper with
    | none => True
    | some (u, closed) => if closed then x ≤ (u : ℚ) else x < (u : ℚ)

/-- The digit. -/
def digit (n : ℕ) : Action := Fin.ofNat 256 (48 + n)

/-- The decimal notation of a number. -/
def decimal (n : ℕ) : Str := if _ : n < 10 then [digit n] else decimal (n / 10) ++ [digit (n % 10)]
termination_by n
decreasing_by omega

/-- The upper bound as text. -/
def upperText : Option (ℕ × Bool) → Str
  | none => [43 /- + -/, 41 /- ) -/]
  | some (u, closed) => decimal u ++ [if closed then 93 /- ] -/ else 41 /- ) -/]

/-- The interval as text, such as `[1,23)` or `(4,+)`. -/
def Interval.text (I : Interval) : Str :=
  (if I.lowerClosed then 91 /- [ -/ else 40 /- ( -/) :: decimal I.lower ++ 44 /- , -/ :: upperText I.upper

/-- An edge. -/
structure Edge where
  source : Str
  label : Action
  interval : Interval
  reset : Bool
  target : Str

/-- An automaton with one clock. -/
structure Description where
  alphabet : List Action
  locations : List Str
  accepting : List Str
  initial : Str
  edges : List Edge

/-- The document of the automaton. -/
def Description.doc (D : Description) : Doc where
  sigma := D.alphabet.map fun a => [a]
  l := D.locations
  accept := D.accepting
  init := D.initial
  tran := D.edges.map fun e => [e.source, [e.label], e.interval.text, [if e.reset then 114 /- r -/ else 110 /- n -/], e.target]

/-- The constants of the interval are below `k`. -/
def Interval.Below (I : Interval) (k : ℤ) : Prop := (I.lower : ℤ) < k ∧ ∀ u b, I.upper = some (u, b) → (u : ℤ) < k

/-- All names are declared, no label is the character 0, and the constants are below the largest `int`. -/
structure Description.WellFormed (D : Description) : Prop where
  initial : D.initial ∈ D.locations
  source : ∀ e ∈ D.edges, e.source ∈ D.locations
  target : ∀ e ∈ D.edges, e.target ∈ D.locations
  label : ∀ e ∈ D.edges, e.label ≠ 0
  small : ∀ e ∈ D.edges, e.interval.Below intMax

/-- No two entries of the list of edges with the same source and label are possible at the same value of the clock. -/
def Description.Deterministic (D : Description) : Prop :=
  D.edges.Pairwise fun e f => e.source = f.source → e.label = f.label → ∀ x : ℚ, 0 ≤ x →
    ¬ (e.interval.Contains x ∧ f.interval.Contains x)

/-- `D.Run q x es q' x'`: the events are possible from the location `q` with clock value `x`, and lead to `q'` and `x'`. -/
inductive Description.Run (D : Description) : Str → ℚ → List Event → Str → ℚ → Prop where
  | nil (q x) : Run D q x [] q x
  | delay {q x es q' x'} (d : ℚ) (hd : 0 ≤ d) (h : Run D q (x + d) es q' x') : Run D q x (.delay d :: es) q' x'
  | edge {q x es q' x'} (e : Edge) (he : e ∈ D.edges) (hs : e.source = q) (hx : e.interval.Contains x)
      (h : Run D e.target (if e.reset then 0 else x) es q' x') : Run D q x (.act e.label :: es) q' x'

/-- The automaton accepts the timed word. -/
def Description.Accepts (D : Description) (w : TimedWord) : Prop :=
  ∃ q x, D.Run D.initial 0 w.events q x ∧ q ∈ D.accepting

end OtaJson
end LearnTA
