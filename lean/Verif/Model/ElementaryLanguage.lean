import Verif.Model.TimedCondition
import Verif.Model.FractionalOrder
import Verif.Model.TimedWord

/-!
# Elementary languages and regional elementary languages

Models of `/repo/include/elementary_language.hh`,
`/repo/include/forward_regional_elementary_language.hh` and
`/repo/include/backward_regional_elementary_language.hh`.
-/

namespace LearnTA

/-- `class ElementaryLanguage` (`/repo/include/elementary_language.hh:23-33`). -/
structure ElementaryLanguage where
  word : List Action
  cond : TimedCondition

namespace ElementaryLanguage

/-- `ElementaryLanguage::empty()` (`/repo/include/elementary_language.hh:38-42`). -/
def empty : ElementaryLanguage := ⟨[], .empty⟩

/-- `ElementaryLanguage::convexHull(list)` (`/repo/include/elementary_language.hh:49-61`). -/
def convexHull (l : List ElementaryLanguage) : ElementaryLanguage :=
  match l with
  | [] => empty
  | e :: _ => ⟨e.word, l.foldl (fun c e' => c.convexHull e'.cond) e.cond⟩

/-- `isSimple` (`/repo/include/elementary_language.hh:66-68`). -/
def isSimple (e : ElementaryLanguage) : Bool := e.cond.isSimple

/-- `operator+` (`/repo/include/elementary_language.hh:80-82`). -/
def append (a b : ElementaryLanguage) : ElementaryLanguage :=
  ⟨a.word ++ b.word, a.cond.append b.cond⟩

/-- `enumerate` (`/repo/include/elementary_language.hh:87-109`); `none` if it does not terminate. -/
def enumerate (e : ElementaryLanguage) : Option (List ElementaryLanguage) :=
  if e.isSimple then some [e]
  else e.cond.enumerate.map (·.map fun c => ⟨e.word, c⟩)

/-- `-b.first`; the value for `DBL_MAX` is not modelled (0). -/
def negFirst : Bound → ℚ
  | .fin c _ => -c
  | .inf => 0

/-- `b.first`; the value for `DBL_MAX` is not modelled (0). -/
def first : Bound → ℚ
  | .fin c _ => c
  | .inf => 0

/-- `std::max(lower, -b.first - sum)`, where `-DBL_MAX` is below every number. -/
def maxLower (lower : ℚ) (b : Bound) (sum : ℚ) : ℚ :=
  match b with
  | .fin c _ => max lower (-c - sum)
  | .inf => lower

/-- `std::min(upper, b.first - sum)`, where `DBL_MAX` is above every number. -/
def minUpper (upper : ℚ) (b : Bound) (sum : ℚ) : ℚ :=
  match b with
  | .fin c _ => min upper (c - sum)
  | .inf => upper

/-- The inner loop of `sample` (`/repo/include/elementary_language.hh:127-134`), for `j` from
`i - 1` down to 0; the state is `(sum, lower, upper)`. -/
def sampleInner (c : TimedCondition) (durations : List ℚ) (i : ℕ) (s : ℚ × ℚ × ℚ) (j : ℕ) :
    ℚ × ℚ × ℚ :=
  let sum := s.1 + durations.getD j 0
  (sum, maxLower s.2.1 (c.lower j i) sum, minUpper s.2.2 (c.upper j i) sum)

/-- The duration chosen in one iteration of `sample` (`/repo/include/elementary_language.hh:118-138`),
after the durations `ds`. -/
def sampleStep (c : TimedCondition) (ds : List ℚ) : ℚ :=
  let i := ds.length
  if Bound.isPoint (c.upper i i) (c.lower i i) then first (c.upper i i)
  else
    let r := (List.range i).reverse.foldl (sampleInner c ds i)
      (0, negFirst (c.lower i i), first (c.upper i i))
    (r.2.1 + r.2.2) * (1 / 2)

/-- The durations of `sample` (`/repo/include/elementary_language.hh:114-138`), for `n` iterations. -/
def sampleDurations (c : TimedCondition) (n : ℕ) : List ℚ :=
  (List.range n).foldl (fun ds _ => ds ++ [sampleStep c ds]) []

/-- `sample` (`/repo/include/elementary_language.hh:114-143`). -/
def sample (e : ElementaryLanguage) : TimedWord :=
  TimedWord.make e.word (sampleDurations e.cond (e.word.length + 1))

/-- `constrain(prefix)` (`/repo/include/elementary_language.hh:167-180`). -/
def constrain (e : ElementaryLanguage) (p : TimedWord) : ElementaryLanguage :=
  ⟨e.word, (List.range p.wordSize).foldl (fun c i =>
    (c.restrictLower i i (.fin (-p.durations.getD i 0) true) false).restrictUpper i i
      (.fin (p.durations.getD i 0) true) false) e.cond⟩

/-- `contains` (`/repo/include/elementary_language.hh:185-196`). -/
def contains (e : ElementaryLanguage) (w : TimedWord) : Bool :=
  if w.word ≠ e.word then false
  else ((List.range e.cond.size).foldl (fun c i =>
    (c.restrictUpper i i (.fin (w.durations.getD i 0) true) false).restrictLower i i
      (.fin (-w.durations.getD i 0) true) false) e.cond).isSatisfiable

/-- `operator==` (`/repo/include/elementary_language.hh:208-210`). -/
def beq (a b : ElementaryLanguage) : Bool := a.word == b.word && a.cond.beq b.cond

end ElementaryLanguage

/-- `class ForwardRegionalElementaryLanguage`
(`/repo/include/forward_regional_elementary_language.hh:22-24`). -/
structure ForwardRegional extends ElementaryLanguage where
  frac : FractionalOrder

namespace ForwardRegional

/-- `ForwardRegionalElementaryLanguage()`
(`/repo/include/forward_regional_elementary_language.hh:27`). -/
def init : ForwardRegional := ⟨.empty, .init⟩

/-- `fromTimedWord` (`/repo/include/forward_regional_elementary_language.hh:46-60`). -/
def fromTimedWord (w : TimedWord) : ForwardRegional :=
  let acc := TimedWord.accumulate w.durations
  ⟨⟨w.word, .ofAccumulated acc⟩, .ofFractionalParts (acc.map fun q => q - ⌊q⌋)⟩

/-- `successor(action)` (`/repo/include/forward_regional_elementary_language.hh:65-67`). -/
def successorAction (L : ForwardRegional) (a : Action) : ForwardRegional :=
  ⟨⟨L.word ++ [a], L.cond.extendN⟩, L.frac.extendN⟩

/-- `successor()` and `successorAssign()`
(`/repo/include/forward_regional_elementary_language.hh:73-84`). -/
def successor (L : ForwardRegional) : ForwardRegional :=
  ⟨⟨L.word, L.cond.successor L.frac.successorVariables⟩, L.frac.successor⟩

/-- `immediatePrefix` (`/repo/include/forward_regional_elementary_language.hh:98-114`). -/
def immediatePrefix (L : ForwardRegional) : Option ForwardRegional :=
  if L.word.isEmpty && !L.cond.hasPrefix then none
  else if L.cond.hasPrefix then
    some ⟨⟨L.word, L.cond.prefixT L.frac.predecessorVariables⟩, L.frac.predecessor⟩
  else some ⟨⟨L.word.dropLast, L.cond.removeN⟩, L.frac.removeN⟩

/-- The loop of `prefixes` (`/repo/include/forward_regional_elementary_language.hh:120-137`) with a
bound on the number of iterations; `none` if the bound is too small. -/
def prefixes : ℕ → ForwardRegional → Option (List ForwardRegional)
  | 0, _ => none
  | n + 1, L =>
    match L.immediatePrefix with
    | none => some [L]
    | some P => (prefixes n P).map (· ++ [L])

/-- `operator==` (`/repo/include/forward_regional_elementary_language.hh:201-204`). -/
def beq (L L' : ForwardRegional) : Bool :=
  L.word == L'.word && L.cond.beq L'.cond && L.frac == L'.frac

end ForwardRegional

/-- `class BackwardRegionalElementaryLanguage`
(`/repo/include/backward_regional_elementary_language.hh:22-24`). -/
structure BackwardRegional extends ElementaryLanguage where
  frac : FractionalOrder

namespace BackwardRegional

/-- `BackwardRegionalElementaryLanguage()`
(`/repo/include/backward_regional_elementary_language.hh:27`). -/
def init : BackwardRegional := ⟨.empty, .init⟩

/-- `accumulatedDurationFromFront` (`/repo/include/backward_regional_elementary_language.hh:38-42`). -/
def accumulateFront (t : ℚ) : List ℚ → List ℚ
  | [] => []
  | d :: ds => (t + d) :: accumulateFront (t + d) ds

/-- `fromTimedWord` (`/repo/include/backward_regional_elementary_language.hh:35-54`). -/
def fromTimedWord (w : TimedWord) : BackwardRegional :=
  ⟨⟨w.word, .ofAccumulated (TimedWord.accumulate w.durations)⟩,
    .ofFractionalParts ((accumulateFront 0 w.durations).map fun q => q - ⌊q⌋)⟩

/-- `predecessor(action)` (`/repo/include/backward_regional_elementary_language.hh:59-61`). -/
def predecessorAction (L : BackwardRegional) (a : Action) : BackwardRegional :=
  ⟨⟨a :: L.word, L.cond.extendZero⟩, L.frac.extendZero⟩

/-- `predecessor()` (`/repo/include/backward_regional_elementary_language.hh:66-69`).  The name of
the function of the fractional order in the code is `predecessor`; see the disagreements in
`DESIGN.md`. -/
def predecessor (L : BackwardRegional) : BackwardRegional :=
  ⟨⟨L.word, L.cond.predecessor L.frac.predecessorVariables⟩, L.frac.predecessor⟩

end BackwardRegional
end LearnTA
