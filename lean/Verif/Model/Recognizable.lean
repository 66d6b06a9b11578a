import Verif.Model.Renaming

/-!
# Recognizable timed languages and the analysis of counterexamples

Models of `/repo/include/single_morphism.hh`, `/repo/include/recognizable_languages.hh` and
`/repo/include/counterexample_analyzer.hh`.
-/

namespace LearnTA

/-- The ways an execution ends without a result. -/
inductive Fail
  /-- The bound on the number of iterations given to the model was too small: the code may run on. -/
  | fuel
  /-- `enumerate` of a condition with infinite bounds: the code runs forever. -/
  | diverge
  /-- `abort()`. -/
  | abort
  /-- `throw std::logic_error`. -/
  | exception
  /-- Undefined behaviour (reading an empty `optional`, `back()` of an empty vector), an index or key that
  `at` does not find, or a violated precondition (`assert`). -/
  | undefined
  deriving DecidableEq

/-- `class SingleMorphism` (`/repo/include/single_morphism.hh:18-21`). -/
structure SingleMorphism where
  domain : ElementaryLanguage
  codomain : ElementaryLanguage
  rel : RenamingRelation

namespace SingleMorphism

/-- `inDomain` (`/repo/include/single_morphism.hh:35-37`). -/
def inDomain (m : SingleMorphism) (w : TimedWord) : Bool := m.domain.contains w

/-- `isDomain` (`/repo/include/single_morphism.hh:42-44`). -/
def isDomain (m : SingleMorphism) (e : ElementaryLanguage) : Bool := m.domain.beq e

/-- The durations of `maps` (`/repo/include/single_morphism.hh:66-73`): differences of the sampled values
of the right variables, which are stored from the index `domain.wordSize() + 1` on. -/
def mapDurations (values : List ℚ) (d c : ℕ) : List ℚ :=
  (List.range (c + 1)).map fun i =>
    if i = c then values.getLastD 0 else values.getD (i + 1 + d) 0 - values.getD (i + 2 + d) 0

/-- `maps` (`/repo/include/single_morphism.hh:55-75`); `none` if one of its two assertions fails (without
assertions, the result of sampling an empty zone is meaningless). -/
def maps (m : SingleMorphism) (w : TimedWord) : Option TimedWord :=
  let j := (JuxtaposedZone.make (TimedCondition.makeExact w.accumulatedDurations).zone m.codomain.cond.zone).addRenaming
    m.rel
  let z := j.zone.canonize
  if m.inDomain w && z.isSatisfiableNoCanonize then
    some (TimedWord.make m.codomain.word
      (mapDurations z.sample m.domain.word.length m.codomain.word.length))
  else none

end SingleMorphism

/-- `class RecognizableLanguage` (`/repo/include/recognizable_languages.hh:17-21`). -/
structure RecognizableLanguage where
  prefixes : List ElementaryLanguage
  final : List ElementaryLanguage
  morphisms : List SingleMorphism

/-- `struct SplitTriple` (`/repo/include/recognizable_languages.hh:61-64`). -/
structure SplitTriple where
  pre : TimedWord
  suf : TimedWord
  morphism : SingleMorphism

namespace SplitTriple

/-- `apply` (`/repo/include/recognizable_languages.hh:66-69`). -/
def apply (t : SplitTriple) : Option TimedWord := (t.morphism.maps t.pre).map fun w => w.append t.suf

end SplitTriple

namespace RecognizableLanguage

/-- `inPrefixes` (`/repo/include/recognizable_languages.hh:47-51`). -/
def inPrefixes (R : RecognizableLanguage) (w : TimedWord) : Bool := R.prefixes.any fun e => e.contains w

/-- `isFinal` (`/repo/include/recognizable_languages.hh:56-60`). -/
def isFinal (R : RecognizableLanguage) (w : TimedWord) : Bool := R.final.any fun e => e.contains w

/-- The domain with the delays before the last one fixed to those of the word
(`/repo/include/recognizable_languages.hh:111-118`). -/
def fixDelays (e : ElementaryLanguage) (w : TimedWord) : TimedCondition :=
  (List.range e.word.length).foldl (fun c i =>
    (c.restrictUpper i i (.fin (w.durations.getD i 0) true) false).restrictLower i i
      (.fin (-w.durations.getD i 0) true) false) e.cond

/-- The last delay of the prefix (`/repo/include/recognizable_languages.hh:119-130`). -/
def lastDelay (e : ElementaryLanguage) (w : TimedWord) : ℚ :=
  let n := e.word.length
  let c := fixDelays e w
  let upper := c.upper n n
  let d := w.durations.getD n 0
  if Bound.fin d true ≤ upper then d
  else if Zone.secondOf upper then ElementaryLanguage.first upper
  else ((ElementaryLanguage.mk e.word c).sample).durations.getLastD 0

/-- `split` (`/repo/include/recognizable_languages.hh:92-134`).  The first argument bounds the iterations of
`prefixes`; the inner `none` is `nullopt`. -/
def split (fuel : ℕ) (R : RecognizableLanguage) (w : TimedWord) : Except Fail (Option SplitTriple) :=
  match ForwardRegional.prefixes fuel (.fromTimedWord w) with
  | none => .error .fuel
  | some ps =>
    match R.morphisms.find? fun m => ps.any fun p => m.isDomain p.toElementaryLanguage with
    | none => .ok none
    | some m =>
      if m.domain.contains w then .ok (some ⟨w, TimedWord.make [] [0], m⟩)
      else
        let p := TimedWord.make m.domain.word (w.durations.take m.domain.word.length ++ [lastDelay m.domain w])
        .ok (some ⟨p, w.getSuffix p, m⟩)

/-- `maps` (`/repo/include/recognizable_languages.hh:24-30`).  Reading an empty `optional` is undefined. -/
def maps (fuel : ℕ) (R : RecognizableLanguage) (w : TimedWord) : Except Fail TimedWord :=
  if R.inPrefixes w then .ok w
  else
    match R.split fuel w with
    | .error e => .error e
    | .ok none => .error .undefined
    | .ok (some t) =>
      match t.apply with
      | none => .error .undefined
      | some w' => .ok w'

/-- `contains` (`/repo/include/recognizable_languages.hh:139-144`), with a bound on the iterations. -/
def contains (fuel : ℕ) (R : RecognizableLanguage) : ℕ → TimedWord → Except Fail Bool
  | 0, _ => .error .fuel
  | n + 1, w =>
    if R.inPrefixes w then .ok (R.isFinal w)
    else
      match R.maps fuel w with
      | .error e => .error e
      | .ok w' => R.contains fuel n w'

end RecognizableLanguage

namespace CEX

/-- The first loop of `analyzeCEX` (`/repo/include/counterexample_analyzer.hh:32-38`), with a bound on the
iterations: the elements of `mappedWords` and `suffixes` from the given word and suffix on. -/
def reductions (fuel : ℕ) (R : RecognizableLanguage) : ℕ → TimedWord → TimedWord →
    Except Fail (List (TimedWord × TimedWord))
  | 0, _, _ => .error .fuel
  | n + 1, w, s =>
    if R.inPrefixes w then .ok [(w, s)]
    else
      match R.split fuel w with
      | .error e => .error e
      | .ok none => .error .undefined
      | .ok (some t) =>
        match t.apply with
        | none => .error .undefined
        | some w' => (reductions fuel R n w' t.suf).map fun l => (w, s) :: l

/-- The last loop (`/repo/include/counterexample_analyzer.hh:70-81`): the first step at which the answer
changes and whose suffix is in no current suffix language.  The words are given in order, each with its
suffix. -/
def search {σ : Type} (ask : σ → TimedWord → σ × Bool) (suffixes : List ElementaryLanguage) :
    MemCache σ → List (TimedWord × TimedWord) → MemCache σ × Option TimedWord
  | m, (w, _) :: (w', s') :: l =>
    let r := m.answerQuery ask w
    let r' := r.1.answerQuery ask w'
    if r.2 ≠ r'.2 then
      if suffixes.all fun e => !e.contains s' then (r'.1, some s')
      else search ask suffixes r'.1 ((w', s') :: l)
    else search ask suffixes r'.1 ((w', s') :: l)
  | m, _ => (m, none)

/-- `analyzeCEX` (`/repo/include/counterexample_analyzer.hh:24-82`).  `eval(w)` is
`answerQuery(w) == hypothesisResult`; the assertion on the last word is not modelled, the exception is. -/
def analyze {σ : Type} (ask : σ → TimedWord → σ × Bool) (fuel : ℕ) (R : RecognizableLanguage)
    (suffixes : List ElementaryLanguage) (m : MemCache σ) (w : TimedWord) :
    Except Fail (MemCache σ × Option TimedWord) :=
  match reductions fuel R fuel w .empty with
  | .error e => .error e
  | .ok l =>
    let hypothesisResult := R.isFinal (l.getLastD (w, .empty)).1
    let r := m.answerQuery ask w
    if r.2 = hypothesisResult then .error .exception
    else .ok (search ask suffixes r.1 l)

end CEX
end LearnTA
