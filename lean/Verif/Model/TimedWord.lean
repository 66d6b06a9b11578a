import Mathlib.Data.Rat.Defs
import Mathlib.Algebra.Order.Ring.Rat

/-!
# Timed words

Model of `/repo/include/timed_word.hh`.
-/

namespace LearnTA

/-- `typedef char Alphabet` (`/repo/include/common_types.hh:8`): 256 values. -/
abbrev Action := Fin 256

/-- `UNOBSERVABLE` (`/repo/include/common_types.hh:11`). -/
def unobservable : Action := 0

/-- `class TimedWord` (`/repo/include/timed_word.hh:25-28`): actions and the delays around them.
Durations are rational instead of `double`. -/
structure TimedWord where
  word : List Action
  durations : List ℚ
  deriving DecidableEq, Repr

namespace TimedWord

/-- `durations.back() += q`. -/
def addBack (l : List ℚ) (q : ℚ) : List ℚ := l.dropLast ++ [l.getLastD 0 + q]

/-- `TimedWord()` (`/repo/include/timed_word.hh:30`). -/
def empty : TimedWord := ⟨[], [0]⟩

/-- Loop body of the constructor (`/repo/include/timed_word.hh:42-49`). -/
def absorbStep (s : List Action × List ℚ) (p : Action × ℚ) : List Action × List ℚ :=
  if p.1 ≠ unobservable then (s.1 ++ [p.1], s.2 ++ [p.2]) else (s.1, addBack s.2 p.2)

/-- `TimedWord(word, durations)` (`/repo/include/timed_word.hh:37-52`): unobservable actions are
absorbed. -/
def make (word : List Action) (durations : List ℚ) : TimedWord :=
  let r := (word.zip durations.tail).foldl absorbStep ([], [durations.headD 0])
  ⟨r.1, r.2⟩

/-- `operator+(const TimedWord &)` (`/repo/include/timed_word.hh:59-70`). -/
def append (u v : TimedWord) : TimedWord :=
  ⟨u.word ++ v.word, addBack u.durations (v.durations.headD 0) ++ v.durations.tail⟩

/-- `operator+(char)` (`/repo/include/timed_word.hh:77-83`). -/
def appendAction (u : TimedWord) (a : Action) : TimedWord := ⟨u.word ++ [a], u.durations ++ [0]⟩

/-- `operator+(double)` (`/repo/include/timed_word.hh:90-95`). -/
def appendDelay (u : TimedWord) (q : ℚ) : TimedWord := ⟨u.word, addBack u.durations q⟩

/-- The loop of `getAccumulatedDurations` (`/repo/include/timed_word.hh:123-132`): each entry is the
next accumulated entry plus the own duration. -/
def accumulate : List ℚ → List ℚ
  | [] => []
  | [d] => [d]
  | d :: ds => let r := accumulate ds; (r.headD 0 + d) :: r

/-- `getAccumulatedDurations` (`/repo/include/timed_word.hh:123-132`). -/
def accumulatedDurations (u : TimedWord) : List ℚ := accumulate u.durations

/-- `suffixDurations.front() -= q`. -/
def subFront (l : List ℚ) (q : ℚ) : List ℚ :=
  match l with
  | [] => []
  | d :: ds => (d - q) :: ds

/-- `getSuffix` (`/repo/include/timed_word.hh:139-145`). -/
def getSuffix (w p : TimedWord) : TimedWord :=
  make (w.word.drop p.word.length)
    (subFront (w.durations.drop p.word.length) (p.durations.getLastD 0))

/-- `wordSize` (`/repo/include/timed_word.hh:150-152`). -/
def wordSize (u : TimedWord) : ℕ := u.word.length

end TimedWord
end LearnTA
