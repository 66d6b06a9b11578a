import Verif.Model.TA
import Mathlib.Data.Int.Log
import Mathlib.Data.Rat.Floor

/-!
# Printing automata

Model of `operator<<` for automata (`/repo/include/timed_automaton.hh:700-745`), updates
(`/repo/include/timed_automaton.hh:672-696`), guards (`/repo/include/constraint.hh:374-385`) and constraints
(`/repo/include/constraint.hh:186-207`).  A text is a list of bytes.  The stream has its default format, in which a floating-point
number is printed like `%g`, with six significant digits.
-/

namespace LearnTA
namespace Print

/-- A text is a list of bytes (`char`). -/
abbrev Text := List (Fin 256)

/-- A byte of a string literal. -/
def byte (c : Char) : Fin 256 := Fin.ofNat 256 c.toNat

/-- A string literal with ASCII characters only. -/
def str (s : List Char) : Text := s.map byte

/-- A decimal digit. -/
def digit (d : ℕ) : Fin 256 := Fin.ofNat 256 (48 + d)

/-- `os << n` for a natural number (unsigned or non-negative `int`), no simplification. -/
def nat (n : ℕ) : Text := if n < 10 then [digit n] else nat (n / 10) ++ [digit (n % 10)]
termination_by n
decreasing_by omega

/-- `os << n` for an `int`. -/
def int (n : ℤ) : Text := if n < 0 then byte '-' :: nat n.natAbs else nat n.natAbs

/-- `os << b` for a `bool` without `boolalpha`. -/
def bool (b : Bool) : Text := [if b then byte '1' else byte '0']

/-- The `p` decimals of `r / 10^p` without the trailing zeros. -/
def decimals : ℕ → ℕ → Text
  | 0, _ => []
  | p + 1, r => if r = 0 then [] else digit (r / 10 ^ p) :: decimals p (r % 10 ^ p)

/-- `m / 10^p` with the trailing zeros of the decimals removed. -/
def fixed (m p : ℕ) : Text :=
  nat (m / 10 ^ p) ++ if m % 10 ^ p = 0 then [] else byte '.' :: decimals p (m % 10 ^ p)

/-- The exponent of a number in scientific notation: a sign and at least two digits. -/
def expo (e : ℤ) : Text :=
  byte 'e' :: (if e < 0 then byte '-' else byte '+') :: (if e.natAbs < 10 then digit 0 :: nat e.natAbs else nat e.natAbs)

/-- Rounding to an integer, ties to even. -/
def roundEven (x : ℚ) : ℤ :=
  if x - ⌊x⌋ < 1 / 2 then ⌊x⌋ else if 1 / 2 < x - ⌊x⌋ then ⌊x⌋ + 1 else if ⌊x⌋ % 2 = 0 then ⌊x⌋ else ⌊x⌋ + 1

/-- The six significant digits and the exponent of a positive number. -/
def significant (x : ℚ) : ℕ × ℤ :=
  let e := Int.log 10 x
  let m := (roundEven (x * (10 : ℚ) ^ (5 - e))).toNat
  if m = 10 ^ 6 then (10 ^ 5, e + 1) else (m, e)

/-- A positive floating-point number. -/
def positive (x : ℚ) : Text :=
  let s := significant x
  if -4 ≤ s.2 ∧ s.2 < 6 then fixed s.1 (5 - s.2).toNat else fixed s.1 5 ++ expo s.2

/-- `os << q` for a `double` in the default format (`%g`): six significant digits, no trailing zeros, scientific notation if the
exponent is less than -4 or at least 6.  The number is a `ℚ` instead of a `double`; there is no negative zero. -/
def double (q : ℚ) : Text :=
  if q = 0 then nat 0 else if q < 0 then byte '-' :: positive (-q) else positive q

/-- `os << odr` (`/repo/include/constraint.hh:186-202`). -/
def order : COrder → Text
  | .lt => str ['<']
  | .le => str ['<', '=']
  | .ge => str ['>', '=']
  | .gt => str ['>']

/-- `os << constraint` (`/repo/include/constraint.hh:204-207`). -/
def constraint (c : Constraint) : Text :=
  str ['x'] ++ nat c.x ++ str [' '] ++ order c.odr ++ str [' '] ++ int c.c

/-- The elements one after the other, separated by `", "` (the loops with `isFirst`, `/repo/include/constraint.hh:375-382`,
`/repo/include/timed_automaton.hh:686-693`). -/
def commas {α : Type} (f : α → Text) : List α → Text
  | [] => []
  | [a] => f a
  | a :: b :: l => f a ++ str [',', ' '] ++ commas f (b :: l)

/-- `os << guard` (`/repo/include/constraint.hh:374-385`). -/
def guard (g : Guard) : Text := commas constraint g

/-- `os << resetVarPair` (`/repo/include/timed_automaton.hh:672-683`). -/
def update (p : ℕ × Upd) : Text :=
  str ['x'] ++ nat p.1 ++ str [' ', ':', '=', ' '] ++ match p.2 with
    | .clock y => str ['x'] ++ nat y
    | .const q => double q

/-- `os << resetVars` (`/repo/include/timed_automaton.hh:685-696`). -/
def resets (r : Resets) : Text := commas update r

/-- The label of a transition (`/repo/include/timed_automaton.hh:727-731`); `UNOBSERVABLE_STRING` is the Greek letter epsilon, in
UTF-8 (`/repo/include/common_types.hh:12`). -/
def label (a : Action) : Text := if a ≠ unobservable then [a] else [Fin.ofNat 256 0xCE, Fin.ofNat 256 0xB5]

/-- The line of a state (`/repo/include/timed_automaton.hh:716-718`). -/
def stateLine (i : ℕ) (init isMatch : Bool) : Text :=
  str [' ', ' ', ' ', ' ', ' ', ' ', ' ', ' ', 'l', 'o', 'c'] ++ nat i ++ str [' ', '[', 'i', 'n', 'i', 't', '='] ++ bool init ++
    str [',', ' ', 'm', 'a', 't', 'c', 'h', '='] ++ bool isMatch ++ str [']', '\n']

/-- The line of a transition (`/repo/include/timed_automaton.hh:725-739`). -/
def edgeLine (i j : ℕ) (a : Action) (g : Guard) (r : Resets) : Text :=
  str [' ', ' ', ' ', ' ', ' ', ' ', ' ', ' ', 'l', 'o', 'c'] ++ nat i ++ str ['-', '>', 'l', 'o', 'c'] ++ nat j ++
    str [' ', '[', 'l', 'a', 'b', 'e', 'l', '=', '"'] ++ label a ++ str ['"'] ++
    (if g.isEmpty then [] else str [',', ' ', 'g', 'u', 'a', 'r', 'd', '=', '"', '{'] ++ guard g ++ str ['}', '"']) ++
    (if r.isEmpty then [] else str [',', ' ', 'r', 'e', 's', 'e', 't', '=', '"', '{'] ++ resets r ++ str ['}', '"']) ++
    str [']', '\n']

/-- `stateNumber` (`/repo/include/timed_automaton.hh:703-712`), for lists of distinct states. -/
def number (A : TA) (p : ℕ) : ℕ := A.states.idxOf p

/-- The transitions of a state in the order in which they are printed: `keys p` is the order of the keys of `next`, a hash map
(`/repo/include/timed_automaton.hh:722-723`). -/
def transitions (keys : ℕ → List Action) (A : TA) (p : ℕ) : List (Action × Trans) :=
  (keys p).flatMap fun a => ((A.loc p).next a).map fun t => (a, t)

/-- `operator<<` for automata (`/repo/include/timed_automaton.hh:700-745`); `none` is the exception of `stateNumber.at(target)`
(`/repo/include/timed_automaton.hh:726`). -/
def automaton (keys : ℕ → List Action) (A : TA) : Option Text :=
  if A.states.all fun p => (transitions keys A p).all fun x => decide (x.2.target ∈ A.states) then
    some (str ['d', 'i', 'g', 'r', 'a', 'p', 'h', ' ', 'G', ' ', '{', '\n'] ++
      A.states.flatMap (fun p => stateLine (number A p) (decide (p ∈ A.init)) (A.loc p).isMatch) ++
      A.states.flatMap (fun p => (transitions keys A p).flatMap fun x =>
        edgeLine (number A p) (number A x.2.target) x.1 x.2.guard x.2.resets) ++
      str ['}', '\n'])
  else none

end Print
end LearnTA
