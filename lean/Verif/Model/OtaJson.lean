import Verif.Model.TA
import Verif.Model.Recognizable

/-!
# One-clock automata in JSON

Model of `class OtaJsonParser` (`/repo/examples/ota_json_parser.hh`), which reads the target of `learn_ota_json`.  Not modelled:
the JSON syntax itself (Boost's `read_json`) and the exceptions for missing fields; the model starts from the fields.
-/

namespace LearnTA
namespace OtaJson

/-- `std::string`, as bytes. -/
abbrev Str := List Action

/-- The fields that the parser reads (`/repo/examples/ota_json_parser.hh:39,46,47,66,69`).  The entries of `tran` are lists of
strings. -/
structure Doc where
  sigma : List Str
  l : List Str
  accept : List Str
  init : Str
  tran : List (List Str)

/-- The characters `[`, `]`, `,`, `+`, `-`, `)`, `0` and `r`. -/
def cOpen : Action := 91
@[inherit_doc cOpen] def cClose : Action := 93
@[inherit_doc cOpen] def cComma : Action := 44
@[inherit_doc cOpen] def cPlus : Action := 43
@[inherit_doc cOpen] def cMinus : Action := 45
@[inherit_doc cOpen] def cParen : Action := 41
@[inherit_doc cOpen] def cZero : Action := 48
@[inherit_doc cOpen] def cR : Action := 114

/-- `isspace` in the C locale, which `atoi` skips (`/repo/examples/ota_json_parser.hh:88,103,106,108,111`). -/
def isSpace (c : Action) : Bool := c.val == 32 || (decide (9 ≤ c.val) && decide (c.val ≤ 13))

/-- The digits at the front of the string, after the number `n` has been read (part of `atoi`). -/
def digits : Str → ℕ → ℕ
  | [], n => n
  | c :: s, n => if 48 ≤ c.val ∧ c.val ≤ 57 then digits s (10 * n + (c.val - 48)) else n

/-- `atoi` of the C library (called in `/repo/examples/ota_json_parser.hh:88,103,106,108,111`); out of the range of `int` the behaviour
is undefined. -/
def atoi (s : Str) : Except Fail ℤ :=
  let v : ℤ := match s.dropWhile isSpace with
    | [] => 0
    | c :: t => if c = cMinus then -(digits t 0 : ℤ) else if c = cPlus then digits t 0 else digits (c :: t) 0
  if -intMax - 1 ≤ v ∧ v ≤ intMax then .ok v else .error .undefined

/-- The lower bound (`/repo/examples/ota_json_parser.hh:86-97`): the constraint and the maximal constant.  `substr(1)` of an
empty string throws. -/
def parseLower (s : Str) (m : ℤ) : Except Fail (Guard × ℤ) :=
  if s = [cOpen, cZero] then .ok ([], m)
  else match s with
    | [] => .error .exception
    | c :: t => match atoi t with
      | .error x => .error x
      | .ok k => .ok ([⟨0, if c = cOpen then .ge else .gt, k⟩], max m k)

/-- The upper bound (`/repo/examples/ota_json_parser.hh:99-113`).  `back()` of an empty string is undefined. -/
def parseUpper (s : Str) (m : ℤ) : Except Fail (Guard × ℤ) :=
  if s = [cPlus, cParen] then .ok ([], m)
  else match s.getLast? with
    | none => .error .undefined
    | some c =>
      match atoi (if c = cClose then s.dropLast else s) with
      | .error x => .error x
      | .ok k => .ok ([⟨0, if c = cClose then .le else .lt, k⟩], max m k)

/-- The guard (`/repo/examples/ota_json_parser.hh:82-113`): the text before the first comma and the text after it, both the
whole text if there is no comma (`npos + 1` is `0`). -/
def parseRange (s : Str) (m : ℤ) : Except Fail (Guard × ℤ) :=
  match parseLower (s.takeWhile (· != cComma)) m with
  | .error x => .error x
  | .ok (g, m) =>
    match parseUpper (if cComma ∈ s then (s.dropWhile (· != cComma)).drop 1 else s) m with
    | .error x => .error x
    | .ok (g', m) => .ok (g ++ g', m)

/-- `states.at(name)` (`/repo/examples/ota_json_parser.hh:66,114-115`): the address of the state; a second state of the same
name replaces the first one (line 56). -/
def find (l : List Str) (name : Str) : Except Fail ℕ :=
  if name ∈ l then .ok (l.idxOf name) else .error .exception

/-- One transition (`/repo/examples/ota_json_parser.hh:69-125`), added to the states `s.1`; `s.2` is the maximal constant.
Reading past the end of the list is undefined. -/
def addTransition (l : List Str) (s : (ℕ → TAState) × ℤ) : List Str → Except Fail ((ℕ → TAState) × ℤ)
  | source :: label :: rest => match label, rest with
    | [a], range :: reset :: target :: _ =>
      match parseRange range s.2 with
      | .error x => .error x
      | .ok (g, m) => match find l source with
        | .error x => .error x
        | .ok p => match find l target with
          | .error x => .error x
          | .ok q => .ok (Function.update s.1 p ((s.1 p).setNext a ((s.1 p).next a ++
              [⟨q, if reset = [cR] then [(0, .const 0)] else [], g⟩])), m)
    | [_], _ => .error .undefined
    | _, _ => .error .exception
  | _ => .error .undefined

/-- All transitions (`/repo/examples/ota_json_parser.hh:69-125`). -/
def addTransitions (l : List Str) : (ℕ → TAState) × ℤ → List (List Str) → Except Fail ((ℕ → TAState) × ℤ)
  | s, [] => .ok s
  | s, t :: ts => match addTransition l s t with
    | .error x => .error x
    | .ok s => addTransitions l s ts

/-- The states before the transitions are added (`/repo/examples/ota_json_parser.hh:45-57`); the address of a state is the
first position of its name. -/
def initialStates (d : Doc) (p : ℕ) : TAState := ⟨decide (∃ n ∈ d.l, d.l.idxOf n = p ∧ n ∈ d.accept), fun _ => []⟩

/-- The constructor (`/repo/examples/ota_json_parser.hh:32-130`): the alphabet and the automaton.  `order` is the order of the
iteration over the map of the states (lines 60-63). -/
def parse (order : List Str → List Str) (d : Doc) : Except Fail (List Action × TA) :=
  if d.sigma.any (fun s => s.length != 1) then .error .exception
  else match find d.l d.init with
    | .error x => .error x
    | .ok i => match addTransitions d.l (initialStates d, 0) d.tran with
      | .error x => .error x
      | .ok (loc, m) =>
        let A : TA := ⟨loc, (order d.l.dedup).map fun n => d.l.idxOf n, [i], [m]⟩
        if A.deterministic then .ok (d.sigma.filterMap List.head?, A) else .error .exception

end OtaJson
end LearnTA
