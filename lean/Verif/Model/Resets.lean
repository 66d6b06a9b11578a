import Verif.Model.Zone
import Verif.Spec.Valuation

/-!
# Clock updates of transitions

Model of `TimedAutomatonRunner::applyReset` (`/repo/include/timed_automaton_runner.hh:62-78`) and of
the operations on update lists in `/repo/include/timed_automaton.hh`.
-/

namespace LearnTA

/-- The value of the right-hand side of an update in the valuation `v`. -/
def Upd.eval (u : Upd) (v : Valuation) : ℚ :=
  match u with
  | .const q => q
  | .clock y => v y

/-- `TimedAutomatonRunner::applyReset` (`/repo/include/timed_automaton_runner.hh:60-71`): all
right-hand sides are read in the old valuation; a later entry for the same clock wins. -/
def Resets.apply (r : Resets) (old : Valuation) : Valuation :=
  r.foldl (fun v p => Function.update v p.1 (p.2.eval old)) old

namespace Resets

/-- `result[key] = value` (`/repo/include/timed_automaton.hh:751`). -/
def mapInsert (m : Resets) (p : ℕ × Upd) : Resets :=
  if m.any (fun q => q.1 == p.1) then m.map fun q => if q.1 = p.1 then p else q else m ++ [p]

/-- `asMap` (`/repo/include/timed_automaton.hh:748-755`): a list with one entry per key stands for
`std::unordered_map`; its iteration order (hash order in the code) is the order of first
insertion. -/
def asMap (r : Resets) : Resets := r.foldl mapInsert []

/-- `composition` (`/repo/include/timed_automaton.hh:761-788`). -/
def composition (left right : Resets) : Resets :=
  let leftMap := asMap left
  let rightMap := asMap right
  leftMap.map (fun p => match p.2 with
    | .const _ => p
    | .clock mid =>
      match rightMap.find? (fun q => q.1 == mid) with
      | none => p
      | some q => (p.1, q.2)) ++
  rightMap.filter fun p => !leftMap.any fun q => q.1 == p.1

/-- `addDefault` (`/repo/include/timed_automaton.hh:791-804`). -/
def addDefault (original defaultReset : Resets) : Resets :=
  original ++ defaultReset.filter fun p => !(asMap original).any fun q => q.1 == p.1

/-- `clean` (`/repo/include/timed_automaton.hh:806-812`). -/
def clean (r : Resets) : Resets := r.filter fun p => !decide (p.2 = .clock p.1)

end Resets
end LearnTA
