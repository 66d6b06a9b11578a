import Verif.Model.TA

/-!
# The product of two timed automata

Model of `intersectionTA` (`/repo/src/intersection.cc:11-125`).
-/

namespace LearnTA
namespace TA

/-- The address of the state `toIState[(p, q)]`: the states are created for all pairs in the order
of the two nested loops (`/repo/src/intersection.cc:20-26`).  Simplification: `out` is empty before
the call and has its own heap; a pair that is not in the map (a null pointer in the code) gets an
address that is not a state. -/
def prodAddr (A B : TA) (p q : ℕ) : ℕ := A.states.idxOf p * B.states.length + B.states.idxOf q

/-- The clocks of the second automaton in updates (`/repo/src/intersection.cc:59-66`). -/
def shiftResets (k : ℕ) (r : Resets) : Resets :=
  r.map fun p => (p.1 + k, match p.2 with
    | .clock y => .clock (y + k)
    | .const c => .const c)

/-- The clocks of the second automaton in guards (`/repo/src/intersection.cc:74-76`). -/
def shiftGuard (k : ℕ) (g : Guard) : Guard := g.map fun c => { c with x := c.x + k }

/-- The transition made by `addProductTransition` (`/repo/src/intersection.cc:46-79`). -/
def prodTrans (A B : TA) (p' q' : ℕ) (e1 e2 : Trans) : Trans where
  target := prodAddr A B p' q'
  resets := e1.resets ++ shiftResets A.clockSize e2.resets
  guard := e1.guard ++ shiftGuard A.clockSize e2.guard

/-- The state for the pair `(p, q)` with the transitions added to it
(`/repo/src/intersection.cc:22-23`, `:85-123`).  The loop over the "observable transitions"
(`:103-122`) runs over all keys, the unobservable action included. -/
def prodState (A B : TA) (p q : ℕ) : TAState where
  isMatch := (A.loc p).isMatch && (B.loc q).isMatch
  next a :=
    (if a = unobservable then
      ((A.loc p).next unobservable).map (fun e1 => prodTrans A B e1.target q e1 ⟨0, [], []⟩) ++
      ((B.loc q).next unobservable).map (fun e2 => prodTrans A B p e2.target ⟨0, [], []⟩ e2)
     else []) ++
    ((A.loc p).next a).flatMap fun e1 =>
      ((B.loc q).next a).map fun e2 => prodTrans A B e1.target e2.target e1 e2

/-- `intersectionTA` (`/repo/src/intersection.cc:11-128`). -/
def intersection (A B : TA) : TA where
  loc n := prodState A B (A.states.getD (n / B.states.length) 0)
    (B.states.getD (n % B.states.length) 0)
  states := A.states.flatMap fun p => B.states.map fun q => prodAddr A B p q
  init := A.init.flatMap fun p => B.init.map fun q => prodAddr A B p q
  maxC := A.maxC ++ B.maxC

end TA
end LearnTA
