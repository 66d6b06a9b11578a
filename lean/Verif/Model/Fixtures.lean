import Verif.Model.TA

/-!
# The targets of the example programs

Model of `/repo/examples/{unbalanced_fixture,unbalanced_loop_fixture,fischer_fixture,fddi_fixture}.hh` and of the targets built in
`/repo/examples/{learn_light,learn_simple_dta,learn_CAS,learn_PC}.cc`, before `simplifyStrong` and `simplifyWithZones` are called
on them.  The states are numbered as in the vector `targetAutomaton.states`.  `scale` is a `ℤ` instead of an `int`, the numbers of
states and clocks of "Unbalanced loop" are in `ℕ` instead of `int` (the constructor asserts that they are positive).
-/

namespace LearnTA
namespace Fixture

/-- One transition of a target as the programs create it: source, action, target, clocks reset to `0.0`, guard. -/
structure Edge where
  src : ℕ
  act : Action
  tgt : ℕ
  resets : List ℕ
  guard : Guard
  deriving DecidableEq

/-- A character as action. -/
def act (c : Char) : Action := Fin.ofNat 256 c.toNat

/-- `TATransition` (`/repo/include/timed_automaton.hh:81-92`) for an edge. -/
def Edge.trans (e : Edge) : Trans := ⟨e.tgt, e.resets.map fun x => (x, Upd.const 0), e.guard⟩

/-- The states that `next[a].emplace_back(...)` for the edges one after the other builds, e.g.
`/repo/examples/learn_light.cc:29-61`. -/
def locs (accepting : ℕ → Bool) (edges : List Edge) (p : ℕ) : TAState :=
  ⟨accepting p, fun a => (edges.filter fun e => decide (e.src = p ∧ e.act = a)).map Edge.trans⟩

/-- A target with `n` states, the initial state `0` and the given edges and `maxConstraints`, e.g.
`/repo/examples/learn_light.cc:28-65`. -/
def build (n : ℕ) (accepting : ℕ → Bool) (edges : List Edge) (maxC : List ℤ) : TA where
  loc := locs accepting edges
  states := List.range n
  init := [0]
  maxC := maxC

/-- The edges of the "Unbalanced" benchmark (`/repo/examples/unbalanced_fixture.hh:48-80`), for each state and action in the order
of the indices in `next`. -/
def unbalancedEdges (scale : ℤ) : List Edge :=
  [⟨0, act 'a', 1, [1], []⟩,
   ⟨0, act 'b', 4, [], []⟩,
   ⟨0, act 'c', 4, [], []⟩,
   ⟨1, act 'a', 4, [], []⟩,
   ⟨1, act 'b', 2, [], [⟨0, .ge, scale⟩, ⟨0, .le, scale⟩]⟩,
   ⟨1, act 'b', 4, [], [⟨0, .gt, scale⟩]⟩,
   ⟨1, act 'b', 4, [], [⟨0, .lt, scale⟩]⟩,
   ⟨1, act 'c', 4, [], []⟩,
   ⟨2, act 'a', 4, [], []⟩,
   ⟨2, act 'b', 4, [], []⟩,
   ⟨2, act 'c', 3, [], [⟨1, .ge, scale⟩, ⟨1, .le, scale⟩]⟩,
   ⟨2, act 'c', 4, [], [⟨1, .gt, scale⟩]⟩,
   ⟨2, act 'c', 4, [], [⟨1, .lt, scale⟩]⟩,
   ⟨3, act 'a', 4, [], []⟩,
   ⟨3, act 'b', 4, [], []⟩,
   ⟨3, act 'c', 4, [], []⟩,
   ⟨4, act 'a', 4, [], []⟩,
   ⟨4, act 'b', 4, [], []⟩,
   ⟨4, act 'c', 4, [], []⟩]

/-- The target of "Unbalanced" (`/repo/examples/unbalanced_fixture.hh:20-85`). -/
def unbalanced (scale : ℤ) : TA := build 5 (fun p => p == 3) (unbalancedEdges scale) [scale, scale]

/-- Its alphabet (`/repo/examples/unbalanced_fixture.hh:17`), also that of "Fischer" (`/repo/examples/fischer_fixture.hh:32`). -/
def abc : List Action := [act 'a', act 'b', act 'c']

/-- The loop that computes `length` (`/repo/examples/unbalanced_loop_fixture.hh:42`), with at most `fuel` increments. -/
def loopLengthFrom (clock : ℕ) : ℕ → ℕ → ℕ
  | 0, length => length
  | fuel + 1, length => if ((length + 1) * length) / 2 ≤ clock then loopLengthFrom clock fuel (length + 1) else length

/-- `length` for a clock (`/repo/examples/unbalanced_loop_fixture.hh:41-42`); C80 shows that the loop ends within the fuel. -/
def loopLength (clock : ℕ) : ℕ := loopLengthFrom clock (clock + 1) 1

/-- `init` (`/repo/examples/unbalanced_loop_fixture.hh:43`). -/
def loopInit (clock : ℕ) : ℕ := clock - ((loopLength clock - 1) * loopLength clock) / 2

/-- The values of `state` in the inner loop (`/repo/examples/unbalanced_loop_fixture.hh:44`): `init`, `init + length`, … up to
`states - length` (an `int`, hence none if `length` is above `states`). -/
def loopStates (states clock : ℕ) : List ℕ :=
  if loopInit clock + loopLength clock ≤ states then
    List.range' (loopInit clock) ((states - loopLength clock - loopInit clock) / loopLength clock + 1) (loopLength clock)
  else []

/-- The body of the inner loop (`/repo/examples/unbalanced_loop_fixture.hh:45-48`) on the edges, listed by source. -/
def loopBody (states : ℕ) (scale : ℤ) (clock : ℕ) (es : ℕ → Edge) (state : ℕ) : ℕ → Edge :=
  let source := (state + loopLength clock - 1) % states
  Function.update es source { es source with
    resets := (es source).resets ++ [clock]
    guard := (es source).guard ++ [⟨clock, .gt, loopLength clock * scale⟩, ⟨clock, .lt, 2 * loopLength clock * scale⟩] }

/-- The edges of "Unbalanced loop" (`/repo/examples/unbalanced_loop_fixture.hh:35-51`), listed by source. -/
def loopEdges (states clocks : ℕ) (scale : ℤ) : ℕ → Edge :=
  (List.range clocks).foldl (fun es clock => (loopStates states clock).foldl (loopBody states scale clock) es)
    fun i => ⟨i, act 'a', (i + 1) % states, [], []⟩

/-- The target of "Unbalanced loop" (`/repo/examples/unbalanced_loop_fixture.hh:30-52`). -/
def unbalancedLoop (states clocks : ℕ) (scale : ℤ) : TA :=
  build states (fun _ => true) ((List.range states).map (loopEdges states clocks scale))
    ((List.range clocks).map fun clock => scale * loopLength clock)

/-- `toState` of "Fischer" (`/repo/examples/fischer_fixture.hh:53-60`). -/
def fischerState (p1 p2 p3 id : ℕ) : ℕ := p1 * 4 * 4 * 4 + p2 * 4 * 4 + p3 * 4 + id

/-- The state in which `process` is in local state `s`, the next one in `pA` and the one after that in `pB`
(`/repo/examples/fischer_fixture.hh:70-76` and the assignments `source.at(process) = …`, `target.at(process) = …`). -/
def fischerAt (process pA pB s id : ℕ) : ℕ :=
  let loc := fun i => if i = process then s else if i = (process + 1) % 3 then pA else pB
  fischerState (loc 0) (loc 1) (loc 2) id

/-- The edges of one iteration of the loops of "Fischer" (`/repo/examples/fischer_fixture.hh:78-131`); the local states `A`, `REQ`,
`WAIT` and `CS` are 0, 1, 2 and 3. -/
def fischerStep (scale : ℤ) (process pA pB : ℕ) : List Edge :=
  let a : Action := Fin.ofNat 256 ('a'.toNat + process)
  let st := fischerAt process pA pB
  [⟨st 0 0, a, st 1 0, [process], []⟩] ++
  [0, 1, 2, 3].map (fun sourceId => ⟨st 1 sourceId, a, st 2 1, [process], [⟨process, .le, scale⟩]⟩) ++
  [⟨st 2 0, a, st 1 0, [process], []⟩,
   ⟨st 2 1, a, st 3 1, [], [⟨process, .gt, scale⟩]⟩,
   ⟨st 3 1, a, st 0 0, [], []⟩]

/-- The loops of "Fischer" (`/repo/examples/fischer_fixture.hh:67-134`). -/
def fischerEdges (scale : ℤ) : List Edge :=
  [0, 1, 2].flatMap fun process => [0, 1, 2, 3].flatMap fun pA => [0, 1, 2, 3].flatMap fun pB => fischerStep scale process pA pB

/-- The target of "Fischer" (`/repo/examples/fischer_fixture.hh:38-137`). -/
def fischer (scale : ℤ) : TA :=
  build 256 (fun _ => true) (fischerEdges scale) (TA.makeMaxConstants (locs (fun _ => true) (fischerEdges scale)) (List.range 256))

/-- `toState` of "FDDI" (`/repo/examples/fddi_fixture.hh:50-55`). -/
def fddiState (p1 p2 ring : ℕ) : ℕ := p1 * 8 * 4 + p2 * 4 + ring

/-- `t <= 0, t >= 0` in the guards of "FDDI"; the clocks `trt1`, `xA1`, `xB1`, `trt2`, `xA2`, `xB2`, `t` are 0, …, 6
(`/repo/examples/fddi_fixture.hh:65-72`). -/
def fddiZero : Guard := [⟨6, .le, 0⟩, ⟨6, .ge, 0⟩]

/-- `P1@TT` (`/repo/examples/fddi_fixture.hh:74-99`). -/
def fddiTT1 (scale : ℤ) : List Edge :=
  [0, 4].flatMap fun p2 =>
    [⟨fddiState 0 p2 0, act 'a', fddiState 1 p2 1, [0, 2], ⟨0, .ge, scale * 5⟩ :: fddiZero⟩,
     ⟨fddiState 0 p2 0, act 'a', fddiState 2 p2 1, [0, 2], ⟨0, .lt, scale * 5⟩ :: fddiZero⟩,
     ⟨fddiState 4 p2 0, act 'a', fddiState 5 p2 1, [0, 1], ⟨0, .ge, scale * 5⟩ :: fddiZero⟩,
     ⟨fddiState 4 p2 0, act 'a', fddiState 6 p2 1, [0, 1], ⟨0, .lt, scale * 5⟩ :: fddiZero⟩]

/-- `P1@RT` (`/repo/examples/fddi_fixture.hh:101-120`). -/
def fddiRT1 (scale : ℤ) : List Edge :=
  [0, 4].flatMap fun p2 =>
    ([1, 5].map fun p1 => ⟨fddiState p1 p2 1, act 'b', fddiState ((p1 + 3) % 8) p2 2, [6], [⟨0, .ge, scale⟩, ⟨0, .le, scale⟩]⟩) ++
    ([3, 7].map fun p1 => ⟨fddiState p1 p2 1, act 'b', fddiState ((p1 + 1) % 8) p2 2, [6],
      [⟨if p1 = 3 then 1 else 2, .le, scale * 6⟩]⟩)

/-- `P1@tau` (`/repo/examples/fddi_fixture.hh:122-132`). -/
def fddiTau1 (scale : ℤ) : List Edge :=
  [0, 4].flatMap fun p2 =>
    [2, 6].map fun p1 => ⟨fddiState p1 p2 1, act 'e', fddiState (p1 + 1) p2 1, [], [⟨0, .ge, scale⟩, ⟨0, .le, scale⟩]⟩

/-- `P2@TT` (`/repo/examples/fddi_fixture.hh:134-159`). -/
def fddiTT2 (scale : ℤ) : List Edge :=
  [0, 4].flatMap fun p1 =>
    [⟨fddiState p1 0 2, act 'c', fddiState p1 1 3, [3, 5], ⟨3, .ge, scale * 5⟩ :: fddiZero⟩,
     ⟨fddiState p1 0 2, act 'c', fddiState p1 2 3, [3, 5], ⟨3, .lt, scale * 5⟩ :: fddiZero⟩,
     ⟨fddiState p1 4 2, act 'c', fddiState p1 5 3, [3, 4], ⟨3, .ge, scale * 5⟩ :: fddiZero⟩,
     ⟨fddiState p1 4 2, act 'c', fddiState p1 6 3, [3, 4], ⟨3, .lt, scale * 5⟩ :: fddiZero⟩]

/-- `P2@RT` (`/repo/examples/fddi_fixture.hh:161-180`). -/
def fddiRT2 (scale : ℤ) : List Edge :=
  [0, 4].flatMap fun p1 =>
    ([1, 5].map fun p2 => ⟨fddiState p1 p2 3, act 'd', fddiState p1 ((p2 + 3) % 8) 0, [6], [⟨3, .ge, scale⟩, ⟨3, .le, scale⟩]⟩) ++
    ([3, 7].map fun p2 => ⟨fddiState p1 p2 3, act 'd', fddiState p1 ((p2 + 1) % 8) 0, [6],
      [⟨if p2 = 3 then 4 else 5, .le, scale * 6⟩]⟩)

/-- `P2@tau` (`/repo/examples/fddi_fixture.hh:182-192`). -/
def fddiTau2 (scale : ℤ) : List Edge :=
  [0, 4].flatMap fun p1 =>
    [2, 6].map fun p2 => ⟨fddiState p1 p2 3, act 'e', fddiState p1 (p2 + 1) 3, [], [⟨3, .ge, scale⟩, ⟨3, .le, scale⟩]⟩

/-- All the edges of "FDDI" (`/repo/examples/fddi_fixture.hh:74-192`). -/
def fddiEdges (scale : ℤ) : List Edge :=
  fddiTT1 scale ++ fddiRT1 scale ++ fddiTau1 scale ++ fddiTT2 scale ++ fddiRT2 scale ++ fddiTau2 scale

/-- The target of "FDDI" (`/repo/examples/fddi_fixture.hh:41-195`). -/
def fddi (scale : ℤ) : TA :=
  build 256 (fun _ => true) (fddiEdges scale) (TA.makeMaxConstants (locs (fun _ => true) (fddiEdges scale)) (List.range 256))

/-- Its alphabet (`/repo/examples/fddi_fixture.hh:35`). -/
def abcde : List Action := [act 'a', act 'b', act 'c', act 'd', act 'e']

/-- The edges of "Light" (`/repo/examples/learn_light.cc:35-61`). -/
def lightEdges (scale : ℤ) : List Edge :=
  [⟨0, act 'p', 1, [0], []⟩,
   ⟨1, act 'r', 0, [], [⟨0, .lt, scale⟩]⟩,
   ⟨1, act 'r', 4, [], [⟨0, .ge, scale⟩]⟩,
   ⟨1, act 's', 2, [], [⟨0, .ge, 2 * scale⟩]⟩,
   ⟨1, act 's', 5, [], [⟨0, .lt, 2 * scale⟩]⟩,
   ⟨2, act 'r', 3, [], []⟩,
   ⟨3, act 'e', 0, [], []⟩,
   ⟨4, act 't', 0, [], []⟩]

/-- The target of "Light" (`/repo/examples/learn_light.cc:28-65`). -/
def light (scale : ℤ) : TA := build 6 (fun p => decide (p < 5)) (lightEdges scale) [2 * scale]

/-- Its alphabet (`/repo/examples/learn_light.cc:26`). -/
def lightAlphabet : List Action := [act 'p', act 'r', act 's', act 'e', act 't']

/-- The edges of the simple DTA (`/repo/examples/learn_simple_dta.cc:23-33`). -/
def simpleEdges (scale : ℤ) : List Edge :=
  [⟨0, act 'a', 0, [], [⟨0, .lt, scale⟩]⟩,
   ⟨0, act 'a', 1, [0], [⟨0, .ge, scale⟩]⟩,
   ⟨1, act 'a', 0, [], [⟨0, .le, scale⟩]⟩,
   ⟨1, act 'a', 1, [], [⟨0, .gt, scale⟩]⟩]

/-- The target of the simple DTA (`/repo/examples/learn_simple_dta.cc:17-37`). -/
def simple (scale : ℤ) : TA := build 2 (fun p => p == 0) (simpleEdges scale) [scale]

/-- The complement written by hand (`/repo/examples/learn_simple_dta.cc:39-59`); the program simplifies and prints it. -/
def simpleComplement (scale : ℤ) : TA := build 2 (fun p => p == 1) (simpleEdges scale) [scale]

/-- The alphabet of the simple DTA (`/repo/examples/learn_simple_dta.cc:69`), also that of "Unbalanced loop"
(`/repo/examples/unbalanced_loop_fixture.hh:17`). -/
def onlyA : List Action := [act 'a']

/-- The edges of "CAS" (`/repo/examples/learn_CAS.cc:44-109`). -/
def casEdges : List Edge :=
  [⟨0, act 'c', 2, [], []⟩,
   ⟨0, act 'l', 1, [], []⟩,
   ⟨1, act 'u', 0, [], []⟩,
   ⟨1, act 'c', 3, [0], []⟩,
   ⟨2, act 'o', 0, [], []⟩,
   ⟨2, act 'l', 3, [0], []⟩,
   ⟨3, act 'o', 1, [], []⟩,
   ⟨3, act 'u', 2, [], []⟩,
   ⟨3, act 'a', 4, [], [⟨0, .ge, 2⟩]⟩,
   ⟨4, act 'u', 5, [], []⟩,
   ⟨4, act 'o', 6, [], []⟩,
   ⟨5, act 'b', 2, [], []⟩,
   ⟨6, act 'b', 7, [], []⟩,
   ⟨7, act 'f', 8, [], []⟩,
   ⟨8, act 's', 9, [0], []⟩,
   ⟨9, act 'u', 10, [0], []⟩,
   ⟨9, act 't', 11, [0], [⟨0, .ge, 3⟩]⟩,
   ⟨10, act 't', 12, [], []⟩,
   ⟨11, act 'u', 12, [], []⟩,
   ⟨11, act 'g', 13, [], [⟨0, .ge, 27⟩]⟩,
   ⟨12, act 'g', 0, [], []⟩,
   ⟨13, act 'u', 0, [], []⟩]

/-- The target of "CAS" (`/repo/examples/learn_CAS.cc:37-113`). -/
def cas : TA := build 15 (fun p => decide (p < 14)) casEdges [27]

/-- Its alphabet (`/repo/examples/learn_CAS.cc:35`). -/
def casAlphabet : List Action := [act 'l', act 'u', act 'o', act 'c', act 'a', act 'b', act 'f', act 'g', act 's', act 't']

/-- The edges of "PC" (`/repo/examples/learn_PC.cc:49-118`). -/
def pcEdges : List Edge :=
  [⟨0, act 's', 1, [], []⟩,
   ⟨1, act 'u', 2, [0], []⟩,
   ⟨1, act 't', 3, [], []⟩,
   ⟨2, act 'b', 4, [], []⟩,
   ⟨3, act 'b', 6, [], []⟩,
   ⟨4, act 'l', 5, [], []⟩,
   ⟨5, act 'a', 1, [], []⟩,
   ⟨5, act 's', 2, [], [⟨0, .ge, 10⟩]⟩,
   ⟨5, act 't', 6, [], []⟩,
   ⟨6, act 'y', 7, [], []⟩,
   ⟨7, act 'u', 8, [0], []⟩,
   ⟨7, act 'e', 9, [0], []⟩,
   ⟨7, act 'r', 10, [0], []⟩,
   ⟨7, act 'a', 11, [], []⟩,
   ⟨8, act 'b', 12, [], []⟩,
   ⟨9, act 'b', 13, [], []⟩,
   ⟨10, act 'b', 14, [], []⟩,
   ⟨11, act 'b', 0, [], []⟩,
   ⟨12, act 'l', 15, [], []⟩,
   ⟨13, act 'c', 15, [], []⟩,
   ⟨14, act 'g', 15, [], []⟩,
   ⟨15, act 'a', 0, [], []⟩,
   ⟨15, act 't', 6, [], []⟩,
   ⟨15, act 'y', 7, [], [⟨0, .ge, 10⟩]⟩]

/-- The target of "PC" (`/repo/examples/learn_PC.cc:42-122`). -/
def pc : TA := build 17 (fun p => decide (p < 16)) pcEdges [10]

/-- Its alphabet (`/repo/examples/learn_PC.cc:40`). -/
def pcAlphabet : List Action :=
  [act 's', act 'u', act 'b', act 'a', act 'l', act 't', act 'y', act 'e', act 'c', act 'r', act 'g']

end Fixture
end LearnTA
