import Verif.Model.TA

/-!
# Zone automata

Model of `/repo/src/ta2za.cc`, `/repo/include/zone_automaton.hh`,
`/repo/include/zone_automaton_state.hh`, `/repo/include/symbolic_run.hh`, and of the parts of
`/repo/include/zone.hh` used only there.
-/

namespace LearnTA

namespace Zone

/-- `value.diagonal().fill(Bounds{0, true})` (`/repo/src/ta2za.cc:76`, `:79`, `:100`). -/
def fillDiag (z : Zone) : Zone :=
  { z with val := fun i j => if i = j then .fin 0 true else z.val i j }

/-- `Zone(valuation, M)` (`/repo/include/zone.hh:51-60`). -/
def point (vs : List ℚ) : Zone :=
  vs.zipIdx.foldl (fun z p => (z.tighten (p.2 + 1) 0 (.fin p.1 true)).tighten 0 (p.2 + 1)
    (.fin (-p.1) true)) (top (vs.length + 1))

/-- `reverseAssignments.find(x)` in `Zone::revertResets` (`/repo/include/zone.hh:161-167`): the last
clock that is overwritten by `x`. -/
def reverseAssignment (r : Resets) (x : ℕ) : Option ℕ :=
  r.foldl (fun acc p => match p.2 with
    | .clock y => if y = x ∧ p.1 ≠ y then some p.1 else acc
    | .const _ => acc) none

/-- The loop body of `Zone::revertResets` (`/repo/include/zone.hh:168-176`). -/
def revertOne (r : Resets) (z : Zone) (x : ℕ) : Zone :=
  match reverseAssignment r x with
  | some y => (((z.unconstrain x).set (x + 1) (y + 1) (.fin 0 true)).set (y + 1) (x + 1)
      (.fin 0 true)).canonize
  | none => (z.unconstrain x).canonize

/-- `Zone::revertResets` (`/repo/include/zone.hh:158-177`). -/
def revertResets (z : Zone) (r : Resets) : Zone := (r.map Prod.fst).reverse.foldl (revertOne r) z

end Zone

/-- `struct ZAState` (`/repo/include/zone_automaton_state.hh:17-45`); addresses as in `TA`.  The
code has an array for the actions 0..126 (other values of `char` are out of its range). -/
structure ZNode where
  isMatch : Bool
  next : Action → List (Trans × ℕ)
  ta : ℕ
  zone : Zone

/-- `struct ZoneAutomaton` (`/repo/include/zone_automaton.hh:17`, `:63`). -/
structure ZA where
  loc : ℕ → ZNode
  states : List ℕ
  init : List ℕ
  memo : Option TimedWord

/-- `class SymbolicRun` (`/repo/include/symbolic_run.hh:40-50`). -/
structure SymRun where
  states : List ℕ
  tight : List Zone
  edges : List Trans
  word : List Action

namespace SymRun

/-- The constructor (`/repo/include/symbolic_run.hh:48-50`). -/
def start (za : ZA) (q : ℕ) : SymRun := ⟨[q], [(za.loc q).zone], [], []⟩

/-- The update of `tightZones` in `push_back` (`/repo/include/symbolic_run.hh:60-64`). -/
def postZone (z : Zone) (t : Trans) : Zone :=
  ((z.elapse.tightenG t.guard).applyResets t.resets).canonize

/-- `push_back` (`/repo/include/symbolic_run.hh:53-65`). -/
def push (r : SymRun) (t : Trans) (a : Action) (q : ℕ) : SymRun where
  states := r.states ++ [q]
  word := r.word ++ [a]
  edges := r.edges ++ [t]
  tight := r.tight ++ [postZone (r.tight.getLastD (Zone.zero 1)) t]

/-- The guard loop in `reconstructWord` (`/repo/include/symbolic_run.hh:123-131`). -/
def tightenChecked (z : Zone) : Guard → Option Zone
  | [] => some z
  | c :: g =>
    let z' := z.tightenC c
    if z'.isSatisfiableNoCanonize then tightenChecked z' g else none

/-- One iteration of the loop in `reconstructWord` (`/repo/include/symbolic_run.hh:106-165`): from
the valuation after the jump, the valuation after the previous jump and the delay in between. -/
def backStep (tight : Zone) (t : Trans) (post : List ℚ) : Option (List ℚ × ℚ) :=
  let pre := tight.canonize
  let zb := Zone.point post
  if !zb.isSatisfiableNoCanonize then none
  else match tightenChecked (zb.revertResets t.resets) t.guard with
    | none => none
    | some zb =>
      let tmp := zb.reverseElapse.inter pre
      if !tmp.isSatisfiable then none
      else
        let zb := zb.inter tmp.canonize.elapse
        let vb := zb.sample
        let preVal := (pre.inter (Zone.point vb).reverseElapse).sample
        some (preVal, if preVal.isEmpty then 0 else vb.headD 0 - preVal.headD 0)

/-- The loop of `reconstructWord`; the list holds zone `i` with edge `i`, last one first. -/
def backLoop : List (Zone × Trans) → List ℚ → List ℚ → Option (List ℚ)
  | [], _, ds => some ds
  | (z, t) :: l, post, ds =>
    match backStep z t post with
    | none => none
    | some (pre, d) => backLoop l pre (d :: ds)

/-- `reconstructWord` (`/repo/include/symbolic_run.hh:93-174`). -/
def reconstructWord (r : SymRun) : Option TimedWord :=
  let last := r.tight.getLastD (Zone.zero 1)
  if !last.isSatisfiable then none
  else (backLoop (r.tight.zip r.edges).reverse last.canonize.sample []).map fun ds =>
    TimedWord.make r.word (ds ++ [0])

/-- The loop of `validate` (`/repo/include/symbolic_run.hh:182-203`).  A missing duration makes
`durations.at(i)` throw; here the answer is `false`. -/
def validateFrom : List Trans → List ℚ → Valuation → Bool
  | [], _, _ => true
  | _ :: _, [], _ => false
  | t :: ts, d :: ds, v =>
    let v' := v.shift d
    if t.guard.satisfy v' then validateFrom ts ds (t.resets.apply v')
    else false

/-- `validate` (`/repo/include/symbolic_run.hh:179-206`), called in an assertion only: in a build
with assertions the program is aborted unless it answers `true`. -/
def validate (r : SymRun) (ds : List ℚ) : Bool := validateFrom r.edges ds Valuation.zero

end SymRun

namespace ZA

/-- The state of one round of the search in `sample`. -/
structure Search where
  visited : List ℕ
  nextRuns : List SymRun

/-- The loop body over the edges in `sample` (`/repo/include/zone_automaton.hh:44-54`). -/
def searchEdge (run : SymRun) (a : Action) (s : Search) (e : Trans × ℕ) : Search :=
  if e.2 ∈ s.visited then s
  else ⟨s.visited ++ [e.2], s.nextRuns ++ [run.push e.1 a e.2]⟩

/-- The actions looked at in `sample` (`/repo/include/zone_automaton.hh:42`). -/
def charActions : List Action := allActions.filter fun a => a.val < 127

/-- Expanding one run in `sample` (`/repo/include/zone_automaton.hh:42-55`). -/
def searchRun (za : ZA) (run : SymRun) (s : Search) : Search :=
  charActions.foldl (fun s a =>
    ((za.loc (run.states.getLastD 0)).next a).foldl (searchEdge run a) s) s

/-- One round of `sample` (`/repo/include/zone_automaton.hh:34-56`): a word, or the next runs. -/
def searchRound (za : ZA) : List SymRun → Search → TimedWord ⊕ Search
  | [], s => .inr s
  | run :: runs, s =>
    match (if (za.loc (run.states.getLastD 0)).isMatch then run.reconstructWord else none) with
    | some w => .inl w
    | none => searchRound za runs (searchRun za run s)

/-- The `while` loop of `sample` (`/repo/include/zone_automaton.hh:32-58`). Each round visits a new
state or is the last one; `fuel` bounds the number of rounds. -/
def searchLoop (za : ZA) : ℕ → List SymRun → List ℕ → Option TimedWord
  | 0, _, _ => none
  | fuel + 1, runs, visited =>
    if runs.isEmpty then none
    else match searchRound za runs ⟨visited, []⟩ with
      | .inl w => some w
      | .inr s => searchLoop za fuel s.nextRuns s.visited

/-- `sample` (`/repo/include/zone_automaton.hh:23-61`).  Simplification: the number of rounds is
bounded by the number of states plus one (`sample_rounds` shows that this is no restriction). -/
def sample (za : ZA) : Option TimedWord :=
  searchLoop za (za.states.length + 2) (za.init.map (SymRun.start za)) za.init

/-- `sampleWithMemo` (`/repo/include/zone_automaton.hh:64-71`). -/
def sampleWithMemo (za : ZA) : ZA × Option TimedWord :=
  match za.memo with
  | some w => (za, some w)
  | none => let r := za.sample; ({ za with memo := r }, r)

/-- The successors of a state. -/
def succs (za : ZA) (p : ℕ) : List ℕ := allActions.flatMap fun a => ((za.loc p).next a).map Prod.snd

/-- `backwardEdges` (`/repo/include/zone_automaton.hh:77-89`). -/
def preds (za : ZA) (q : ℕ) : List ℕ := za.states.filter fun p => q ∈ za.succs p

/-- `liveStates` (`/repo/include/zone_automaton.hh:92-111`). -/
def liveStates (za : ZA) : List ℕ :=
  (TA.bfs za.preds (za.states.length + 1)
    ((za.states.filter fun p => (za.loc p).isMatch).foldl TA.bfsVisit ([], []))).1

/-- `removeDeadStates` (`/repo/include/zone_automaton.hh:76-132`). -/
def removeDeadStates (za : ZA) : ZA :=
  let live := za.liveStates
  if live.length ≠ za.states.length then
    { za with
      states := za.states.filter (· ∈ live)
      init := za.init.filter (· ∈ live)
      loc := fun p =>
        if p ∈ za.states.filter (· ∈ live) then
          { za.loc p with next := fun a => ((za.loc p).next a).filter fun e => e.2 ∈ live }
        else za.loc p }
  else za

/-- `zaState->next[c].emplace_back(edge, target)` (`/repo/src/ta2za.cc:94`, `:103`). -/
def addEdge (za : ZA) (p : ℕ) (a : Action) (e : Trans × ℕ) : ZA :=
  { za with loc := Function.update za.loc p (
      { za.loc p with next := Function.update (za.loc p).next a ((za.loc p).next a ++ [e]) }) }

/-- `ZA.states.push_back(std::make_shared<ZAState>(nextState, nextZone))`
(`/repo/src/ta2za.cc:102`); the addresses are `0, 1, …` in order of creation. -/
def addNode (za : ZA) (A : TA) (p : ℕ) (z : Zone) : ZA :=
  { za with
    loc := Function.update za.loc za.states.length ⟨(A.loc p).isMatch, fun _ => [], p, z⟩
    states := za.states ++ [za.states.length] }

end ZA

/-- The iteration orders of the hash containers used by `ta2za`, which the C++ standard leaves
open: of the map `next` of a state, and of `zaMap`. -/
structure HashOrder where
  acts : TAState → List Action
  acts_perm : ∀ s, (acts s).Perm allActions
  entries : List ((ℕ × Zone) × ℕ) → List ((ℕ × Zone) × ℕ)
  entries_perm : ∀ m, (entries m).Perm m

namespace Ta2za

/-- The zone of the successor of `now` (already elapsed) by a transition, without extrapolation
(`/repo/src/ta2za.cc:63-76`); `none` if it is empty.  Both emptiness tests canonize the zone. -/
def succZone (now : Zone) (t : Trans) : Option Zone :=
  let z1 := (now.tightenG t.guard).canonize
  if !z1.isSatisfiableNoCanonize then none
  else
    let z2 := (z1.applyResets t.resets).canonize.canonize
    if !z2.isSatisfiableNoCanonize then none else some z2.fillDiag

/-- The local variables of `ta2za`; `done` after the early return. -/
structure State where
  za : ZA
  queue : List ℕ
  map : List ((ℕ × Zone) × ℕ)
  done : Bool

/-- `zaMap[key] = q`. -/
def mapSet (m : List ((ℕ × Zone) × ℕ)) (k : ℕ × Zone) (q : ℕ) : List ((ℕ × Zone) × ℕ) :=
  m.filter (fun e => !(e.1.1 == k.1 && e.1.2.beq k.2)) ++ [(k, q)]

/-- `TA.maxConstraints` as thresholds of the zones (`/repo/src/ta2za.cc:20-30`). -/
def thresholds (A : TA) : ℕ → ℚ := fun i => (A.maxC.getD i 0 : ℤ)

/-- The zone looked up for a successor zone (`/repo/src/ta2za.cc:77-80`). -/
def lookupZone (A : TA) (quick : Bool) (z0 : Zone) : Zone :=
  if quick then z0 else (z0.extrapolate (thresholds A)).fillDiag

/-- The zone of a new node (`/repo/src/ta2za.cc:77-80`, `:97-101`). -/
def newZone (A : TA) (quick : Bool) (z0 : Zone) : Zone :=
  if quick then (z0.extrapolate (thresholds A)).canonize.fillDiag
  else (z0.extrapolate (thresholds A)).fillDiag

/-- Adding the edge to a known or to a new node (`/repo/src/ta2za.cc:77-107`). -/
def addSuccessor (A : TA) (o : HashOrder) (quick : Bool) (p : ℕ) (a : Action) (s : State)
    (t : Trans) (z0 : Zone) : State :=
  match (o.entries s.map).find?
      (fun e => e.1.1 == t.target && e.1.2.includes (lookupZone A quick z0)) with
  | some e => { s with za := s.za.addEdge p a (t, e.2) }
  | none =>
    let q := s.za.states.length
    { s with
      za := (s.za.addNode A t.target (newZone A quick z0)).addEdge p a (t, q)
      queue := s.queue ++ [q]
      map := mapSet s.map (t.target, newZone A quick z0) q }

/-- The treatment of one transition (`/repo/src/ta2za.cc:62-115`). -/
def edgeStep (A : TA) (o : HashOrder) (quick : Bool) (p : ℕ) (now : Zone) (a : Action) (s : State)
    (t : Trans) : State :=
  if s.done then s
  else match succZone now t with
    | none => s
    | some z0 =>
      let s1 := addSuccessor A o quick p a s t z0
      if (A.loc t.target).isMatch && quick then
        let r := s1.za.sampleWithMemo
        { s1 with za := r.1, done := r.2.isSome }
      else s1

/-- The loops over the transitions of one state (`/repo/src/ta2za.cc:58-116`). -/
def expand (A : TA) (o : HashOrder) (quick : Bool) (s : State) (p : ℕ) : State :=
  let now := (s.za.loc p).zone.elapse
  let st := A.loc (s.za.loc p).ta
  (o.acts st).foldl (fun s a => (st.next a).foldl (edgeStep A o quick p now a) s) s

/-- The `while` loop (`/repo/src/ta2za.cc:55-117`); `none` if it needs more than `fuel` rounds. -/
def loop (A : TA) (o : HashOrder) (quick : Bool) : ℕ → State → Option State
  | 0, _ => none
  | fuel + 1, s =>
    if s.done then some s
    else match s.queue with
      | [] => some s
      | p :: queue => loop A o quick fuel (expand A o quick { s with queue := queue } p)

/-- The initial states (`/repo/src/ta2za.cc:35-54`). -/
def start (A : TA) : State :=
  let z := Zone.zero (A.clockSize + 1)
  let za := A.init.foldl (fun (za : ZA) p => za.addNode A p z) ⟨fun _ => ⟨false, fun _ => [], 0, z⟩, [], [], none⟩
  { za := { za with init := za.states }
    queue := za.states
    map := za.states.foldl (fun m q => mapSet m ((za.loc q).ta, z) q) []
    done := false }

end Ta2za

/-- `ta2za` (`/repo/src/ta2za.cc:15-118`) on an empty `ZA`; `none` if it needs more than `fuel`
rounds. -/
def ta2za (A : TA) (o : HashOrder) (quick : Bool) (fuel : ℕ) : Option ZA :=
  (Ta2za.loop A o quick fuel (Ta2za.start A)).map (·.za)

end LearnTA
