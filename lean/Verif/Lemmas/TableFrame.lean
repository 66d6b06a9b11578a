import Verif.Lemmas.TableM

/-!
# Suffixes are never removed

This holds of all operations on all tables, also of tables that violate the invariant.
-/

namespace LearnTA
namespace ObsTable
variable {σ α β : Type} {env : Env σ}

/-- The computation never removes suffixes. -/
def Keeps (m : TableM σ α) : Prop := ∀ T, Ok (fun _ => True) m T fun _ T' => T.suffixes <+: T'.suffixes

theorem Keeps.pure (a : α) : Keeps (Pure.pure a : TableM σ α) := fun _ => Ok.pure (List.prefix_refl _)
theorem Keeps.throw (e : Fail) : Keeps (MonadExcept.throw e : TableM σ α) := fun _ => Ok.throw trivial
theorem Keeps.get : Keeps (MonadState.get : TableM σ (ObsTable σ)) := fun _ => Ok.get (List.prefix_refl _)
theorem Keeps.modify {f : ObsTable σ → ObsTable σ} (h : ∀ T, T.suffixes <+: (f T).suffixes) :
    Keeps (_root_.modify f : TableM σ Unit) := fun T => Ok.modify (h T)
theorem Keeps.lift (o : Option α) : Keeps (ObsTable.lift o : TableM σ α) := by
  cases o with
  | none => exact Keeps.throw _
  | some a => exact Keeps.pure a
theorem Keeps.bind {m : TableM σ α} {k : α → TableM σ β} (h : Keeps m) (h' : ∀ a, Keeps (k a)) : Keeps (m >>= k) := by
  intro T
  refine Ok.bind ((h T).mono ?_)
  intro a T1 h1
  exact (h' a T1).mono fun _ T2 h2 => h1.trans h2
theorem Keeps.ite {p : Prop} [Decidable p] {m m' : TableM σ α} (h : Keeps m) (h' : Keeps m') :
    Keeps (if p then m else m') := by split <;> assumption
theorem Keeps.anyM {p : α → TableM σ Bool} (h : ∀ a, Keeps (p a)) (l : List α) : Keeps (l.anyM p) := by
  induction l with
  | nil => exact Keeps.pure _
  | cons a l ih =>
    unfold List.anyM
    exact (h a).bind fun b => by cases b <;> first | exact ih | exact Keeps.pure _

theorem query_keeps (e : ElementaryLanguage) : Keeps (query env e) := by
  intro T
  unfold Ok query
  cases SymOracle.query env.ask (env.near T.oracle e) T.oracle e with
  | none => trivial
  | some p => exact List.prefix_refl _

/-- Goes through the text of a computation. -/
macro "keeps" : tactic => `(tactic| repeat (first
  | exact Keeps.pure _ | exact Keeps.throw _ | exact Keeps.get | exact Keeps.lift _ | exact query_keeps _
  | assumption
  | exact Keeps.modify fun _ => List.prefix_refl _
  | exact Keeps.modify fun _ => List.prefix_append _ _
  | refine Keeps.bind ?_ fun _ => ?_
  | refine Keeps.ite ?_ ?_
  | refine Keeps.anyM (fun _ => ?_) _
  | split))

theorem fillCells_keeps (p : ForwardRegional) (ss : List BackwardRegional) : Keeps (fillCells env p ss) := by
  induction ss with
  | nil => exact Keeps.pure _
  | cons s ss ih => unfold fillCells; keeps

theorem fillRows_keeps (ss : List BackwardRegional) (ps : List ForwardRegional) (rows : List (List TimedConditionSet))
    (cats : List (List TimedCondition)) : Keeps (fillRows env ss ps rows cats) := by
  induction ps generalizing rows cats with
  | nil => exact Keeps.pure _
  | cons p ps ih =>
    unfold fillRows
    exact Keeps.bind (fillCells_keeps _ _) fun _ => Keeps.bind (ih _ _) fun _ => Keeps.pure _

theorem refreshTable_keeps : Keeps (refreshTable env) := by
  unfold refreshTable
  refine Keeps.bind Keeps.get fun T => Keeps.bind (fillRows_keeps _ _ _ _) fun r => Keeps.modify fun _ => List.prefix_refl _

theorem equivalent_keeps (i j : ℕ) : Keeps (equivalent (σ := σ) i j) := by
  unfold equivalent; keeps

theorem memo_keeps (i j : ℕ) : Keeps (equivalentWithMemo (σ := σ) i j) := by
  have := equivalent_keeps (σ := σ) i j
  unfold equivalentWithMemo; keeps

theorem moveToP_keeps (n i : ℕ) : Keeps (moveToP env n i) := by
  induction n generalizing i with
  | zero => exact Keeps.throw _
  | succ n ih =>
    unfold moveToP
    refine Keeps.bind Keeps.get fun T => ?_
    have key : Keeps (do
        let p ← lift T.prefixes[i]?
        let k := T.prefixes.length
        modify fun T => { T with
          pIndices := i :: T.pIndices
          prefixes := T.prefixes ++ T.alphabet.map (fun c => p.successorAction c) ++ [p.successor]
          discreteSuccessors := fun x c =>
            if x = i ∧ c ∈ T.alphabet then some (k + T.alphabet.idxOf c) else T.discreteSuccessors x c
          continuousSuccessors := Function.update T.continuousSuccessors i (some (k + T.alphabet.length)) }
        refreshTable env
        let r ← equivalentWithMemo (k + T.alphabet.length) i
        if r.isNone then moveToP env n (k + T.alphabet.length)) := by
      refine Keeps.bind (Keeps.lift _) fun p => ?_
      refine Keeps.bind (Keeps.modify fun _ => List.prefix_refl _) fun _ => ?_
      refine Keeps.bind refreshTable_keeps fun _ => ?_
      refine Keeps.bind (memo_keeps _ _) fun r => ?_
      exact Keeps.ite (ih _) (Keeps.pure _)
    dsimp only
    split
    · exact Keeps.bind (Keeps.throw _) fun _ => key
    · exact key

theorem confirm_keeps (i : ℕ) (js : List ℕ) : Keeps (confirm (σ := σ) i js) := by
  induction js with
  | nil => exact Keeps.pure _
  | cons j js ih => unfold confirm; keeps

theorem findTarget_keeps (i : ℕ) : Keeps (findTarget env i) := by
  have h1 : ∀ js, Keeps (confirm (σ := σ) i js) := confirm_keeps i
  have h2 : ∀ j, Keeps (equivalentWithMemo (σ := σ) i j) := memo_keeps i
  unfold findTarget
  refine Keeps.bind Keeps.get fun T => Keeps.bind (h1 _) fun b => Keeps.ite (Keeps.pure _) ?_
  refine Keeps.bind Keeps.get fun T => Keeps.bind (Keeps.anyM (fun j => ?_) _) fun b => Keeps.ite (Keeps.pure _) ?_
  · exact Keeps.bind (Keeps.lift _) fun _ => Keeps.ite (Keeps.bind (h2 _) fun _ => Keeps.pure _) (Keeps.pure _)
  · exact Keeps.anyM (fun j => Keeps.bind (h2 _) fun _ => Keeps.pure _) _

theorem closeLoop_keeps (is : List ℕ) : Keeps (closeLoop env is) := by
  induction is with
  | nil => exact Keeps.pure _
  | cons i is ih =>
    have h1 := findTarget_keeps (env := env) i
    have h2 := moveToP_keeps (env := env) env.fuel i
    have h3 := refreshTable_keeps (env := env)
    unfold closeLoop; keeps

theorem close_keeps : Keeps (close env) := by
  unfold close
  exact Keeps.bind Keeps.get fun T => closeLoop_keeps _

theorem remainsEquivalent_keeps (i j : ℕ) (s : BackwardRegional) (r : RenamingRelation) :
    Keeps (remainsEquivalent env i j s r) := by
  unfold remainsEquivalent; keeps

theorem searchExtended_keeps (i j : ℕ) (s : BackwardRegional) : Keeps (searchExtended env i j s) := by
  unfold searchExtended; keeps

theorem equivalentColumn_keeps (i j : ℕ) (s : BackwardRegional) : Keeps (equivalentColumn env i j s) := by
  have h1 := remainsEquivalent_keeps (env := env) i j s
  have h2 := searchExtended_keeps (env := env) i j s
  unfold equivalentColumn
  refine Keeps.bind Keeps.get fun T => ?_
  dsimp only
  generalize Option.filter _ _ = c
  have step : ∀ (m : TableM σ Bool), Keeps m →
      Keeps (do
          let known ← m
          if known then do
            modify fun T => T.storeColumn (i, j, s) true
            pure true
          else do
            let b ← searchExtended env i j s
            modify fun T => T.storeColumn (i, j, s) b
            pure b) := by
    intro m hm; keeps
  cases c with
  | some c => exact Keeps.pure _
  | none =>
    cases hr : T.getRelation i j with
    | none => exact step _ (Keeps.pure _)
    | some r => exact step _ (h1 r)

theorem findDistinguishing_keeps (i j : ℕ) (ss : List BackwardRegional) : Keeps (findDistinguishing env i j ss) := by
  induction ss with
  | nil => exact Keeps.pure _
  | cons s ss ih =>
    have h1 := equivalentColumn_keeps (env := env) i j s
    unfold findDistinguishing; keeps

theorem addSuffix_keeps (s : BackwardRegional) : Keeps (addSuffix env s) := by
  have h1 := refreshTable_keeps (env := env)
  unfold addSuffix; keeps

theorem resolveDiscrete_keeps (i j : ℕ) (a : Action) : Keeps (resolveDiscrete env i j a) := by
  unfold resolveDiscrete
  refine Keeps.bind Keeps.get fun T => Keeps.bind (findDistinguishing_keeps _ _ _) fun o => ?_
  cases o with
  | none => exact Keeps.throw _
  | some s => exact addSuffix_keeps s

theorem resolveContinuous_keeps (i j : ℕ) : Keeps (resolveContinuous env i j) := by
  unfold resolveContinuous
  refine Keeps.bind Keeps.get fun T => Keeps.bind (findDistinguishing_keeps _ _ _) fun o => ?_
  cases o with
  | none => exact Keeps.pure _
  | some s => exact Keeps.bind (addSuffix_keeps s) fun _ => Keeps.pure _

theorem checkDiscrete_keeps (i j : ℕ) (as : List Action) : Keeps (checkDiscrete env i j as) := by
  unfold checkDiscrete
  refine Keeps.anyM (fun a => ?_) _
  refine Keeps.bind Keeps.get fun T => Keeps.bind (Keeps.lift _) fun _ => Keeps.bind (Keeps.lift _) fun _ =>
    Keeps.bind (memo_keeps _ _) fun _ => Keeps.ite (Keeps.pure _) ?_
  exact Keeps.bind (resolveDiscrete_keeps _ _ _) fun _ => Keeps.pure _

theorem checkPair_keeps (i j : ℕ) : Keeps (checkPair env i j) := by
  unfold checkPair
  refine Keeps.ite (Keeps.pure _) ?_
  refine Keeps.bind Keeps.get fun T => Keeps.bind (memo_keeps _ _) fun _ => Keeps.ite (Keeps.pure _) ?_
  refine Keeps.bind (checkDiscrete_keeps _ _ _) fun _ => Keeps.ite (Keeps.pure _) ?_
  refine Keeps.bind (Keeps.lift _) fun _ => Keeps.bind (Keeps.lift _) fun _ => Keeps.bind (memo_keeps _ _) fun _ => ?_
  exact Keeps.ite (Keeps.pure _) (resolveContinuous_keeps _ _)

theorem consistent_keeps : Keeps (consistent env) := by
  unfold consistent
  refine Keeps.bind Keeps.get fun T => Keeps.bind (Keeps.anyM (fun i => Keeps.anyM (fun j => checkPair_keeps i j) _) _)
    fun _ => Keeps.pure _

theorem moveAll_keeps (is : List ℕ) : Keeps (moveAll env is) := by
  induction is with
  | nil => exact Keeps.pure _
  | cons i is ih =>
    unfold moveAll
    exact Keeps.bind (moveToP_keeps _ _) fun _ => ih

theorem exteriorConsistent_keeps : Keeps (exteriorConsistent env) := by
  unfold exteriorConsistent
  refine Keeps.bind Keeps.get fun T => Keeps.bind (Keeps.lift _) fun new => Keeps.ite (Keeps.pure _) ?_
  exact Keeps.bind (moveAll_keeps _) fun _ => Keeps.bind refreshTable_keeps fun _ => Keeps.pure _

theorem saturateOne_keeps (p : ℕ) : Keeps (saturateOne (σ := σ) p) := by
  have h1 : ∀ i j, Keeps (equivalentWithMemo (σ := σ) i j) := memo_keeps
  unfold saturateOne
  refine Keeps.bind Keeps.get fun T => Keeps.bind (Keeps.lift _) fun s => Keeps.ite (Keeps.pure _) ?_
  refine Keeps.bind (h1 _ _) fun r => ?_
  keeps

theorem saturateCandidates_keeps (ps : List ℕ) : Keeps (saturateCandidates (σ := σ) ps) := by
  induction ps with
  | nil => exact Keeps.pure _
  | cons p ps ih =>
    have h1 := saturateOne_keeps (σ := σ) p
    unfold saturateCandidates; keeps

theorem timeSaturate_keeps : Keeps (timeSaturate env) := by
  unfold timeSaturate
  refine Keeps.bind Keeps.get fun T => Keeps.bind (saturateCandidates_keeps _) fun new => Keeps.ite (Keeps.pure _) ?_
  exact Keeps.bind (moveAll_keeps _) fun _ => Keeps.bind refreshTable_keeps fun _ => Keeps.pure _

theorem refineStep_keeps : Keeps (refineStep env) := by
  have h1 := close_keeps (env := env)
  have h2 := consistent_keeps (env := env)
  have h3 := exteriorConsistent_keeps (env := env)
  have h4 := timeSaturate_keeps (env := env)
  unfold refineStep; keeps

theorem refine_keeps (n : ℕ) : Keeps (refine env n) := by
  have h1 := refineStep_keeps (env := env)
  induction n with
  | zero => exact Keeps.throw _
  | succ n ih => unfold refine; keeps

theorem findMorphism_keeps (i : ℕ) (js : List ℕ) : Keeps (findMorphism (σ := σ) i js) := by
  induction js with
  | nil => exact Keeps.pure _
  | cons j js ih =>
    have h1 := memo_keeps (σ := σ) i j
    unfold findMorphism
    refine Keeps.bind Keeps.get fun T => ?_
    dsimp only
    keeps

theorem findMorphisms_keeps (is : List ℕ) : Keeps (findMorphisms env is) := by
  induction is with
  | nil => exact Keeps.pure _
  | cons i is ih =>
    unfold findMorphisms
    refine Keeps.bind Keeps.get fun T => ?_
    have h1 := findMorphism_keeps (σ := σ) i (env.orderRow T i)
    dsimp only
    keeps

theorem toRecognizable_keeps : Keeps (toRecognizable env) := by
  unfold toRecognizable
  exact Keeps.bind Keeps.get fun T => Keeps.bind (Keeps.lift _) fun _ => Keeps.bind (Keeps.lift _) fun _ =>
    Keeps.bind (findMorphisms_keeps _) fun _ => Keeps.pure _

theorem analyze_keeps (R : RecognizableLanguage) (w : TimedWord) : Keeps (analyze env R w) := by
  intro T
  unfold Ok analyze
  cases CEX.analyze env.ask env.fuel R (T.suffixes.map (·.toElementaryLanguage)) T.oracle.mem w with
  | error e => trivial
  | ok p => exact List.prefix_refl _

theorem addPrefixes_keeps (Ls : List ForwardRegional) (b : Bool) : Keeps (addPrefixes env Ls b) := by
  induction Ls generalizing b with
  | nil => exact Keeps.pure _
  | cons L Ls ih =>
    unfold addPrefixes
    refine Keeps.bind Keeps.get fun T => Keeps.bind (Keeps.lift _) fun i => Keeps.ite (ih _) ?_
    exact Keeps.bind (moveToP_keeps _ _) fun _ => Keeps.bind close_keeps fun _ => Keeps.ite (ih _) (Keeps.pure _)

theorem handleCEX_keeps (w : TimedWord) : Keeps (handleCEX env w) := by
  unfold handleCEX
  refine Keeps.bind toRecognizable_keeps fun R => Keeps.bind (analyze_keeps _ _) fun o => ?_
  cases o with
  | some s => exact addSuffix_keeps _
  | none =>
    dsimp only
    split
    · exact Keeps.throw _
    · refine Keeps.bind (addPrefixes_keeps _ _) fun o => ?_
      cases o with
      | none => exact Keeps.pure _
      | some b => exact Keeps.ite (Keeps.pure _) (Keeps.throw _)

end ObsTable
end LearnTA
