import Verif.Lemmas.TableM

/-!
# The column cache is changed by `consistent` only

This holds of all other operations on all tables, also of tables that violate the invariant.
-/

namespace LearnTA
namespace ObsTable
variable {σ α β : Type} {env : Env σ}

/-- The column cache is the same; suffixes and prefixes are not removed. -/
structure Frame (T T' : ObsTable σ) : Prop where
  suffixes : T.suffixes <+: T'.suffixes
  prefixes : T.prefixes <+: T'.prefixes
  cache : T'.columnCache = T.columnCache

theorem Frame.refl' {T T' : ObsTable σ} (h1 : T'.suffixes = T.suffixes) (h2 : T'.prefixes = T.prefixes)
    (h3 : T'.columnCache = T.columnCache) : Frame T T' := ⟨h1.symm ▸ List.prefix_refl _, h2.symm ▸ List.prefix_refl _, h3⟩

theorem Frame.refl (T : ObsTable σ) : Frame T T := .refl' rfl rfl rfl

theorem Frame.trans {T T' T'' : ObsTable σ} (h : Frame T T') (h' : Frame T' T'') : Frame T T'' :=
  ⟨h.suffixes.trans h'.suffixes, h.prefixes.trans h'.prefixes, h'.cache.trans h.cache⟩

/-- The computation keeps the column cache and never removes suffixes or prefixes. -/
def KeepsC (m : TableM σ α) : Prop := ∀ T, Ok (fun _ => True) m T fun _ T' => Frame T T'

theorem KeepsC.pure (a : α) : KeepsC (Pure.pure a : TableM σ α) := fun _ => Ok.pure (.refl _)
theorem KeepsC.throw (e : Fail) : KeepsC (MonadExcept.throw e : TableM σ α) := fun _ => Ok.throw trivial
theorem KeepsC.get : KeepsC (MonadState.get : TableM σ (ObsTable σ)) := fun _ => Ok.get (.refl _)
theorem KeepsC.modify {f : ObsTable σ → ObsTable σ} (h : ∀ T, Frame T (f T)) :
    KeepsC (_root_.modify f : TableM σ Unit) := fun T => Ok.modify (h T)
theorem KeepsC.lift (o : Option α) : KeepsC (ObsTable.lift o : TableM σ α) := by
  cases o with
  | none => exact KeepsC.throw _
  | some a => exact KeepsC.pure a
theorem KeepsC.bind {m : TableM σ α} {k : α → TableM σ β} (h : KeepsC m) (h' : ∀ a, KeepsC (k a)) : KeepsC (m >>= k) := by
  intro T
  refine Ok.bind ((h T).mono ?_)
  intro a T1 h1
  exact (h' a T1).mono fun _ T2 h2 => h1.trans h2
theorem KeepsC.ite {p : Prop} [Decidable p] {m m' : TableM σ α} (h : KeepsC m) (h' : KeepsC m') :
    KeepsC (if p then m else m') := by split <;> assumption
theorem KeepsC.anyM {p : α → TableM σ Bool} (h : ∀ a, KeepsC (p a)) (l : List α) : KeepsC (l.anyM p) := by
  induction l with
  | nil => exact KeepsC.pure _
  | cons a l ih =>
    unfold List.anyM
    exact (h a).bind fun b => by cases b <;> first | exact ih | exact KeepsC.pure _

theorem query_keepsC (e : ElementaryLanguage) : KeepsC (query env e) := by
  intro T
  unfold Ok query
  cases SymOracle.query env.ask (env.near T.oracle e) T.oracle e with
  | none => trivial
  | some p => exact Frame.refl' rfl rfl rfl

/-- Goes through the text of a computation. -/
macro "keepsc" : tactic => `(tactic| repeat (first
  | exact KeepsC.pure _ | exact KeepsC.throw _ | exact KeepsC.get | exact KeepsC.lift _ | exact query_keepsC _
  | assumption
  | exact KeepsC.modify fun _ => .refl' rfl rfl rfl
  | exact KeepsC.modify fun _ => ⟨List.prefix_append _ _, List.prefix_refl _, rfl⟩
  | refine KeepsC.bind ?_ fun _ => ?_
  | refine KeepsC.ite ?_ ?_
  | refine KeepsC.anyM (fun _ => ?_) _
  | split))

theorem fillCells_keepsC (p : ForwardRegional) (ss : List BackwardRegional) : KeepsC (fillCells env p ss) := by
  induction ss with
  | nil => exact KeepsC.pure _
  | cons s ss ih => unfold fillCells; keepsc

theorem fillRows_keepsC (ss : List BackwardRegional) (ps : List ForwardRegional) (rows : List (List TimedConditionSet))
    (cats : List (List TimedCondition)) : KeepsC (fillRows env ss ps rows cats) := by
  induction ps generalizing rows cats with
  | nil => exact KeepsC.pure _
  | cons p ps ih =>
    unfold fillRows
    exact KeepsC.bind (fillCells_keepsC _ _) fun _ => KeepsC.bind (ih _ _) fun _ => KeepsC.pure _

theorem refreshTable_keepsC : KeepsC (refreshTable env) := by
  unfold refreshTable
  refine KeepsC.bind KeepsC.get fun T => KeepsC.bind (fillRows_keepsC _ _ _ _) fun r => KeepsC.modify fun _ => .refl' rfl rfl rfl

theorem equivalent_keepsC (i j : ℕ) : KeepsC (equivalent (σ := σ) i j) := by
  unfold equivalent; keepsc

theorem memo_keepsC (i j : ℕ) : KeepsC (equivalentWithMemo (σ := σ) i j) := by
  have := equivalent_keepsC (σ := σ) i j
  unfold equivalentWithMemo; keepsc

theorem moveToP_keepsC (n i : ℕ) : KeepsC (moveToP env n i) := by
  induction n generalizing i with
  | zero => exact KeepsC.throw _
  | succ n ih =>
    unfold moveToP
    refine KeepsC.bind KeepsC.get fun T => ?_
    have key : KeepsC (do
        let p ← lift T.prefixes[i]?
        let k := T.prefixes.length
        modify fun T => { T with
          pIndices := i :: T.pIndices
          prefixes := T.prefixes ++ T.alphabet.map (fun c => p.successorAction c) ++ [p.successor]
          discreteSuccessors := fun x c =>
            if x = i ∧ c ∈ T.alphabet then some (k + T.alphabet.idxOf c) else T.discreteSuccessors x c
          continuousSuccessors := Function.update T.continuousSuccessors i (some (k + T.alphabet.length)) }
        refreshTable env
        let r ← equivalentWithMemo (k + T.alphabet.length) i
        if r.isNone then moveToP env n (k + T.alphabet.length)) := by
      refine KeepsC.bind (KeepsC.lift _) fun p => ?_
      refine KeepsC.bind (KeepsC.modify fun _ => ⟨List.prefix_refl _, by simp only [List.append_assoc]; exact List.prefix_append _ _, rfl⟩) fun _ => ?_
      refine KeepsC.bind refreshTable_keepsC fun _ => ?_
      refine KeepsC.bind (memo_keepsC _ _) fun r => ?_
      exact KeepsC.ite (ih _) (KeepsC.pure _)
    dsimp only
    split
    · exact KeepsC.bind (KeepsC.throw _) fun _ => key
    · exact key

theorem confirm_keepsC (i : ℕ) (js : List ℕ) : KeepsC (confirm (σ := σ) i js) := by
  induction js with
  | nil => exact KeepsC.pure _
  | cons j js ih => unfold confirm; keepsc

theorem findTarget_keepsC (i : ℕ) : KeepsC (findTarget env i) := by
  have h1 : ∀ js, KeepsC (confirm (σ := σ) i js) := confirm_keepsC i
  have h2 : ∀ j, KeepsC (equivalentWithMemo (σ := σ) i j) := memo_keepsC i
  unfold findTarget
  refine KeepsC.bind KeepsC.get fun T => KeepsC.bind (h1 _) fun b => KeepsC.ite (KeepsC.pure _) ?_
  refine KeepsC.bind KeepsC.get fun T => KeepsC.bind (KeepsC.anyM (fun j => ?_) _) fun b => KeepsC.ite (KeepsC.pure _) ?_
  · exact KeepsC.bind (KeepsC.lift _) fun _ => KeepsC.ite (KeepsC.bind (h2 _) fun _ => KeepsC.pure _) (KeepsC.pure _)
  · exact KeepsC.anyM (fun j => KeepsC.bind (h2 _) fun _ => KeepsC.pure _) _

theorem closeLoop_keepsC (is : List ℕ) : KeepsC (closeLoop env is) := by
  induction is with
  | nil => exact KeepsC.pure _
  | cons i is ih =>
    have h1 := findTarget_keepsC (env := env) i
    have h2 := moveToP_keepsC (env := env) env.fuel i
    have h3 := refreshTable_keepsC (env := env)
    unfold closeLoop; keepsc

theorem close_keepsC : KeepsC (close env) := by
  unfold close
  exact KeepsC.bind KeepsC.get fun T => closeLoop_keepsC _

theorem addSuffix_keepsC (s : BackwardRegional) : KeepsC (addSuffix env s) := by
  have h1 := refreshTable_keepsC (env := env)
  unfold addSuffix; keepsc

theorem moveAll_keepsC (is : List ℕ) : KeepsC (moveAll env is) := by
  induction is with
  | nil => exact KeepsC.pure _
  | cons i is ih =>
    unfold moveAll
    exact KeepsC.bind (moveToP_keepsC _ _) fun _ => ih

theorem exteriorConsistent_keepsC : KeepsC (exteriorConsistent env) := by
  unfold exteriorConsistent
  refine KeepsC.bind KeepsC.get fun T => KeepsC.bind (KeepsC.lift _) fun new => KeepsC.ite (KeepsC.pure _) ?_
  exact KeepsC.bind (moveAll_keepsC _) fun _ => KeepsC.bind refreshTable_keepsC fun _ => KeepsC.pure _

theorem saturateOne_keepsC (p : ℕ) : KeepsC (saturateOne (σ := σ) p) := by
  have h1 : ∀ i j, KeepsC (equivalentWithMemo (σ := σ) i j) := memo_keepsC
  unfold saturateOne
  refine KeepsC.bind KeepsC.get fun T => KeepsC.bind (KeepsC.lift _) fun s => KeepsC.ite (KeepsC.pure _) ?_
  refine KeepsC.bind (h1 _ _) fun r => ?_
  keepsc

theorem saturateCandidates_keepsC (ps : List ℕ) : KeepsC (saturateCandidates (σ := σ) ps) := by
  induction ps with
  | nil => exact KeepsC.pure _
  | cons p ps ih =>
    have h1 := saturateOne_keepsC (σ := σ) p
    unfold saturateCandidates; keepsc

theorem timeSaturate_keepsC : KeepsC (timeSaturate env) := by
  unfold timeSaturate
  refine KeepsC.bind KeepsC.get fun T => KeepsC.bind (saturateCandidates_keepsC _) fun new => KeepsC.ite (KeepsC.pure _) ?_
  exact KeepsC.bind (moveAll_keepsC _) fun _ => KeepsC.bind refreshTable_keepsC fun _ => KeepsC.pure _

theorem findMorphism_keepsC (i : ℕ) (js : List ℕ) : KeepsC (findMorphism (σ := σ) i js) := by
  induction js with
  | nil => exact KeepsC.pure _
  | cons j js ih =>
    have h1 := memo_keepsC (σ := σ) i j
    unfold findMorphism
    refine KeepsC.bind KeepsC.get fun T => ?_
    dsimp only
    keepsc

theorem findMorphisms_keepsC (is : List ℕ) : KeepsC (findMorphisms env is) := by
  induction is with
  | nil => exact KeepsC.pure _
  | cons i is ih =>
    unfold findMorphisms
    refine KeepsC.bind KeepsC.get fun T => ?_
    have h1 := findMorphism_keepsC (σ := σ) i (env.orderRow T i)
    dsimp only
    keepsc

theorem toRecognizable_keepsC : KeepsC (toRecognizable env) := by
  unfold toRecognizable
  exact KeepsC.bind KeepsC.get fun T => KeepsC.bind (KeepsC.lift _) fun _ => KeepsC.bind (KeepsC.lift _) fun _ =>
    KeepsC.bind (findMorphisms_keepsC _) fun _ => KeepsC.pure _

theorem analyze_keepsC (R : RecognizableLanguage) (w : TimedWord) : KeepsC (analyze env R w) := by
  intro T
  unfold Ok analyze
  cases CEX.analyze env.ask env.fuel R (T.suffixes.map (·.toElementaryLanguage)) T.oracle.mem w with
  | error e => trivial
  | ok p => exact Frame.refl' rfl rfl rfl

theorem addPrefixes_keepsC (Ls : List ForwardRegional) (b : Bool) : KeepsC (addPrefixes env Ls b) := by
  induction Ls generalizing b with
  | nil => exact KeepsC.pure _
  | cons L Ls ih =>
    unfold addPrefixes
    refine KeepsC.bind KeepsC.get fun T => KeepsC.bind (KeepsC.lift _) fun i => KeepsC.ite (ih _) ?_
    exact KeepsC.bind (moveToP_keepsC _ _) fun _ => KeepsC.bind close_keepsC fun _ => KeepsC.ite (ih _) (KeepsC.pure _)

theorem handleCEX_keepsC (w : TimedWord) : KeepsC (handleCEX env w) := by
  unfold handleCEX
  refine KeepsC.bind toRecognizable_keepsC fun R => KeepsC.bind (analyze_keepsC _ _) fun o => ?_
  cases o with
  | some s => exact addSuffix_keepsC _
  | none =>
    dsimp only
    split
    · exact KeepsC.throw _
    · refine KeepsC.bind (addPrefixes_keepsC _ _) fun o => ?_
      cases o with
      | none => exact KeepsC.pure _
      | some b => exact KeepsC.ite (KeepsC.pure _) (KeepsC.throw _)

end ObsTable
end LearnTA
