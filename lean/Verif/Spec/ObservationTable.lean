import Verif.Model.ObservationTable
import Verif.Spec.Renaming

/-!
# Specification: the timed observation table
-/

namespace LearnTA

/-- The words the system is asked for: one delay more than actions, observable actions, no negative delay. -/
structure TimedWord.Legal (w : TimedWord) : Prop where
  wf : w.WF
  observable : w.Observable
  nonneg : w.Nonneg

/-- The answers of the system are given by the language `f`. -/
def Answers {σ : Type} (ask : σ → TimedWord → σ × Bool) (f : TimedWord → Bool) : Prop :=
  ∀ s w, w.Legal → (ask s w).2 = f w

/-- The language does not distinguish words of one region. -/
def RegionInvariant (f : TimedWord → Bool) : Prop :=
  ∀ w w' : TimedWord, w.Legal → w'.Legal → w.SameRegion w' → f w = f w'

/-- The renaming `r` shows that the prefix `left` can be merged into the prefix `right`, as far as continuations
by words of the suffixes tell: related words agree on all continuations, and the updates made of `r` lead from the
clocks of every word of `left` to those of a related word of `right`. -/
structure Merges (f : TimedWord → Bool) (left right : ElementaryLanguage) (suffixes : List ElementaryLanguage)
    (r : RenamingRelation) : Prop where
  agree : ∀ w w', left.Mem w → right.Mem w' → r.Relates w w' → ∀ s ∈ suffixes, ∀ u, s.Mem u →
    f (w.append u) = f (w'.append u)
  reset : ∃ U, r.toReset right.cond = some U ∧ ∀ w, left.Mem w → ∃ w', right.Mem w' ∧ r.Relates w w' ∧
    ∀ x ≤ right.word.length, U.apply w.clocks x = w'.clocks x

/-- A suffix the table can hold: its words are legal and form one region. -/
structure BackwardRegional.Good (s : BackwardRegional) : Prop where
  queryable : s.toElementaryLanguage.Queryable
  nonneg : s.toElementaryLanguage.Nonneg
  simple : s.cond.Simple

/-- The suffixes made of `s` by `consistent`: by prepending observable actions and letting time pass before. -/
inductive BackwardRegional.Before (s : BackwardRegional) : BackwardRegional → Prop
  | refl : Before s s
  | action {t : BackwardRegional} (a : Action) : a ≠ unobservable → Before s t → Before s (t.predecessorAction a)
  | time {t : BackwardRegional} : Before s t → Before s t.predecessor

/-- All suffixes made of `s` by `consistent` can be in the table. -/
def BackwardRegional.Regular (s : BackwardRegional) : Prop := ∀ t, s.Before t → t.Good

/-- The orders of iteration visit each element once. -/
structure Env.Lawful {σ : Type} (env : Env σ) : Prop where
  orderP : ∀ T, (env.orderP T).Perm T.pIndices
  orderRel : ∀ T, (env.orderRel T).Nodup ∧
    (∀ i ∈ env.orderRel T, (T.closedRelation i).isSome = true) ∧
    ∀ i, i < T.prefixes.length → (T.closedRelation i).isSome = true → i ∈ env.orderRel T
  orderRow : ∀ T i, (env.orderRow T i).Perm (((T.closedRelation i).getD []).map (·.1))

namespace ObsTable
variable {σ : Type}

/-- The suffixes as languages. -/
def sufs (T : ObsTable σ) : List ElementaryLanguage := T.suffixes.map (·.toElementaryLanguage)

/-- The prefix `i` can be merged into the prefix `j` by the renaming that the table records for the two. -/
def MergesInto (f : TimedWord → Bool) (T : ObsTable σ) (i j : ℕ) : Prop :=
  ∃ (p q : ForwardRegional) (r : RenamingRelation), T.prefixes[i]? = some p ∧ T.prefixes[j]? = some q ∧
    T.getRelation i j = some r ∧ Merges f p.toElementaryLanguage q.toElementaryLanguage T.sufs r

/-- Every cell of the table describes exactly the words of its prefix and suffix that `f` accepts. -/
def Exact (f : TimedWord → Bool) (T : ObsTable σ) : Prop :=
  T.table.length = T.prefixes.length ∧
    ∀ (i : ℕ) (p : ForwardRegional) (row : List TimedConditionSet), T.prefixes[i]? = some p → T.table[i]? = some row →
      IsRow f p.toElementaryLanguage T.sufs row

/-- The prefixes are pairwise different regions of words over the alphabet, the first one is the empty word without
delay and in `P`; the successors of an element of `P` are prefixes; every other prefix is a successor of an element
of `P`; only elements of `P` have successors in the table. -/
structure PrefixClosed (T : ObsTable σ) : Prop where
  region : ∀ p ∈ T.prefixes, p.Reach ∧ ∀ a ∈ p.word, a ∈ T.alphabet
  root : T.prefixes[0]? = some .init ∧ 0 ∈ T.pIndices
  inside : T.pIndices.Nodup ∧ ∀ i ∈ T.pIndices, i < T.prefixes.length
  distinct : ∀ (i j : ℕ) p q, T.prefixes[i]? = some p → T.prefixes[j]? = some q → p.beq q = true → i = j
  time : ∀ i ∈ T.pIndices, ∀ p, T.prefixes[i]? = some p →
    ∃ j, T.continuousSuccessors i = some j ∧ T.prefixes[j]? = some p.successor
  action : ∀ i ∈ T.pIndices, ∀ p, T.prefixes[i]? = some p → ∀ a ∈ T.alphabet,
    ∃ j, T.discreteSuccessors i a = some j ∧ T.prefixes[j]? = some (p.successorAction a)
  parent : ∀ j, 0 < j → j < T.prefixes.length → ∃ i ∈ T.pIndices, i < j ∧
    (T.continuousSuccessors i = some j ∨ ∃ a ∈ T.alphabet, T.discreteSuccessors i a = some j)
  only : ∀ i ∉ T.pIndices, T.continuousSuccessors i = none ∧ ∀ a, T.discreteSuccessors i a = none

/-- All suffixes allow `consistent` to make new ones. -/
def Regular (T : ObsTable σ) : Prop := ∀ s ∈ T.suffixes, s.Regular

/-- What is assumed of the system and of the hash tables: the answers are those of a language `f` that does not
distinguish words of one region, and iterations visit each element once. -/
structure EnvOk (env : Env σ) (f : TimedWord → Bool) : Prop where
  answers : Answers env.ask f
  inv : RegionInvariant f
  lawful : env.Lawful

/-- The table has grown: `T` is a part of `T'`. -/
structure Grew (T T' : ObsTable σ) : Prop where
  prefixes : T.prefixes <+: T'.prefixes
  suffixes : T.suffixes <+: T'.suffixes
  alphabet : T'.alphabet = T.alphabet
  inside : ∀ i ∈ T.pIndices, i ∈ T'.pIndices
  time : ∀ i ∈ T.pIndices, T'.continuousSuccessors i = T.continuousSuccessors i
  action : ∀ i ∈ T.pIndices, ∀ a ∈ T.alphabet, T'.discreteSuccessors i a = T.discreteSuccessors i a

/-- The row is merged into a row of `P`. -/
def Target (f : TimedWord → Bool) (T : ObsTable σ) (i : ℕ) : Prop := ∃ j ∈ T.pIndices, T.MergesInto f i j

/-- The row is in `P` or merged into a row of `P`. -/
def Covered (f : TimedWord → Bool) (T : ObsTable σ) (i : ℕ) : Prop := i ∈ T.pIndices ∨ Target f T i

/-- The time successor `s` of `p` is in `P`, or it can be merged into `p` by the empty renaming and nothing else is recorded
for it. -/
def Saturated (f : TimedWord → Bool) (T : ObsTable σ) (p : ℕ) : Prop :=
  ∃ s, T.continuousSuccessors p = some s ∧ (s ∈ T.pIndices ∨ T.closedRelation s = some [(p, [])] ∧ T.MergesInto f s p)

/-- If the suffix `s` is added, some renaming still shows that the prefix `i` can be merged into the prefix `j`. -/
def Extendable (f : TimedWord → Bool) (T : ObsTable σ) (i j : ℕ) (s : BackwardRegional) : Prop :=
  ∃ (p q : ForwardRegional) (r : RenamingRelation), T.prefixes[i]? = some p ∧ T.prefixes[j]? = some q ∧
    Merges f p.toElementaryLanguage q.toElementaryLanguage (T.sufs ++ [s.toElementaryLanguage]) r

/-- The table records that the two prefixes were once found different. -/
def Apart (T : ObsTable σ) (i j : ℕ) : Prop :=
  (i, j) ∈ T.distinguishedPrefix ∨ (j, i) ∈ T.distinguishedPrefix

/-- The successors of `i` and `j` after `a` are merged. -/
def SameAfter (f : TimedWord → Bool) (T : ObsTable σ) (i j : ℕ) (a : Action) : Prop :=
  ∃ k l, T.discreteSuccessors i a = some k ∧ T.discreteSuccessors j a = some l ∧ T.MergesInto f k l

/-- What `consistent` establishes for `i > j` in `P`: they are recorded as different; or `i` is merged into `j`, and
so are the successors after each action, and the time successors unless those are recorded as different. -/
def PairConsistent (f : TimedWord → Bool) (T : ObsTable σ) (i j : ℕ) : Prop :=
  T.Apart i j ∨ (T.MergesInto f i j ∧ (∀ a ∈ T.alphabet, SameAfter f T i j a) ∧
    ∃ k l, T.continuousSuccessors i = some k ∧ T.continuousSuccessors j = some l ∧
      (T.MergesInto f k l ∨ T.Apart k l))

/-- What a hypothesis is made of: every prefix is in `P` or merged into one of `P`; the successors of merged prefixes
of `P` are merged; the time successor of a prefix of `P` is in `P` unless some clock is fixed in the prefix; and it is in
`P` or merged by the empty renaming into the prefix it succeeds, and into nothing else. -/
structure Ready (f : TimedWord → Bool) (T : ObsTable σ) : Prop where
  covered : ∀ i < T.prefixes.length, Covered f T i
  pair : ∀ i ∈ T.pIndices, ∀ j ∈ T.pIndices, j < i →
    T.Apart i j ∨ (T.MergesInto f i j ∧ ∀ a ∈ T.alphabet, SameAfter f T i j a)
  exterior : ∀ i ∈ T.pIndices, ∀ s L, T.continuousSuccessors i = some s → T.prefixes[i]? = some L →
    s ∈ T.pIndices ∨ ∃ x ≤ L.word.length, L.toElementaryLanguage.Fixed x
  saturated : ∀ i ∈ T.pIndices, Saturated f T i

/-- `P` has grown by a prefix that was in the table; the suffixes are the same. -/
structure MoreP (T T' : ObsTable σ) : Prop where
  grew : Grew T T'
  suffixes : T'.suffixes = T.suffixes
  more : ∃ i ∈ T'.pIndices, i ∉ T.pIndices ∧ i < T.prefixes.length

/-- A suffix was added: an action, or some time, before a suffix that was in the table.  The prefixes are the same. -/
structure NewSuffix (T T' : ObsTable σ) : Prop where
  grew : Grew T T'
  same : T'.prefixes = T.prefixes ∧ T'.pIndices = T.pIndices
  more : ∃ t ∈ T.suffixes, ∃ s, (s = t.predecessor ∨ ∃ a ∈ T.alphabet, s = t.predecessorAction a) ∧
    T'.suffixes = T.suffixes ++ [s]

/-- The tables that the public operations make of a system in the state `s`, in any order.  `consistent` is called on
tables with regular suffixes only. -/
inductive Reached (env : Env σ) (alphabet : List Action) (s : σ) : ObsTable σ → Prop
  | create {T : ObsTable σ} : create env alphabet s = .ok T → Reached env alphabet s T
  | close {T T' : ObsTable σ} {b : Bool} : Reached env alphabet s T → (close env).run T = .ok (b, T') →
      Reached env alphabet s T'
  | consistent {T T' : ObsTable σ} {b : Bool} : Reached env alphabet s T → T.Regular →
      (consistent env).run T = .ok (b, T') → Reached env alphabet s T'
  | exterior {T T' : ObsTable σ} {b : Bool} : Reached env alphabet s T → (exteriorConsistent env).run T = .ok (b, T') →
      Reached env alphabet s T'
  | saturate {T T' : ObsTable σ} {b : Bool} : Reached env alphabet s T → (timeSaturate env).run T = .ok (b, T') →
      Reached env alphabet s T'
  | recognize {T T' : ObsTable σ} {R : RecognizableLanguage} : Reached env alphabet s T →
      (toRecognizable env).run T = .ok (R, T') → Reached env alphabet s T'
  | cex {T T' : ObsTable σ} {w : TimedWord} : Reached env alphabet s T → w.Legal →
      (handleCEX env w).run T = .ok ((), T') → Reached env alphabet s T'

/-- The prefixes, `P`, the suffixes and the successors are the same. -/
def Same (T T' : ObsTable σ) : Prop :=
  T'.prefixes = T.prefixes ∧ T'.pIndices = T.pIndices ∧ T'.suffixes = T.suffixes ∧
    T'.continuousSuccessors = T.continuousSuccessors ∧ T'.discreteSuccessors = T.discreteSuccessors

/-- The morphism leads from the prefix `i` outside of `P` to a prefix of `P` that it is merged into, by the renaming that the
table records. -/
def MorphismOf (f : TimedWord → Bool) (T : ObsTable σ) (i : ℕ) (m : SingleMorphism) : Prop :=
  ∃ (j : ℕ) (p q : ForwardRegional), i ∉ T.pIndices ∧ j ∈ T.pIndices ∧ T.prefixes[i]? = some p ∧ T.prefixes[j]? = some q ∧
    m.domain = p.toElementaryLanguage ∧ m.codomain = q.toElementaryLanguage ∧
    T.getRelation i j = some m.rel ∧ Merges f m.domain m.codomain T.sufs m.rel

/-- The language read off the table: the prefixes are those of `P`, the final ones those whose words are accepted, the
morphisms lead from different prefixes outside of `P` to prefixes of `P`. -/
structure TableLanguage (f : TimedWord → Bool) (T : ObsTable σ) (R : RecognizableLanguage) : Prop where
  prefixes : ∀ e, e ∈ R.prefixes ↔ ∃ i ∈ T.pIndices, ∃ p, T.prefixes[i]? = some p ∧ e = p.toElementaryLanguage
  final : ∀ e, e ∈ R.final ↔ ∃ i ∈ T.pIndices, ∃ p, T.prefixes[i]? = some p ∧ e = p.toElementaryLanguage ∧
    ∀ w, e.Mem w → f w = true
  morphisms : ∃ ks : List ℕ, ks.Nodup ∧ List.Forall₂ (fun k m => MorphismOf f T k m) ks R.morphisms

/-- What is known after a counterexample `w` was handled: a suffix of `w` was added, which shows that a morphism that was read off
the table does not preserve the language: `u` and `u'` are related by it, but the continuations by the suffix are not
both accepted or both rejected.  The prefixes are the same. -/
structure Separated (f : TimedWord → Bool) (w : TimedWord) (T T' : ObsTable σ) : Prop where
  grew : Grew T T'
  same : T'.prefixes = T.prefixes ∧ T'.pIndices = T.pIndices
  more : ∃ s : TimedWord, s.Legal ∧ (∃ v : TimedWord, v.Legal ∧ w = v.append s) ∧ T'.suffixes = T.suffixes ++ [.fromTimedWord s] ∧
    (∀ t ∈ T.sufs, ¬ t.Mem s) ∧ ∃ (i j : ℕ) (p q : ForwardRegional) (r : RenamingRelation), i ∉ T.pIndices ∧ j ∈ T.pIndices ∧
      T.prefixes[i]? = some p ∧ T.prefixes[j]? = some q ∧ r.InRange p.toElementaryLanguage q.toElementaryLanguage ∧
      Merges f p.toElementaryLanguage q.toElementaryLanguage T.sufs r ∧
      ∃ u u', p.toElementaryLanguage.Mem u ∧ q.toElementaryLanguage.Mem u' ∧ r.Relates u u' ∧
        f (u.append s) ≠ f (u'.append s)

end ObsTable

/-- The word `w` is replaced by `w'` in one step of the language `R`: a beginning `p` of `w` that is in the domain of a
morphism of `R` is replaced by a word `p'` of the codomain that is related to it; `s` is the rest. -/
structure RecognizableLanguage.Step (R : RecognizableLanguage) (w w' s : TimedWord) : Prop where
  legal : w'.Legal ∧ s.Legal
  outside : ∀ e ∈ R.prefixes, ¬ e.Mem w
  by_morphism : ∃ m ∈ R.morphisms, ∃ p p', m.domain.Mem p ∧ m.codomain.Mem p' ∧ m.rel.Relates p p' ∧
    w = p.append s ∧ w' = p'.append s

end LearnTA
