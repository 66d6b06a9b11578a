import Verif.Model.ElementaryLanguage
import Verif.Model.Oracle

/-!
# Symbolic membership queries

Models of `/repo/include/timed_condition_set.hh` (`TimedConditionSet::reduce`) and of
`/repo/include/symbolic_membership_oracle.hh`.
-/

namespace LearnTA

/-- `class TimedConditionSet` (`/repo/include/timed_condition_set.hh:18-25`): a vector of conditions. -/
abbrev TimedConditionSet := List TimedCondition

namespace TimedConditionSet

/-- The inner loop of `reduce` (`/repo/include/timed_condition_set.hh:64-75`): `c` is `*it`, the list
what follows it.  The result is the merged element and what follows it then, or `none` if nothing
merges; the outer `none` is a diverging `enumerate`. -/
def mergeFirst (c : TimedCondition × ℕ) :
    List (TimedCondition × ℕ) → Option (Option ((TimedCondition × ℕ) × List (TimedCondition × ℕ)))
  | [] => some none
  | d :: l =>
    match (c.1.convexHull d.1).enumerate with
    | none => none
    | some e =>
      if e.length = c.2 + d.2 then some (some ((c.1.convexHull d.1, c.2 + d.2), l))
      else (mergeFirst c l).map fun r => r.map fun p => (p.1, d :: p.2)

/-- The outer loop of `reduce` (`/repo/include/timed_condition_set.hh:61-79`): the elements before
`it`, and those from `it` on.  The first argument is fuel; `reduce` gives enough (proved). -/
def reduceLoop : ℕ → List (TimedCondition × ℕ) → List (TimedCondition × ℕ) →
    Option (List (TimedCondition × ℕ))
  | 0, _, _ => none
  | _ + 1, done, [] => some done
  | n + 1, done, c :: rest =>
    match mergeFirst c rest with
    | none => none
    | some (some (m, rest')) => reduceLoop n [] (done ++ m :: rest')
    | some none => reduceLoop n (done ++ [c]) rest

/-- `TimedConditionSet::reduce` (`/repo/include/timed_condition_set.hh:40-90`). -/
def reduce (l : List ElementaryLanguage) : Option TimedConditionSet :=
  if l.isEmpty then some []
  else (reduceLoop ((l.length + 1) ^ 2) [] (l.map fun e => (e.cond, 1))).map (·.map (·.1))

end TimedConditionSet

/-- `class SymbolicMembershipOracle` (`/repo/include/symbolic_membership_oracle.hh:17-26`) around the
cached membership oracle; an association list stands for `boost::unordered_map`. -/
structure SymOracle (σ : Type) where
  mem : MemCache σ
  cache : List (ElementaryLanguage × TimedConditionSet)
  countSymbolic : ℕ
  countSymbolicWithCache : ℕ

namespace SymOracle
variable {σ : Type}

/-- The constructor (`/repo/include/symbolic_membership_oracle.hh:29-30`). -/
def start (s : σ) : SymOracle σ := ⟨.start s, [], 0, 0⟩

/-- The loop that asks for a sample of each simple language
(`/repo/include/symbolic_membership_oracle.hh:44-53`): the state of the membership oracle and
`includedLanguages`.  The flag `allIncluded` is true exactly if no language was left out; see `build`. -/
def askAll (ask : σ → TimedWord → σ × Bool) (m : MemCache σ) :
    List ElementaryLanguage → MemCache σ × List ElementaryLanguage × Bool
  | [] => (m, [], true)
  | e :: es =>
    let r := m.answerQuery ask e.sample
    let q := askAll ask r.1 es
    (q.1, if r.2 then e :: q.2.1 else q.2.1, r.2 && q.2.2)

/-- The simplification of the result (`/repo/include/symbolic_membership_oracle.hh:55-74`). -/
def build (e : ElementaryLanguage) (included : List ElementaryLanguage) (all : Bool) :
    Option TimedConditionSet :=
  if included.isEmpty then some []
  else if all then some [e.cond]
  else
    let hull := ElementaryLanguage.convexHull included
    match hull.enumerate with
    | none => none
    | some l =>
      if l.length = included.length then some [hull.cond] else TimedConditionSet.reduce included

/-- `query` (`/repo/include/symbolic_membership_oracle.hh:37-75`); `none` if it diverges.  `near` says
which keys of the hash table the lookup compares with: the hash of a condition depends on its
diagonal, which `==` ignores, so the code may or may not find an equal key. -/
def query (ask : σ → TimedWord → σ × Bool) (near : ElementaryLanguage → Bool) (o : SymOracle σ)
    (e : ElementaryLanguage) : Option (SymOracle σ × TimedConditionSet) :=
  match o.cache.find? fun p => near p.1 && p.1.beq e with
  | some p => some ({ o with countSymbolic := o.countSymbolic + 1 }, p.2)
  | none =>
    match e.enumerate with
    | none => none
    | some l =>
      let r := askAll ask o.mem l
      (build e r.2.1 r.2.2).map fun res =>
        (⟨r.1, (e, res) :: o.cache, o.countSymbolic + 1, o.countSymbolicWithCache + 1⟩, res)

/-- A sequence of queries with their answers. -/
def queryAll (ask : σ → TimedWord → σ × Bool) (near : ElementaryLanguage → ElementaryLanguage → Bool)
    (o : SymOracle σ) : List ElementaryLanguage → Option (SymOracle σ × List TimedConditionSet)
  | [] => some (o, [])
  | e :: es =>
    match query ask (near e) o e with
    | none => none
    | some (o', r) => (queryAll ask near o' es).map fun q => (q.1, r :: q.2)

end SymOracle
end LearnTA
