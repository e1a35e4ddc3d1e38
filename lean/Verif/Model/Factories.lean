import Verif.Model.Driver
import Mathlib.Data.Finset.Basic
import Mathlib.Data.Finset.Range
import Mathlib.Data.Finset.Sort
import Mathlib.Data.Complex.Basic
import Mathlib.Analysis.Complex.Norm

/-!
# Model of krypy/recycling/factories.py and generators.py

* `subset_evaluator.evaluate(ritz, s)` is an arbitrary function `eval : Finset ℕ → Except Err F`
  (simplification: a pure function, i.e. evaluating the same set twice gives the same answer).
* A generator is an arbitrary function from the remaining indices to a list of sets.
* Dictionaries are association lists in insertion order.
-/

namespace Krypy

/-- Python's `min(d, key=d.get)` on a non-empty dict: the first key with minimal value
(factories.py 94, 110). -/
def dictMin {K F : Type*} [LT F] [DecidableLT F] : K × F → List (K × F) → K × F
  | best, [] => best
  | best, kv :: l => dictMin (if kv.2 < best.2 then kv else best) l

/-- `numpy.argmin` applied to the values `f` of a non-empty list, returning the element itself
(factories.py 99-102). -/
def argminBy {K F : Type*} [LT F] [DecidableLT F] (f : K → F) : K → List K → K
  | best, [] => best
  | best, k :: l => argminBy f (if f k < f best then k else best) l

section Factory
variable {F : Type*} [LT F] [DecidableLT F]

/-- factories.py 58-63: `evaluate(_subset, _evaluations)`; `AssumptionError` is swallowed. -/
def evaluate (eval : Finset ℕ → Except Err F) (s : Finset ℕ) (d : List (Finset ℕ × F)) :
    Except Err (List (Finset ℕ × F)) :=
  match eval s with
  | .ok v => .ok (d ++ [(s, v)])
  | .error .assumptionError => .ok d
  | .error e => .error e

/-- factories.py 86-89: evaluate all candidates. -/
def evaluateAll (eval : Finset ℕ → Except Err F) (cur : Finset ℕ) :
    List (Finset ℕ) → List (Finset ℕ × F) → Except Err (List (Finset ℕ × F))
  | [], d => .ok d
  | s :: l, d => match evaluate eval (cur ∪ s) d with
    | .error e => .error e
    | .ok d => evaluateAll eval cur l d

/-- State of the greedy loop; `path` is a ghost field listing the values of `current_subset` (recycling/factories.py 56-99). -/
structure GreedySt (F : Type*) where
  cur : Finset ℕ
  overall : List (Finset ℕ × F)
  path : List (Finset ℕ)

/-- factories.py 91-102: the next `current_subset`. -/
def nextSubset (resSum : Finset ℕ → F) (cur : Finset ℕ) (subsets : List (Finset ℕ))
    (evals : List (Finset ℕ × F)) : Finset ℕ :=
  match evals with
  | kv :: l => (dictMin kv l).1
  | [] => match subsets with
    | s :: l => cur ∪ argminBy resSum s l
    | [] => cur

/-- factories.py 71-104: the `while True` loop with fuel (`none` = out of fuel, proved
unreachable).  `overall_evaluations.update` is appending because the candidates are new keys or carry the
same value. -/
def greedyLoop (n : ℕ) (eval : Finset ℕ → Except Err F) (gen : Finset ℕ → List (Finset ℕ))
    (resSum : Finset ℕ → F) : ℕ → GreedySt F → Option (Except Err (GreedySt F))
  | fuel, st =>
    let subsets := gen (Finset.range n \ st.cur)
    if subsets.length = 0 then some (.ok st)
    else match fuel with
      | 0 => none
      | fuel + 1 => match evaluateAll eval st.cur subsets [] with
        | .error e => some (.error e)
        | .ok evals =>
          let cur := nextSubset resSum st.cur subsets evals
          greedyLoop n eval gen resSum fuel
            { cur := cur, overall := st.overall ++ evals, path := st.path ++ [cur] }

/-- factories.py 52-139: `_get_best_subset` (without the printing); `n = len(ritz.values)`. -/
def getBestSubset (n : ℕ) (eval : Finset ℕ → Except Err F) (gen : Finset ℕ → List (Finset ℕ))
    (resSum : Finset ℕ → F) : Option (Except Err (Finset ℕ × GreedySt F)) :=
  match evaluate eval ∅ [] with
  | .error e => some (.error e)
  | .ok d => match greedyLoop n eval gen resSum n { cur := ∅, overall := d, path := [∅] } with
    | none => none
    | some (.error e) => some (.error e)
    | some (.ok st) => some (.ok (match st.overall with
      | kv :: l => (dictMin kv l).1
      | [] => ∅, st))

end Factory

section Generators

/-- Contract of `numpy.argsort` (not assumed stable): a permutation of the indices that sorts (recycling/factories.py 176-188, recycling/generators.py 23, 49). -/
def IsArgsort {F : Type*} [LE F] (argsort : List F → List ℕ) : Prop :=
  ∀ l : List F, (argsort l).Perm (List.range l.length) ∧
    (argsort l).Pairwise fun i j => ∀ a b, l[i]? = some a → l[j]? = some b → a ≤ b

/-- generators.py 21, 42: nothing left to propose (`none` is `numpy.Inf`). -/
def exhausted (nValues nRemaining : ℕ) (maxVectors : Option ℕ) : Bool :=
  decide (nRemaining ≤ 1) || (match maxVectors with
    | none => false
    | some m => decide (nValues - nRemaining ≥ m))

/-- generators.py 19-24: `RitzSmall.generate`; `remaining` is the list made from the Python set (any
order), `mag i = abs(ritz.values[i])`. -/
def ritzSmall {F : Type*} (argsort : List F → List ℕ) (nValues : ℕ) (maxVectors : Option ℕ)
    (mag : ℕ → F) (remaining : List ℕ) : List (Finset ℕ) :=
  if exhausted nValues remaining.length maxVectors then []
  else match (argsort (remaining.map mag)).head? with
    | some i => match remaining[i]? with
      | some r => [{r}]
      | none => []
    | none => []

/-- generators.py 46-53: `get_minmax_indices`. -/
def minmaxIndices {F : Type*} (argsort : List F → List ℕ) (values : List F) : List ℕ :=
  if values.length = 0 then []
  else
    let sort := argsort values
    if values.length > 1 then sort.head?.toList ++ sort.getLast?.toList else sort.head?.toList

/-- `arr[idx]` (numpy fancy indexing by a list of indices) (recycling/generators.py 23-24, 44, 63-69). -/
def takeIdx {α : Type*} (l : List α) (idx : List ℕ) : List α := idx.filterMap fun i => l[i]?

/-- generators.py 40-72: `RitzExtremal.generate`.  `val` are the Ritz values (real for self-adjoint
problems), `mag` their absolute values. -/
def ritzExtremal {F : Type*} [LT F] [DecidableLT F] [Zero F] (argsort : List F → List ℕ)
    (nValues : ℕ) (maxVectors : Option ℕ) (selfAdjoint : Bool) (val mag : ℕ → F)
    (remaining : List ℕ) : List (Finset ℕ) :=
  if exhausted nValues remaining.length maxVectors then []
  else
    let indices :=
      if selfAdjoint then
        let negative := remaining.filter fun i => val i < 0
        let positive := remaining.filter fun i => 0 < val i
        takeIdx negative (minmaxIndices argsort (negative.map val)) ++
          takeIdx positive (minmaxIndices argsort (positive.map val))
      else takeIdx remaining (minmaxIndices argsort (remaining.map mag))
    indices.map fun i => {i}

/-- factories.py 142-160: the `which` argument of `RitzFactorySimple`. -/
inductive Which
  | lm | sm | lr | sr | li | si | smallestRes | invalid
  deriving DecidableEq

/-- Python slice `l[-n:]` for `n ≥ 0` (so `l[-0:]` is everything) (recycling/factories.py 176, 180, 184). -/
def sliceLast {α : Type*} (n : ℕ) (l : List α) : List α := if n = 0 then l else l.drop (l.length - n)

/-- factories.py 166-194: indices chosen by `RitzFactorySimple.get`. -/
noncomputable def simpleIndices (argsort : List ℝ → List ℕ) (values : List ℂ) (resnorms : List ℝ) (n : ℕ) :
    Which → Except Err (List ℕ)
  | .lm => .ok (sliceLast n (argsort (values.map fun z => ‖z‖)))
  | .sm => .ok ((argsort (values.map fun z => ‖z‖)).take n)
  | .lr => .ok (sliceLast n (argsort (values.map Complex.re)))
  | .sr => .ok ((argsort (values.map Complex.re)).take n)
  | .li => .ok (sliceLast n (argsort (values.map Complex.im)))
  | .si => .ok ((argsort (values.map Complex.im)).take n)
  | .smallestRes => .ok ((argsort resnorms).take n)
  | .invalid => .error .argumentError

/-- factories.py 207: `[factory.get(solver) for factory in self._factories]`; an exception of one
factory propagates. -/
def unionVectors {Sol E : Type*} (s : Sol) :
    List (Sol → Except Err (List E)) → Except Err (List (List E))
  | [] => .ok []
  | f :: fs => match f s with
    | .error e => .error e
    | .ok u => match unionVectors s fs with
      | .error e => .error e
      | .ok us => .ok (u :: us)

/-- factories.py 206-208: `UnionFactory.get`: the columns of all factories side by side
(`numpy.block` raises `ValueError` for an empty list). -/
def unionGet {Sol E : Type*} (factories : List (Sol → Except Err (List E))) (s : Sol) :
    Except Err (List E) :=
  match unionVectors s factories with
  | .error e => .error e
  | .ok [] => .error .valueError
  | .ok (u :: us) => .ok (u :: us).flatten

end Generators
end Krypy
