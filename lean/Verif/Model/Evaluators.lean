import Verif.Model.Bounds
import Verif.Model.Gap
import Verif.Model.Timings
import Mathlib.Data.Finset.Range

/-!
# Model of `RitzApriori` (recycling/evaluators.py 18-133)

Real Ritz values: the evaluator is meant for self-adjoint problems, for which `Ritz` uses `eigh`.  A subset of indices is a
`Finset`; the order in which Python iterates over a `set` and the object that `Intervals` builds from a list are
parameters.  Not modelled: the warning for systems which are not marked as self-adjoint.
-/

namespace Krypy

/-- The attributes `values` and `resnorms` of the Ritz object (deflation.py 765-767, 796-815). -/
structure RitzVals where
  values : List ℝ
  resnorms : List ℝ

/-- `values[indices]` for a list of indices; `IndexError` is represented by `valueError` (recycling/evaluators.py 56, 95-97, 99, 132). -/
noncomputable def pick (l : List ℝ) (idx : List ℕ) : Except Err (List ℝ) :=
  if ∀ i ∈ idx, i < l.length then .ok (idx.map fun i => l.getD i 0) else .error .valueError

/-- evaluators.py 83-86, 104-106, 129-132: the list `[Interval(left, right) ...]`. -/
noncomputable def mkIvList : List (ℝ × ℝ) → Except Err (List (Interval ℝ))
  | [] => .ok []
  | p :: l => match Interval.make p.1 (some p.2) with
    | .error _ => .error .argumentError
    | .ok i => match mkIvList l with
      | .error e => .error e
      | .ok is => .ok (i :: is)

/-- `numpy.linalg.norm(l, 2)` of a vector (recycling/evaluators.py 95-96). -/
noncomputable def listNorm (l : List ℝ) : ℝ := Real.sqrt (l.map fun x => x ^ 2).sum

/-- evaluators.py 74-133: `_estimate_eval_intervals(ritz, indices, indices_remaining, eps_min, eps_max, eps_res)`. -/
noncomputable def evalIntervals (build : List (Interval ℝ) → IvSet ℝ) (r : RitzVals) (idx rem : List ℕ)
    (epsMin epsMax : ℝ) (epsRes : Option ℝ) : Except Err (IvSet ℝ) :=
  if idx.length = 0 then
    match mkIvList ((r.values.zip r.resnorms).map fun p => (p.1 - p.2, p.1 + p.2)) with
    | .error e => .error e
    | .ok is => .ok (build is)
  else if r.values.length = idx.length then .error .assumptionError
  else
    let epsRes := epsRes.getD (max |epsMin| |epsMax|)
    match pick r.resnorms idx, pick r.resnorms rem, pick r.values idx, pick r.values rem with
    | .ok resSel, .ok _, .ok sel, .ok non =>
      let deltaSel := listNorm resSel
      match gap sel non .individual with
      | .val delta => match mkIvList (sel.map fun mu => (mu + epsMin, mu + epsMax)) with
        | .error e => .error e
        | .ok is => match (build is).minAbs with
          | .val muMin =>
            if deltaSel + epsMax - epsMin ≥ delta then .error .assumptionError
            else if muMin = 0 then .error .assumptionError
            else
              let eta := (deltaSel + epsRes) ^ 2 * (1 / (delta - epsMax + epsMin) + 1 / muMin)
              let left := epsMin - eta
              let right := epsMax + eta
              match mkIvList (non.map fun mu => (mu + left, mu + right)) with
              | .error e => .error e
              | .ok is => .ok (build is)
          | _ => .error .typeError
      | _ => .error .valueError
    | _, _, _, _ => .error .valueError

/-- The argument `strategy` (recycling/evaluators.py 14, 55-60). -/
inductive AprioriStrategy
  | simple
  | intervals
  | other
  deriving DecidableEq

/-- What `evaluate` takes from `self` (evaluators.py 36-39) and from the deflated solver: its tolerance, its class and the
timings of its linear system (`none` if it is not a `TimedLinearSystem`). -/
structure AprioriArgs where
  bound : Spectrum → Except Err Bound
  tol : Option ℝ
  strategy : AprioriStrategy
  deflweight : ℝ
  solverTol : ℝ
  kind : SolverKind
  timings : Option (Timings Op ℝ)

/-- evaluators.py 41-72: `evaluate(ritz, subset)`. -/
noncomputable def aprioriEval (order : Finset ℕ → List ℕ) (build : List (Interval ℝ) → IvSet ℝ) (a : AprioriArgs)
    (r : RitzVals) (subset : Finset ℕ) : Except Err ℝ :=
  let tol := a.tol.getD a.solverTol
  let idx := order subset
  let rem := order (Finset.range r.values.length \ subset)
  let bound : Except Err Bound := match a.strategy with
    | .simple => match pick r.values rem with
      | .error e => .error e
      | .ok l => a.bound (.array (l.map ((↑) : ℝ → ℂ)))
    | .intervals => match evalIntervals build r idx rem 0 0 none with
      | .error e => .error e
      | .ok s => a.bound (.intervals s)
    | .other => .error .argumentError
  match bound with
  | .error e => .error e
  | .ok b => estimateTime a.kind a.timings (b.getStep tol) subset.card a.deflweight

end Krypy
