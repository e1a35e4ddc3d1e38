import Verif.Model.Driver
import Verif.Model.Intervals
import Mathlib.Analysis.SpecialFunctions.Pow.Real
import Mathlib.Analysis.SpecialFunctions.Log.Basic
import Mathlib.Analysis.Complex.Basic

/-!
# Model of `BoundCG` (utils.py 1847-1916) and `BoundMinres` (utils.py 1919-2003)

Exact real arithmetic; the thresholds `1e-15` are kept.  Divisions by zero and logarithms of zero are
separate branches that carry the result of IEEE arithmetic.
-/

namespace Krypy

/-- The argument `evals`: an array of numbers or an `Intervals` object (utils.py 1877-1893, 1951-1954, 1962-1980). -/
inductive Spectrum
  | array (l : List ℂ)
  | intervals (s : IvSet ℝ)

/-- The threshold `1e-15` (utils.py 1898, 1907, 1954, 1984-1985). -/
noncomputable def tiny : ℝ := 1 / 10 ^ 15

/-- A constructed bound object: `BoundMinres(...)` may return a `BoundCG` (utils.py 1950-1960). -/
structure Bound where
  isCG : Bool
  base : ℝ

/-- `numpy.sort` (utils.py 1893, 1980) -/
noncomputable def npSort (l : List ℝ) : List ℝ := l.mergeSort fun a b => decide (a ≤ b)

/-- utils.py 1888-1908: `BoundCG.__init__` for a list of real numbers.  If the largest eigenvalue is 0,
the normalisation (line 1894) produces only NaN and -Inf, for which both comparisons fail. -/
noncomputable def boundCGReal (evals : List ℝ) (excludeZeros : Bool) : Except Err ℝ :=
  let ev := npSort evals
  match ev.getLast? with
  | none => .error .assumptionError
  | some last =>
    if last = 0 then
      if excludeZeros = false then .error .assumptionError else .error .other
    else
      let ev := ev.map (· / last)
      if excludeZeros = false ∧ ¬ ∀ x ∈ ev, x > tiny then .error .assumptionError
      else if ¬ ∃ x, ev.head? = some x ∧ x > -tiny then .error .other
      else match (ev.filter fun x => x > tiny).min? with
        | none => .error .valueError
        | some m =>
          let kappa := 1 / m
          .ok ((Real.sqrt kappa - 1) / (Real.sqrt kappa + 1))

/-- utils.py 1872-1908: `BoundCG.__init__`.  For an empty `Intervals` object `min()` returns an
exception object and `evals[0] <= 0` is a `TypeError`. -/
noncomputable def boundCG (spec : Spectrum) (excludeZeros : Bool := false) : Except Err Bound :=
  let res : Except Err ℝ := match spec with
    | .intervals s => match s.qmin, s.qmax with
      | .val a, .val b => if a ≤ 0 then .error .assumptionError else boundCGReal [a, b] excludeZeros
      | _, _ => .error .typeError
    | .array l =>
      if l.length = 0 then .error .assumptionError
      else if ¬ ∀ z ∈ l, z.im = 0 then .error .assumptionError
      else boundCGReal (l.map Complex.re) excludeZeros
  match res with
  | .ok base => .ok ⟨true, base⟩
  | .error e => .error e

/-- utils.py 1978-1995: `BoundMinres.__init__` for a non-empty list of real numbers, not all of which are
zero (this is guaranteed by `__new__`). -/
noncomputable def boundMinresReal (evals : List ℝ) : Except Err ℝ :=
  let ev := npSort evals
  match (ev.map fun x => |x|).max? with
  | none => .error .valueError
  | some m =>
    let ev := ev.map (· / m)
    let negative := ev.filter fun x => x < -tiny
    let positive := ev.filter fun x => x > tiny
    match negative.min?, negative.max?, positive.min?, positive.max? with
    | some l1, some ls, some lt, some lN =>
      let a := Real.sqrt |l1 * lN|
      let b := Real.sqrt |ls * lt|
      .ok ((a - b) / (a + b))
    | _, _, _, _ => .error .valueError

/-- The list built in utils.py 1966-1970: all values that are not `None`. -/
def resVals : List (IvSet.Res ℝ) → List ℝ
  | [] => []
  | .val a :: l => a :: resVals l
  | _ :: l => resVals l

/-- utils.py 1950-1995: `BoundMinres(evals)`.  Simplification: for arrays with non-real entries `__new__`
compares complex numbers, but both ways end in `AssumptionError` (lines 1886, 1977). -/
noncomputable def boundMinres (spec : Spectrum) : Except Err Bound :=
  match spec with
  | .intervals s => match s.qmin with
    | .val a =>
      if a > 0 then boundCG spec
      else if s.contains 0 then .error .assumptionError
      else match boundMinresReal (resVals [s.qmin, s.maxNeg, s.minPos, s.qmax]) with
        | .ok base => .ok ⟨false, base⟩
        | .error e => .error e
    | _ => .error .typeError
  | .array l =>
    if ¬ ∀ z ∈ l, z.im = 0 then .error .assumptionError
    else if ∀ x ∈ l.map Complex.re, x > -tiny then boundCG spec
    else match boundMinresReal (l.map Complex.re) with
      | .ok base => .ok ⟨false, base⟩
      | .error e => .error e

/-- utils.py 1910-1912 and 1997-1999: `eval_step`. -/
noncomputable def Bound.evalStep (b : Bound) (step : ℝ) : ℝ :=
  if b.isCG then 2 * b.base ^ step else 2 * b.base ^ ((⌊step / 2⌋ : ℤ) : ℝ)

/-- utils.py 1914-1916 and 2001-2003: `get_step` for `tol > 0`; for `base = 0` the denominator is `-Inf`,
the quotient is zero. -/
noncomputable def Bound.getStep (b : Bound) (tol : ℝ) : ℝ :=
  let q := if b.base = 0 then 0 else Real.log (tol / 2) / Real.log b.base
  if b.isCG then q else 2 * q

end Krypy
