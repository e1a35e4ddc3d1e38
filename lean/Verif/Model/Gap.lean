import Mathlib.Data.Real.Basic
import Mathlib.Data.List.MinMax
import Mathlib.Algebra.Order.Group.Abs
import Mathlib.Data.List.ProdSigma

/-!
# Model of `gap` (krypy/utils.py 1651-1708)

Only real arguments are modelled (`raise ArgumentError` for complex spectra, utils.py 1684-1685, is the
first check and independent of the rest; it is `GapRes.argumentError` for the flag `isReal = false`).
-/

namespace Krypy

/-- utils.py 1687, 1694: the `mode` argument. -/
inductive GapMode
  | individual
  | interval
  | other
  deriving DecidableEq

/-- What `gap` returns. `valueError`: `numpy.min` of an empty array raises (utils.py 1687-1708). -/
inductive GapRes
  | val (d : ℝ)
  | inf
  | pyNone
  | valueError
  | argumentError

/-- utils.py 1688-1693: `abs(lamda[:,None]-sigma[None,:])`, flattened. -/
noncomputable def gapDiffs (lam sig : List ℝ) : List ℝ := (lam ×ˢ sig).map fun p => |p.1 - p.2|

/-- utils.py 1651-1708: `gap(lamda, sigma, mode)`. -/
noncomputable def gap (lam sig : List ℝ) (mode : GapMode) (isReal : Bool := true) : GapRes :=
  if isReal = false then .argumentError
  else match mode with
  | .individual => match (gapDiffs lam sig).min? with
    | some d => .val d
    | none => .valueError
  | .interval => match lam.min?, lam.max? with
    | some lmin, some lmax =>
      if ¬ sig.all (fun s => decide (s ≤ lmin) || decide (s ≥ lmax)) then .pyNone
      else
        let lo := sig.filter fun s => s ≤ lmin
        let hi := sig.filter fun s => s ≥ lmax
        match lo.max?, hi.min? with
        | none, none => .inf
        | some a, none => .val (lmin - a)
        | none, some b => .val (b - lmax)       -- numpy.min([inf, b - lmax])
        | some a, some b => .val (min (lmin - a) (b - lmax))
    | _, _ => .valueError
  | .other => .pyNone

end Krypy
