import Verif.Model.RootsPoly
import Verif.Model.Intervals
import Mathlib.Algebra.Polynomial.Derivative
import Mathlib.Algebra.Polynomial.Roots
import Mathlib.Analysis.Complex.Basic

/-!
# Model of `NormalizedRootsPolynomial.minmax_candidates` (utils.py 2052-2065) and of its use in `bound_pseudo`
(deflation.py 676-698, the branch for self-adjoint systems)

Exact arithmetic.
-/

namespace Krypy
open Polynomial

/-- utils.py 2062: `Polynomial.fromroots(roots)`, the monic polynomial. -/
noncomputable def fromRoots {R : Type*} [CommRing R] (roots : List R) : R[X] := (roots.map fun θ => X - C θ).prod

/-- utils.py 2065: `p.deriv(1).roots()`.  Contract of numpy: the list of complex roots with multiplicities, in any order;
an empty list for a constant derivative. -/
def IsMinmaxCandidates (roots : List ℂ) (cand : List ℂ) : Prop :=
  (derivative (fromRoots roots)).roots = (cand : Multiset ℂ)

/-- deflation.py 683-688: endpoints of the intervals and the candidates which they contain. -/
noncomputable def allCandidates (ivs : IvSet ℝ) (cand : List ℝ) : List ℝ := ivs.endpoints ++ cand.filter (ivs.contains ·)

/-- deflation.py 690-694: `numpy.max(numpy.abs(p(all_candidates)))`; an empty array raises a ValueError. -/
noncomputable def polyMax (argsort : List ℝ → List ℕ) (roots : List ℝ) (ivs : IvSet ℝ) (cand : List ℝ) : Except Err ℝ :=
  match rootsPolyCall argsort roots (allCandidates ivs cand) with
  | .error e => .error e
  | .ok vals => match (vals.map fun v => |v|).max? with
    | none => .error .valueError
    | some m => .ok m

end Krypy
