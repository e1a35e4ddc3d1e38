import Verif.Model.Driver
import Verif.Model.Factories
import Mathlib.Analysis.RCLike.Basic

/-!
# Model of `NormalizedRootsPolynomial` (utils.py 2036-2100) and `strakos` (utils.py 1639-1648)

Exact arithmetic.  Arrays of points are lists.
-/

namespace Krypy
variable {𝕜 : Type*} [RCLike 𝕜]

/-- utils.py 2087-2088: `sort[::2] = xs; sort[1::2] = ys`. -/
def interlace {α : Type*} : List α → List α → List α
  | [], ys => ys
  | x :: xs, [] => x :: xs
  | x :: xs, y :: ys => x :: y :: interlace xs ys

/-- utils.py 2084-2088: the order in which the factors are multiplied. -/
def interlacedOrder (argsort : List ℝ → List ℕ) (keys : List ℝ) : List ℕ :=
  let sortTmp := argsort keys
  let mid := (keys.length + 1) / 2
  interlace (sortTmp.take mid) (sortTmp.drop mid).reverse

/-- utils.py 2076-2100: value at one point.  A zero root is a division by zero (line 2078). -/
noncomputable def rootsPolyEval (argsort : List ℝ → List ℕ) (roots : List 𝕜) (x : 𝕜) :
    Except Err 𝕜 :=
  if ∃ θ ∈ roots, θ = 0 then .error .nonFinite
  else
    let vals := roots.map fun θ => 1 - x / θ
    let sort := interlacedOrder argsort (vals.map fun v => ‖v‖)
    let vals := takeIdx vals sort
    .ok (vals.foldl (· * ·) 1)

/-- utils.py 2063-2100: evaluation at an array of points. -/
noncomputable def rootsPolyCall (argsort : List ℝ → List ℕ) (roots : List 𝕜) :
    List 𝕜 → Except Err (List 𝕜)
  | [] => .ok []
  | x :: xs => match rootsPolyEval argsort roots x with
    | .error e => .error e
    | .ok v => match rootsPolyCall argsort roots xs with
      | .error e => .error e
      | .ok vs => .ok (v :: vs)

/-- utils.py 1644-1647: the diagonal of `strakos(n, l_min, l_max, rho)`; `n = 1` divides by zero
(`ZeroDivisionError`). -/
noncomputable def strakosDiag (n : ℕ) (lmin lmax rho : ℝ) : Except Err (List ℝ) :=
  if n = 1 then .error .other
  else .ok ((List.range n).map fun j =>
    let i : ℕ := j + 1
    lmin + ((i : ℝ) - 1) * 1 / ((n : ℝ) - 1) * (lmax - lmin) * rho ^ (n - i))

end Krypy
