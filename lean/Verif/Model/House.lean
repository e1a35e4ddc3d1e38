import Verif.Model.Driver
import Mathlib.Analysis.RCLike.Basic
import Mathlib.Data.Matrix.Mul
import Mathlib.LinearAlgebra.Matrix.ConjTranspose

/-!
# Model of `utils.House` (utils.py 332-402)

Vectors of dimension `n + 1` (numpy raises `IndexError` for dimension 0).
-/

namespace Krypy
variable {𝕜 : Type*} [RCLike 𝕜] {n : ℕ}
open scoped ComplexConjugate
open RCLike Matrix

/-- The attributes of a `House` object (utils.py 347-377). -/
structure House (𝕜 : Type*) (n : ℕ) where
  xnorm : ℝ
  v : Fin (n + 1) → 𝕜
  alpha : 𝕜
  beta : ℝ

/-- `numpy.linalg.norm(v[1:], 2)` (utils.py 357). -/
noncomputable def tailNorm (x : Fin (n + 1) → 𝕜) : ℝ := Real.sqrt (∑ i : Fin n, ‖x i.succ‖ ^ 2)

/-- utils.py 343-377.  The case `x.shape[0] == 1` (line 348) sets `sigma = 0`. -/
noncomputable def mkHouse (x : Fin (n + 1) → 𝕜) : House 𝕜 n :=
  let gamma := x 0
  let signGamma : 𝕜 := gamma / ((‖gamma‖ : ℝ) : 𝕜)
  let sigma : ℝ := if n = 0 then 0 else tailNorm x
  let v0 (a : 𝕜) : Fin (n + 1) → 𝕜 := Function.update x 0 a
  let scale (v : Fin (n + 1) → 𝕜) : Fin (n + 1) → 𝕜 :=
    fun i => v i / ((Real.sqrt (‖v 0‖ ^ 2 + sigma ^ 2) : ℝ) : 𝕜)
  if n = 0 ∨ sigma = 0 then
    { xnorm := ‖gamma‖
      alpha := if gamma = 0 then 1 else signGamma
      beta := 0
      v := scale (v0 1) }
  else
    let xnorm := Real.sqrt (‖gamma‖ ^ 2 + sigma ^ 2)
    if gamma = 0 then
      { xnorm := xnorm, alpha := 1, beta := 2, v := scale (v0 (-(sigma : 𝕜))) }
    else
      { xnorm := xnorm, alpha := -signGamma, beta := 2
        v := scale (v0 (gamma + signGamma * (xnorm : 𝕜))) }

/-- utils.py 379-389 on a single column. -/
noncomputable def House.apply (h : House 𝕜 n) (x : Fin (n + 1) → 𝕜) : Fin (n + 1) → 𝕜 :=
  if h.beta = 0 then x
  else fun i => x i - (h.beta : 𝕜) * h.v i * ∑ j, conj (h.v j) * x j

/-- utils.py 391-402. -/
noncomputable def House.matrix (h : House 𝕜 n) : Matrix (Fin (n + 1)) (Fin (n + 1)) 𝕜 :=
  1 - (h.beta : 𝕜) • Matrix.of fun i j => h.v i * conj (h.v j)

end Krypy
