import Verif.Model.Driver
import Mathlib.Analysis.RCLike.Basic
import Mathlib.Algebra.Module.LinearMap.Defs

/-!
# Inner products and norms of single vectors (utils.py 146-238)

`(N,1)` arrays are elements of a `𝕜`-module `E`.  `inner(x, y, ip_B)[0, 0]` for single columns is a function
`ip : E → E → 𝕜`; the dispatch of `utils.inner` over `None`, matrices, operators and callables is in
`Model/InnerDispatch.lean`.
-/

namespace Krypy
variable {𝕜 E : Type*} [RCLike 𝕜] [AddCommGroup E] [Module 𝕜 E]
open scoped ComplexConjugate

/-- What the documentation of `utils.inner` (utils.py 160-180) requires of an inner product:
linear in the second argument, conjugate symmetric, positive definite. -/
structure IsInner (ip : E → E → 𝕜) : Prop where
  add_right : ∀ x y z, ip x (y + z) = ip x y + ip x z
  smul_right : ∀ x (c : 𝕜) y, ip x (c • y) = c * ip x y
  conj_symm : ∀ x y, conj (ip x y) = ip y x
  pos : ∀ x, x ≠ 0 → 0 < RCLike.re (ip x x)

/-- utils.py 226-238 for single columns, given `z = inner(x, y, ip_B)[0,0]`: the imaginary part
check, then `sqrt(|z|)`.  For `y is None` and `ip_B is None` the code computes the Euclidean norm directly,
which is the same number. -/
noncomputable def npNorm (z : 𝕜) : Except Err ℝ :=
  if ‖z‖ * 1e-10 < |RCLike.im z| then .error .innerProductError else .ok (Real.sqrt ‖z‖)

end Krypy
