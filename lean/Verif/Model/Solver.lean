import Verif.Model.LinearSystem
import Verif.Model.Arnoldi
import Mathlib.Data.Real.Basic

/-!
# Exact-arithmetic instances of the solver driver: common parts (linsys.py 277-428)
-/

namespace Krypy
variable {𝕜 E : Type*} [RCLike 𝕜] [AddCommGroup E] [Module 𝕜 E]

/-- Keyword arguments of the solvers (linsys.py 280-294); `exact` is the attribute `exact_solution` of the
linear system. -/
structure SolverArgs (E : Type*) where
  x0 : Option E
  tol : ℝ
  maxiter : ℕ
  explicitResidual : Bool
  exact : Option E

/-- The parts of the solver object which the driver reads (linsys.py 350-405): residual norms are computed
by `linear_system.get_residual(x, compute_norm=True)` (455-457), error norms by `norm` (437-442). -/
noncomputable def mkCfg (s : LS 𝕜 E) (a : SolverArgs E) : Cfg ℝ E where
  tol := a.tol
  maxiter := a.maxiter
  explicitResidual := a.explicitResidual
  MMlbNorm := s.MMlbNorm
  resNorm := fun x => match s.getResidualNorm (some x) with
    | .error e => .error e
    | .ok (_, _, r) => .ok r
  errNorm := a.exact.map fun xs x => npNorm (s.ip (xs - x) (xs - x))

/-- The parts of a solver object which `_DeflationMixin` overrides: `_get_initial_residual`
(linsys.py 415-421), the operator `self.MlAMr` (linsys.py 366) and what `_get_xk` does after the computation
of linsys.py 423-428 (nothing in the undeflated solvers). -/
structure Hooks (𝕜 E : Type*) [RCLike 𝕜] [AddCommGroup E] [Module 𝕜 E] where
  initRes : Option E → Except Err (E × E × ℝ)
  op : E →ₗ[𝕜] E
  post : E → Except Err E

/-- The undeflated solvers (linsys.py 366, 415-428). -/
noncomputable def LS.hooks (s : LS 𝕜 E) : Hooks 𝕜 E := ⟨s.getResidualNorm, s.MlAMr, .ok⟩

/-- The Arnoldi/Lanczos object of `Gmres`/`Minres` (linsys.py 796-805, 953-962): operator `self.MlAMr`, inner product
`ip_B`, preconditioner `M`. -/
def LS.arnCfg (s : LS 𝕜 E) (hk : Hooks 𝕜 E) (maxiter : ℕ) (ortho : Ortho) : ArnCfg 𝕜 E :=
  ⟨hk.op, some s.M, s.ip, maxiter, ortho⟩

end Krypy
