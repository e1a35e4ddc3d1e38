import Verif.Model.Inner
import Mathlib.Algebra.Module.LinearMap.End

/-!
# `LinearSystem` (linsys.py 12-161) and `hegedus` (utils.py 812-851)

Operators are linear maps, vectors elements of `E`, the inner product a function `ip` (see
`Model/Inner`).  Not modelled: dtypes, `flat_vecs`, `exact_solution`, timings.
-/

namespace Krypy
variable {𝕜 E : Type*} [RCLike 𝕜] [AddCommGroup E] [Module 𝕜 E]

/-- Constructor arguments of `LinearSystem` (linsys.py 13-26); identity operators for `None`. -/
structure LSArgs (𝕜 E : Type*) [RCLike 𝕜] [AddCommGroup E] [Module 𝕜 E] where
  A : E →ₗ[𝕜] E
  b : E
  M : E →ₗ[𝕜] E
  Ml : E →ₗ[𝕜] E
  Mr : E →ₗ[𝕜] E
  ip : E → E → 𝕜
  normal : Option Bool
  selfAdjoint : Bool
  positiveDefinite : Bool

/-- Attributes of a constructed system (linsys.py 75-127). -/
structure LS (𝕜 E : Type*) [RCLike 𝕜] [AddCommGroup E] [Module 𝕜 E] where
  A : E →ₗ[𝕜] E
  b : E
  M : E →ₗ[𝕜] E
  Ml : E →ₗ[𝕜] E
  Mr : E →ₗ[𝕜] E
  ip : E → E → 𝕜
  MlAMr : E →ₗ[𝕜] E
  normal : Bool
  selfAdjoint : Bool
  positiveDefinite : Bool
  Mlb : E
  MMlb : E
  MMlbNorm : ℝ

/-- linsys.py 75-127.  Lines 99-111: `normal` is forced to `True` for self-adjoint systems (the check of
line 110 can therefore never raise); 119-121: `Mlb`, `MMlb` and its norm. -/
noncomputable def mkLS (a : LSArgs 𝕜 E) : Except Err (LS 𝕜 E) :=
  let normal : Bool := if a.selfAdjoint then true else a.normal.getD false
  if a.selfAdjoint && !normal then .error .argumentError
  else
    let Mlb := a.Ml a.b
    let MMlb := a.M Mlb
    match npNorm (a.ip Mlb MMlb) with
    | .error e => .error e
    | .ok nb => .ok ⟨a.A, a.b, a.M, a.Ml, a.Mr, a.ip, a.Ml.comp (a.A.comp a.Mr), normal, a.selfAdjoint,
        a.positiveDefinite, Mlb, MMlb, nb⟩

/-- linsys.py 130-161 with `compute_norm=False`: `(MMlr, Mlr)`; `z = None` uses the stored vectors. -/
def LS.getResidual (s : LS 𝕜 E) : Option E → E × E
  | none => (s.MMlb, s.Mlb)
  | some z =>
    let r := s.b - s.A z
    let Mlr := s.Ml r
    (s.M Mlr, Mlr)

/-- linsys.py 130-161 with `compute_norm=True`: `(MMlr, Mlr, norm)`. -/
noncomputable def LS.getResidualNorm (s : LS 𝕜 E) : Option E → Except Err (E × E × ℝ)
  | none => .ok (s.MMlb, s.Mlb, s.MMlbNorm)
  | some z =>
    let r := s.b - s.A z
    let Mlr := s.Ml r
    let MMlr := s.M Mlr
    match npNorm (s.ip Mlr MMlr) with
    | .error e => .error e
    | .ok nr => .ok (MMlr, Mlr, nr)

/-- utils.py 812-851.  The comparison of line 848 is numpy's: lexicographic for complex numbers. -/
noncomputable def hegedus (ip : E → E → 𝕜) (A M Ml : E →ₗ[𝕜] E) (b x0 : E) : E :=
  let MlAx0 := Ml (A x0)
  let z := M MlAx0
  let znorm2 := ip z MlAx0
  open Classical in
  if RCLike.re znorm2 < 1e-15 ∨ (RCLike.re znorm2 = 1e-15 ∧ RCLike.im znorm2 ≤ 0) then 0
  else (ip z (Ml b) / znorm2) • x0

end Krypy
