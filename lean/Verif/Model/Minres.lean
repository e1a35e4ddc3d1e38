import Verif.Model.Gmres

/-!
# `Minres` (linsys.py 711-874) in exact arithmetic, with `ortho` in `lanczos`, `mgs`, `dmgs`

Not modelled: the warning for systems not marked self-adjoint (linsys.py 763-767), dtypes.
-/

namespace Krypy
variable {𝕜 E : Type*} [RCLike 𝕜] [AddCommGroup E] [Module 𝕜 E]

/-- State of the iteration (linsys.py 794-815): the Lanczos object, the two last rotations, the two last
columns `W` and `y[0]` (`y[1]` is zero between iterations); the rotations and `y` are real. -/
structure MinresSt (𝕜 E : Type*) where
  arn : Arn 𝕜 E
  x0 : E
  G1 : Option (Givens ℝ)
  G2 : Option (Givens ℝ)
  W0 : E
  W1 : E
  y : ℝ
  yk : E

/-- `if G is not None: x = G.apply(x)` (linsys.py 828-829, 833-834). -/
noncomputable def optApply : Option (Givens ℝ) → ℝ × ℝ → ℝ × ℝ
  | none, x => x
  | some G, x => G.apply x

/-- linsys.py 821-848: one iteration.  826-827: the superdiagonal entry `H[k-1, k]`, which for `k = 0` is the entry
`H[-1, 0]` in the last row of the `(maxiter+1) × maxiter` array; 836-840: the new rotation, applied to `y`;
843-846: update of `W` and `yk` (a division by zero gives NaN). -/
noncomputable def minresStep (adv : Arn 𝕜 E → Except Err (Arn 𝕜 E)) (maxiter : ℕ) (s : MinresSt 𝕜 E) :
    Except Err (MinresSt 𝕜 E × ℝ) :=
  let k := s.arn.iter
  match adv s.arn with
  | .error e => .error e
  | .ok a =>
    let r01 := optApply s.G1 (0, RCLike.re (a.H (if k = 0 then maxiter else k - 1) k))
    let r12 := optApply s.G2 (r01.2, RCLike.re (a.H k k))
    let g := mkGivens r12.2 (RCLike.re (a.H (k + 1) k))
    let y := g.apply (s.y, 0)
    if g.r = 0 then .error .nonFinite
    else
      let z := ((g.r : 𝕜)⁻¹) • (a.V k - (r01.1 : 𝕜) • s.W0 - (r12.1 : 𝕜) • s.W1)
      .ok (⟨a, s.x0, s.G2, some g, s.W1, z, y.2, s.yk + (y.1 : 𝕜) • z⟩, |y.2|)

/-- linsys.py 423-428: `_get_xk(yk)`. -/
def minresXk (Mr : E →ₗ[𝕜] E) (post : E → Except Err E) (s : MinresSt 𝕜 E) : Except Err E :=
  post (s.x0 + Mr s.yk)

/-- The MINRES loop (linsys.py 816-850) as a method of the driver. -/
noncomputable def minresMethod (adv : Arn 𝕜 E → Except Err (Arn 𝕜 E)) (Mr : E →ₗ[𝕜] E)
    (post : E → Except Err E) (maxiter : ℕ) : Method ℝ E (MinresSt 𝕜 E) where
  more s := decide (s.arn.iter < maxiter) && !s.arn.invariant
  step := minresStep adv maxiter
  getXk := minresXk Mr post
  k s := s.arn.iter
  post s _ := s
  countAfter := false

/-- The initial state (linsys.py 794-815). -/
def minresInit (arn : Arn 𝕜 E) (r0 : ℝ) (x0 : E) : MinresSt 𝕜 E := ⟨arn, x0, none, none, 0, 0, r0, 0⟩

/-- `Minres.__init__` (linsys.py 342-405, 756-769, 791-853) with the constructor and the method `advance` of the
Lanczos object as parameters. -/
noncomputable def minresRun (s : LS 𝕜 E) (hk : Hooks 𝕜 E) (a : SolverArgs E)
    (init : E → E → ℝ → Except Err (Arn 𝕜 E)) (adv : Arn 𝕜 E → Except Err (Arn 𝕜 E)) :
    Outcome (St ℝ E (MinresSt 𝕜 E)) :=
  match hk.initRes a.x0 with
  | .error e => .raised e
  | .ok (MMlr0, Mlr0, r0) =>
    match init Mlr0 MMlr0 r0 with
    | .error e => .raised e
    | .ok arn => run (mkCfg s a) (minresMethod adv s.Mr hk.post a.maxiter) (a.x0.getD 0) r0
        (minresInit arn r0) hk.post

/-- `Minres(linear_system, x0=..., tol=..., maxiter=..., explicit_residual=..., ortho=...)`
(linsys.py 342-405, 756-853). -/
noncomputable def minres (s : LS 𝕜 E) (hk : Hooks 𝕜 E) (ortho : Ortho) (a : SolverArgs E) :
    Outcome (St ℝ E (MinresSt 𝕜 E)) :=
  let c := s.arnCfg hk a.maxiter ortho
  minresRun s hk a (fun v Mv n => arnInit c v (some Mv) (some n)) (arnAdvance c)

end Krypy
