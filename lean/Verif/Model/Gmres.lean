import Verif.Model.Solver
import Verif.Model.Givens
import Verif.Model.Restarted
import Verif.Model.Projection

/-!
# `Gmres` (linsys.py 877-1018) in exact arithmetic, with `ortho` in `mgs`, `dmgs`, `lanczos`

`R` and `y` are arrays that are zero where not yet written (linsys.py 967-970).
-/

namespace Krypy
variable {𝕜 E : Type*} [RCLike 𝕜] [AddCommGroup E] [Module 𝕜 E]

/-- State of the iteration (linsys.py 953-970). -/
structure GmresSt (𝕜 E : Type*) where
  arn : Arn 𝕜 E
  x0 : E
  G : ℕ → Givens 𝕜
  R : ℕ → ℕ → 𝕜
  y : ℕ → 𝕜

/-- `x[i:i+2] = G.apply(x[i:i+2])` (linsys.py 986, 990, 991). -/
noncomputable def rot (G : Givens 𝕜) (i : ℕ) (x : ℕ → 𝕜) : ℕ → 𝕜 :=
  let p := G.apply (x i, x (i + 1))
  Function.update (Function.update x i p.1) (i + 1) p.2

/-- `for i in range(n): x[i:i+2] = G[i].apply(x[i:i+2])` (linsys.py 985-986). -/
noncomputable def rots (G : ℕ → Givens 𝕜) : ℕ → (ℕ → 𝕜) → (ℕ → 𝕜)
  | 0, x => x
  | n + 1, x => rot (G n) n (rots G n x)

/-- linsys.py 976-993: one iteration; `adv` is `arnoldi.advance()`.  980: copy the new column; 984-986: previous
rotations; 988-991: new rotation, applied to the column and to the right hand side; the updated residual norm
is `abs(y[k+1, 0])`. -/
noncomputable def gmresStep (adv : Arn 𝕜 E → Except Err (Arn 𝕜 E)) (s : GmresSt 𝕜 E) :
    Except Err (GmresSt 𝕜 E × ℝ) :=
  let k := s.arn.iter
  match adv s.arn with
  | .error e => .error e
  | .ok a =>
    let col : ℕ → 𝕜 := fun i => if i < k + 2 then a.H i k else s.R i k
    let col := rots s.G k col
    let g := mkGivens (col k) (col (k + 1))
    let R := setCol s.R k (rot g k col)
    let y := rot g k s.y
    .ok (⟨a, s.x0, Function.update s.G k g, R, y⟩, ‖y (k + 1)‖)

/-- linsys.py 941-949: `_get_xk(y[:k])` for `k = arnoldi.iter`, followed by `post`. -/
noncomputable def gmresXk (Mr : E →ₗ[𝕜] E) (post : E → Except Err E) (s : GmresSt 𝕜 E) : Except Err E :=
  let k := s.arn.iter
  if 0 < k then
    match solveUpper (Matrix.of fun i j : Fin k => s.R i j) (fun i : Fin k => s.y i) with
    | .error e => .error e
    | .ok yy => post (s.x0 + Mr (lincomb (fun i : Fin k => s.arn.V i) yy))
  else post s.x0

/-- The GMRES loop (linsys.py 971-993) as a method of the driver. -/
noncomputable def gmresMethod (adv : Arn 𝕜 E → Except Err (Arn 𝕜 E)) (Mr : E →ₗ[𝕜] E)
    (post : E → Except Err E) (maxiter : ℕ) : Method ℝ E (GmresSt 𝕜 E) where
  more s := decide (s.arn.iter < maxiter) && !s.arn.invariant
  step := gmresStep adv
  getXk := gmresXk Mr post
  k s := s.arn.iter
  post s _ := s
  countAfter := false

/-- The initial state (linsys.py 953-970). -/
def gmresInit (arn : Arn 𝕜 E) (r0 : ℝ) (x0 : E) : GmresSt 𝕜 E :=
  ⟨arn, x0, fun _ => ⟨1, 0, 0⟩, fun _ _ => 0, fun i => if i = 0 then (r0 : 𝕜) else 0⟩

/-- `Gmres.__init__` (linsys.py 342-405, 941-1004) with the constructor `init v Mv Mv_norm` and the method `adv`
of the Arnoldi object as parameters. -/
noncomputable def gmresRun (s : LS 𝕜 E) (hk : Hooks 𝕜 E) (a : SolverArgs E)
    (init : E → E → ℝ → Except Err (Arn 𝕜 E)) (adv : Arn 𝕜 E → Except Err (Arn 𝕜 E)) :
    Outcome (St ℝ E (GmresSt 𝕜 E)) :=
  match hk.initRes a.x0 with
  | .error e => .raised e
  | .ok (MMlr0, Mlr0, r0) =>
    match init Mlr0 MMlr0 r0 with
    | .error e => .raised e
    | .ok arn => run (mkCfg s a) (gmresMethod adv s.Mr hk.post a.maxiter) (a.x0.getD 0) r0
        (gmresInit arn r0) hk.post

/-- `Gmres(linear_system, x0=..., tol=..., maxiter=..., explicit_residual=..., ortho=...)` for `ortho` in
mgs, dmgs, lanczos (linsys.py 342-405, 941-1004). -/
noncomputable def gmres (s : LS 𝕜 E) (hk : Hooks 𝕜 E) (ortho : Ortho) (a : SolverArgs E) :
    Outcome (St ℝ E (GmresSt 𝕜 E)) :=
  let c := s.arnCfg hk a.maxiter ortho
  gmresRun s hk a (fun v Mv n => arnInit c v (some Mv) (some n)) (arnAdvance c)

/-- What the restart loop reads from a returned `Gmres` object or from the one attached to a
`ConvergenceError` (linsys.py 1044-1066).  Without exact solution there is no attribute `errnorms`; the model keeps
a dummy. -/
noncomputable def rsolOf (p : SolverArgs E) : Outcome (St ℝ E (GmresSt 𝕜 E)) → Except Err (RSol ℝ E)
  | .returned st | .convergence st => match st.xk with
    | some x => .ok ⟨x, p.tol, st.resnorms, st.errnorms.getD [0]⟩
    | none => .error .other
  | .raised e => .error e
  | .outOfFuel => .error .other

/-- The keyword arguments of the next cycle: `kwargs.update({"x0": self.xk})` once there is an iterate
(linsys.py 1046-1053). -/
def SolverArgs.restart (p : SolverArgs E) : Option E → SolverArgs E
  | none => p
  | some x => { p with x0 := some x }

/-- `RestartedGmres(linear_system, max_restarts=..., **kwargs)` (linsys.py 1021-1081); `inf` is the dummy
`numpy.Inf`. -/
noncomputable def restartedGmres (s : LS 𝕜 E) (ortho : Ortho) (p : SolverArgs E) (inf : ℝ) (maxRestarts : ℤ) :
    Outcome (RSt ℝ E) :=
  restarted inf maxRestarts fun x => rsolOf (p.restart x) (gmres s s.hooks ortho (p.restart x))

end Krypy
