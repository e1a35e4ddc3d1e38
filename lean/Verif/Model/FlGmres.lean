import Verif.Model.FlArnoldi
import Verif.Model.Gmres

/-!
# `Gmres` (linsys.py 877-1018) in an arbitrary arithmetic, with `ortho` in `mgs`, `dmgs`, `lanczos`

The same loop as in `Model/Gmres`, over arbitrary operations: `F` are the real and `K` the (possibly complex) floating point numbers, `X` the arrays
of shape `(N, 1)`, `Q` the objects of class `Givens`.  Nothing is assumed about the operations.
-/

namespace Krypy

/-- The operations of `Gmres._solve` and `Gmres._get_xk` (linsys.py 941-996) in addition to those of `Arnoldi`. -/
structure FlGmresOps (F K X Q : Type*) extends FlArnOps F K X where
  /-- `utils.Givens([[a], [b]])` (utils.py 405-431) -/
  rotg : K → K → Q
  /-- `G.apply([[a], [b]])` (utils.py 432-436) -/
  apply : Q → K × K → K × K
  /-- `abs(z)` -/
  absK : K → F
  /-- `scipy.linalg.solve_triangular(R[:k, :k], y[:k])` -/
  solve : ℕ → (ℕ → ℕ → K) → (ℕ → K) → Except Err (ℕ → K)
  /-- `V[:, :k].dot(yy)` -/
  comb : ℕ → (ℕ → X) → (ℕ → K) → X
  /-- `self.linear_system.Mr * x` -/
  Mr : X → X
  /-- `x + y` -/
  add : X → X → X

/-- State of the iteration (linsys.py 953-970). -/
structure FlGmresSt (F K X Q : Type*) where
  arn : FlArn F K X
  x0 : X
  G : ℕ → Q
  R : ℕ → ℕ → K
  y : ℕ → K

variable {F K X Q : Type*}

/-- `x[i:i+2] = G.apply(x[i:i+2])` (linsys.py 986, 990, 991). -/
def flRot (o : FlGmresOps F K X Q) (g : Q) (i : ℕ) (x : ℕ → K) : ℕ → K :=
  Function.update (Function.update x i (o.apply g (x i, x (i + 1))).1) (i + 1) (o.apply g (x i, x (i + 1))).2

/-- `for i in range(n): x[i:i+2] = G[i].apply(x[i:i+2])` (linsys.py 985-986). -/
def flRots (o : FlGmresOps F K X Q) (G : ℕ → Q) : ℕ → (ℕ → K) → (ℕ → K)
  | 0, x => x
  | n + 1, x => flRot o (G n) n (flRots o G n x)

/-- linsys.py 976-993: one iteration, see `gmresStep`. -/
def flGmresStep (o : FlGmresOps F K X Q) (ortho : Ortho) (maxiter : ℕ) (s : FlGmresSt F K X Q) : Except Err (FlGmresSt F K X Q × F) :=
  let k := s.arn.iter
  match flArnAdvance o.toFlArnOps ortho maxiter s.arn with
  | .error e => .error e
  | .ok a =>
    let col : ℕ → K := fun i => if i < k + 2 then a.H i k else s.R i k
    let col := flRots o s.G k col
    let g := o.rotg (col k) (col (k + 1))
    let R : ℕ → ℕ → K := fun i j => if j = k then flRot o g k col i else s.R i j
    let y := flRot o g k s.y
    .ok (⟨a, s.x0, Function.update s.G k g, R, y⟩, o.absK (y (k + 1)))

/-- linsys.py 947: `yk` for the vector `yy` returned by `solve_triangular`. -/
def flGmresYk (o : FlGmresOps F K X Q) (s : FlGmresSt F K X Q) (yy : ℕ → K) : X := o.comb s.arn.iter s.arn.V yy

/-- linsys.py 941-949: `_get_xk(y[:k])` for `k = arnoldi.iter`, followed by `post`. -/
def flGmresXk (o : FlGmresOps F K X Q) (post : X → Except Err X) (s : FlGmresSt F K X Q) : Except Err X :=
  if 0 < s.arn.iter then
    match o.solve s.arn.iter s.R s.y with
    | .error e => .error e
    | .ok yy => post (o.add s.x0 (o.Mr (flGmresYk o s yy)))
  else post s.x0

/-- The GMRES loop (linsys.py 971-993) as a method of the driver. -/
def flGmresMethod (o : FlGmresOps F K X Q) (ortho : Ortho) (post : X → Except Err X) (maxiter : ℕ) : Method F X (FlGmresSt F K X Q) where
  more s := decide (s.arn.iter < maxiter) && !s.arn.invariant
  step := flGmresStep o ortho maxiter
  getXk := flGmresXk o post
  k s := s.arn.iter
  post s _ := s
  countAfter := false

/-- The initial state (linsys.py 953-970); `g0` stands for the entries of the list `G` which do not exist yet. -/
def flGmresInit (o : FlGmresOps F K X Q) (g0 : Q) (arn : FlArn F K X) (r0 : F) (x0 : X) : FlGmresSt F K X Q :=
  ⟨arn, x0, fun _ => g0, fun _ _ => o.zero, fun i => if i = 0 then o.ofReal r0 else o.zero⟩

/-- `Gmres(...)` with the given initial residual (linsys.py 342-405, 941-1004). -/
def flGmres [LE F] [LT F] [DecidableLE F] [DecidableLT F] [Div F] [Zero F] [BEq F] [Zero X] (cfg : Cfg F X) (o : FlGmresOps F K X Q) (ortho : Ortho)
    (g0 : Q) (post : X → Except Err X) (x0 MMlr0 Mlr0 : X) (r0 : F) : Outcome (St F X (FlGmresSt F K X Q)) :=
  match flArnInit o.toFlArnOps Mlr0 (some MMlr0) (some r0) with
  | .error e => .raised e
  | .ok arn => run cfg (flGmresMethod o ortho post cfg.maxiter) x0 r0 (flGmresInit o g0 arn r0) post

/-- What the restart loop reads from the solver object, which is returned or attached to the `ConvergenceError` (linsys.py 1044-1066); `dummy` replaces
the missing `errnorms` (see `rsolOf`). -/
def flRsol {F X S : Type*} (tol dummy : F) : Outcome (St F X S) → Except Err (RSol F X)
  | .returned st | .convergence st => match st.xk with
    | some x => .ok ⟨x, tol, st.resnorms, st.errnorms.getD [dummy]⟩
    | none => .error .other
  | .raised e => .error e
  | .outOfFuel => .error .other

/-- `RestartedGmres(...)` (linsys.py 1021-1081); `initRes` is `_get_initial_residual` (linsys.py 415-421) and `none` stands for a missing `x0`. -/
def flRestartedGmres [LE F] [LT F] [DecidableLE F] [DecidableLT F] [Div F] [Zero F] [BEq F] [Zero X] (cfg : Cfg F X) (o : FlGmresOps F K X Q) (ortho : Ortho)
    (g0 : Q) (initRes : Option X → Except Err (X × X × F)) (x0 : Option X) (inf dummy : F) (maxRestarts : ℤ) : Outcome (RSt F X) :=
  restarted inf maxRestarts fun x =>
    let x := x.or x0
    match initRes x with
    | .error e => .error e
    | .ok (MMlr0, Mlr0, r0) => flRsol cfg.tol dummy (flGmres cfg o ortho g0 .ok (x.getD 0) MMlr0 Mlr0 r0)

end Krypy
