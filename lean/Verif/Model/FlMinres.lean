import Verif.Model.FlArnoldi

/-!
# `Minres` (linsys.py 711-874) in an arbitrary arithmetic, with `ortho` in `lanczos`, `mgs`, `dmgs`

The same loop as in `Model/Minres`, over arbitrary operations: `F` are the real and `K` the (possibly complex) floating point numbers, `X` the arrays
of shape `(N, 1)`, `Q` the objects of class `Givens`.  Nothing is assumed about the operations; divisions by zero go on with whatever they give.

`Gs`, `Rs`, `zs`, `ys`, `es` do not exist in the code: they record the rotations, the entries `R[0], R[1], R[2]`, the vectors `z`, the numbers `y[0]` with which `yk` is updated
and the updated residual norms with their signs (`y[0]` at the beginning of an iteration).
Not modelled: the warning for systems not marked self-adjoint (linsys.py 763-767), dtypes.
-/

namespace Krypy

/-- The operations of `Minres._solve` and `_get_xk` (linsys.py 423-428, 791-853) in addition to those of the Lanczos object. -/
structure FlMinresOps (F K X Q : Type*) extends FlArnOps F K X where
  /-- `z.real` for an entry of `H` -/
  reF : K → F
  /-- an entry zero of the real array `R` or of the list `y` -/
  zeroF : F
  /-- `utils.Givens([[a], [b]])` (utils.py 405-431) -/
  rotg : F → F → Q
  /-- `G.r` (utils.py 430) -/
  rval : Q → F
  /-- `G.apply([[a], [b]])` (utils.py 432-436) -/
  apply : Q → F × F → F × F
  /-- `numpy.abs(a)` -/
  absF : F → F
  /-- `a * x` with a float `a` -/
  rscale : F → X → X
  /-- `self.linear_system.Mr * x` -/
  Mr : X → X
  /-- `x + y` -/
  add : X → X → X

/-- State of the iteration (linsys.py 794-815), see `MinresSt`. -/
structure FlMinresSt (F K X Q : Type*) where
  arn : FlArn F K X
  x0 : X
  G1 : Option Q
  G2 : Option Q
  W0 : X
  W1 : X
  /-- `y[0]` -/
  y : F
  yk : X
  Gs : ℕ → Option Q
  Rs : ℕ → F × F × F
  zs : ℕ → X
  ys : ℕ → F
  es : ℕ → F

variable {F K X Q : Type*}

/-- `if G is not None: x = G.apply(x)` (linsys.py 828-829, 833-834). -/
def flOptApply (o : FlMinresOps F K X Q) : Option Q → F × F → F × F
  | none, x => x
  | some G, x => o.apply G x

/-- linsys.py 826-829: `R[0], R[1]` before the second rotation in iteration `k`.  For `k = 0` the entry `H[k-1, k]` is `H[-1, 0]` in the last row of the
`(maxiter+1) × maxiter` array. -/
def flMinresTop (o : FlMinresOps F K X Q) (maxiter k : ℕ) (G1 : Option Q) (H : ℕ → ℕ → K) : F × F :=
  flOptApply o G1 (o.zeroF, o.reF (H (if k = 0 then maxiter else k - 1) k))

/-- linsys.py 832-834: `R[1], R[2]` after the second rotation. -/
def flMinresMid (o : FlMinresOps F K X Q) (maxiter k : ℕ) (G1 G2 : Option Q) (H : ℕ → ℕ → K) : F × F :=
  flOptApply o G2 ((flMinresTop o maxiter k G1 H).2, o.reF (H k k))

/-- linsys.py 837: the new rotation. -/
def flMinresRot (o : FlMinresOps F K X Q) (maxiter k : ℕ) (G1 G2 : Option Q) (H : ℕ → ℕ → K) : Q :=
  o.rotg (flMinresMid o maxiter k G1 G2 H).2 (o.reF (H (k + 1) k))

/-- linsys.py 826-839: `R[0], R[1], R[2]`. -/
def flMinresR (o : FlMinresOps F K X Q) (maxiter k : ℕ) (G1 G2 : Option Q) (H : ℕ → ℕ → K) : F × F × F :=
  ((flMinresTop o maxiter k G1 H).1, (flMinresMid o maxiter k G1 G2 H).1, o.rval (flMinresRot o maxiter k G1 G2 H))

/-- linsys.py 843: the new vector `z`. -/
def flMinresZ (o : FlMinresOps F K X Q) (R : F × F × F) (v W0 W1 : X) : X :=
  o.sdiv (o.sub (o.sub v (o.rscale R.1 W0)) (o.rscale R.2.1 W1)) R.2.2

/-- linsys.py 821-848: one iteration. -/
def flMinresStep (o : FlMinresOps F K X Q) (ortho : Ortho) (maxiter : ℕ) (s : FlMinresSt F K X Q) : Except Err (FlMinresSt F K X Q × F) :=
  let k := s.arn.iter
  match flArnAdvance o.toFlArnOps ortho maxiter s.arn with
  | .error e => .error e
  | .ok a =>
    let g := flMinresRot o maxiter k s.G1 s.G2 a.H
    let R := flMinresR o maxiter k s.G1 s.G2 a.H
    let y := o.apply g (s.y, o.zeroF)
    let z := flMinresZ o R (a.V k) s.W0 s.W1
    .ok (⟨a, s.x0, s.G2, some g, s.W1, z, y.2, o.add s.yk (o.rscale y.1 z), Function.update s.Gs k (some g), Function.update s.Rs k R, Function.update s.zs k z,
      Function.update s.ys k y.1, Function.update s.es (k + 1) y.2⟩, o.absF y.2)

/-- linsys.py 423-428: `_get_xk(yk)`, followed by `post` (the correction of the deflated solvers). -/
def flMinresXk (o : FlMinresOps F K X Q) (post : X → Except Err X) (s : FlMinresSt F K X Q) : Except Err X := post (o.add s.x0 (o.Mr s.yk))

/-- The MINRES loop (linsys.py 816-850) as a method of the driver. -/
def flMinresMethod (o : FlMinresOps F K X Q) (ortho : Ortho) (post : X → Except Err X) (maxiter : ℕ) : Method F X (FlMinresSt F K X Q) where
  more s := decide (s.arn.iter < maxiter) && !s.arn.invariant
  step := flMinresStep o ortho maxiter
  getXk := flMinresXk o post
  k s := s.arn.iter
  post s _ := s
  countAfter := false

/-- The initial state (linsys.py 794-815). -/
def flMinresInit [Zero X] (o : FlMinresOps F K X Q) (arn : FlArn F K X) (r0 : F) (x0 : X) : FlMinresSt F K X Q :=
  ⟨arn, x0, none, none, 0, 0, r0, 0, fun _ => none, fun _ => (o.zeroF, o.zeroF, o.zeroF), fun _ => 0, fun _ => o.zeroF, fun _ => r0⟩

/-- `Minres(...)` with the given initial residual (linsys.py 342-405, 756-853). -/
def flMinres [LE F] [LT F] [DecidableLE F] [DecidableLT F] [Div F] [Zero F] [BEq F] [Zero X] (cfg : Cfg F X) (o : FlMinresOps F K X Q) (ortho : Ortho)
    (post : X → Except Err X) (x0 MMlr0 Mlr0 : X) (r0 : F) : Outcome (St F X (FlMinresSt F K X Q)) :=
  match flArnInit o.toFlArnOps Mlr0 (some MMlr0) (some r0) with
  | .error e => .raised e
  | .ok arn => run cfg (flMinresMethod o ortho post cfg.maxiter) x0 r0 (flMinresInit o arn r0) post

end Krypy
