import Verif.Model.Driver
import Mathlib.Logic.Function.Basic
import Mathlib.Data.Nat.Notation

/-!
# `Cg` (linsys.py 520-708) in an arbitrary arithmetic

The same loop as in `Model/Cg`, but over arbitrary operations on scalars and vectors: `F` are the real and `K` the (possibly complex) floating
point numbers, `X` the arrays of shape `(N, 1)`.  Nothing is assumed about the operations, divisions by zero go on with whatever they
give (Inf or NaN).  `store_arnoldi=False`: with `store_arnoldi=True` the code writes further arrays in the loop, which do not influence
the iteration.

`ys` and `rs` do not exist in the code: they record all values of `yk` and `Mlrk`.
-/

namespace Krypy

/-- The array and scalar operations of `Cg._solve` (linsys.py 590-689). -/
structure FlOps (F K X : Type*) where
  /-- `self.MlAMr * x` -/
  op : X → X
  /-- `self.linear_system.M * x` -/
  M : X → X
  /-- `self.linear_system.Mr * x` -/
  Mr : X → X
  /-- `x + y` -/
  add : X → X → X
  /-- `x - y` -/
  sub : X → X → X
  /-- `a * x` with a float `a` -/
  scale : F → X → X
  /-- `utils.inner(x, y, ip_B=self.linear_system.ip_B)[0, 0]` -/
  ip : X → X → K
  /-- `a / z` -/
  quot : F → K → K
  /-- `z.real` -/
  re : K → F
  /-- `abs(z.imag) > 1e-12` -/
  imBig : K → Bool
  /-- `utils.norm(x, y, ip_B=self.linear_system.ip_B)` -/
  norm : X → X → Except Err F
  /-- `a ** 2` -/
  sq : F → F

/-- State of the iteration (linsys.py 593-620); of the list `rhos` the last two entries are read. -/
structure FlCgSt (F X : Type*) where
  /-- `self.iter` -/
  k : ℕ
  x0 : X
  yk : X
  Mlrk : X
  MMlrk : X
  p : X
  /-- `rhos[-1]` -/
  rho : F
  /-- `rhos[-2]` -/
  rhoOld : F
  /-- number of "Is your operator self-adjoint" warnings -/
  warn : ℕ
  ys : ℕ → X
  rs : ℕ → X

variable {F K X : Type*} [Div F]

/-- linsys.py 624-671: one iteration up to `_finalize_iteration`. -/
def flCgStep (o : FlOps F K X) (s : FlCgSt F X) : Except Err (FlCgSt F X × F) :=
  let p := if 0 < s.k then o.add s.MMlrk (o.scale (s.rho / s.rhoOld) s.p) else s.p
  let Ap := o.op p
  let alphaC := o.quot s.rho (o.ip p Ap)
  let warn := if o.imBig alphaC then s.warn + 1 else s.warn
  let alpha := o.re alphaC
  let yk := o.add s.yk (o.scale alpha p)
  let Mlrk := o.sub s.Mlrk (o.scale alpha Ap)
  let MMlrk := o.M Mlrk
  match o.norm Mlrk MMlrk with
  | .error e => .error e
  | .ok nr =>
    .ok (⟨s.k + 1, s.x0, yk, Mlrk, MMlrk, p, o.sq nr, s.rho, warn, Function.update s.ys (s.k + 1) yk, Function.update s.rs (s.k + 1) Mlrk⟩, nr)

/-- linsys.py 679-682: `rhos[-1] = rkn ** 2` if the residual was computed explicitly. -/
def flCgPost (o : FlOps F K X) (s : FlCgSt F X) : Option F → FlCgSt F X
  | none => s
  | some r => { s with rho := o.sq r }

/-- The loop of `Cg._solve` (linsys.py 623-689) as a method of the driver; `_get_xk(yk) = x0 + Mr*yk` (linsys.py 423-428) followed by `post`
(the correction of the deflated solvers). -/
def flCgMethod (o : FlOps F K X) (post : X → Except Err X) (maxiter : ℕ) : Method F X (FlCgSt F X) where
  more s := decide (s.k < maxiter)
  step := flCgStep o
  getXk s := post (o.add s.x0 (o.Mr s.yk))
  k s := s.k
  post := flCgPost o
  countAfter := true

/-- linsys.py 593-620: the initial state. -/
def flCgInit [Zero X] (o : FlOps F K X) (MMlr0 Mlr0 : X) (r0 : F) (x0 : X) : FlCgSt F X where
  k := 0
  x0 := x0
  yk := 0
  Mlrk := Mlr0
  MMlrk := MMlr0
  p := MMlr0
  rho := o.sq r0
  rhoOld := o.sq r0
  warn := 0
  ys := fun _ => 0
  rs := fun _ => Mlr0

/-- `Cg(...)` with the given initial residual (linsys.py 342-405, 561-689). -/
def flCg [LE F] [LT F] [DecidableLE F] [DecidableLT F] [Zero F] [BEq F] [Zero X] (cfg : Cfg F X) (o : FlOps F K X) (post : X → Except Err X)
    (x0 MMlr0 Mlr0 : X) (r0 : F) : Outcome (St F X (FlCgSt F X)) :=
  run cfg (flCgMethod o post cfg.maxiter) x0 r0 (flCgInit o MMlr0 Mlr0 r0) post

end Krypy
