import Mathlib.Tactic.TypeStar

/-!
# Model of the generic Krylov solver driver (krypy/linsys.py 277-493 and the solve loops)

`_KrylovSolver.__init__`, `_finalize_iteration` and the `while` loops of `Cg._solve`, `Minres._solve`
and `Gmres._solve`.  The scalar type `F` is arbitrary: `≤`, `<`, `==`, `/` are arbitrary operations without
any laws, so everything proved from this file alone also holds for IEEE doubles (`F := Float`),
including NaN.  The numerical part of a method is a `Method` record.

Not modelled: dtype handling, `flat_vecs`, `_finalize` (trimming of stored Lanczos data; see the models of
the concrete methods), the warning texts (only their number is counted).
-/

namespace Krypy

/-- Exceptions and exceptional situations of the modelled code (utils.py 62-103 and exceptions of numpy). -/
inductive Err
  | argumentError      -- utils.ArgumentError
  | innerProductError  -- utils.InnerProductError
  | linAlgError        -- scipy/numpy LinAlgError
  | assumptionError    -- utils.AssumptionError
  | operatorError      -- utils.LinearOperatorError
  | typeError          -- TypeError
  | valueError         -- ValueError / IndexError of numpy
  | nonFinite          -- no exception in numpy: an Inf/NaN is produced (exact models stop here)
  | other
  deriving DecidableEq, Repr

/-- linsys.py 280-405: the arguments and attributes the driver reads. -/
structure Cfg (F X : Type*) where
  /-- `tol` -/
  tol : F
  /-- `maxiter` (after replacing `None` by `N`, linsys.py 347) -/
  maxiter : Nat
  /-- `explicit_residual` -/
  explicitResidual : Bool
  /-- `linear_system.MMlb_norm` -/
  MMlbNorm : F
  /-- third component of `linear_system.get_residual(x, compute_norm=True)` -/
  resNorm : X → Except Err F
  /-- `norm(exact_solution - x)` if `exact_solution is not None` -/
  errNorm : Option (X → Except Err F)

/-- One Krylov method: the parts of `_solve` that are specific to the method (linsys.py 593-689, 791-853, 941-997). -/
structure Method (F X S : Type*) where
  /-- second part of the loop guard: `iter < maxiter` (Cg, linsys.py 623), resp.
  `arnoldi.iter < arnoldi.maxiter and not arnoldi.invariant` (linsys.py 816-820, 971-975) -/
  more : S → Bool
  /-- body of the loop up to the call of `_finalize_iteration`; returns the updated residual norm -/
  step : S → Except Err (S × F)
  /-- `_get_xk(yk)` in the current state -/
  getXk : S → Except Err X
  /-- number of completed iterations: `self.iter` (Cg), `arnoldi.iter` (Minres, Gmres) -/
  k : S → Nat
  /-- after `_finalize_iteration`: Cg stores `rkn**2` (linsys.py 679-682); others do nothing -/
  post : S → Option F → S
  /-- `self.iter += 1` at the end of the loop body (Cg, linsys.py 685); Minres/Gmres do not -/
  countAfter : Bool

/-- Attributes of the solver object that the driver writes (linsys.py 366-402, 430-493). -/
structure St (F X S : Type*) where
  s : S
  iter : Nat
  xk : Option X
  resnorms : List F
  errnorms : Option (List F)
  warnings : Nat

/-- Result of a part of the run. `convergence st` is `raise ConvergenceError(.., self)` (linsys.py 430-493). -/
inductive Res3 (α β : Type*)
  | ok (a : α)
  | convergence (st : β)
  | raised (e : Err)

/-- Result of a solver call. `outOfFuel` is proved unreachable (linsys.py 404-405, 466-478). -/
inductive Outcome (St : Type*)
  | returned (st : St)
  | convergence (st : St)
  | raised (e : Err)
  | outOfFuel

section
variable {F X S : Type*} [LE F] [LT F] [DecidableLE F] [DecidableLT F] [Div F]

/-- linsys.py 435-443: `self.xk = None; if exact_solution is not None: ...` -/
def withErr (cfg : Cfg F X) (getXk : Except Err X) (st : St F X S) : Except Err (St F X S) :=
  match cfg.errNorm with
  | none => .ok { st with xk := none }
  | some en =>
    match getXk with
    | .error e => .error e
    | .ok x => match en x with
      | .error e => .error e
      | .ok e => .ok { st with xk := some x, errnorms := st.errnorms.map (· ++ [e]) }

/-- linsys.py 449-453: the three reasons for evaluating the residual explicitly. -/
def wantExplicit (cfg : Cfg F X) (st : St F X S) (resnorm : F) : Bool :=
  cfg.explicitResidual || decide (resnorm / cfg.MMlbNorm ≤ cfg.tol)
    || decide (st.iter + 1 = cfg.maxiter)

/-- linsys.py 430-493: `_finalize_iteration(yk, resnorm)`. -/
def finalizeIteration (cfg : Cfg F X) (getXk : Except Err X) (resnorm : F) (st : St F X S) :
    Res3 (St F X S × Option F) (St F X S) :=
  match withErr cfg getXk st with
  | .error e => .raised e
  | .ok st =>
    if wantExplicit cfg st resnorm then
      match (match st.xk with | some x => Except.ok x | none => getXk) with
      | .error e => .raised e
      | .ok x =>
        match cfg.resNorm x with
        | .error e => .raised e
        | .ok rkn =>
          let st := { st with xk := some x, resnorms := st.resnorms ++ [rkn / cfg.MMlbNorm] }
          if cfg.tol < rkn / cfg.MMlbNorm then
            if st.iter + 1 = cfg.maxiter then .convergence st
            else if ¬ cfg.explicitResidual ∧ resnorm / cfg.MMlbNorm ≤ cfg.tol then
              .ok ({ st with warnings := st.warnings + 1 }, some rkn)
            else .ok (st, some rkn)
          else .ok (st, some rkn)
    else .ok ({ st with resnorms := st.resnorms ++ [resnorm / cfg.MMlbNorm] }, none)

/-- Loop guard: `self.resnorms[-1] > self.tol and ...` (linsys.py 623, 816-820, 971-975). -/
def loopGuard (cfg : Cfg F X) (m : Method F X S) (st : St F X S) : Bool :=
  (st.resnorms.getLast?.any fun r => decide (cfg.tol < r)) && m.more st.s

/-- One pass through the loop body (linsys.py 624-685, 821-850, 976-993). -/
def body (cfg : Cfg F X) (m : Method F X S) (st : St F X S) : Res3 (St F X S) (St F X S) :=
  let st := { st with iter := m.k st.s }
  match m.step st.s with
  | .error e => .raised e
  | .ok (s', r) =>
    match finalizeIteration cfg (m.getXk s') r { st with s := s' } with
    | .raised e => .raised e
    | .convergence st => .convergence st
    | .ok (st, rkn) =>
      .ok { st with s := m.post st.s rkn, iter := if m.countAfter then st.iter + 1 else st.iter }

/-- linsys.py 687-689, 851-853, 995-997: compute the solution if not yet done. -/
def finish (m : Method F X S) (st : St F X S) : Outcome (St F X S) :=
  match st.xk with
  | some _ => .returned st
  | none => match m.getXk st.s with
    | .error e => .raised e
    | .ok x => .returned { st with xk := some x }

/-- The `while` loop, with fuel; `Outcome.outOfFuel` is proved unreachable (linsys.py 623, 816-820, 971-975). -/
def loop (cfg : Cfg F X) (m : Method F X S) : Nat → St F X S → Outcome (St F X S)
  | fuel, st =>
    if loopGuard cfg m st then
      match fuel with
      | 0 => .outOfFuel
      | fuel + 1 =>
        match body cfg m st with
        | .raised e => .raised e
        | .convergence st => .convergence st
        | .ok st => loop cfg m fuel st
    else finish m st

/-- linsys.py 391-401: initial error norm list (`none` if no exact solution was given). -/
def initErr (cfg : Cfg F X) (xk0 : Except Err X) : Except Err (Option (List F)) :=
  match cfg.errNorm with
  | none => .ok none
  | some en => match xk0 with
    | .error e => .error e
    | .ok x => match en x with
      | .error e => .error e
      | .ok e => .ok (some [e])

/-- linsys.py 342-405: `__init__` after argument checks. `x0` is the initial guess (zero if `None`),
`r0norm` the norm of the initial residual (of the *given* x0), `mkS` sets up the method's state from
`self.x0`, `xk0` is `_get_xk(None)`. -/
def run [Zero F] [BEq F] [Zero X] (cfg : Cfg F X) (m : Method F X S) (x0 : X)
    (r0norm : F) (mkS : X → S) (xk0 : X → Except Err X) : Outcome (St F X S) :=
  let bzero := cfg.MMlbNorm == 0
  let x0 := if bzero then 0 else x0
  let xk : Option X := if bzero then some 0 else none
  let resnorms : List F := if bzero then [0] else [r0norm / cfg.MMlbNorm]
  match initErr cfg (xk0 x0) with
  | .error e => .raised e
  | .ok errnorms =>
    loop cfg m cfg.maxiter
      { s := mkS x0, iter := 0, xk := xk, resnorms := resnorms, errnorms := errnorms, warnings := 0 }

end
end Krypy
