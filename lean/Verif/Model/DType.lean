import Verif.Model.Cg
import Verif.Model.Minres
import Verif.Model.Qr
import Verif.Model.ResNorms
import Mathlib.Data.Complex.Basic
import Mathlib.Algebra.Order.Floor.Defs
import Mathlib.Algebra.Order.Floor.Ring
import Mathlib.Algebra.Order.Round
import Mathlib.Order.Basic

/-!
# Array types: `find_common_dtype` (utils.py 106-122) and the arrays of `Arnoldi`, `qr`, `get_residual_norms` and `Cg`

The other models ignore types; here a type is one of three kinds (integer, real, complex), i.e. precisions are ignored.
numpy semantics that is used:

* `a[...] = x` casts: the imaginary part is discarded (`ComplexWarning`), fractions are truncated.
* `a -= x` and `a /= x` for an array `a` raise `TypeError` if the result has a higher kind (casting rule "same_kind").
* The result of `+`, `*`, `numpy.dot` has the maximal kind of the operands, the result of `/` and of norms is at least real.
* `numpy.find_common_type(l, [])` is the maximal kind, `None` for the empty list; `numpy.zeros(.., dtype=None)` is real and
  `numpy.dtype(None)` is real.

Vectors are elements of `Fin N → ℂ`; an operator or inner product of kind `k` maps arrays of kind `k'` to arrays of kind
`max k k'`.  (The `dot` of `IdentityLinearOperator` returns its argument and therefore has the least kind, although its attribute
`dtype` is real, utils.py 1562.)
-/

namespace Krypy

/-- Kinds of numpy types (the types which occur at utils.py 106-122). -/
inductive Kind
  | int | real | cplx
  deriving DecidableEq

/-- Position in the order of kinds (the order used by `numpy.find_common_type`, utils.py 122). -/
def Kind.rank : Kind → ℕ
  | .int => 0
  | .real => 1
  | .cplx => 2

theorem Kind.rank_inj : Function.Injective Kind.rank := by
  intro a b h; cases a <;> cases b <;> first | rfl | (simp [Kind.rank] at h)

/-- numpy's order by safe casting. -/
instance : LinearOrder Kind := LinearOrder.lift' Kind.rank Kind.rank_inj

/-- An argument of `find_common_dtype` (utils.py 112-117). -/
inductive DObj
  /-- a `numpy.ndarray`, sparse matrix or krypy operator -/
  | typed (k : Kind)
  /-- everything else, e.g. `None`, a function, a `scipy.sparse.linalg.LinearOperator`, a `numpy.matrix` -/
  | other

/-- utils.py 111-121: the list `dtypes`. -/
def dtypesOf : List DObj → List Kind
  | [] => []
  | .typed k :: l => k :: dtypesOf l
  | .other :: l => dtypesOf l

/-- `numpy.find_common_type(dtypes, [])`; `none` is `None` (utils.py 122, 642, 1465, linsys.py 370). -/
def findCommonType : List Kind → Option Kind
  | [] => none
  | k :: l => match findCommonType l with
    | none => some k
    | some k' => some (max k k')

/-- utils.py 106-122: `find_common_dtype(*args)`. -/
def findCommonDtype (args : List DObj) : Option Kind := findCommonType (dtypesOf args)

/-- The kind of `numpy.zeros(shape, dtype=t)` (utils.py 902-906, linsys.py 363, 597, 966-967). -/
def zerosKind (t : Option Kind) : Kind := t.getD .real

/-- Rounding towards zero (numpy's conversion to integers in the assignments of utils.py 1034, 1045). -/
noncomputable def truncZero (x : ℝ) : ℤ := if 0 ≤ x then ⌊x⌋ else ⌈x⌉

/-- Assignment of a number to an entry of an array of kind `k` (e.g. utils.py 950, 1034, linsys.py 969). -/
noncomputable def Kind.cast : Kind → ℂ → ℂ
  | .int, z => (truncZero z.re : ℂ)
  | .real, z => (z.re : ℂ)
  | .cplx, z => z

/-- Assignment to a column (e.g. utils.py 950, 1043). -/
noncomputable def Kind.castVec {N : ℕ} (k : Kind) (x : Fin N → ℂ) : Fin N → ℂ := fun i => k.cast (x i)

/-- An in-place operation on an array of kind `k` with result kind `k'` (utils.py 703, 1027-1029, linsys.py 655, 658). -/
def inplace (k k' : Kind) : Except Err Unit := if k' ≤ k then .ok () else .error .typeError

/-! ## `Arnoldi` (utils.py 854-1048) -/

/-- The parameters with their kinds; `kI` is the kind of the inner product, `K` the kind of the arrays `V`, `P`, `H` (utils.py 855-864, 898). -/
structure TArnCfg (N : ℕ) where
  c : ArnCfg ℂ (Fin N → ℂ)
  kA : Kind
  kM : Kind
  kI : Kind
  K : Kind

/-- utils.py 898-906: the kind of the arrays. -/
def arnKind (A v M : DObj) : Kind := zerosKind (findCommonDtype [A, v, M])

/-- utils.py 891-952 (`ortho` in mgs, dmgs, lanczos): `v / vnorm` and `p / vnorm` are assigned to columns. -/
noncomputable def tarnInit {N : ℕ} (t : TArnCfg N) (v : Fin N → ℂ) (Mv : Option (Fin N → ℂ)) (MvNorm : Option ℝ) :
    Except Err (Arn ℂ (Fin N → ℂ)) :=
  let w := startV t.c v Mv
  match startNorm t.c v w MvNorm with
  | .error e => .error e
  | .ok r =>
    if 0 < r then
      .ok ⟨0, Function.update 0 0 (t.K.castVec (((r : ℂ)⁻¹) • w)), Function.update 0 0 (t.K.castVec (((r : ℂ)⁻¹) • v)),
        fun _ _ => 0, false, r⟩
    else .ok ⟨0, 0, 0, fun _ _ => 0, true, r⟩

/-- utils.py 966: the kind of `Av`. -/
def TArnCfg.kAv {N : ℕ} (t : TArnCfg N) : Kind := max t.kA t.K

/-- utils.py 1015-1024: the kind of `alpha`; the real part (1024) is at most real. -/
def TArnCfg.kAlpha {N : ℕ} (t : TArnCfg N) : Kind :=
  let k := max t.kI (max t.K t.kAv)
  if t.c.ortho = .lanczos then min k .real else k

/-- utils.py 1015-1029: one step of the inner loop; `H[j, k] += alpha` assigns a number, `Av -= alpha * P[:, [j]]` works in place. -/
noncomputable def tOrthoStep {N : ℕ} (t : TArnCfg N) (V P : ℕ → Fin N → ℂ) (st : (Fin N → ℂ) × (ℕ → ℂ)) (j : ℕ) :
    Except Err ((Fin N → ℂ) × (ℕ → ℂ)) :=
  let alpha := t.c.ip (V j) st.1
  let alpha := if t.c.ortho = .lanczos then ((RCLike.re alpha : ℝ) : ℂ) else alpha
  let h := Function.update st.2 j (t.K.cast (st.2 j + alpha))
  match inplace t.kAv (max t.kAlpha t.K) with
  | .error e => .error e
  | .ok _ => .ok (st.1 - alpha • P j, h)

/-- utils.py 1014-1029: `for j in range(start, k + 1)`. -/
noncomputable def tOrthoLoop {N : ℕ} (t : TArnCfg N) (V P : ℕ → Fin N → ℂ) :
    List ℕ → (Fin N → ℂ) × (ℕ → ℂ) → Except Err ((Fin N → ℂ) × (ℕ → ℂ))
  | [], st => .ok st
  | j :: l, st => match tOrthoStep t V P st j with
    | .error e => .error e
    | .ok st => tOrthoLoop t V P l st

/-- utils.py 1012: `for reortho in range(reorthos + 1)`. -/
noncomputable def tOrthoPasses {N : ℕ} (t : TArnCfg N) (V P : ℕ → Fin N → ℂ) (start k : ℕ) :
    ℕ → (Fin N → ℂ) × (ℕ → ℂ) → Except Err ((Fin N → ℂ) × (ℕ → ℂ))
  | 0, st => tOrthoLoop t V P (List.range' start (k + 1 - start)) st
  | n + 1, st => match tOrthoLoop t V P (List.range' start (k + 1 - start)) st with
    | .error e => .error e
    | .ok st => tOrthoPasses t V P start k n st

/-- utils.py 966, 997-1029.  In 1000-1009 the kinds of `H` and `P` are those of the arrays. -/
noncomputable def tOrthogonalise {N : ℕ} (t : TArnCfg N) (s : Arn ℂ (Fin N → ℂ)) : Except Err ((Fin N → ℂ) × (ℕ → ℂ)) :=
  let k := s.iter
  let Av := t.c.A (s.V k)
  let h : ℕ → ℂ := fun i => s.H i k
  if t.c.ortho = .lanczos then
    if 0 < k then
      match inplace t.kAv t.K with
      | .error e => .error e
      | .ok _ => tOrthoPasses t s.V s.P k k t.c.ortho.reorthos
          (Av - s.H k (k - 1) • s.P (k - 1), Function.update h (k - 1) (s.H k (k - 1)))
    else tOrthoPasses t s.V s.P k k t.c.ortho.reorthos (Av, h)
  else tOrthoPasses t s.V s.P 0 k t.c.ortho.reorthos (Av, h)

/-- utils.py 954-1048: `advance()`; after line 1031/1034 the norm is read from the array `H`. -/
noncomputable def tarnAdvance {N : ℕ} (t : TArnCfg N) (s : Arn ℂ (Fin N → ℂ)) : Except Err (Arn ℂ (Fin N → ℂ)) :=
  if t.c.maxiter ≤ s.iter then .error .argumentError
  else if s.invariant then .error .argumentError
  else
    let k := s.iter
    match tOrthogonalise t s with
    | .error e => .error e
    | .ok (Av, h) =>
      let MAv := t.c.Mop Av
      match npNorm (t.c.ip Av MAv) with
      | .error e => .error e
      | .ok r =>
        let hr : ℂ := t.K.cast (r : ℂ)
        let H := setCol s.H k (Function.update h (k + 1) hr)
        let nH := specNorm H (k + 2) (k + 1)
        if nH = 0 then .error .nonFinite
        else if hr.re / nH ≤ 1e-14 then .ok ⟨k + 1, s.V, s.P, H, true, s.vnorm⟩
        else .ok ⟨k + 1, Function.update s.V (k + 1) (t.K.castVec (hr⁻¹ • MAv)),
          Function.update s.P (k + 1) (t.K.castVec (hr⁻¹ • Av)), H, false, s.vnorm⟩

/-- utils.py 1079-1080: the loop of `arnoldi()`. -/
noncomputable def tarnLoop {N : ℕ} (t : TArnCfg N) : ℕ → Arn ℂ (Fin N → ℂ) → Except Err (Arn ℂ (Fin N → ℂ))
  | fuel, s =>
    if s.iter < t.c.maxiter ∧ s.invariant = false then
      match fuel with
      | 0 => .error .other
      | fuel + 1 => match tarnAdvance t s with
        | .error e => .error e
        | .ok s => tarnLoop t fuel s
    else .ok s

/-- utils.py 1077-1081: `arnoldi(...)`. -/
noncomputable def tarnoldi {N : ℕ} (t : TArnCfg N) (v : Fin N → ℂ) (Mv : Option (Fin N → ℂ)) (MvNorm : Option ℝ) :
    Except Err (Arn ℂ (Fin N → ℂ)) :=
  match tarnInit t v Mv MvNorm with
  | .error e => .error e
  | .ok s => tarnLoop t t.c.maxiter s

/-! ## Systems, `Gmres` and `Minres` -/

/-- Kinds of the arguments of a `LinearSystem` and of the initial guess; an identity operator has the least kind here (linsys.py 115-117, 370-372). -/
structure SysKinds where
  A : Kind
  M : Kind
  Ml : Kind
  Mr : Kind
  b : Kind
  x0 : Option Kind

/-- linsys.py 130-161, 415-421: the kind of the initial residual `Mlr0`: that of `Ml*b` without initial guess, that of
`Ml*(b - A*x0)` otherwise. -/
def SysKinds.Mlr0 (s : SysKinds) : Kind := match s.x0 with
  | none => max s.Ml s.b
  | some k => max s.Ml (max s.b (max s.A k))

/-- linsys.py 82-86: the kind of `MlAMr`. -/
def SysKinds.MlAMr (s : SysKinds) : Kind := max s.Ml (max s.A s.Mr)

/-- linsys.py 115-117, 369-372: the kind of `solver.dtype`, if the argument `dtype` is `None` (which numpy takes for real);
`dM` is the attribute `dtype` of `M` and `ip` the contribution of `ip_B`. -/
def SysKinds.dtype (s : SysKinds) (dM ip : Kind) : Kind :=
  max (max s.A (max s.b (max dM (max s.Ml (max s.Mr ip))))) (max (s.x0.getD .real) .real)

/-- The parameters of the Arnoldi object (linsys.py 795-804, 953-962): the kinds are those of `MlAMr`, `M`, `ip_B` and, for the
arrays, the common type of `MlAMr`, `Mlr0` and `M`; `dM` is the attribute `dtype` of `M`. -/
noncomputable def sysArn {N : ℕ} (kd : SysKinds) (kI dM : Kind) (s : LS ℂ (Fin N → ℂ)) (ortho : Ortho) (maxiter : ℕ) : TArnCfg N :=
  ⟨s.arnCfg s.hooks maxiter ortho, kd.MlAMr, dM, kI, arnKind (.typed kd.MlAMr) (.typed kd.Mlr0) (.typed dM)⟩

/-- `Gmres(...)` with kinds; the arrays `R`, `y` (linsys.py 966-967) have the kind `dtype` of the solver, which is never lower
than that of the arrays of the Arnoldi object (`C65_dtype`). -/
noncomputable def tgmres {N : ℕ} (kd : SysKinds) (kI dM : Kind) (s : LS ℂ (Fin N → ℂ)) (ortho : Ortho) (a : SolverArgs (Fin N → ℂ)) :
    Outcome (St ℝ (Fin N → ℂ) (GmresSt ℂ (Fin N → ℂ))) :=
  let t := sysArn kd kI dM s ortho a.maxiter
  gmresRun s s.hooks a (fun v Mv n => tarnInit t v (some Mv) (some n)) (tarnAdvance t)

/-- `Minres(...)` with kinds; the arrays `W`, `yk` (linsys.py 807, 814) have the kind `dtype` of the solver. -/
noncomputable def tminres {N : ℕ} (kd : SysKinds) (kI dM : Kind) (s : LS ℂ (Fin N → ℂ)) (ortho : Ortho) (a : SolverArgs (Fin N → ℂ)) :
    Outcome (St ℝ (Fin N → ℂ) (MinresSt ℂ (Fin N → ℂ))) :=
  let t := sysArn kd kI dM s ortho a.maxiter
  minresRun s s.hooks a (fun v Mv n => tarnInit t v (some Mv) (some n)) (tarnAdvance t)

/-! ## `qr` (utils.py 680-707), the branch with a user inner product -/

/-- utils.py 700-703: one pass; `Q` and `R` have the kind `kX` of `X`, `kI` is the kind of the inner product. -/
noncomputable def tqrPass {N : ℕ} (ip : (Fin N → ℂ) → (Fin N → ℂ) → ℂ) (kI kX : Kind) (Q : ℕ → Fin N → ℂ) :
    ℕ → (Fin N → ℂ) × (ℕ → ℂ) → Except Err ((Fin N → ℂ) × (ℕ → ℂ))
  | 0, s => .ok s
  | j + 1, s => match tqrPass ip kI kX Q j s with
    | .error e => .error e
    | .ok (q, r) =>
      let alpha := ip (Q j) q
      let r := Function.update r j (kX.cast (r j + alpha))
      match inplace kX (max kI kX) with
      | .error e => .error e
      | .ok _ => .ok (q - alpha • Q j, r)

/-- utils.py 699-703: `reorthos + 1` passes. -/
noncomputable def tqrPasses {N : ℕ} (ip : (Fin N → ℂ) → (Fin N → ℂ) → ℂ) (kI kX : Kind) (Q : ℕ → Fin N → ℂ) (i : ℕ) :
    ℕ → (Fin N → ℂ) × (ℕ → ℂ) → Except Err ((Fin N → ℂ) × (ℕ → ℂ))
  | 0, s => .ok s
  | p + 1, s => match tqrPasses ip kI kX Q i p s with
    | .error e => .error e
    | .ok s => tqrPass ip kI kX Q i s

/-- utils.py 698-706: column `i`; the norm is read from the array `R`, and `Q[:, [i]] /= R[i, i]` divides in place. -/
noncomputable def tqrCol {N : ℕ} (ip : (Fin N → ℂ) → (Fin N → ℂ) → ℂ) (kI kX : Kind) (reorthos : ℕ) (i : ℕ)
    (Q : ℕ → Fin N → ℂ) (R : ℕ → ℕ → ℂ) : Except Err ((ℕ → Fin N → ℂ) × (ℕ → ℕ → ℂ)) :=
  match tqrPasses ip kI kX Q i (reorthos + 1) (Q i, fun j => R j i) with
  | .error e => .error e
  | .ok (q, r) => match npNorm (ip q q) with
    | .error e => .error e
    | .ok rii =>
      let c : ℂ := kX.cast (rii : ℂ)
      let r := Function.update r i c
      if 1e-15 ≤ c.re then
        match inplace kX (max kX .real) with
        | .error e => .error e
        | .ok _ => .ok (Function.update Q i (c⁻¹ • q), fun a b => if b = i then r a else R a b)
      else .ok (Function.update Q i q, fun a b => if b = i then r a else R a b)

/-- utils.py 695-707: the first `k` columns. -/
noncomputable def tqrLoop {N : ℕ} (ip : (Fin N → ℂ) → (Fin N → ℂ) → ℂ) (kI kX : Kind) (reorthos : ℕ) (X : ℕ → Fin N → ℂ) :
    ℕ → Except Err ((ℕ → Fin N → ℂ) × (ℕ → ℕ → ℂ))
  | 0 => .ok (X, fun _ _ => 0)
  | i + 1 => match tqrLoop ip kI kX reorthos X i with
    | .error e => .error e
    | .ok (Q, R) => tqrCol ip kI kX reorthos i Q R

/-! ## `get_residual_norms` (utils.py 2103-2121) -/

/-- utils.py 2111-2118: the copy of `H` and the vector `y` have the kind of `H`, and the results of `G.apply` are assigned to them. -/
noncomputable def trnStep (k : Kind) (sa : Bool) (n i : ℕ) (st : RnSt ℂ) : Except Err (RnSt ℂ) :=
  if n ≤ i then .error .valueError
  else
    let G := mkGivens (st.H i i) (st.H (i + 1) i)
    let H := rotRows G i (if sa then min n (i + 3) else n) st.H
    let H := fun r c => k.cast (H r c)
    let y := fun r => k.cast (rot G i st.y r)
    .ok ⟨H, y, st.res ++ [‖y (i + 1)‖]⟩

/-- utils.py 2107-2118: the first `i` passes. -/
noncomputable def trnLoop (k : Kind) (sa : Bool) (H : ℕ → ℕ → ℂ) (n : ℕ) : ℕ → Except Err (RnSt ℂ)
  | 0 => .ok ⟨H, fun r => if r = 0 then 1 else 0, [1]⟩
  | i + 1 => match trnLoop k sa H n i with
    | .error e => .error e
    | .ok st => trnStep k sa n i st

/-- `get_residual_norms(H, self_adjoint)` (utils.py 2103-2121) for a matrix of kind `k` with shape `(n_, n)`. -/
noncomputable def tgetResidualNorms (k : Kind) (H : ℕ → ℕ → ℂ) (n_ n : ℕ) (sa : Bool) : Except Err (List ℝ) :=
  match trnLoop k sa H n (n_ - 1) with
  | .error e => .error e
  | .ok st => .ok (if n_ = n then st.res ++ [0] else st.res)

/-! ## `Cg` (linsys.py 593-689) -/

/-- linsys.py 607, 625-629: the kind of `p`: in the first iteration that of `MMlr0`, then `MMlrk + omega*p` with a real `omega`. -/
def SysKinds.p (s : SysKinds) (k : ℕ) : Kind := if k = 0 then max s.M s.Mlr0 else max (max s.M s.Mlr0) .real

/-- linsys.py 624-671: one iteration with the in-place operations `yk += alpha * p` (655) and `Mlrk -= alpha * Ap` (658), where
`alpha` is real; `yk` has the kind `dtype`, `Mlrk` the one of `Mlr0` (603).  The Lanczos vectors (669-671) are assigned to columns of
arrays of kind `dtype`, which is never lower (`C65_dtype`); `H` is real. -/
noncomputable def tcgStep {E : Type*} [AddCommGroup E] [Module ℂ E] (kd : SysKinds) (kI dM : Kind) (ip : E → E → ℂ) (M B : E →ₗ[ℂ] E)
    (store : Bool) (s : CgSt ℂ E) : Except Err (CgSt ℂ E × ℝ) :=
  match cgDir s with
  | .error e => .error e
  | .ok p =>
    if ip p (B p) = 0 then .error .nonFinite
    else match inplace (kd.dtype dM kI) (max .real (kd.p s.k)) with
      | .error e => .error e
      | .ok _ => match inplace kd.Mlr0 (max .real (max kd.MlAMr (kd.p s.k))) with
        | .error e => .error e
        | .ok _ => cgStep ip M B store s

/-- `Cg(linear_system, x0=..., tol=..., maxiter=..., explicit_residual=..., store_arnoldi=...)` with kinds (linsys.py 561-689). -/
noncomputable def tcg {E : Type*} [AddCommGroup E] [Module ℂ E] (kd : SysKinds) (kI dM : Kind) (s : LS ℂ E) (store : Bool)
    (a : SolverArgs E) : Outcome (St ℝ E (CgSt ℂ E)) :=
  match s.getResidualNorm a.x0 with
  | .error e => .raised e
  | .ok (MMlr0, Mlr0, r0) =>
    run (mkCfg s a) { cgMethod s.ip s.M s.MlAMr s.Mr .ok store a.maxiter with step := tcgStep kd kI dM s.ip s.M s.MlAMr store }
      (a.x0.getD 0) r0 (cgInit MMlr0 Mlr0 r0) .ok

end Krypy
