import Verif.Model.Arnoldifyer
import Verif.Model.ResNorms
import Verif.Model.MinMax
import Verif.Model.Evaluators
import Mathlib.Analysis.SpecialFunctions.Log.Base
import Mathlib.Analysis.SpecialFunctions.Pow.Real
import Mathlib.Analysis.Real.Pi.Bounds

/-!
# Model of `deflation.bound_pseudo` (deflation.py 473-734) and of `RitzApproxKrylov` (recycling/evaluators.py 136-238)

Exact arithmetic.  The routines of numpy and scipy are parameters; so are the residual norms of the run of CG on the small
system (deflation.py 564-571) and the contours of `pseudopy` for systems which are not self-adjoint (694-704).  Not modelled: the
import of `pseudopy` (617), which is executed also if it is not needed.
-/

namespace Krypy
variable {𝕜 E : Type*} [RCLike 𝕜] [AddCommGroup E] [Module 𝕜 E] {n_ n d k p : ℕ}
open Matrix

/-- The arguments `g_norm`, `G_norm`, `GW_norm` and `WGW_norm` (deflation.py 476-479). -/
structure PseudoNorms where
  g : ℝ
  G : ℝ
  GW : ℝ
  WGW : ℝ

/-- The argument `pseudo_type` (deflation.py 481, 504-521); `other` stands for all other strings. -/
inductive PseudoType
  | auto
  | omit
  | contain
  | other
  deriving DecidableEq

/-- The class of the deflated solver, as far as `bound_pseudo` distinguishes it (deflation.py 560-571, 632); for CG the attribute
`resnorms` of the run on the small system, which may end with a `ConvergenceError`, or another exception. -/
inductive PseudoSolver
  | minRes
  | cg (resnorms : Except Err (List ℝ))

/-- The routines: least singular value (deflation.py 537), eigenvalues of `Hh` (579), economic QR decomposition (637), generalized
eigenvalues (638), `eigvalsh` (633), the sorting of `NormalizedRootsPolynomial.__call__` (690) and its `minmax_candidates` (647), the
construction of `Intervals` (676), length of the contour and maximum of the polynomial on it (694-704), and `minimize_scalar` (717). -/
structure PseudoRoutines (𝕜 : Type*) (k p : ℕ) where
  svdmin : Matrix (Fin k) (Fin k) 𝕜 → ℝ
  eig : Matrix (Fin (p + 1)) (Fin (p + 1)) 𝕜 → List 𝕜
  qr : (i : ℕ) → Matrix (Fin (min (i + 1) (p + 1))) (Fin i) 𝕜 →
    Matrix (Fin (min (i + 1) (p + 1))) (Fin i) 𝕜 × Matrix (Fin i) (Fin i) 𝕜
  geig : (i : ℕ) → Matrix (Fin i) (Fin i) 𝕜 → Matrix (Fin i) (Fin i) 𝕜 → List 𝕜
  eigh : (i : ℕ) → Matrix (Fin i) (Fin i) 𝕜 → List ℝ
  argsort : List ℝ → List ℕ
  cand : List ℝ → List ℝ
  build : List (Interval ℝ) → IvSet ℝ
  path : List 𝕜 → ℝ → Except Err (ℝ × ℝ)
  minimize : (ℝ → Except Err ℝ) → ℝ → ℝ → Except Err ℝ

/-- A matrix as a function of two natural numbers, for slices such as `Hh[:i+1, :i]` (deflation.py 562, 633, 637, 654). -/
def natMat {r c : ℕ} (M : Matrix (Fin r) (Fin c) 𝕜) (i j : ℕ) : 𝕜 := if h : i < r ∧ j < c then M ⟨i, h.1⟩ ⟨j, h.2⟩ else 0

/-- deflation.py 533-543: `eta`. -/
noncomputable def pseudoEta (svdmin : Matrix (Fin k) (Fin k) 𝕜 → ℝ) (WAW : Matrix (Fin k) (Fin k) 𝕜) (nb : PseudoNorms) :
    Except Err ℝ :=
  if 0 < k then
    if svdmin WAW ≤ nb.WGW then .error .assumptionError else .ok (nb.GW / (svdmin WAW - nb.WGW))
  else .ok 0

/-- deflation.py 560-573: `aresnorms`; `sa` is the attribute `self_adjoint` of the original linear system. -/
noncomputable def pseudoAres (sol : PseudoSolver) (sa : Bool) (Hh : Matrix (Fin (p + 1)) (Fin (p + 1)) 𝕜) (q : ℝ) :
    Except Err (List ℝ) :=
  let res := match sol with
    | .minRes => getResidualNorms (natMat Hh) (p + 1) (p + 1) sa
    | .cg r => r
  match res with
  | .error e => .error e
  | .ok l => .ok (l.map (· * q))

/-- deflation.py 612, 654-655: `numpy.max(svd(Rh[:, :i])[1])`; if `Rh` has no rows then `svd` or `max` raises a `ValueError`. -/
noncomputable def rhNorm {l : ℕ} (Rh : Matrix (Fin (n_ - n) ⊕ Fin l) (Fin (p + 1)) 𝕜) (i : ℕ) : Except Err ℝ :=
  if n_ - n + l = 0 then .error .valueError
  else .ok (matNorm2 (Matrix.of fun r (c : Fin (min i (p + 1))) => Rh r ⟨c, by omega⟩))

/-- deflation.py 631-642: the roots of the residual polynomial. -/
noncomputable def pseudoRoots (rt : PseudoRoutines 𝕜 k p) (sol : PseudoSolver) (Hh : Matrix (Fin (p + 1)) (Fin (p + 1)) 𝕜) (i : ℕ) :
    List 𝕜 :=
  match sol with
  | .cg _ => (rt.eigh i (Matrix.of fun r c => natMat Hh r c)).map ((↑) : ℝ → 𝕜)
  | .minRes =>
    let QR := rt.qr i (Matrix.of fun r c => natMat Hh r c)
    let inv := rt.geig i (Matrix.of fun r c => star (natMat QR.1 c r)) QR.2
    (inv.filter fun z => 1e-14 < ‖z‖).map fun z => 1 / z

/-- What does not change in the loop (deflation.py 579-627). -/
structure PseudoCtx (𝕜 : Type*) where
  sa : Bool
  evals : List 𝕜
  q : ℝ
  beta : ℝ

/-- deflation.py 672-712: `compute_pseudo(delta_log)` for the polynomial with the given roots. -/
noncomputable def computePseudo (rt : PseudoRoutines 𝕜 k p) (c : PseudoCtx 𝕜) (roots : List 𝕜) (eps deltaLog : ℝ) : Except Err ℝ :=
  let delta : ℝ := 10 ^ deltaLog
  let lm : Except Err (ℝ × ℝ) :=
    if c.sa then
      let r := roots.map RCLike.re
      match mkIvList ((c.evals.map RCLike.re).map fun ev => (ev - delta, ev + delta)) with
      | .error e => .error e
      | .ok is => match polyMax rt.argsort r (rt.build is) (rt.cand r) with
        | .error e => .error e
        | .ok m => .ok (2 * delta, m)
    else rt.path roots delta
  match lm with
  | .error e => .error e
  | .ok lm => .ok (lm.1 / (2 * Real.pi * delta) * (eps / (delta - eps) * (c.q + c.beta) + c.beta) * lm.2)

/-- deflation.py 668-670 and 719: the ends of `numpy.linspace(log10(1.01 epsilon), log10(delta_max), delta_n + 2)[0:-1]`. -/
noncomputable def pseudoRange (eps dmax : ℝ) (deltaN : ℕ) : ℝ × ℝ :=
  let a := Real.logb 10 (101 / 100 * eps)
  (a, a + (Real.logb 10 dmax - a) * (deltaN / (deltaN + 1)))

/-- deflation.py 629-733: the loop.  `least i` is `min_val` in pass `i`, or `none` if the loop is left in line 666; the first pass is
number `i`, `last` is `bounds[-1]` and the list contains `aresnorms[i:]`.  730: a division of a positive number by zero gives
infinity, `0 / 0` gives `nan`, which is not greater than anything. -/
noncomputable def pseudoLoop (least : ℕ → Except Err (Option ℝ)) (tf : ℝ) : ℕ → ℝ → List ℝ → Except Err (List ℝ)
  | _, _, [] => .ok []
  | i, last, a :: as => match least i with
    | .error e => .error e
    | .ok none => .ok []
    | .ok (some m) =>
      let v := a + m
      if 1 < i ∧ (if last = 0 then 0 < v else tf < v / last) then .ok []
      else match pseudoLoop least tf (i + 1) (min v last) as with
        | .error e => .error e
        | .ok l => .ok (min v last :: l)

/-- deflation.py 656-659: `epsilon`. -/
noncomputable def pseudoEps (pwaw eta Hnorm G rh : ℝ) : ℝ :=
  let e := pwaw * (eta * (Hnorm + G) + G) + rh
  if e = 0 then 1e-16 else e

/-- deflation.py 631-724: `min_val` in pass `i`; `none` for the `break` in line 666.  `minimize_scalar` raises a `ValueError` if the lower bound
exceeds the upper bound. -/
noncomputable def pseudoLeast {l : ℕ} (rt : PseudoRoutines 𝕜 k p) (sol : PseudoSolver) (c : PseudoCtx 𝕜)
    (out : ArnfOut 𝕜 E n_ n l p) (eta G dmax : ℝ) (ptype : PseudoType) (deltaN : ℕ) (i : ℕ) : Except Err (Option ℝ) :=
  match rhNorm out.Rh i with
  | .error e => .error e
  | .ok rh =>
    let eps := pseudoEps out.pwawNorm eta (matNorm2 out.Hh) G rh
    if ptype = .contain then .error .other
    else if dmax ≤ eps then .ok none
    else
      let ab := pseudoRange eps dmax deltaN
      if ab.2 < ab.1 then .error .valueError
      else match rt.minimize (computePseudo rt c (pseudoRoots rt sol out.Hh i) eps) ab.1 ab.2 with
      | .error e => .error e
      | .ok m => .ok (some m)

/-- deflation.py 544-734: everything after the computation of `eta`; `bNorm` is the attribute `MMlb_norm` of the linear system.
`bounds = [aresnorms[0]]` raises an `IndexError` for an empty array (629).  579, 606: `Hh` is not empty, so the maximum exists. -/
noncomputable def pseudoCore {l : ℕ} (rt : PseudoRoutines 𝕜 k p) (sol : PseudoSolver) (sa : Bool) (bNorm : ℝ)
    (out : ArnfOut 𝕜 E n_ n l p) (eta : ℝ) (nb : PseudoNorms) (ptype : PseudoType) (deltaN : ℕ) (tf : ℝ) : Except Err (List ℝ) :=
  let beta := out.pwawNorm * (eta * (bNorm + nb.g) + nb.g) + out.vdiffNorm
  if bNorm ≤ nb.g then .error .assumptionError
  else match pseudoAres sol sa out.Hh out.qNorm with
    | .error e => .error e
    | .ok ares =>
      if ptype = .omit then .ok (ares.map (· / (bNorm - nb.g)))
      else
        let evals := rt.eig out.Hh
        let evals := if sa then evals.map fun z => ((RCLike.re z : ℝ) : 𝕜) else evals
        let dmax := 100 * ((evals.map fun z => ‖z‖).max?).getD 0
        match rhNorm out.Rh 1 with
        | .error e => .error e
        | .ok _ => match ares with
          | [] => .error .valueError
          | a0 :: as =>
            match pseudoLoop (pseudoLeast rt sol ⟨sa, evals, out.qNorm, beta⟩ out eta nb.G dmax ptype deltaN) tf 1 a0 as with
            | .error e => .error e
            | .ok bs => .ok ((a0 :: bs).map (· / (bNorm - nb.g)))

/-- `bound_pseudo(arnoldifyer, Wt, g_norm, G_norm, GW_norm, WGW_norm, tol, pseudo_type, pseudo_kwargs, delta_n, terminate_factor)`
(deflation.py 473-734). -/
noncomputable def boundPseudo (a : Arnf 𝕜 E n_ n d) (grt : ArnfGetRoutines 𝕜 n_ n d k (n + d - k - 1)) (ipM : E → E → 𝕜)
    (Em : Matrix (Fin d) (Fin d) 𝕜) (B_ : List (Fin d → 𝕜)) (V : ℕ → E) (U : Fin d → E) (r0 : ℝ) (UMlr : Fin d → 𝕜)
    (hn : n ≤ n_) (Wt : Matrix (Fin n ⊕ Fin d) (Fin k) 𝕜) (rt : PseudoRoutines 𝕜 k (n + d - k - 1)) (sol : PseudoSolver) (sa : Bool)
    (bNorm : ℝ) (nb : PseudoNorms) (ptype : PseudoType) (deltaN : ℕ) (tf : ℝ) : Except Err (List ℝ) :=
  match a.get grt ipM Em B_ V U r0 UMlr hn Wt with
  | .error e => .error e
  | .ok out => match pseudoEta rt.svdmin (Wtᴴ * (a.J * (a.L * Wt))) nb with
    | .error e => .error e
    | .ok eta => pseudoCore rt sol sa bNorm out eta nb ptype deltaN tf

/-- The argument `mode` of `RitzApproxKrylov` (evaluators.py 139). -/
inductive ApproxMode
  | direct
  | extrapolate
  | other
  deriving DecidableEq

/-- evaluators.py 220-223: `alpha`; `b0` is the first bound and the list contains the others. -/
noncomputable def approxAlpha (b0 : ℝ) (bs : List ℝ) : Option ℝ :=
  (bs.zipIdx.map fun p => (p.1 / b0) ^ (1 / ((p.2 : ℝ) + 1))).max?

/-- evaluators.py 208-234: the number of steps.  The comparison of an array with `None` raises a `TypeError` (212).  For a vanishing first
bound the quotients are not finite (221); the logarithm of a tolerance `≤ 0` is not finite (228). -/
noncomputable def approxSteps (mode : ApproxMode) (selfTol : Option ℝ) (tol : ℝ) (b : List ℝ) : Except Err ℝ :=
  if b.length ≤ 1 then .error .assumptionError
  else match mode with
    | .direct => match selfTol with
      | none => .error .typeError
      | some t =>
        if ∀ x ∈ b, t < x then .error .assumptionError else .ok ((b.filter fun x => tol < x).length : ℝ)
    | .extrapolate =>
      let b0 := b.headD 0
      if b0 = 0 then .error .nonFinite
      else match approxAlpha b0 b.tail with
        | none => .error .valueError
        | some alpha =>
          if 1 ≤ alpha ∨ alpha = 0 then .error .assumptionError
          else if tol ≤ 0 then .error .nonFinite
          else .ok (Real.log (tol / b0) / Real.log alpha)
    | .other => .error .argumentError

/-- The attributes of `RitzApproxKrylov` (evaluators.py 168-175) without `_arnoldifyer`, and the attributes of the deflated solver and its
linear system which are used. -/
structure ApproxArgs where
  mode : ApproxMode
  tol : Option ℝ
  pseudospectra : Bool
  deflweight : ℝ
  solverTol : ℝ
  kind : SolverKind
  timings : Option (Timings Op ℝ)

/-- evaluators.py 196-238.  `bp tol ptype W` is the result of `bound_pseudo` for the chosen columns `W` of `ritz.coeffs`. -/
noncomputable def approxEvalWith {ι : Type*} {c : ℕ} (order : Finset (Fin c) → List (Fin c)) (a : ApproxArgs)
    (coeffs : Fin c → ι → 𝕜) (bp : ℝ → PseudoType → List (ι → 𝕜) → Except Err (List ℝ)) (subset : Finset (Fin c)) : Except Err ℝ :=
  let tol := a.tol.getD a.solverTol
  let Wt := (order subset).map coeffs
  match bp tol (if a.pseudospectra then .auto else .omit) Wt with
  | .error e => .error e
  | .ok b => match approxSteps a.mode a.tol tol b with
    | .error e => .error e
    | .ok nsteps => estimateTime a.kind a.timings nsteps subset.card a.deflweight

/-- evaluators.py 187-194: the cached `Arnoldifyer` (its deflated solver and the object) is used if the deflated solver is the same
object; otherwise a new one is constructed and stored. -/
def approxArnf {S A : Type*} [DecidableEq S] (mk : S → Except Err A) (cache : Option (S × A)) (s : S) : Except Err (A × Option (S × A)) :=
  match cache with
  | some sa => if sa.1 = s then .ok (sa.2, cache) else match mk s with
    | .error e => .error e
    | .ok a => .ok (a, some (s, a))
  | none => match mk s with
    | .error e => .error e
    | .ok a => .ok (a, some (s, a))

/-- evaluators.py 177-238: `evaluate(ritz, subset)` as a function of the cache; `mk` is the construction of an `Arnoldifyer`, `ev` the
remaining lines (`approxEvalWith`).  The exception of the constructor leaves the cache as it is. -/
def approxEval {S A X : Type*} [DecidableEq S] (mk : S → Except Err A) (ev : A → S → X → Except Err ℝ) (cache : Option (S × A))
    (s : S) (subset : X) : Except Err ℝ × Option (S × A) :=
  match approxArnf mk cache s with
  | .error e => (.error e, cache)
  | .ok ac => (ev ac.1 s subset, ac.2)

end Krypy
