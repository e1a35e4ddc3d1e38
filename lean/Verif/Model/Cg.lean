import Verif.Model.Solver
import Mathlib.Analysis.Real.Sqrt

/-!
# `Cg` (linsys.py 520-708) in exact arithmetic

Arrays and lists are functions on ℕ: `rhos[j]` is `rho j`; at the beginning of iteration `k` the list has `k+1`
entries, so `rhos[-1]` is `rho k` and `rhos[-2]` is `rho (k-1)`.  A division by zero ends the run with
`Err.nonFinite`, except in the assignment of the last Lanczos vector: a column which is filled with NaN is `none`.

`ys`, `rs` and `ps` do not exist in the code: they record all values of `yk`, `Mlrk` and the vectors to which the
operator `MlAMr` was applied.  They are written but never read (`DeflatedCg` computes its matrix `C` from them).
-/

namespace Krypy
variable {𝕜 E : Type*} [RCLike 𝕜] [AddCommGroup E] [Module 𝕜 E]
open scoped ComplexConjugate

/-- State of the CG iteration (linsys.py 593-620). -/
structure CgSt (𝕜 E : Type*) where
  /-- `self.iter` -/
  k : ℕ
  x0 : E
  yk : E
  Mlrk : E
  MMlrk : E
  p : E
  rho : ℕ → ℝ
  /-- all values of `alpha`; `alpha_old` is `al (k-1)` -/
  al : ℕ → ℝ
  V : ℕ → Option E
  P : ℕ → Option E
  H : ℕ → ℕ → ℝ
  /-- number of "Is your operator self-adjoint" warnings -/
  warn : ℕ
  ys : ℕ → E
  rs : ℕ → E
  ps : ℕ → E

/-- linsys.py 626-628: the search direction. -/
noncomputable def cgDir (s : CgSt 𝕜 E) : Except Err E :=
  if 0 < s.k then
    if s.rho (s.k - 1) = 0 then .error .nonFinite
    else .ok (s.MMlrk + ((s.rho s.k / s.rho (s.k - 1) : ℝ) : 𝕜) • s.p)
  else .ok s.p

/-- linsys.py 647-654: the new entries of column `k` of `H` on and above the diagonal, and (664-670) below. -/
noncomputable def cgH (s : CgSt 𝕜 E) (alpha rhoNew : ℝ) : ℕ → ℕ → ℝ :=
  let k := s.k
  let H := if 0 < k then
      Function.update s.H (k - 1) (Function.update (s.H (k - 1)) k (s.H k (k - 1)))
    else s.H
  let d := if 0 < k then (1 + alpha * (s.rho k / s.rho (k - 1)) / s.al (k - 1)) / alpha else 1 / alpha
  let H := Function.update H k (Function.update (H k) k d)
  Function.update H (k + 1) (Function.update (H (k + 1)) k (Real.sqrt (rhoNew / s.rho k) / alpha))

/-- Column `k+1` of `V` resp. `P` (linsys.py 665-668): NaN if the norm is zero. -/
noncomputable def cgCol (k : ℕ) (x : E) (nr : ℝ) : Option E :=
  if nr = 0 then none else some (((((-1 : ℝ) ^ (k + 1)) / nr : ℝ) : 𝕜) • x)

/-- linsys.py 624-671: one iteration up to `_finalize_iteration`; `store` is `store_arnoldi`. -/
noncomputable def cgStep (ip : E → E → 𝕜) (M B : E →ₗ[𝕜] E) (store : Bool) (s : CgSt 𝕜 E) :
    Except Err (CgSt 𝕜 E × ℝ) :=
  let k := s.k
  match cgDir s with
  | .error e => .error e
  | .ok p =>
    let Ap := B p
    let d := ip p Ap
    if d = 0 then .error .nonFinite
    else
      let alphaC : 𝕜 := (s.rho k : 𝕜) / d
      let warn := if 1e-12 < |RCLike.im alphaC| then s.warn + 1 else s.warn
      let alpha : ℝ := RCLike.re alphaC
      if store && decide (alpha = 0) then .error .nonFinite
      else
        let yk := s.yk + (alpha : 𝕜) • p
        let Mlrk := s.Mlrk - (alpha : 𝕜) • Ap
        let MMlrk := M Mlrk
        match npNorm (ip Mlrk MMlrk) with
        | .error e => .error e
        | .ok nr =>
          .ok (⟨k + 1, s.x0, yk, Mlrk, MMlrk, p, Function.update s.rho (k + 1) (nr ^ 2),
            Function.update s.al k alpha,
            if store then Function.update s.V (k + 1) (cgCol (𝕜 := 𝕜) k MMlrk nr) else s.V,
            if store then Function.update s.P (k + 1) (cgCol (𝕜 := 𝕜) k Mlrk nr) else s.P,
            if store then cgH s alpha (nr ^ 2) else s.H,
            warn,
            Function.update s.ys (k + 1) yk, Function.update s.rs (k + 1) Mlrk, Function.update s.ps k p⟩, nr)

/-- linsys.py 679-682: `rhos[-1] = rkn ** 2` if the residual was computed explicitly (`iter` is already
increased in the model). -/
noncomputable def cgPost (s : CgSt 𝕜 E) : Option ℝ → CgSt 𝕜 E
  | none => s
  | some r => { s with rho := Function.update s.rho s.k (r ^ 2) }

/-- The loop of `Cg._solve` (linsys.py 623-689) as a method of the driver; `_get_xk(yk) = x0 + Mr*yk`
(linsys.py 423-428) followed by `post`. -/
noncomputable def cgMethod (ip : E → E → 𝕜) (M B Mr : E →ₗ[𝕜] E) (post : E → Except Err E) (store : Bool)
    (maxiter : ℕ) : Method ℝ E (CgSt 𝕜 E) where
  more s := decide (s.k < maxiter)
  step := cgStep ip M B store
  getXk s := post (s.x0 + Mr s.yk)
  k s := s.k
  post := cgPost
  countAfter := true

/-- linsys.py 593-620: the initial state. -/
noncomputable def cgInit (MMlr0 Mlr0 : E) (r0 : ℝ) (x0 : E) : CgSt 𝕜 E where
  k := 0
  x0 := x0
  yk := 0
  Mlrk := Mlr0
  MMlrk := MMlr0
  p := MMlr0
  rho := fun j => if j = 0 then r0 ^ 2 else 0
  al := fun _ => 0
  V := fun j => some (if j = 0 ∧ 0 < r0 then ((1 / r0 : ℝ) : 𝕜) • MMlr0 else 0)
  P := fun j => some (if j = 0 ∧ 0 < r0 then ((1 / r0 : ℝ) : 𝕜) • Mlr0 else 0)
  H := fun _ _ => 0
  warn := 0
  ys := fun _ => 0
  rs := fun _ => Mlr0
  ps := fun _ => 0

/-- `Cg(linear_system, x0=..., tol=..., maxiter=..., explicit_residual=..., store_arnoldi=...)`
(linsys.py 342-405, 561-689). -/
noncomputable def cg (s : LS 𝕜 E) (hk : Hooks 𝕜 E) (store : Bool) (a : SolverArgs E) :
    Outcome (St ℝ E (CgSt 𝕜 E)) :=
  match hk.initRes a.x0 with
  | .error e => .raised e
  | .ok (MMlr0, Mlr0, r0) =>
    run (mkCfg s a) (cgMethod s.ip s.M hk.op s.Mr hk.post store a.maxiter) (a.x0.getD 0) r0
      (cgInit MMlr0 Mlr0 r0) hk.post

/-- What `_finalize` (linsys.py 691-696) leaves of the stored Lanczos data: `V[:, :iter+1]` and
`H[:iter+1, :iter]`, with `iter` as it is when `_finalize` is called.  `P` (which the code stores only if `M` is not the
identity) is not trimmed. -/
structure CgLanczos (E : Type*) where
  n : ℕ
  V : ℕ → Option E
  H : ℕ → ℕ → ℝ

/-- The stored data of a solver object; `St.iter` is the attribute `iter` (linsys.py 611-620, 645-652, 667-673, 691-697). -/
def cgLanczos (st : St ℝ E (CgSt 𝕜 E)) : CgLanczos E := ⟨st.iter, st.s.V, st.s.H⟩

end Krypy
