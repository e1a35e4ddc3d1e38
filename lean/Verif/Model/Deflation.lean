import Verif.Model.Projection
import Verif.Model.Gmres
import Verif.Model.Minres
import Verif.Model.Cg

/-!
# Deflated solvers (deflation.py 32-283)

`ObliqueProjection`, `_DeflationMixin` and the classes `DeflatedCg`, `DeflatedMinres` and `DeflatedGmres`.  A basis
`U.shape == (N, k)` is a family `Fin k → E`.  Not modelled: dtypes, `MAU` (70-76), `estimate_time` (192-233) and the
cache in `B_` (after a run nothing changes anymore).
-/

namespace Krypy
variable {𝕜 E : Type*} [RCLike 𝕜] [AddCommGroup E] [Module 𝕜 E] {k : ℕ}
open scoped ComplexConjugate
open Matrix

/-- Attributes of an `ObliqueProjection` (deflation.py 32-56): those of `Projection`, and `U`, `AU`. -/
structure Obl (𝕜 E : Type*) (k : ℕ) where
  U : Fin k → E
  AU : Fin k → E
  proj : Proj 𝕜 E k

/-- Keyword arguments of `ObliqueProjection`: `qr_reorthos` is contained in the routine `qrM`, which factorises
with respect to `get_ip_Minv_B()` (deflation.py 40); the others are those of `Projection`.  `same` tells whether
`MlAMr * U` returned the array `U` itself, which only `IdentityLinearOperator` does: `Projection` then takes `Y is X` for an
orthogonal projection. -/
structure OblArgs (𝕜 E : Type*) (k : ℕ) where
  qrM : (Fin k → E) → Except Err ((Fin k → E) × Matrix (Fin k) (Fin k) 𝕜)
  rt : QrRoutines 𝕜 E k
  same : Bool
  orthogonalize : Bool
  iterations : ℤ

/-- deflation.py 33-56. -/
def mkObl (s : LS 𝕜 E) (a : OblArgs 𝕜 E k) (U : Fin k → E) : Except Err (Obl 𝕜 E k) :=
  match a.qrM U with
  | .error e => .error e
  | .ok (U, _) =>
    let AU := fun j => s.MlAMr (U j)
    match mkProj s.ip a.rt AU (if a.same then none else some U) a.orthogonalize a.iterations with
    | .error e => .error e
    | .ok p => .ok ⟨U, AU, p⟩

/-- deflation.py 64-65: `c = solve_triangular(R, Q^H c)` if there are `Q` and `R`. -/
noncomputable def solveQR (QR : Option (Matrix (Fin k) (Fin k) 𝕜 × Matrix (Fin k) (Fin k) 𝕜)) (c : Fin k → 𝕜) :
    Except Err (Fin k → 𝕜) :=
  match QR with
  | none => .ok c
  | some (Q, R) => solveUpper R (Qᴴ *ᵥ c)

/-- deflation.py 66-67: `if self.WR is not self.VR: c = WR.dot(solve_triangular(VR, c))`.  The two attributes are
the same object if both are `None` or if the projection was constructed with `Y is X` (`QR = none`). -/
noncomputable def undoVR (p : Proj 𝕜 E k) (c : Fin k → 𝕜) : Except Err (Fin k → 𝕜) :=
  match p.QR, p.VR, p.WR with
  | some _, some VR, some WR => match solveUpper VR c with
    | .error e => .error e
    | .ok c => .ok (WR *ᵥ c)
  | _, _, _ => .ok c

/-- deflation.py 58-68: `correct(z)`. -/
noncomputable def Obl.correct (s : LS 𝕜 E) (o : Obl 𝕜 E k) (z : E) : Except Err E :=
  match solveQR o.proj.QR (coefs s.ip o.proj.W (s.Ml (s.b - s.A z))) with
  | .error e => .error e
  | .ok c => match undoVR o.proj c with
    | .error e => .error e
    | .ok c => .ok (z + lincomb o.proj.W c)

/-- deflation.py 104-111: the attribute `E`. -/
noncomputable def Obl.Emat (o : Obl 𝕜 E k) : Matrix (Fin k) (Fin k) 𝕜 :=
  let E := match o.proj.QR with
    | none => 1
    | some (Q, R) => Q * R
  match o.proj.VR, o.proj.WR with
  | some VR, some WR => WRᴴ * (E * VR)
  | _, _ => E

/-- deflation.py 144-159: `_get_initial_residual(x0)`. -/
noncomputable def Obl.initRes (s : LS 𝕜 E) (o : Obl 𝕜 E k) (x0 : Option E) : Except Err (E × E × ℝ) :=
  let Mlr := match x0 with
    | none => s.Mlb
    | some x0 => s.Ml (s.b - s.A x0)
  match o.proj.applyCompl s.ip Mlr with
  | .error e => .error e
  | .ok (PMlr, _) =>
    let MPMlr := s.M PMlr
    match npNorm (s.ip PMlr MPMlr) with
    | .error e => .error e
    | .ok nr => .ok (MPMlr, PMlr, nr)

/-- The value of `apply_complement(Av)`.  A `LinAlgError` can be disregarded: it does not depend on the vector and is
raised by `_get_initial_residual` before (deflation.py 141, 250, utils.py 604-627). -/
noncomputable def Obl.compl (s : LS 𝕜 E) (o : Obl 𝕜 E k) (v : E) : E :=
  match o.proj.applyCompl s.ip v with
  | .error _ => 0
  | .ok (z, _) => z

/-- The operator `P * linear_system.MlAMr` (deflation.py 126-131) as a linear map; solvers take operators to be
linear, which `P` is for every sesquilinear inner product. -/
noncomputable def Obl.op (s : LS 𝕜 E) (o : Obl 𝕜 E k) : E →ₗ[𝕜] E :=
  open Classical in
  if h : IsLinearMap 𝕜 (o.compl s) then h.mk' (o.compl s) ∘ₗ s.MlAMr else 0

/-- What `_DeflationMixin` overrides (deflation.py 126-163). -/
noncomputable def Obl.hooks (s : LS 𝕜 E) (o : Obl 𝕜 E k) : Hooks 𝕜 E := ⟨o.initRes s, o.op s, o.correct s⟩

/-- A method which additionally appends something to a list in each step, before (or while) the step is done (deflation.py 142, 251, 262: `C` and `_UAps`). -/
def Method.log {F X S T : Type*} (m : Method F X S) (f : S → List T → Except Err T) : Method F X (S × List T) where
  more s := m.more s.1
  step s := match f s.1 s.2 with
    | .error e => .error e
    | .ok c => match m.step s.1 with
      | .error e => .error e
      | .ok (s', r) => .ok ((s', s.2 ++ [c]), r)
  getXk s := m.getXk s.1
  k s := m.k s.1
  post s r := (m.post s.1 r, s.2)
  countAfter := m.countAfter

/-- deflation.py 134-142: the new column of `C` when the operator is applied to `v`. -/
noncomputable def Obl.newC (s : LS 𝕜 E) (o : Obl 𝕜 E k) (v : E) : Except Err (Fin k → 𝕜) :=
  match o.proj.applyCompl s.ip (s.MlAMr v) with
  | .error e => .error e
  | .ok (_, UAv) => .ok UAv

/-- `DeflatedGmres(linear_system, U, ...)` (deflation.py 276-283) with the constructed projection; the list contains the
columns of `C`.  `advance` applies the operator once per step, to the newest basis vector. -/
noncomputable def deflatedGmres (s : LS 𝕜 E) (o : Obl 𝕜 E k) (ortho : Ortho) (a : SolverArgs E) :
    Outcome (St ℝ E (GmresSt 𝕜 E × List (Fin k → 𝕜))) :=
  let c := s.arnCfg (o.hooks s) a.maxiter ortho
  match o.initRes s a.x0 with
  | .error e => .raised e
  | .ok (MMlr0, Mlr0, r0) =>
    match arnInit c Mlr0 (some MMlr0) (some r0) with
    | .error e => .raised e
    | .ok arn => run (mkCfg s a)
        ((gmresMethod (arnAdvance c) s.Mr (o.correct s) a.maxiter).log fun st _ => o.newC s (st.arn.V st.arn.iter))
        (a.x0.getD 0) r0 (fun x => (gmresInit arn r0 x, [])) (o.correct s)

/-- `DeflatedMinres(linear_system, U, ...)` (deflation.py 266-273). -/
noncomputable def deflatedMinres (s : LS 𝕜 E) (o : Obl 𝕜 E k) (ortho : Ortho) (a : SolverArgs E) :
    Outcome (St ℝ E (MinresSt 𝕜 E × List (Fin k → 𝕜))) :=
  let c := s.arnCfg (o.hooks s) a.maxiter ortho
  match o.initRes s a.x0 with
  | .error e => .raised e
  | .ok (MMlr0, Mlr0, r0) =>
    match arnInit c Mlr0 (some MMlr0) (some r0) with
    | .error e => .raised e
    | .ok arn => run (mkCfg s a)
        ((minresMethod (arnAdvance c) s.Mr (o.correct s) a.maxiter).log fun st _ => o.newC s (st.arn.V st.arn.iter))
        (a.x0.getD 0) r0 (fun x => (minresInit arn r0 x, [])) (o.correct s)

/-- Entry `-i` of a list (numpy: `l[-i]`) (deflation.py 255-260). -/
def fromEnd {T : Type*} (l : List T) (i : ℕ) : Option T := if i ≤ l.length then l[l.length - i]? else none

/-- deflation.py 247-263: the new entries of `_UAps` and of the columns of `C` (as one list of pairs) in iteration `k` of
`DeflatedCg`, for the state before that iteration.  `rhos[-1]`, `rhos[-2]`, `rhos[-3]` are `rho k`, `rho (k-1)`,
`rho (k-2)`.  `UAps[-2]` after the `append` is the last entry before.  A column with NaN entries (after a division by
zero) is `none`. -/
noncomputable def Obl.newCgC (s : LS 𝕜 E) (o : Obl 𝕜 E k) (st : CgSt 𝕜 E)
    (l : List ((Fin k → 𝕜) × Option (Fin k → 𝕜))) : Except Err ((Fin k → 𝕜) × Option (Fin k → 𝕜)) :=
  match cgDir st with
  | .error e => .error e
  | .ok p => match o.newC s p with
    | .error e => .error e
    | .ok UAp =>
      let r1 := st.rho st.k
      let r2 := st.rho (st.k - 1)
      let r3 := st.rho (st.k - 2)
      if r1 = 0 ∨ (0 < st.k ∧ r2 = 0) ∨ (1 < st.k ∧ r3 = 0) then .ok (UAp, none)
      else
        let c := UAp
        let c := if 0 < st.k then match fromEnd l 1 with
            | some (u, _) => c - ((1 + r1 / r2 : ℝ) : 𝕜) • u
            | none => c
          else c
        let c := if 1 < st.k then match fromEnd l 2 with
            | some (u, _) => c + ((r2 / r3 : ℝ) : 𝕜) • u
            | none => c
          else c
        let c := (((-1 : ℝ) ^ st.k / Real.sqrt r1 : ℝ) : 𝕜) • c
        if 0 < st.k then match fromEnd l 1 with
            | some (_, some w) => .ok (UAp, some (c - ((Real.sqrt (r2 / r1) : ℝ) : 𝕜) • w))
            | some (_, none) => .ok (UAp, none)
            | none => .ok (UAp, some c)
        else .ok (UAp, some c)

/-- `DeflatedCg(linear_system, U, ...)` (deflation.py 236-263). -/
noncomputable def deflatedCg (s : LS 𝕜 E) (o : Obl 𝕜 E k) (store : Bool) (a : SolverArgs E) :
    Outcome (St ℝ E (CgSt 𝕜 E × List ((Fin k → 𝕜) × Option (Fin k → 𝕜)))) :=
  match o.initRes s a.x0 with
  | .error e => .raised e
  | .ok (MMlr0, Mlr0, r0) =>
    run (mkCfg s a)
      ((cgMethod s.ip s.M (o.op s) s.Mr (o.correct s) store a.maxiter).log (o.newCgC s))
      (a.x0.getD 0) r0 (fun x => (cgInit MMlr0 Mlr0 r0 x, [])) (o.correct s)

/-- deflation.py 165-190: the rows of `B_` for a matrix `H` of shape `(n_, n)`, basis `V` with `n_` columns and
columns `C`. -/
noncomputable def Obl.B_ (s : LS 𝕜 E) (o : Obl 𝕜 E k) (n_ n : ℕ) (V : ℕ → E) (C : List (Fin k → 𝕜)) :
    List (Fin k → 𝕜) :=
  if s.selfAdjoint then
    C.map (fun c j => conj (c j)) ++ (if n < n_ then [fun j => s.ip (V (n_ - 1)) (o.AU j)] else [])
  else (List.range n_).map fun i j => s.ip (V i) (o.AU j)

end Krypy
