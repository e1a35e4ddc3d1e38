import Verif.Model.Counts
import Verif.Model.Deflation
import Verif.Model.Qr

/-!
# Operation counts of the deflated solvers (deflation.py 32-283)

A second copy of `Model/Qr`, of the parts of `Model/Projection` used by the deflated solvers and of `Model/Deflation` in which operations are
counted as in `Model/Counts`.  `Props/DeflCounts` proves that forgetting the counters gives these models.

An operator applied to an array with `k` columns counts as `k` applications (as in `TimedLinearOperator`, utils.py 1619-1626), `inner(W, a)` as one
inner product for each pair of columns, and the product `V.dot(c)` with an array of `k` columns as `k` vector updates.  Operations with the small matrices are
not counted.  The inner product is taken to be given as a function.
-/

namespace Krypy
variable {𝕜 E : Type*} [RCLike 𝕜] [AddCommGroup E] [Module 𝕜 E] {k : ℕ}
open Matrix

/-- `n` operations of kind `o` with result `x` (see `tick`; no counterpart in the code). -/
def tickN {α : Type*} (o : Op) (n : ℕ) (x : α) : Tr α := (x, Pi.single o n)

/-! ## `qr` -/

/-- `inner(x, y, ip_B=ip_B)` (utils.py 103-143) for single columns. -/
def ipT (ip : E → E → 𝕜) (x y : E) : Tr 𝕜 := tick .ipB (ip x y)

/-- linsys.py 174-175: the inner product `lambda x, y: self.ip_B(x, self.Minv * y)`. -/
def ipMinvT (ip : E → E → 𝕜) (Minv : E →ₗ[𝕜] E) (x y : E) : Tr 𝕜 := (tick .Minv (Minv y)).bind fun z => ipT ip x z

/-- utils.py 700-703 (see `qrPass`): one inner product and one update for each earlier column. -/
def qrPassT (ip : E → E → Tr 𝕜) (Q : ℕ → E) : ℕ → E × (ℕ → 𝕜) → Tr (E × (ℕ → 𝕜))
  | 0, s => .pure s
  | j + 1, s => (qrPassT ip Q j s).bind fun s =>
    (ip (Q j) s.1).bind fun alpha =>
    (tick .axpy (s.1 - alpha • Q j)).bind fun q => .pure (q, Function.update s.2 j (s.2 j + alpha))

/-- utils.py 699-703 (see `qrPasses`). -/
def qrPassesT (ip : E → E → Tr 𝕜) (Q : ℕ → E) (i : ℕ) : ℕ → E × (ℕ → 𝕜) → Tr (E × (ℕ → 𝕜))
  | 0, s => .pure s
  | p + 1, s => (qrPassesT ip Q i p s).bind (qrPassT ip Q i)

/-- utils.py 703-704: the column is divided by its norm, unless that is below `1e-15`. -/
noncomputable def qrScaleT (rii : ℝ) (q : E) : Tr E := if 1e-15 ≤ rii then tick .axpy (((rii : 𝕜)⁻¹) • q) else .pure q

/-- utils.py 698-706 (see `qrCol`). -/
noncomputable def qrColT (ip : E → E → Tr 𝕜) (reorthos : ℕ) (i : ℕ) (Q : ℕ → E) (R : ℕ → ℕ → 𝕜) :
    Tr (Except Err ((ℕ → E) × (ℕ → ℕ → 𝕜))) :=
  (qrPassesT ip Q i (reorthos + 1) (Q i, fun j => R j i)).bind fun s =>
  (ip s.1 s.1).bind fun z =>
  match npNorm z with
  | .error e => .pure (.error e)
  | .ok rii =>
    (qrScaleT (𝕜 := 𝕜) rii s.1).bind fun q =>
      .pure (.ok (Function.update Q i q, fun a b => if b = i then Function.update s.2 i (rii : 𝕜) a else R a b))

/-- utils.py 695-707 (see `qrLoop`). -/
noncomputable def qrLoopT (ip : E → E → Tr 𝕜) (reorthos : ℕ) (X : ℕ → E) : ℕ → Tr (Except Err ((ℕ → E) × (ℕ → ℕ → 𝕜)))
  | 0 => .pure (.ok (X, fun _ _ => 0))
  | i + 1 => (qrLoopT ip reorthos X i).bind fun
    | .error e => .pure (.error e)
    | .ok (Q, R) => qrColT ip reorthos i Q R

/-- The columns of an `(N, k)` array as a sequence (utils.py 696: `Q = X.copy()`). -/
def colSeq (X : Fin k → E) (i : ℕ) : E := if h : i < k then X ⟨i, h⟩ else 0

/-- The returned `(N, k)` and `(k, k)` arrays (utils.py 707: `return Q, R`). -/
def qrResult : Except Err ((ℕ → E) × (ℕ → ℕ → 𝕜)) → Except Err ((Fin k → E) × Matrix (Fin k) (Fin k) 𝕜)
  | .error e => .error e
  | .ok (Q, R) => .ok (fun i => Q i, Matrix.of fun i j => R i j)

/-- `qr(X, ip_B=ip, reorthos=reorthos)` (utils.py 680-707) for an array with `k` columns and an inner product given as a function. -/
noncomputable def ownQrT (ip : E → E → Tr 𝕜) (reorthos : ℕ) (X : Fin k → E) : Tr (Except Err ((Fin k → E) × Matrix (Fin k) (Fin k) 𝕜)) :=
  (qrLoopT ip reorthos (colSeq X) k).bind fun r => .pure (qrResult r)

/-! ## `Projection` and `ObliqueProjection` -/

/-- See `OblArgs` (deflation.py 33-56, with counters). -/
structure OblArgsT (𝕜 E : Type*) (k : ℕ) where
  qrM : (Fin k → E) → Tr (Except Err ((Fin k → E) × Matrix (Fin k) (Fin k) 𝕜))
  qr : (Fin k → E) → Tr (Except Err ((Fin k → E) × Matrix (Fin k) (Fin k) 𝕜))
  matQr : Matrix (Fin k) (Fin k) 𝕜 → Matrix (Fin k) (Fin k) 𝕜 × Matrix (Fin k) (Fin k) 𝕜
  same : Bool
  orthogonalize : Bool
  iterations : ℤ

/-- Forget the counters of the arguments (see `OblArgsT`; no counterpart in the code). -/
def OblArgsT.erase (a : OblArgsT 𝕜 E k) : OblArgs 𝕜 E k :=
  ⟨fun U => (a.qrM U).1, ⟨fun X => (a.qr X).1, a.matQr⟩, a.same, a.orthogonalize, a.iterations⟩

/-- The arguments with the library's own `qr`: deflation.py 40 calls it with `get_ip_Minv_B()` (`Minv = none` if `M` is the identity) and `qr_reorthos`,
utils.py 505 and 515 with the default `reorthos=1`. -/
noncomputable def ownOblArgs (ip : E → E → 𝕜) (Minv : Option (E →ₗ[𝕜] E)) (qrReorthos : ℕ)
    (matQr : Matrix (Fin k) (Fin k) 𝕜 → Matrix (Fin k) (Fin k) 𝕜 × Matrix (Fin k) (Fin k) 𝕜) (same orthogonalize : Bool) (iterations : ℤ) :
    OblArgsT 𝕜 E k where
  qrM := ownQrT (match Minv with | none => ipT ip | some Minv => ipMinvT ip Minv) qrReorthos
  qr := ownQrT (ipT ip) 1
  matQr := matQr
  same := same
  orthogonalize := orthogonalize
  iterations := iterations

/-- utils.py 519 (see `gram`): one inner product for each pair of columns. -/
def gramT (ip : E → E → 𝕜) (W V : Fin k → E) : Tr (Matrix (Fin k) (Fin k) 𝕜) := tickN .ipB (k * k) (gram ip W V)

/-- utils.py 482-520 (see `mkProj`). -/
def mkProjT (ip : E → E → 𝕜) (a : OblArgsT 𝕜 E k) (X : Fin k → E) (Y : Option (Fin k → E)) : Tr (Except Err (Proj 𝕜 E k)) :=
  if a.iterations < 1 then .pure (.error .argumentError)
  else if k = 0 then .pure (.ok ⟨0, 0, none, none, none, a.iterations.toNat⟩)
  else if a.orthogonalize then
    (a.qr X).bind fun
    | .error e => .pure (.error e)
    | .ok (V, VR) => match Y with
      | none => .pure (.ok ⟨V, V, some VR, some VR, none, a.iterations.toNat⟩)
      | some Y => (a.qr Y).bind fun
        | .error e => .pure (.error e)
        | .ok (W, WR) => (gramT ip W V).bind fun G => .pure (.ok ⟨V, W, some VR, some WR, some (a.matQr G), a.iterations.toNat⟩)
  else (gramT ip (Y.getD X) X).bind fun G => .pure (.ok ⟨X, Y.getD X, none, none, some (a.matQr G), a.iterations.toNat⟩)

/-- deflation.py 33-56 (see `mkObl`). -/
noncomputable def mkOblT (s : LS 𝕜 E) (a : OblArgsT 𝕜 E k) (U : Fin k → E) : Tr (Except Err (Obl 𝕜 E k)) :=
  (a.qrM U).bind fun
  | .error e => .pure (.error e)
  | .ok (U, _) =>
    (tickN .Mr k fun j => s.Mr (U j)).bind fun MrU =>
    (tickN .A k fun j => s.A (MrU j)).bind fun AMrU =>
    (tickN .Ml k fun j => s.Ml (AMrU j)).bind fun AU =>
    (mkProjT s.ip a AU (if a.same then none else some U)).bind fun
    | .error e => .pure (.error e)
    | .ok p => .pure (.ok ⟨U, AU, p⟩)

/-- utils.py 543-545: the returned `Ya` (see `Proj.apply1`). -/
def Proj.Ya (p : Proj 𝕜 E k) (c : Fin k → 𝕜) : Fin k → 𝕜 :=
  match p.WR with
  | some WR => WRᴴ *ᵥ c
  | none => c

/-- utils.py 522-552 (see `Proj.apply1`). -/
noncomputable def Proj.apply1T (ip : E → E → 𝕜) (p : Proj 𝕜 E k) (a : E) : Tr (Except Err (E × (Fin k → 𝕜))) :=
  if k = 0 then .pure (.ok (0, fun _ => 0))
  else
    (tickN .ipB k (coefs ip p.W a)).bind fun c =>
    match solveQR p.QR c with
    | .error e => .pure (.error e)
    | .ok y => (tickN .axpy k (lincomb p.V y)).bind fun x => .pure (.ok (x, p.Ya c))

/-- First component of `_apply` (utils.py 522-552, see `Proj.apply1x`). -/
noncomputable def Proj.apply1xT (ip : E → E → 𝕜) (p : Proj 𝕜 E k) (a : E) : Tr (Except Err E) :=
  (p.apply1T ip a).bind fun
  | .error e => .pure (.error e)
  | .ok (x, _) => .pure (.ok x)

/-- utils.py 622-624 (see `refineCompl`). -/
def refineComplT (f : E → Tr (Except Err E)) : ℕ → E → Tr (Except Err E)
  | 0, z => .pure (.ok z)
  | n + 1, z => (refineComplT f n z).bind fun
    | .error e => .pure (.error e)
    | .ok z => (f z).bind fun
      | .error e => .pure (.error e)
      | .ok w => (tick .axpy (z - w)).bind fun z => .pure (.ok z)

/-- utils.py 604-627 (see `Proj.applyCompl`). -/
noncomputable def Proj.applyComplT (ip : E → E → 𝕜) (p : Proj 𝕜 E k) (a : E) : Tr (Except Err (E × (Fin k → 𝕜))) :=
  if k = 0 then .pure (.ok (a, fun _ => 0))
  else (p.apply1T ip a).bind fun
    | .error e => .pure (.error e)
    | .ok (x, Ya) => (tick .axpy (a - x)).bind fun z => (refineComplT (p.apply1xT ip) (p.iterations - 1) z).bind fun
      | .error e => .pure (.error e)
      | .ok z => .pure (.ok (z, Ya))

/-- deflation.py 58-68 (see `Obl.correct`): a residual, one inner product for each deflation vector, and the correction. -/
noncomputable def Obl.correctT (s : LS 𝕜 E) (o : Obl 𝕜 E k) (z : E) : Tr (Except Err E) :=
  (tick .A (s.A z)).bind fun Az =>
  (tick .axpy (s.b - Az)).bind fun r =>
  (tick .Ml (s.Ml r)).bind fun Mlr =>
  (tickN .ipB k (coefs s.ip o.proj.W Mlr)).bind fun c =>
  match solveQR o.proj.QR c with
  | .error e => .pure (.error e)
  | .ok c => match undoVR o.proj c with
    | .error e => .pure (.error e)
    | .ok c =>
      (tickN .axpy k (lincomb o.proj.W c)).bind fun w => (tick .axpy (z + w)).bind fun x => .pure (.ok x)

/-- deflation.py 149-153: `Ml (b - A x0)`. -/
def initMlrT (s : LS 𝕜 E) : Option E → Tr E
  | none => .pure s.Mlb
  | some x0 => (tick .A (s.A x0)).bind fun Ax => (tick .axpy (s.b - Ax)).bind fun r => tick .Ml (s.Ml r)

/-- deflation.py 144-159 (see `Obl.initRes`). -/
noncomputable def Obl.initResT (s : LS 𝕜 E) (o : Obl 𝕜 E k) (x0 : Option E) : Tr (Except Err (E × E × ℝ)) :=
  (initMlrT s x0).bind fun Mlr => (o.proj.applyComplT s.ip Mlr).bind fun
  | .error e => .pure (.error e)
  | .ok (PMlr, _) =>
    (tick .M (s.M PMlr)).bind fun MPMlr => (tick .ipB (s.ip PMlr MPMlr)).bind fun z => .pure <|
      match npNorm z with
      | .error e => .error e
      | .ok nr => .ok (MPMlr, PMlr, nr)

/-- deflation.py 126-142 (see `Obl.op`): the operator `P * MlAMr`; as there an error is disregarded. -/
noncomputable def Obl.opT (s : LS 𝕜 E) (o : Obl 𝕜 E k) (v : E) : Tr E :=
  (s.opT v).bind fun w => (o.proj.applyComplT s.ip w).bind fun
  | .error _ => .pure 0
  | .ok (z, _) => .pure z

/-! ## Solvers -/

/-- See `Method.log` (deflation.py 142, 251, 262): the appended column was computed with the application of the projection, and columns of `C` are short vectors. -/
def MethodT.log {F X S T : Type*} (m : MethodT F X S) (f : S → List T → Except Err T) : MethodT F X (S × List T) where
  more s := m.more s.1
  step s := match f s.1 s.2 with
    | .error e => .pure (.error e)
    | .ok c => (m.step s.1).bind fun
      | .error e => .pure (.error e)
      | .ok (s', r) => .pure (.ok ((s', s.2 ++ [c]), r))
  getXk s := m.getXk s.1
  k s := m.k s.1
  post s r := (m.post s.1 r, s.2)
  countAfter := m.countAfter

/-- deflation.py 161-163: `correct(super()._get_xk(yk))`. -/
noncomputable def Obl.xkT (s : LS 𝕜 E) (o : Obl 𝕜 E k) (x : Tr (Except Err E)) : Tr (Except Err E) :=
  x.bind fun
  | .error e => .pure (.error e)
  | .ok x => o.correctT s x

/-- `DeflatedGmres` as a method of the driver (deflation.py 276-283, linsys.py 941-997; see `deflatedGmres`). -/
noncomputable def deflGmresMethodT (s : LS 𝕜 E) (o : Obl 𝕜 E k) (ortho : Ortho) (maxiter : ℕ) : MethodT ℝ E (GmresSt 𝕜 E) where
  more t := decide (t.arn.iter < maxiter) && !t.arn.invariant
  step := gmresStepT (arnAdvanceT (s.arnCfg (o.hooks s) maxiter ortho) (o.opT s))
  getXk t := o.xkT s (gmresXkT s.Mr t)
  k t := t.arn.iter
  post t _ := t
  countAfter := false

/-- `DeflatedMinres` as a method of the driver (deflation.py 266-273, linsys.py 791-853; see `deflatedMinres`). -/
noncomputable def deflMinresMethodT (s : LS 𝕜 E) (o : Obl 𝕜 E k) (ortho : Ortho) (maxiter : ℕ) : MethodT ℝ E (MinresSt 𝕜 E) where
  more t := decide (t.arn.iter < maxiter) && !t.arn.invariant
  step := minresStepT (arnAdvanceT (s.arnCfg (o.hooks s) maxiter ortho) (o.opT s)) maxiter
  getXk t := o.xkT s (plainXkT s.Mr t.x0 t.yk)
  k t := t.arn.iter
  post t _ := t
  countAfter := false

/-- `DeflatedCg` as a method of the driver (deflation.py 236-263, linsys.py 593-689; see `deflatedCg`). -/
noncomputable def deflCgMethodT (s : LS 𝕜 E) (o : Obl 𝕜 E k) (store : Bool) (maxiter : ℕ) : MethodT ℝ E (CgSt 𝕜 E) where
  more t := decide (t.k < maxiter)
  step := cgStepT s.ip s.M (o.opT s) store
  getXk t := o.xkT s (plainXkT s.Mr t.x0 t.yk)
  k t := t.k
  post := cgPost
  countAfter := true

section Driver
variable {F X S : Type*} [LE F] [LT F] [DecidableLE F] [DecidableLT F] [Div F]

/-- linsys.py 391-401 (see `initErr`), where `_get_xk(None)` is `correct(x0)` (deflation.py 161-163). -/
def initErrPostT (cfg : CfgT F X) (xk0 : Tr (Except Err X)) : Tr (Except Err (Option (List F))) :=
  match cfg.errNorm with
  | none => .pure (.ok none)
  | some en => xk0.bind fun
    | .error e => .pure (.error e)
    | .ok x => (en x).bind fun
      | .error e => .pure (.error e)
      | .ok e => .pure (.ok (some [e]))

/-- linsys.py 342-405 (see `run`). -/
def runPostT [Zero F] [BEq F] [Zero X] (cfg : CfgT F X) (m : MethodT F X S) (x0 : X) (r0norm : F) (mkS : X → S) (post : X → Tr (Except Err X)) :
    Tr (Outcome (St F X S)) :=
  let bzero := cfg.MMlbNorm == 0
  let x0 := if bzero then 0 else x0
  let xk : Option X := if bzero then some 0 else none
  let resnorms : List F := if bzero then [0] else [r0norm / cfg.MMlbNorm]
  (initErrPostT cfg (post x0)).bind fun
  | .error e => .pure (.raised e)
  | .ok errnorms =>
    loopT cfg m cfg.maxiter
      { s := mkS x0, iter := 0, xk := xk, resnorms := resnorms, errnorms := errnorms, warnings := 0 }

end Driver

/-- `DeflatedGmres(LinearSystem(...), U, ...)` (see `mkLS`, `mkObl`, `deflatedGmres`) (linsys.py 12-128, deflation.py 93-163, 276-283, with counters). -/
noncomputable def deflGmresT (a : LSArgs 𝕜 E) (oa : OblArgsT 𝕜 E k) (U : Fin k → E) (ortho : Ortho) (p : SolverArgs E) :
    Tr (Outcome (St ℝ E (GmresSt 𝕜 E × List (Fin k → 𝕜)))) :=
  (mkLST a).bind fun
  | .error e => .pure (.raised e)
  | .ok s => (mkOblT s oa U).bind fun
    | .error e => .pure (.raised e)
    | .ok o => (o.initResT s p.x0).bind fun
      | .error e => .pure (.raised e)
      | .ok (MMlr0, Mlr0, r0) => (arnInitT Mlr0 MMlr0 r0).bind fun
        | .error e => .pure (.raised e)
        | .ok arn => runPostT (mkCfgT s p) ((deflGmresMethodT s o ortho p.maxiter).log fun st _ => o.newC s (st.arn.V st.arn.iter))
            (p.x0.getD 0) r0 (fun x => (gmresInit arn r0 x, [])) (o.correctT s)

/-- `DeflatedMinres(LinearSystem(...), U, ...)` (see `mkLS`, `mkObl`, `deflatedMinres`) (linsys.py 12-128, deflation.py 93-163, 266-273, with counters). -/
noncomputable def deflMinresT (a : LSArgs 𝕜 E) (oa : OblArgsT 𝕜 E k) (U : Fin k → E) (ortho : Ortho) (p : SolverArgs E) :
    Tr (Outcome (St ℝ E (MinresSt 𝕜 E × List (Fin k → 𝕜)))) :=
  (mkLST a).bind fun
  | .error e => .pure (.raised e)
  | .ok s => (mkOblT s oa U).bind fun
    | .error e => .pure (.raised e)
    | .ok o => (o.initResT s p.x0).bind fun
      | .error e => .pure (.raised e)
      | .ok (MMlr0, Mlr0, r0) => (arnInitT Mlr0 MMlr0 r0).bind fun
        | .error e => .pure (.raised e)
        | .ok arn => runPostT (mkCfgT s p) ((deflMinresMethodT s o ortho p.maxiter).log fun st _ => o.newC s (st.arn.V st.arn.iter))
            (p.x0.getD 0) r0 (fun x => (minresInit arn r0 x, [])) (o.correctT s)

/-- `DeflatedCg(LinearSystem(...), U, ...)` (see `mkLS`, `mkObl`, `deflatedCg`) (linsys.py 12-128, deflation.py 93-163, 236-263, with counters). -/
noncomputable def deflCgT (a : LSArgs 𝕜 E) (oa : OblArgsT 𝕜 E k) (U : Fin k → E) (store : Bool) (p : SolverArgs E) :
    Tr (Outcome (St ℝ E (CgSt 𝕜 E × List ((Fin k → 𝕜) × Option (Fin k → 𝕜))))) :=
  (mkLST a).bind fun
  | .error e => .pure (.raised e)
  | .ok s => (mkOblT s oa U).bind fun
    | .error e => .pure (.raised e)
    | .ok o => (o.initResT s p.x0).bind fun
      | .error e => .pure (.raised e)
      | .ok (MMlr0, Mlr0, r0) => (cgInitT store MMlr0 Mlr0 r0).bind fun init =>
        runPostT (mkCfgT s p) ((deflCgMethodT s o store p.maxiter).log (o.newCgC s))
          (p.x0.getD 0) r0 (fun x => (init x, [])) (o.correctT s)

end Krypy
