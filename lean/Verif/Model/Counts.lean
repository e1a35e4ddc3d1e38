import Verif.Model.Minres
import Verif.Model.Cg
import Verif.Model.Timings

/-!
# Operation counts of the undeflated solvers

A second copy of the solver models in which every application of an operator, every inner product and every vector update is
counted (`Tr`).  `Props/Counts` proves that forgetting the counters gives the models of `Model/LinearSystem`, `Model/Arnoldi`,
`Model/Driver`, `Model/Cg`, `Model/Minres` and `Model/Gmres`.

An `axpy` is a scaling and/or addition of vectors which the code carries out as one or more whole-array operations on one new
operand (`x + a*y`, `x - y`, `y / a`); the product `V[:, :k] * yy` in `Gmres._get_xk` (linsys.py 946) and copies are not counted.
Simplification: `M`, `Ml` and `Mr` are counted even if they are identity operators (for which `Arnoldi` skips `M`).
-/

namespace Krypy

/-- A value together with the number of operations spent on it (counting has no counterpart in the code, it is compared with `operations`, linsys.py 699-708, 865-874, 1009-1018). -/
abbrev Tr (α : Type*) := α × (Op → ℕ)

/-- A value without any operation (see `Tr`; no counterpart in the code). -/
def Tr.pure {α : Type*} (x : α) : Tr α := (x, 0)

/-- Sequential composition: the counts are added (see `Tr`; no counterpart in the code). -/
def Tr.bind {α β : Type*} (t : Tr α) (f : α → Tr β) : Tr β := ((f t.1).1, t.2 + (f t.1).2)

/-- One operation of kind `o` with result `x` (see `Tr`: one of the entries of the dictionaries of linsys.py 701-708, 867-874, 1011-1018). -/
def tick {α : Type*} (o : Op) (x : α) : Tr α := (x, Pi.single o 1)

section Exact
variable {𝕜 E : Type*} [RCLike 𝕜] [AddCommGroup E] [Module 𝕜 E]

/-- linsys.py 75-127 (see `mkLS`): one application each of `Ml` and `M` to `b`, one norm. -/
noncomputable def mkLST (a : LSArgs 𝕜 E) : Tr (Except Err (LS 𝕜 E)) :=
  let normal : Bool := if a.selfAdjoint then true else a.normal.getD false
  if a.selfAdjoint && !normal then .pure (.error .argumentError)
  else
    (tick .Ml (a.Ml a.b)).bind fun Mlb =>
    (tick .M (a.M Mlb)).bind fun MMlb =>
    (tick .ipB (a.ip Mlb MMlb)).bind fun z => .pure <|
      match npNorm z with
      | .error e => .error e
      | .ok nb => .ok ⟨a.A, a.b, a.M, a.Ml, a.Mr, a.ip, a.Ml.comp (a.A.comp a.Mr), normal, a.selfAdjoint,
          a.positiveDefinite, Mlb, MMlb, nb⟩

/-- linsys.py 130-161 (see `LS.getResidualNorm`): nothing is computed for `z=None`. -/
noncomputable def LS.residualT (s : LS 𝕜 E) : Option E → Tr (Except Err (E × E × ℝ))
  | none => .pure (.ok (s.MMlb, s.Mlb, s.MMlbNorm))
  | some z =>
    (tick .A (s.A z)).bind fun Az =>
    (tick .axpy (s.b - Az)).bind fun r =>
    (tick .Ml (s.Ml r)).bind fun Mlr =>
    (tick .M (s.M Mlr)).bind fun MMlr =>
    (tick .ipB (s.ip Mlr MMlr)).bind fun z => .pure <|
      match npNorm z with
      | .error e => .error e
      | .ok nr => .ok (MMlr, Mlr, nr)

/-- The operator `MlAMr = Ml*A*Mr` (linsys.py 117), applied factor by factor (utils.py 1496-1497). -/
def LS.opT (s : LS 𝕜 E) (x : E) : Tr E :=
  (tick .Mr (s.Mr x)).bind fun y => (tick .A (s.A y)).bind fun z => tick .Ml (s.Ml z)

/-- utils.py 891-952 (see `arnInit`) as called by the solvers, with `Mv` and `Mv_norm` given: two divisions. -/
noncomputable def arnInitT (v w : E) (r : ℝ) : Tr (Except Err (Arn 𝕜 E)) :=
  if 0 < r then
    (tick .axpy (((r : 𝕜)⁻¹) • w)).bind fun V0 =>
    (tick .axpy (((r : 𝕜)⁻¹) • v)).bind fun P0 =>
      .pure (.ok ⟨0, Function.update 0 0 V0, Function.update 0 0 P0, fun _ _ => 0, false, r⟩)
  else .pure (.ok ⟨0, 0, 0, fun _ _ => 0, true, r⟩)

/-- utils.py 1015-1029 (see `orthoStep`): one inner product, one update. -/
noncomputable def orthoStepT (c : ArnCfg 𝕜 E) (V P : ℕ → E) (st : E × (ℕ → 𝕜)) (j : ℕ) : Tr (E × (ℕ → 𝕜)) :=
  (tick .ipB (c.ip (V j) st.1)).bind fun alpha =>
    let alpha := if c.ortho = .lanczos then ((RCLike.re alpha : ℝ) : 𝕜) else alpha
    (tick .axpy (st.1 - alpha • P j)).bind fun Av => .pure (Av, Function.update st.2 j (st.2 j + alpha))

/-- A loop over a list (the `for` loops of utils.py 1012-1029, linsys.py 985-986). -/
def foldT {α β : Type*} (f : β → α → Tr β) : List α → β → Tr β
  | [], b => .pure b
  | a :: l, b => (f b a).bind (foldT f l)

/-- utils.py 1014-1029 (see `orthoPass`). -/
noncomputable def orthoPassT (c : ArnCfg 𝕜 E) (V P : ℕ → E) (start k : ℕ) (st : E × (ℕ → 𝕜)) : Tr (E × (ℕ → 𝕜)) :=
  foldT (orthoStepT c V P) (List.range' start (k + 1 - start)) st

/-- utils.py 1012 (see `orthoPasses`). -/
noncomputable def orthoPassesT (c : ArnCfg 𝕜 E) (V P : ℕ → E) (start k : ℕ) : ℕ → E × (ℕ → 𝕜) → Tr (E × (ℕ → 𝕜))
  | 0, st => orthoPassT c V P start k st
  | n + 1, st => (orthoPassT c V P start k st).bind (orthoPassesT c V P start k n)

/-- utils.py 968, 997-1029 (see `orthogonalise`). -/
noncomputable def orthogonaliseT (c : ArnCfg 𝕜 E) (op : E → Tr E) (s : Arn 𝕜 E) : Tr (E × (ℕ → 𝕜)) :=
  let k := s.iter
  (op (s.V k)).bind fun Av =>
    let h : ℕ → 𝕜 := fun i => s.H i k
    if c.ortho = .lanczos then
      (if 0 < k then
          (tick .axpy (Av - s.H k (k - 1) • s.P (k - 1))).bind fun Av' =>
            .pure (Av', Function.update h (k - 1) (s.H k (k - 1)))
        else Tr.pure (Av, h)).bind
      fun st => orthoPassesT c s.V s.P k k c.ortho.reorthos st
    else orthoPassesT c s.V s.P 0 k c.ortho.reorthos (Av, h)

/-- utils.py 954-1048 (see `arnAdvance`): after the orthogonalisation one application of `M`, one norm and two divisions. -/
noncomputable def arnAdvanceT (c : ArnCfg 𝕜 E) (op : E → Tr E) (s : Arn 𝕜 E) : Tr (Except Err (Arn 𝕜 E)) :=
  if c.maxiter ≤ s.iter then .pure (.error .argumentError)
  else if s.invariant then .pure (.error .argumentError)
  else
    let k := s.iter
    (orthogonaliseT c op s).bind fun Avh =>
    (tick .M (c.Mop Avh.1)).bind fun MAv =>
    (tick .ipB (c.ip Avh.1 MAv)).bind fun z =>
    match npNorm z with
    | .error e => .pure (.error e)
    | .ok r =>
      let H := setCol s.H k (Function.update Avh.2 (k + 1) (r : 𝕜))
      let nH := specNorm H (k + 2) (k + 1)
      if nH = 0 then .pure (.error .nonFinite)
      else if r / nH ≤ 1e-14 then .pure (.ok ⟨k + 1, s.V, s.P, H, true, s.vnorm⟩)
      else
        (tick .axpy (((r : 𝕜)⁻¹) • MAv)).bind fun v =>
        (tick .axpy (((r : 𝕜)⁻¹) • Avh.1)).bind fun p =>
          .pure (.ok ⟨k + 1, Function.update s.V (k + 1) v, Function.update s.P (k + 1) p, H, false, s.vnorm⟩)

/-- linsys.py 626-628 (see `cgDir`). -/
noncomputable def cgDirT (s : CgSt 𝕜 E) : Tr (Except Err E) :=
  if 0 < s.k then
    if s.rho (s.k - 1) = 0 then .pure (.error .nonFinite)
    else (tick .axpy (s.MMlrk + ((s.rho s.k / s.rho (s.k - 1) : ℝ) : 𝕜) • s.p)).bind fun p => .pure (.ok p)
  else .pure (.ok s.p)

/-- linsys.py 665-668 (see `cgCol`). -/
noncomputable def cgColT (k : ℕ) (x : E) (nr : ℝ) : Tr (Option E) := tick .axpy (cgCol (𝕜 := 𝕜) k x nr)

/-- linsys.py 624-671 (see `cgStep`). -/
noncomputable def cgStepT (ip : E → E → 𝕜) (M : E →ₗ[𝕜] E) (op : E → Tr E) (store : Bool) (s : CgSt 𝕜 E) :
    Tr (Except Err (CgSt 𝕜 E × ℝ)) :=
  let k := s.k
  (cgDirT s).bind fun
  | .error e => .pure (.error e)
  | .ok p =>
    (op p).bind fun Ap =>
    (tick .ipB (ip p Ap)).bind fun d =>
    if d = 0 then .pure (.error .nonFinite)
    else
      let alphaC : 𝕜 := (s.rho k : 𝕜) / d
      let warn := if 1e-12 < |RCLike.im alphaC| then s.warn + 1 else s.warn
      let alpha : ℝ := RCLike.re alphaC
      if store && decide (alpha = 0) then .pure (.error .nonFinite)
      else
        (tick .axpy (s.yk + (alpha : 𝕜) • p)).bind fun yk =>
        (tick .axpy (s.Mlrk - (alpha : 𝕜) • Ap)).bind fun Mlrk =>
        (tick .M (M Mlrk)).bind fun MMlrk =>
        (tick .ipB (ip Mlrk MMlrk)).bind fun z =>
        match npNorm z with
        | .error e => .pure (.error e)
        | .ok nr =>
          (if store then (cgColT (𝕜 := 𝕜) k MMlrk nr).bind fun v => Tr.pure (Function.update s.V (k + 1) v)
            else Tr.pure s.V).bind fun V =>
          (if store then (cgColT (𝕜 := 𝕜) k Mlrk nr).bind fun v => Tr.pure (Function.update s.P (k + 1) v)
            else Tr.pure s.P).bind fun P =>
          .pure (.ok (⟨k + 1, s.x0, yk, Mlrk, MMlrk, p, Function.update s.rho (k + 1) (nr ^ 2),
            Function.update s.al k alpha, V, P, if store then cgH s alpha (nr ^ 2) else s.H, warn,
            Function.update s.ys (k + 1) yk, Function.update s.rs (k + 1) Mlrk, Function.update s.ps k p⟩, nr))

/-- linsys.py 976-993 (see `gmresStep`): only the Arnoldi step uses long vectors. -/
noncomputable def gmresStepT (adv : Arn 𝕜 E → Tr (Except Err (Arn 𝕜 E))) (s : GmresSt 𝕜 E) :
    Tr (Except Err (GmresSt 𝕜 E × ℝ)) :=
  (adv s.arn).bind fun a => .pure (gmresStep (fun _ => a) s)

/-- linsys.py 941-949 (see `gmresXk`). -/
noncomputable def gmresXkT (Mr : E →ₗ[𝕜] E) (s : GmresSt 𝕜 E) : Tr (Except Err E) :=
  let k := s.arn.iter
  if 0 < k then
    match solveUpper (Matrix.of fun i j : Fin k => s.R i j) (fun i : Fin k => s.y i) with
    | .error e => .pure (.error e)
    | .ok yy =>
      (tick .Mr (Mr (lincomb (fun i : Fin k => s.arn.V i) yy))).bind fun z =>
      (tick .axpy (s.x0 + z)).bind fun x => .pure (.ok x)
  else .pure (.ok s.x0)

/-- linsys.py 423-428 with `yk` given, as in `Cg` and `Minres`. -/
def plainXkT (Mr : E →ₗ[𝕜] E) (x0 yk : E) : Tr (Except Err E) :=
  (tick .Mr (Mr yk)).bind fun z => (tick .axpy (x0 + z)).bind fun x => .pure (.ok x)

/-- linsys.py 821-848 (see `minresStep`): three updates for `z`, one for `yk`. -/
noncomputable def minresStepT (adv : Arn 𝕜 E → Tr (Except Err (Arn 𝕜 E))) (maxiter : ℕ) (s : MinresSt 𝕜 E) :
    Tr (Except Err (MinresSt 𝕜 E × ℝ)) :=
  let k := s.arn.iter
  (adv s.arn).bind fun
  | .error e => .pure (.error e)
  | .ok a =>
    let r01 := optApply s.G1 (0, RCLike.re (a.H (if k = 0 then maxiter else k - 1) k))
    let r12 := optApply s.G2 (r01.2, RCLike.re (a.H k k))
    let g := mkGivens r12.2 (RCLike.re (a.H (k + 1) k))
    let y := g.apply (s.y, 0)
    if g.r = 0 then .pure (.error .nonFinite)
    else
      (tick .axpy (a.V k - (r01.1 : 𝕜) • s.W0)).bind fun z0 =>
      (tick .axpy (z0 - (r12.1 : 𝕜) • s.W1)).bind fun z1 =>
      (tick .axpy (((g.r : 𝕜)⁻¹) • z1)).bind fun z =>
      (tick .axpy (s.yk + (y.1 : 𝕜) • z)).bind fun yk =>
        .pure (.ok (⟨a, s.x0, s.G2, some g, s.W1, z, y.2, yk⟩, |y.2|))

end Exact

section Driver
variable {F X S : Type*} [LE F] [LT F] [DecidableLE F] [DecidableLT F] [Div F]

/-- See `Method` (linsys.py 593-689, 791-853, 951-997, with counters). -/
structure MethodT (F X S : Type*) where
  more : S → Bool
  step : S → Tr (Except Err (S × F))
  getXk : S → Tr (Except Err X)
  k : S → Nat
  post : S → Option F → S
  countAfter : Bool

/-- Forget the counters of a method (see `MethodT`; no counterpart in the code). -/
def MethodT.erase (m : MethodT F X S) : Method F X S :=
  ⟨m.more, fun s => (m.step s).1, fun s => (m.getXk s).1, m.k, m.post, m.countAfter⟩

/-- See `Cfg` (linsys.py 342-405, with counters). -/
structure CfgT (F X : Type*) where
  tol : F
  maxiter : Nat
  explicitResidual : Bool
  MMlbNorm : F
  resNorm : X → Tr (Except Err F)
  errNorm : Option (X → Tr (Except Err F))

/-- Forget the counters of a configuration (see `CfgT`; no counterpart in the code). -/
def CfgT.erase (c : CfgT F X) : Cfg F X :=
  ⟨c.tol, c.maxiter, c.explicitResidual, c.MMlbNorm, fun x => (c.resNorm x).1,
    c.errNorm.map fun f x => (f x).1⟩

/-- linsys.py 435-443 (see `withErr`). -/
def withErrT (cfg : CfgT F X) (getXk : Tr (Except Err X)) (st : St F X S) : Tr (Except Err (St F X S)) :=
  match cfg.errNorm with
  | none => .pure (.ok { st with xk := none })
  | some en => getXk.bind fun
    | .error e => .pure (.error e)
    | .ok x => (en x).bind fun
      | .error e => .pure (.error e)
      | .ok e => .pure (.ok { st with xk := some x, errnorms := st.errnorms.map (· ++ [e]) })

/-- linsys.py 445-493 (see `finalizeIteration`): what happens after an explicit evaluation of the residual norm. -/
def afterExplicit (cfg : CfgT F X) (resnorm : F) (st : St F X S) (x : X) (rkn : F) : Res3 (St F X S × Option F) (St F X S) :=
  let st := { st with xk := some x, resnorms := st.resnorms ++ [rkn / cfg.MMlbNorm] }
  if cfg.tol < rkn / cfg.MMlbNorm then
    if st.iter + 1 = cfg.maxiter then .convergence st
    else if ¬ cfg.explicitResidual ∧ resnorm / cfg.MMlbNorm ≤ cfg.tol then
      .ok ({ st with warnings := st.warnings + 1 }, some rkn)
    else .ok (st, some rkn)
  else .ok (st, some rkn)

/-- linsys.py 430-493 (see `finalizeIteration`). -/
def finalizeT (cfg : CfgT F X) (getXk : Tr (Except Err X)) (resnorm : F) (st : St F X S) :
    Tr (Res3 (St F X S × Option F) (St F X S)) :=
  (withErrT cfg getXk st).bind fun
  | .error e => .pure (.raised e)
  | .ok st =>
    if wantExplicit cfg.erase st resnorm then
      (match st.xk with | some x => Tr.pure (Except.ok x) | none => getXk).bind fun
      | .error e => .pure (.raised e)
      | .ok x => (cfg.resNorm x).bind fun
        | .error e => .pure (.raised e)
        | .ok rkn => .pure (afterExplicit cfg resnorm st x rkn)
    else .pure (.ok ({ st with resnorms := st.resnorms ++ [resnorm / cfg.MMlbNorm] }, none))

/-- One pass through the loop body (see `body`) (linsys.py 624-685, 821-850, 976-993, with counters). -/
def bodyT (cfg : CfgT F X) (m : MethodT F X S) (st : St F X S) : Tr (Res3 (St F X S) (St F X S)) :=
  let st := { st with iter := m.k st.s }
  (m.step st.s).bind fun
  | .error e => .pure (.raised e)
  | .ok (s', r) =>
    (finalizeT cfg (m.getXk s') r { st with s := s' }).bind fun
    | .raised e => .pure (.raised e)
    | .convergence st => .pure (.convergence st)
    | .ok (st, rkn) =>
      .pure (.ok { st with s := m.post st.s rkn, iter := if m.countAfter then st.iter + 1 else st.iter })

/-- linsys.py 687-689, 851-853, 995-997 (see `finish`). -/
def finishT (m : MethodT F X S) (st : St F X S) : Tr (Outcome (St F X S)) :=
  match st.xk with
  | some _ => .pure (.returned st)
  | none => (m.getXk st.s).bind fun
    | .error e => .pure (.raised e)
    | .ok x => .pure (.returned { st with xk := some x })

/-- The `while` loop (see `loop`) (linsys.py 623, 816-820, 971-975, with counters). -/
def loopT (cfg : CfgT F X) (m : MethodT F X S) : Nat → St F X S → Tr (Outcome (St F X S))
  | fuel, st =>
    if loopGuard cfg.erase m.erase st then
      match fuel with
      | 0 => .pure .outOfFuel
      | fuel + 1 =>
        (bodyT cfg m st).bind fun
        | .raised e => .pure (.raised e)
        | .convergence st => .pure (.convergence st)
        | .ok st => loopT cfg m fuel st
    else finishT m st

/-- linsys.py 391-401 (see `initErr`); `_get_xk(None)` costs nothing. -/
def initErrT (cfg : CfgT F X) (x0 : X) : Tr (Except Err (Option (List F))) :=
  match cfg.errNorm with
  | none => .pure (.ok none)
  | some en => (en x0).bind fun
    | .error e => .pure (.error e)
    | .ok e => .pure (.ok (some [e]))

/-- linsys.py 342-405 (see `run`). -/
def runT [Zero F] [BEq F] [Zero X] (cfg : CfgT F X) (m : MethodT F X S) (x0 : X) (r0norm : F) (mkS : X → S) :
    Tr (Outcome (St F X S)) :=
  let bzero := cfg.MMlbNorm == 0
  let x0 := if bzero then 0 else x0
  let xk : Option X := if bzero then some 0 else none
  let resnorms : List F := if bzero then [0] else [r0norm / cfg.MMlbNorm]
  (initErrT cfg x0).bind fun
  | .error e => .pure (.raised e)
  | .ok errnorms =>
    loopT cfg m cfg.maxiter
      { s := mkS x0, iter := 0, xk := xk, resnorms := resnorms, errnorms := errnorms, warnings := 0 }

end Driver

section Solvers
variable {𝕜 E : Type*} [RCLike 𝕜] [AddCommGroup E] [Module 𝕜 E]

/-- See `mkCfg` (linsys.py 342-405, with counters). -/
noncomputable def mkCfgT (s : LS 𝕜 E) (a : SolverArgs E) : CfgT ℝ E where
  tol := a.tol
  maxiter := a.maxiter
  explicitResidual := a.explicitResidual
  MMlbNorm := s.MMlbNorm
  resNorm := fun x => (s.residualT (some x)).bind fun
    | .error e => .pure (.error e)
    | .ok (_, _, r) => .pure (.ok r)
  errNorm := a.exact.map fun xs x =>
    (tick .axpy (xs - x)).bind fun d => (tick .ipB (s.ip d d)).bind fun z => .pure (npNorm z)

/-- See `cgMethod` (linsys.py 593-689, with counters). -/
noncomputable def cgMethodT (s : LS 𝕜 E) (store : Bool) (maxiter : ℕ) : MethodT ℝ E (CgSt 𝕜 E) where
  more t := decide (t.k < maxiter)
  step := cgStepT s.ip s.M s.opT store
  getXk t := plainXkT s.Mr t.x0 t.yk
  k t := t.k
  post := cgPost
  countAfter := true

/-- See `gmresMethod` (linsys.py 941-997, with counters). -/
noncomputable def gmresMethodT (s : LS 𝕜 E) (ortho : Ortho) (maxiter : ℕ) : MethodT ℝ E (GmresSt 𝕜 E) where
  more t := decide (t.arn.iter < maxiter) && !t.arn.invariant
  step := gmresStepT (arnAdvanceT (s.arnCfg s.hooks maxiter ortho) s.opT)
  getXk := gmresXkT s.Mr
  k t := t.arn.iter
  post t _ := t
  countAfter := false

/-- See `minresMethod` (linsys.py 791-853, with counters). -/
noncomputable def minresMethodT (s : LS 𝕜 E) (ortho : Ortho) (maxiter : ℕ) : MethodT ℝ E (MinresSt 𝕜 E) where
  more t := decide (t.arn.iter < maxiter) && !t.arn.invariant
  step := minresStepT (arnAdvanceT (s.arnCfg s.hooks maxiter ortho) s.opT) maxiter
  getXk t := plainXkT s.Mr t.x0 t.yk
  k t := t.arn.iter
  post t _ := t
  countAfter := false

/-- The initial Lanczos vectors of `Cg` (linsys.py 608-616): divisions only with `store_arnoldi`. -/
noncomputable def cgInitT (store : Bool) (MMlr0 Mlr0 : E) (r0 : ℝ) : Tr (E → CgSt 𝕜 E) :=
  if store && decide (0 < r0) then
    (tick .axpy ()).bind fun _ => (tick .axpy ()).bind fun _ => .pure (cgInit MMlr0 Mlr0 r0)
  else .pure (cgInit MMlr0 Mlr0 r0)

/-- `Cg(LinearSystem(...), ...)` (see `mkLS`, `cg`) (linsys.py 12-128, 561-689, with counters). -/
noncomputable def cgT (a : LSArgs 𝕜 E) (store : Bool) (p : SolverArgs E) : Tr (Outcome (St ℝ E (CgSt 𝕜 E))) :=
  (mkLST a).bind fun
  | .error e => .pure (.raised e)
  | .ok s => (s.residualT p.x0).bind fun
    | .error e => .pure (.raised e)
    | .ok (MMlr0, Mlr0, r0) => (cgInitT store MMlr0 Mlr0 r0).bind fun init =>
      runT (mkCfgT s p) (cgMethodT s store p.maxiter) (p.x0.getD 0) r0 init

/-- `Gmres(LinearSystem(...), ...)` (see `mkLS`, `gmres`) (linsys.py 12-128, 912-997, with counters). -/
noncomputable def gmresT (a : LSArgs 𝕜 E) (ortho : Ortho) (p : SolverArgs E) : Tr (Outcome (St ℝ E (GmresSt 𝕜 E))) :=
  (mkLST a).bind fun
  | .error e => .pure (.raised e)
  | .ok s => (s.residualT p.x0).bind fun
    | .error e => .pure (.raised e)
    | .ok (MMlr0, Mlr0, r0) => (arnInitT Mlr0 MMlr0 r0).bind fun
      | .error e => .pure (.raised e)
      | .ok arn => runT (mkCfgT s p) (gmresMethodT s ortho p.maxiter) (p.x0.getD 0) r0 (gmresInit arn r0)

/-- `Minres(LinearSystem(...), ...)` (see `mkLS`, `minres`) (linsys.py 12-128, 757-853, with counters). -/
noncomputable def minresT (a : LSArgs 𝕜 E) (ortho : Ortho) (p : SolverArgs E) : Tr (Outcome (St ℝ E (MinresSt 𝕜 E))) :=
  (mkLST a).bind fun
  | .error e => .pure (.raised e)
  | .ok s => (s.residualT p.x0).bind fun
    | .error e => .pure (.raised e)
    | .ok (MMlr0, Mlr0, r0) => (arnInitT Mlr0 MMlr0 r0).bind fun
      | .error e => .pure (.raised e)
      | .ok arn => runT (mkCfgT s p) (minresMethodT s ortho p.maxiter) (p.x0.getD 0) r0 (minresInit arn r0)

end Solvers
end Krypy
