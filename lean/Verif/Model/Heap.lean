import Verif.Model.Minres
import Verif.Model.Cg

/-!
# Arrays as objects: aliasing and in-place updates in the solvers

The other models treat arrays as values.  In numpy an array is an object: `y = x` makes two names for the same
array, `x += z` and `x[...] = z` change the object, and an operator may return the very array it was given
(`IdentityLinearOperator._dot`, utils.py 1565).  Here the memory is explicit: an array is an address.

* `x + y`, `alpha * x`, `x / r`, `numpy.zeros`, `x.copy()`, `V[:, [k]]` (indexing with a list copies) and
  `numpy.column_stack` make a new array; `x += y`, `x -= y` and `V[:, [k]] = x` write to an existing one.
* `V` and `P` are arrays of columns: column `j` has the address `base + j`.
* Matrices of coefficients (`H`, `R`, `y`, `rhos`, the Givens rotations) stay values: they are numbers which are
  never shared with the caller.

Not modelled: views of parts of arrays (`Av[j:]` in the Householder variant), garbage collection, concurrent
modification by the caller during a call.
-/

namespace Krypy
variable {𝕜 E : Type*} [RCLike 𝕜] [AddCommGroup E] [Module 𝕜 E]

/-- The memory: contents of the arrays, and the first free address (no counterpart in the code: numpy arrays are references). -/
structure Heap (E : Type*) where
  mem : ℕ → E
  next : ℕ

/-- A new array with contents `x` (the result of any array expression, e.g. linsys.py 363, 597). -/
def Heap.alloc (h : Heap E) (x : E) : Heap E × ℕ := (⟨Function.update h.mem h.next x, h.next + 1⟩, h.next)

/-- Overwrite the array at address `a` (in-place operations: utils.py 703, 1027-1029, linsys.py 655, 658). -/
def Heap.write (h : Heap E) (a : ℕ) (x : E) : Heap E := ⟨Function.update h.mem a x, h.next⟩

/-- `numpy.zeros((N, n))`: `n` new columns (utils.py 902, linsys.py 612). -/
def Heap.block (h : Heap E) (n : ℕ) : Heap E × ℕ :=
  (⟨fun i => if h.next ≤ i ∧ i < h.next + n then 0 else h.mem i, h.next + n⟩, h.next)

/-- An operator object: `A * x` takes the address of `x` and returns the address of the result (utils.py 1365-1636; `IdentityLinearOperator` returns its argument, 1565-1566). -/
abbrev OpObj (E : Type*) := Heap E → ℕ → Heap E × ℕ

/-- `IdentityLinearOperator` (utils.py 1565-1566): returns its argument. -/
def idObj : OpObj E := fun h a => (h, a)

/-- `MatrixLinearOperator` (utils.py 1593-1594), `ZeroLinearOperator` (1578-1579): a new array. -/
def matObj (f : E → E) : OpObj E := fun h a => h.alloc (f (h.mem a))

/-- `_SumLinearOperator` (utils.py 1479-1480). -/
def sumObj (A B : OpObj E) : OpObj E := fun h a =>
  let r := A h a
  let t := B r.1 a
  t.1.alloc (t.1.mem r.2 + t.1.mem t.2)

/-- `_ProductLinearOperator` (utils.py 1497-1498). -/
def prodObj (A B : OpObj E) : OpObj E := fun h a =>
  let r := B h a
  A r.1 r.2

/-- `_ScaledLinearOperator` (utils.py 1515-1516). -/
def scaledObj (A : OpObj E) (c : 𝕜) : OpObj E := fun h a =>
  let r := A h a
  r.1.alloc (c • r.1.mem r.2)

/-- The loop of `_PowerLinearOperator._power` (utils.py 1537-1538). -/
def powLoop (A : OpObj E) : ℕ → OpObj E
  | 0, h, a => (h, a)
  | n + 1, h, a =>
    let r := A h a
    powLoop A n r.1 r.2

/-- `_PowerLinearOperator` (utils.py 1535-1539): starts with a copy. -/
def powObj (A : OpObj E) (n : ℕ) : OpObj E := fun h a =>
  let r := h.alloc (h.mem a)
  powLoop A n r.1 r.2

/-- A linear system (linsys.py 75-127).  `M = none`: the preconditioner is an `IdentityLinearOperator`. -/
structure HSys (𝕜 E : Type*) where
  A : OpObj E
  M : Option (OpObj E)
  Ml : OpObj E
  Mr : OpObj E
  ip : E → E → 𝕜
  b : ℕ
  Mlb : ℕ
  MMlb : ℕ
  nb : ℝ

/-- `linear_system.M` (linsys.py 80). -/
def HSys.Mo (s : HSys 𝕜 E) : OpObj E := s.M.getD idObj

/-- linsys.py 115: `self.MlAMr = self.Ml * self.A * self.Mr`. -/
def HSys.op (s : HSys 𝕜 E) : OpObj E := prodObj (prodObj s.Ml s.A) s.Mr

/-- linsys.py 119-121: the construction of a system from the caller's arrays and operators. -/
noncomputable def hMkSys (h : Heap E) (A : OpObj E) (M : Option (OpObj E)) (Ml Mr : OpObj E) (ip : E → E → 𝕜)
    (b : ℕ) : Heap E × Except Err (HSys 𝕜 E) :=
  let r := Ml h b
  let t := (M.getD idObj) r.1 r.2
  match npNorm (ip (t.1.mem r.2) (t.1.mem t.2)) with
  | .error e => (t.1, .error e)
  | .ok nb => (t.1, .ok ⟨A, M, Ml, Mr, ip, b, r.2, t.2, nb⟩)

/-- linsys.py 149-161 with `compute_norm=True`: addresses of `MMlr` and `Mlr`, and the norm.  For `z is None` the
stored arrays themselves are returned (151-152). -/
noncomputable def hResidual (s : HSys 𝕜 E) (h : Heap E) : Option ℕ → Heap E × Except Err (ℕ × ℕ × ℝ)
  | none => (h, .ok (s.MMlb, s.Mlb, s.nb))
  | some z =>
    let az := s.A h z
    let r := az.1.alloc (az.1.mem s.b - az.1.mem az.2)
    let l := s.Ml r.1 r.2
    let m := s.Mo l.1 l.2
    match npNorm (s.ip (m.1.mem l.2) (m.1.mem m.2)) with
    | .error e => (m.1, .error e)
    | .ok nr => (m.1, .ok (m.2, l.2, nr))

/-! ## The driver (linsys.py 277-493) with memory -/

/-- Keyword arguments of the solvers (linsys.py 280-294), arrays by address. -/
structure HArgs where
  x0 : Option ℕ
  tol : ℝ
  maxiter : ℕ
  explicitResidual : Bool
  exact : Option ℕ

/-- The parts of `_solve` which are specific to a method, cf. `Method` (linsys.py 593-689, 791-853, 941-997). -/
structure HMethod (E S : Type*) where
  more : S → Bool
  step : Heap E → S → Heap E × Except Err (S × ℝ)
  getXk : Heap E → S → Heap E × Except Err ℕ
  k : S → ℕ
  post : S → Option ℝ → S
  countAfter : Bool

/-- Attributes of the solver object and the memory; `xk` is the address of the approximate solution (linsys.py 342-405, 430-493). -/
structure HSt (E S : Type*) where
  h : Heap E
  s : S
  iter : ℕ
  xk : Option ℕ
  resnorms : List ℝ
  errnorms : Option (List ℝ)
  warnings : ℕ

/-- Result of `_finalize_iteration` (linsys.py 430-493). -/
inductive HRes
  | ok (r : Option ℝ)
  | convergence
  | raised (e : Err)

/-- How a call ends (linsys.py 404-405, 466-478). -/
inductive HEnd
  | returned
  | convergence
  | raised (e : Err)
  | outOfFuel

section
variable {S : Type*}

/-- linsys.py 437-442 (and 396-401): `utils.norm(exact_solution - xk)`. -/
noncomputable def hErr (ip : E → E → 𝕜) (exact : ℕ) (h : Heap E) (x : ℕ) : Heap E × Except Err ℝ :=
  let d := h.alloc (h.mem exact - h.mem x)
  (d.1, npNorm (ip (d.1.mem d.2) (d.1.mem d.2)))

/-- linsys.py 435-443. -/
noncomputable def hWithErr (sys : HSys 𝕜 E) (a : HArgs) (m : HMethod E S) (st : HSt E S) :
    HSt E S × Except Err Unit :=
  match a.exact with
  | none => ({ st with xk := none }, .ok ())
  | some ex => match m.getXk st.h st.s with
    | (h, .error e) => ({ st with h := h, xk := none }, .error e)
    | (h, .ok x) => match hErr sys.ip ex h x with
      | (h, .error e) => ({ st with h := h, xk := some x }, .error e)
      | (h, .ok e) => ({ st with h := h, xk := some x, errnorms := st.errnorms.map (· ++ [e]) }, .ok ())

/-- linsys.py 455-457: `if self.xk is None: self.xk = self._get_xk(yk)`. -/
def hNeedXk (m : HMethod E S) (st : HSt E S) : HSt E S × Except Err ℕ :=
  match st.xk with
  | some x => (st, .ok x)
  | none => match m.getXk st.h st.s with
    | (h, .error e) => ({ st with h := h }, .error e)
    | (h, .ok x) => ({ st with h := h, xk := some x }, .ok x)

/-- linsys.py 430-493: `_finalize_iteration(yk, resnorm)`. -/
noncomputable def hFinalize (sys : HSys 𝕜 E) (a : HArgs) (m : HMethod E S) (resnorm : ℝ) (st : HSt E S) :
    HSt E S × HRes :=
  match hWithErr sys a m st with
  | (st, .error e) => (st, .raised e)
  | (st, .ok ()) =>
    if (a.explicitResidual || decide (resnorm / sys.nb ≤ a.tol) || decide (st.iter + 1 = a.maxiter)) = true then
      match hNeedXk m st with
      | (st, .error e) => (st, .raised e)
      | (st, .ok x) => match hResidual sys st.h (some x) with
        | (h, .error e) => ({ st with h := h }, .raised e)
        | (h, .ok (_, _, rkn)) =>
          let st := { st with h := h, resnorms := st.resnorms ++ [rkn / sys.nb] }
          if a.tol < rkn / sys.nb then
            if st.iter + 1 = a.maxiter then (st, .convergence)
            else if ¬ a.explicitResidual ∧ resnorm / sys.nb ≤ a.tol then
              ({ st with warnings := st.warnings + 1 }, .ok (some rkn))
            else (st, .ok (some rkn))
          else (st, .ok (some rkn))
    else ({ st with resnorms := st.resnorms ++ [resnorm / sys.nb] }, .ok none)

/-- One pass through the loop (linsys.py 624-685, 821-850, 976-993). -/
noncomputable def hBody (sys : HSys 𝕜 E) (a : HArgs) (m : HMethod E S) (st : HSt E S) : HSt E S × HRes :=
  let st := { st with iter := m.k st.s }
  match m.step st.h st.s with
  | (h, .error e) => ({ st with h := h }, .raised e)
  | (h, .ok (s, r)) => match hFinalize sys a m r { st with h := h, s := s } with
    | (st, .raised e) => (st, .raised e)
    | (st, .convergence) => (st, .convergence)
    | (st, .ok rkn) =>
      ({ st with s := m.post st.s rkn, iter := if m.countAfter then st.iter + 1 else st.iter }, .ok none)

/-- linsys.py 687-689, 851-853, 995-997. -/
def hFinish (m : HMethod E S) (st : HSt E S) : HSt E S × HEnd :=
  match hNeedXk m st with
  | (st, .error e) => (st, .raised e)
  | (st, .ok _) => (st, .returned)

/-- The `while` loop (linsys.py 623, 816-820, 971-975). -/
noncomputable def hLoop (sys : HSys 𝕜 E) (a : HArgs) (m : HMethod E S) : ℕ → HSt E S → HSt E S × HEnd
  | fuel, st =>
    if ((st.resnorms.getLast?.any fun r => decide (a.tol < r)) && m.more st.s) = true then
      match fuel with
      | 0 => (st, .outOfFuel)
      | fuel + 1 => match hBody sys a m st with
        | (st, .raised e) => (st, .raised e)
        | (st, .convergence) => (st, .convergence)
        | (st, .ok _) => hLoop sys a m fuel st
    else hFinish m st

/-- linsys.py 354-362, 382-389: the initial guess: a new zero array for `None` and (in a second step) for
`b = 0`; otherwise the array of the caller. -/
noncomputable def hGuess (sys : HSys 𝕜 E) (a : HArgs) (h : Heap E) : Heap E × ℕ :=
  let r := match a.x0 with
    | none => h.alloc 0
    | some x => (h, x)
  if sys.nb = 0 then r.1.alloc 0 else r

/-- linsys.py 391-401: the initial error norm; `_get_xk(None)` is the array `x0` itself. -/
noncomputable def hInitErr (sys : HSys 𝕜 E) (a : HArgs) (x0 : ℕ) (h : Heap E) :
    Heap E × Except Err (Option (List ℝ)) :=
  match a.exact with
  | none => (h, .ok none)
  | some ex => match hErr sys.ip ex h x0 with
    | (h, .error e) => (h, .error e)
    | (h, .ok e) => (h, .ok (some [e]))

/-- linsys.py 382-405: from the initial guess at address `x0` to the end of `_solve`; `init` is the part of `_solve`
before the loop. -/
noncomputable def hRun (sys : HSys 𝕜 E) (a : HArgs) (m : HMethod E S) (x0 : ℕ) (r0 : ℝ)
    (init : Heap E → Heap E × Except Err S) (h : Heap E) : Heap E × Except Err (HSt E S × HEnd) :=
  let xk : Option ℕ := if sys.nb = 0 then some x0 else none
  let resnorms : List ℝ := if sys.nb = 0 then [0] else [r0 / sys.nb]
  match hInitErr sys a x0 h with
  | (h, .error e) => (h, .error e)
  | (h, .ok errnorms) => match init h with
    | (h, .error e) => (h, .error e)
    | (h, .ok s) =>
      let r := hLoop sys a m a.maxiter ⟨h, s, 0, xk, resnorms, errnorms, 0⟩
      (r.1.h, .ok r)

end

/-! ## `Cg` -/

/-- The state of `Cg._solve` (linsys.py 593-620), arrays by address; `ys`, `rs`, `ps` are the recorded values of
`Model/Cg` (written, never read). -/
structure HCgSt (E : Type*) where
  k : ℕ
  x0 : ℕ
  yk : ℕ
  Mlrk : ℕ
  MMlrk : ℕ
  p : ℕ
  rho : ℕ → ℝ
  al : ℕ → ℝ
  V : ℕ → Option E
  P : ℕ → Option E
  H : ℕ → ℕ → ℝ
  warn : ℕ
  ys : ℕ → E
  rs : ℕ → E
  ps : ℕ → E

/-- The contents of the arrays (linsys.py 597-620; no counterpart in the code). -/
def HCgSt.val (h : Heap E) (s : HCgSt E) : CgSt 𝕜 E :=
  ⟨s.k, h.mem s.x0, h.mem s.yk, h.mem s.Mlrk, h.mem s.MMlrk, h.mem s.p, s.rho, s.al, s.V, s.P, s.H, s.warn, s.ys,
    s.rs, s.ps⟩

/-- linsys.py 600-620: `yk` is a new array, `Mlrk`, `MMlrk` and `p` are copies (603-607). -/
noncomputable def hcgInit (x0 MMlr0 Mlr0 : ℕ) (r0 : ℝ) (h : Heap E) : Heap E × HCgSt E :=
  let y := h.alloc 0
  let l := y.1.alloc (y.1.mem Mlr0)
  let m := l.1.alloc (l.1.mem MMlr0)
  let p := m.1.alloc (m.1.mem m.2)
  (p.1, ⟨0, x0, y.2, l.2, m.2, p.2, fun j => if j = 0 then r0 ^ 2 else 0, fun _ => 0,
    fun j => some (if j = 0 ∧ 0 < r0 then ((1 / r0 : ℝ) : 𝕜) • p.1.mem MMlr0 else 0),
    fun j => some (if j = 0 ∧ 0 < r0 then ((1 / r0 : ℝ) : 𝕜) • p.1.mem Mlr0 else 0),
    fun _ _ => 0, 0, fun _ => 0, fun _ => p.1.mem Mlr0, fun _ => 0⟩)

/-- linsys.py 626-628: the new search direction is a new array. -/
noncomputable def hcgDir (𝕜 : Type*) [RCLike 𝕜] [Module 𝕜 E] (h : Heap E) (s : HCgSt E) : Heap E × Except Err ℕ :=
  if 0 < s.k then
    if s.rho (s.k - 1) = 0 then (h, .error .nonFinite)
    else
      let r := h.alloc (h.mem s.MMlrk + ((s.rho s.k / s.rho (s.k - 1) : ℝ) : 𝕜) • h.mem s.p)
      (r.1, .ok r.2)
  else (h, .ok s.p)

/-- linsys.py 624-674: one iteration; 655 and 658 update `yk` and `Mlrk` in place. -/
noncomputable def hcgStep (ip : E → E → 𝕜) (M B : OpObj E) (store : Bool) (h : Heap E) (s : HCgSt E) :
    Heap E × Except Err (HCgSt E × ℝ) :=
  let k := s.k
  match hcgDir 𝕜 h s with
  | (h, .error e) => (h, .error e)
  | (h, .ok p) =>
    let Ap := B h p
    let h := Ap.1
    let d := ip (h.mem p) (h.mem Ap.2)
    if d = 0 then (h, .error .nonFinite)
    else
      let alphaC : 𝕜 := (s.rho k : 𝕜) / d
      let warn := if 1e-12 < |RCLike.im alphaC| then s.warn + 1 else s.warn
      let alpha : ℝ := RCLike.re alphaC
      if store && decide (alpha = 0) then (h, .error .nonFinite)
      else
        let h := h.write s.yk (h.mem s.yk + (alpha : 𝕜) • h.mem p)
        let h := h.write s.Mlrk (h.mem s.Mlrk - (alpha : 𝕜) • h.mem Ap.2)
        let m := M h s.Mlrk
        let h := m.1
        match npNorm (ip (h.mem s.Mlrk) (h.mem m.2)) with
        | .error e => (h, .error e)
        | .ok nr =>
          (h, .ok (⟨k + 1, s.x0, s.yk, s.Mlrk, m.2, p, Function.update s.rho (k + 1) (nr ^ 2),
            Function.update s.al k alpha,
            if store then Function.update s.V (k + 1) (cgCol (𝕜 := 𝕜) k (h.mem m.2) nr) else s.V,
            if store then Function.update s.P (k + 1) (cgCol (𝕜 := 𝕜) k (h.mem s.Mlrk) nr) else s.P,
            if store then cgH (HCgSt.val (𝕜 := 𝕜) h s) alpha (nr ^ 2) else s.H,
            warn,
            Function.update s.ys (k + 1) (h.mem s.yk), Function.update s.rs (k + 1) (h.mem s.Mlrk),
            Function.update s.ps k (h.mem p)⟩, nr))

/-- linsys.py 423-428: `self.x0 + self.linear_system.Mr * yk`: a new array. -/
def hXk (Mr : OpObj E) (x0 yk : ℕ) (h : Heap E) : Heap E × ℕ :=
  let r := Mr h yk
  r.1.alloc (r.1.mem x0 + r.1.mem r.2)

/-- The loop of `Cg._solve` (linsys.py 623-689). -/
noncomputable def hcgMethod (sys : HSys 𝕜 E) (store : Bool) (maxiter : ℕ) : HMethod E (HCgSt E) where
  more s := decide (s.k < maxiter)
  step := hcgStep sys.ip sys.Mo sys.op store
  getXk h s := let r := hXk sys.Mr s.x0 s.yk h; (r.1, .ok r.2)
  k s := s.k
  post s
    | none => s
    | some r => { s with rho := Function.update s.rho s.k (r ^ 2) }
  countAfter := true

/-- `Cg(linear_system, x0=..., ...)` (linsys.py 342-405, 593-689). -/
noncomputable def hCg (sys : HSys 𝕜 E) (store : Bool) (a : HArgs) (h : Heap E) :
    Heap E × Except Err (HSt E (HCgSt E) × HEnd) :=
  match hResidual sys h a.x0 with
  | (h, .error e) => (h, .error e)
  | (h, .ok (MMlr0, Mlr0, r0)) =>
    let g := hGuess sys a h
    hRun sys a (hcgMethod sys store a.maxiter) g.2 r0
      (fun h => let i := hcgInit (𝕜 := 𝕜) g.2 MMlr0 Mlr0 r0 h; (i.1, .ok i.2)) g.1

/-! ## `Arnoldi`, `Gmres`, `Minres` -/

/-- The `Arnoldi` object (utils.py 891-952) for `ortho` in mgs, dmgs, lanczos.  `V` are the columns `vb + j` and `P`
the columns `pb + j`; for `M = None` there is no array `P` and `pb = vb`. -/
structure MArn (𝕜 : Type*) where
  iter : ℕ
  vb : ℕ
  pb : ℕ
  H : ℕ → ℕ → 𝕜
  invariant : Bool
  vnorm : ℝ

/-- The contents of the arrays (utils.py 899-908; no counterpart in the code). -/
def MArn.val (n : ℕ) (h : Heap E) (s : MArn 𝕜) : Arn 𝕜 E :=
  ⟨s.iter, fun j => if j ≤ n then h.mem (s.vb + j) else 0, fun j => if j ≤ n then h.mem (s.pb + j) else 0, s.H,
    s.invariant, s.vnorm⟩

/-- Parameters of the object (utils.py 891-896). -/
structure HArnCfg (𝕜 E : Type*) where
  A : OpObj E
  M : Option (OpObj E)
  ip : E → E → 𝕜
  maxiter : ℕ
  ortho : Ortho

/-- utils.py 891-952, called with `Mv` and `Mv_norm` as `Gmres` and `Minres` do: 900-904 the arrays; 927-940 and
949-952 the first columns. -/
noncomputable def hArnInit (c : HArnCfg 𝕜 E) (v Mv : ℕ) (r : ℝ) (h : Heap E) : Heap E × MArn 𝕜 :=
  let V := h.block (c.maxiter + 1)
  match c.M with
  | none =>
    if 0 < r then
      (V.1.write V.2 (((r : 𝕜)⁻¹) • V.1.mem v), ⟨0, V.2, V.2, fun _ _ => 0, false, r⟩)
    else (V.1, ⟨0, V.2, V.2, fun _ _ => 0, true, r⟩)
  | some _ =>
    let P := V.1.block (c.maxiter + 1)
    if 0 < r then
      let h := P.1.write P.2 (((r : 𝕜)⁻¹) • P.1.mem v)
      (h.write V.2 (((r : 𝕜)⁻¹) • h.mem Mv), ⟨0, V.2, P.2, fun _ _ => 0, false, r⟩)
    else (P.1, ⟨0, V.2, P.2, fun _ _ => 0, true, r⟩)

/-- utils.py 1015-1029: one step of the orthogonalisation of the array `Av`, in place. -/
noncomputable def hOrthoStep (c : HArnCfg 𝕜 E) (s : MArn 𝕜) (Av : ℕ) (st : Heap E × (ℕ → 𝕜)) (j : ℕ) :
    Heap E × (ℕ → 𝕜) :=
  let alpha := c.ip (st.1.mem (s.vb + j)) (st.1.mem Av)
  let alpha := if c.ortho = .lanczos then ((RCLike.re alpha : ℝ) : 𝕜) else alpha
  (st.1.write Av (st.1.mem Av - alpha • st.1.mem (s.pb + j)), Function.update st.2 j (st.2 j + alpha))

/-- utils.py 1014-1029. -/
noncomputable def hOrthoPass (c : HArnCfg 𝕜 E) (s : MArn 𝕜) (Av start k : ℕ) (st : Heap E × (ℕ → 𝕜)) :
    Heap E × (ℕ → 𝕜) :=
  (List.range' start (k + 1 - start)).foldl (hOrthoStep c s Av) st

/-- utils.py 1012. -/
noncomputable def hOrthoPasses (c : HArnCfg 𝕜 E) (s : MArn 𝕜) (Av start k : ℕ) :
    ℕ → Heap E × (ℕ → 𝕜) → Heap E × (ℕ → 𝕜)
  | 0, st => hOrthoPass c s Av start k st
  | n + 1, st => hOrthoPasses c s Av start k n (hOrthoPass c s Av start k st)

/-- utils.py 968, 997-1029: `Av = self.A * self.V[:, [k]]` is applied to a copy of the column (indexing with a list);
`Av` may be that copy.  Returns the address of `Av`, the memory and column `k` of `H`. -/
noncomputable def hOrthogonalise (c : HArnCfg 𝕜 E) (s : MArn 𝕜) (h : Heap E) : ℕ × (Heap E × (ℕ → 𝕜)) :=
  let k := s.iter
  let col := h.alloc (h.mem (s.vb + k))
  let Av := c.A col.1 col.2
  let hc : ℕ → 𝕜 := fun i => s.H i k
  if c.ortho = .lanczos then
    let st := if 0 < k then
        (Av.1.write Av.2 (Av.1.mem Av.2 - s.H k (k - 1) • Av.1.mem (s.pb + (k - 1))),
          Function.update hc (k - 1) (s.H k (k - 1)))
      else (Av.1, hc)
    (Av.2, hOrthoPasses c s Av.2 k k c.ortho.reorthos st)
  else (Av.2, hOrthoPasses c s Av.2 0 k c.ortho.reorthos (Av.1, hc))

/-- utils.py 954-1048: `advance()`. -/
noncomputable def hAdvance (c : HArnCfg 𝕜 E) (h : Heap E) (s : MArn 𝕜) : Heap E × Except Err (MArn 𝕜) :=
  if c.maxiter ≤ s.iter then (h, .error .argumentError)
  else if s.invariant then (h, .error .argumentError)
  else
    let k := s.iter
    let o := hOrthogonalise c s h
    let Av := o.1
    let m := (c.M.getD idObj) o.2.1 Av
    let h := m.1
    match npNorm (c.ip (h.mem Av) (h.mem m.2)) with
    | .error e => (h, .error e)
    | .ok r =>
      let H := setCol s.H k (Function.update o.2.2 (k + 1) (r : 𝕜))
      let nH := specNorm H (k + 2) (k + 1)
      if nH = 0 then (h, .error .nonFinite)
      else if r / nH ≤ 1e-14 then (h, .ok ⟨k + 1, s.vb, s.pb, H, true, s.vnorm⟩)
      else match c.M with
        | none => (h.write (s.vb + (k + 1)) (((r : 𝕜)⁻¹) • h.mem Av), .ok ⟨k + 1, s.vb, s.pb, H, false, s.vnorm⟩)
        | some _ =>
          let h := h.write (s.pb + (k + 1)) (((r : 𝕜)⁻¹) • h.mem Av)
          (h.write (s.vb + (k + 1)) (((r : 𝕜)⁻¹) • h.mem m.2), .ok ⟨k + 1, s.vb, s.pb, H, false, s.vnorm⟩)

/-- State of `Gmres._solve` (linsys.py 953-970). -/
structure HGmresSt (𝕜 : Type*) where
  arn : MArn 𝕜
  x0 : ℕ
  G : ℕ → Givens 𝕜
  R : ℕ → ℕ → 𝕜
  y : ℕ → 𝕜

/-- The contents of the arrays (linsys.py 953-970; no counterpart in the code). -/
def HGmresSt.val (n : ℕ) (h : Heap E) (s : HGmresSt 𝕜) : GmresSt 𝕜 E := ⟨s.arn.val n h, h.mem s.x0, s.G, s.R, s.y⟩

/-- linsys.py 976-993. -/
noncomputable def hgmresStep (c : HArnCfg 𝕜 E) (h : Heap E) (s : HGmresSt 𝕜) :
    Heap E × Except Err (HGmresSt 𝕜 × ℝ) :=
  let k := s.arn.iter
  match hAdvance c h s.arn with
  | (h, .error e) => (h, .error e)
  | (h, .ok a) =>
    let col : ℕ → 𝕜 := fun i => if i < k + 2 then a.H i k else s.R i k
    let col := rots s.G k col
    let g := mkGivens (col k) (col (k + 1))
    let R := setCol s.R k (rot g k col)
    let y := rot g k s.y
    (h, .ok (⟨a, s.x0, Function.update s.G k g, R, y⟩, ‖y (k + 1)‖))

/-- linsys.py 941-949: for `k = 0` the array `self.x0` itself is returned. -/
noncomputable def hgmresXk (Mr : OpObj E) (h : Heap E) (s : HGmresSt 𝕜) : Heap E × Except Err ℕ :=
  let k := s.arn.iter
  if 0 < k then
    match solveUpper (Matrix.of fun i j : Fin k => s.R i j) (fun i : Fin k => s.y i) with
    | .error e => (h, .error e)
    | .ok yy =>
      let yk := h.alloc (lincomb (fun i : Fin k => h.mem (s.arn.vb + i)) yy)
      let r := hXk Mr s.x0 yk.2 yk.1
      (r.1, .ok r.2)
  else (h, .ok s.x0)

/-- The Arnoldi object of `Gmres`/`Minres` (linsys.py 796-805, 953-962). -/
def HSys.arnCfg (s : HSys 𝕜 E) (maxiter : ℕ) (ortho : Ortho) : HArnCfg 𝕜 E := ⟨s.op, s.M, s.ip, maxiter, ortho⟩

/-- The loop of `Gmres._solve` (linsys.py 971-997). -/
noncomputable def hgmresMethod (sys : HSys 𝕜 E) (ortho : Ortho) (maxiter : ℕ) : HMethod E (HGmresSt 𝕜) where
  more s := decide (s.arn.iter < maxiter) && !s.arn.invariant
  step := hgmresStep (sys.arnCfg maxiter ortho)
  getXk := hgmresXk sys.Mr
  k s := s.arn.iter
  post s _ := s
  countAfter := false

/-- `Gmres(linear_system, x0=..., ...)` (linsys.py 342-405, 941-1004). -/
noncomputable def hGmres (sys : HSys 𝕜 E) (ortho : Ortho) (a : HArgs) (h : Heap E) :
    Heap E × Except Err (HSt E (HGmresSt 𝕜) × HEnd) :=
  match hResidual sys h a.x0 with
  | (h, .error e) => (h, .error e)
  | (h, .ok (MMlr0, Mlr0, r0)) =>
    let g := hGuess sys a h
    hRun sys a (hgmresMethod sys ortho a.maxiter) g.2 r0
      (fun h =>
        let i := hArnInit (sys.arnCfg a.maxiter ortho) Mlr0 MMlr0 r0 h
        (i.1, .ok ⟨i.2, g.2, fun _ => ⟨1, 0, 0⟩, fun _ _ => 0, fun i => if i = 0 then (r0 : 𝕜) else 0⟩)) g.1

/-- State of `Minres._solve` (linsys.py 794-815); the columns of `W` are copied by `column_stack` (845). -/
structure HMinresSt (𝕜 E : Type*) where
  arn : MArn 𝕜
  x0 : ℕ
  G1 : Option (Givens ℝ)
  G2 : Option (Givens ℝ)
  W0 : E
  W1 : E
  y : ℝ
  yk : ℕ

/-- The contents of the arrays (linsys.py 795-814; no counterpart in the code). -/
def HMinresSt.val (n : ℕ) (h : Heap E) (s : HMinresSt 𝕜 E) : MinresSt 𝕜 E :=
  ⟨s.arn.val n h, h.mem s.x0, s.G1, s.G2, s.W0, s.W1, s.y, h.mem s.yk⟩

/-- linsys.py 821-848; 846 makes a new array `yk`. -/
noncomputable def hminresStep (c : HArnCfg 𝕜 E) (maxiter : ℕ) (h : Heap E) (s : HMinresSt 𝕜 E) :
    Heap E × Except Err (HMinresSt 𝕜 E × ℝ) :=
  let k := s.arn.iter
  match hAdvance c h s.arn with
  | (h, .error e) => (h, .error e)
  | (h, .ok a) =>
    let r01 := optApply s.G1 (0, RCLike.re (a.H (if k = 0 then maxiter else k - 1) k))
    let r12 := optApply s.G2 (r01.2, RCLike.re (a.H k k))
    let g := mkGivens r12.2 (RCLike.re (a.H (k + 1) k))
    let y := g.apply (s.y, 0)
    if g.r = 0 then (h, .error .nonFinite)
    else
      let z := ((g.r : 𝕜)⁻¹) • (h.mem (a.vb + k) - (r01.1 : 𝕜) • s.W0 - (r12.1 : 𝕜) • s.W1)
      let yk := h.alloc (h.mem s.yk + (y.1 : 𝕜) • z)
      (yk.1, .ok (⟨a, s.x0, s.G2, some g, s.W1, z, y.2, yk.2⟩, |y.2|))

/-- The loop of `Minres._solve` (linsys.py 816-853). -/
noncomputable def hminresMethod (sys : HSys 𝕜 E) (ortho : Ortho) (maxiter : ℕ) : HMethod E (HMinresSt 𝕜 E) where
  more s := decide (s.arn.iter < maxiter) && !s.arn.invariant
  step := hminresStep (sys.arnCfg maxiter ortho) maxiter
  getXk h s := let r := hXk sys.Mr s.x0 s.yk h; (r.1, .ok r.2)
  k s := s.arn.iter
  post s _ := s
  countAfter := false

/-- `Minres(linear_system, x0=..., ...)` (linsys.py 342-405, 756-853). -/
noncomputable def hMinres (sys : HSys 𝕜 E) (ortho : Ortho) (a : HArgs) (h : Heap E) :
    Heap E × Except Err (HSt E (HMinresSt 𝕜 E) × HEnd) :=
  match hResidual sys h a.x0 with
  | (h, .error e) => (h, .error e)
  | (h, .ok (MMlr0, Mlr0, r0)) =>
    let g := hGuess sys a h
    hRun sys a (hminresMethod sys ortho a.maxiter) g.2 r0
      (fun h =>
        let i := hArnInit (sys.arnCfg a.maxiter ortho) Mlr0 MMlr0 r0 h
        let y := i.1.alloc 0
        (y.1, .ok ⟨i.2, g.2, none, none, 0, 0, r0, y.2⟩)) g.1

end Krypy
