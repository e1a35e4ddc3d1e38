import Verif.Model.Heap
import Verif.Model.Deflation
import Verif.Model.Qr

/-!
# Arrays as objects: `qr`, `Projection`, `ObliqueProjection` and the deflated solvers

Continues `Model/Heap` for deflation.py 32-283.  An array of shape `(N, k)` is a family of `k` addresses (of its
columns); two names denote the same array (`Y is X`) if the addresses are the same.  Matrices of coefficients (`R`,
`VR`, `WR`, `Q`, `E`) are values, but the arrays in `_UAps`, on which `DeflatedCg` works in place, have a memory of their
own.
-/

namespace Krypy
variable {𝕜 E : Type*} [RCLike 𝕜] [AddCommGroup E] [Module 𝕜 E] {k : ℕ}
open Matrix

/-- The contents of an `(N, k)` array (no counterpart in the code). -/
def Heap.cols (h : Heap E) (X : Fin k → ℕ) : Fin k → E := fun j => h.mem (X j)

/-- A new `(N, k)` array with contents `X` (e.g. utils.py 499, 696). -/
def Heap.allocCols (h : Heap E) (X : Fin k → E) : Heap E × (Fin k → ℕ) :=
  (⟨fun i => if H : h.next ≤ i ∧ i < h.next + k then X ⟨i - h.next, by omega⟩ else h.mem i, h.next + k⟩,
    fun j => h.next + j)

/-! ## `qr` -/

/-- utils.py 700-703: one pass for column `i`; the columns of `Q` are `q + j`.  `Q[:, [i]] -= alpha * Q[:, [j]]` works in
place. -/
def hqrPass (ip : E → E → 𝕜) (q i : ℕ) : ℕ → Heap E × (ℕ → 𝕜) → Heap E × (ℕ → 𝕜)
  | 0, s => s
  | j + 1, s =>
    let s := hqrPass ip q i j s
    let alpha := ip (s.1.mem (q + j)) (s.1.mem (q + i))
    (s.1.write (q + i) (s.1.mem (q + i) - alpha • s.1.mem (q + j)), Function.update s.2 j (s.2 j + alpha))

/-- utils.py 699-703: `reorthos + 1` passes. -/
def hqrPasses (ip : E → E → 𝕜) (q i : ℕ) : ℕ → Heap E × (ℕ → 𝕜) → Heap E × (ℕ → 𝕜)
  | 0, s => s
  | p + 1, s => hqrPass ip q i i (hqrPasses ip q i p s)

/-- utils.py 698-706: column `i`; 706 divides in place. -/
noncomputable def hqrCol (ip : E → E → 𝕜) (reorthos q i : ℕ) (h : Heap E) (R : ℕ → ℕ → 𝕜) :
    Heap E × Except Err (ℕ → ℕ → 𝕜) :=
  let s := hqrPasses ip q i (reorthos + 1) (h, fun j => R j i)
  match npNorm (ip (s.1.mem (q + i)) (s.1.mem (q + i))) with
  | .error e => (s.1, .error e)
  | .ok rii =>
    (if 1e-15 ≤ rii then s.1.write (q + i) (((rii : 𝕜)⁻¹) • s.1.mem (q + i)) else s.1,
      .ok fun a b => if b = i then Function.update s.2 i (rii : 𝕜) a else R a b)

/-- utils.py 698-706: the first columns. -/
noncomputable def hqrLoop (ip : E → E → 𝕜) (reorthos q : ℕ) : ℕ → Heap E → Heap E × Except Err (ℕ → ℕ → 𝕜)
  | 0, h => (h, .ok fun _ _ => 0)
  | i + 1, h => match hqrLoop ip reorthos q i h with
    | (h, .error e) => (h, .error e)
    | (h, .ok R) => hqrCol ip reorthos q i h R

/-- `qr(X, ip_B, reorthos)` (utils.py 680-707): `scipy.linalg.qr` (a routine which leaves its argument alone and returns new
arrays), or the Gram-Schmidt process. -/
inductive HQr (𝕜 E : Type*) (k : ℕ)
  | lapack (f : (Fin k → E) → Except Err ((Fin k → E) × Matrix (Fin k) (Fin k) 𝕜))
  | own (ip : E → E → 𝕜) (reorthos : ℕ)

/-- utils.py 692-707: `Q = X.copy()`, then the columns of `Q` are changed in place. -/
noncomputable def hQr (r : HQr 𝕜 E k) (X : Fin k → ℕ) (h : Heap E) :
    Heap E × Except Err ((Fin k → ℕ) × Matrix (Fin k) (Fin k) 𝕜) :=
  match r with
  | .lapack f => match f (h.cols X) with
    | .error e => (h, .error e)
    | .ok (Q, R) =>
      let c := h.allocCols Q
      (c.1, .ok (c.2, R))
  | .own ip reorthos =>
    let Q := h.allocCols (h.cols X)
    match hqrLoop ip reorthos h.next k Q.1 with
    | (h, .error e) => (h, .error e)
    | (h, .ok R) => (h, .ok (Q.2, Matrix.of fun i j => R i j))

/-! ## `Projection` and `ObliqueProjection` -/

/-- Attributes of a `Projection` (utils.py 482-520), arrays by address. -/
structure HProj (𝕜 : Type*) (k : ℕ) where
  V : Fin k → ℕ
  W : Fin k → ℕ
  VR : Option (Matrix (Fin k) (Fin k) 𝕜)
  WR : Option (Matrix (Fin k) (Fin k) 𝕜)
  QR : Option (Matrix (Fin k) (Fin k) 𝕜 × Matrix (Fin k) (Fin k) 𝕜)
  iterations : ℕ

/-- The contents of the arrays (utils.py 482-520; no counterpart in the code). -/
def HProj.val (h : Heap E) (p : HProj 𝕜 k) : Proj 𝕜 E k := ⟨h.cols p.V, h.cols p.W, p.VR, p.WR, p.QR, p.iterations⟩

/-- The parameters of `ObliqueProjection` (deflation.py 33, 40, 53-55): the two `qr` calls and `scipy.linalg.qr` of the Gram
matrix (utils.py 520). -/
structure HOblArgs (𝕜 E : Type*) (k : ℕ) where
  qrM : HQr 𝕜 E k
  qr : HQr 𝕜 E k
  matQr : Matrix (Fin k) (Fin k) 𝕜 → Matrix (Fin k) (Fin k) 𝕜 × Matrix (Fin k) (Fin k) 𝕜
  orthogonalize : Bool
  iterations : ℤ

/-- utils.py 482-520: without `orthogonalize` the arrays of the caller themselves are stored (507, 517); `Y is X` (510) is
a comparison of addresses. -/
noncomputable def hMkProj (ip : E → E → 𝕜) (a : HOblArgs 𝕜 E k) (X Y : Fin k → ℕ) (h : Heap E) :
    Heap E × Except Err (HProj 𝕜 k) :=
  if a.iterations < 1 then (h, .error .argumentError)
  else if k = 0 then
    let z := h.allocCols (k := k) fun _ => 0
    (z.1, .ok ⟨z.2, z.2, none, none, none, a.iterations.toNat⟩)
  else if a.orthogonalize then
    match hQr a.qr X h with
    | (h, .error e) => (h, .error e)
    | (h, .ok (V, VR)) =>
      if Y = X then (h, .ok ⟨V, V, some VR, some VR, none, a.iterations.toNat⟩)
      else match hQr a.qr Y h with
        | (h, .error e) => (h, .error e)
        | (h, .ok (W, WR)) =>
          (h, .ok ⟨V, W, some VR, some WR, some (a.matQr (gram ip (h.cols W) (h.cols V))), a.iterations.toNat⟩)
  else (h, .ok ⟨X, Y, none, none, some (a.matQr (gram ip (h.cols Y) (h.cols X))), a.iterations.toNat⟩)

/-- `A * U` for an `(N, k)` array, one column after the other (deflation.py 47; the code applies the operator to the whole
array).  The result is the array `U` itself if each column is. -/
def hOpCols (A : OpObj E) (U : Fin k → ℕ) : ℕ → Heap E → Heap E × (ℕ → ℕ)
  | 0, h => (h, fun _ => 0)
  | j + 1, h =>
    let r := hOpCols A U j h
    if hj : j < k then
      let t := A r.1 (U ⟨j, hj⟩)
      (t.1, Function.update r.2 j t.2)
    else r

/-- Attributes of an `ObliqueProjection` (deflation.py 42-56), arrays by address. -/
structure HObl (𝕜 : Type*) (k : ℕ) where
  U : Fin k → ℕ
  AU : Fin k → ℕ
  proj : HProj 𝕜 k

/-- deflation.py 33-56. -/
noncomputable def hMkObl (y : HSys 𝕜 E) (a : HOblArgs 𝕜 E k) (U : Fin k → ℕ) (h : Heap E) :
    Heap E × Except Err (HObl 𝕜 k) :=
  match hQr a.qrM U h with
  | (h, .error e) => (h, .error e)
  | (h, .ok (U, _)) =>
    let r := hOpCols y.op U k h
    let AU : Fin k → ℕ := fun j => r.2 j
    match hMkProj y.ip a AU U r.1 with
    | (h, .error e) => (h, .error e)
    | (h, .ok p) => (h, .ok ⟨U, AU, p⟩)

/-- utils.py 522-552: `_apply(a, return_Ya=True)`: all expressions make new arrays. -/
noncomputable def hApply1 (ip : E → E → 𝕜) (p : HProj 𝕜 k) (h : Heap E) (a : ℕ) : Heap E × Except Err (ℕ × (Fin k → 𝕜)) :=
  match (p.val h).apply1 ip (h.mem a) with
  | .error e => (h, .error e)
  | .ok (x, Ya) =>
    let r := h.alloc x
    (r.1, .ok (r.2, Ya))

/-- utils.py 622-624: `w = self._apply(z); z = z - w`. -/
noncomputable def hRefineCompl (ip : E → E → 𝕜) (p : HProj 𝕜 k) : ℕ → Heap E → ℕ → Heap E × Except Err ℕ
  | 0, h, z => (h, .ok z)
  | n + 1, h, z => match hRefineCompl ip p n h z with
    | (h, .error e) => (h, .error e)
    | (h, .ok z) => match hApply1 ip p h z with
      | (h, .error e) => (h, .error e)
      | (h, .ok (w, _)) =>
        let r := h.alloc (h.mem z - h.mem w)
        (r.1, .ok r.2)

/-- utils.py 604-627: `apply_complement(a, return_Ya=True)`: a copy for `k = 0` (615). -/
noncomputable def hApplyCompl (ip : E → E → 𝕜) (p : HProj 𝕜 k) (h : Heap E) (a : ℕ) :
    Heap E × Except Err (ℕ × (Fin k → 𝕜)) :=
  if k = 0 then
    let r := h.alloc (h.mem a)
    (r.1, .ok (r.2, fun _ => 0))
  else match hApply1 ip p h a with
    | (h, .error e) => (h, .error e)
    | (h, .ok (x, Ya)) =>
      let z := h.alloc (h.mem a - h.mem x)
      match hRefineCompl ip p (p.iterations - 1) z.1 z.2 with
      | (h, .error e) => (h, .error e)
      | (h, .ok z) => (h, .ok (z, Ya))

/-- `linear_system.Ml * (linear_system.b - linear_system.A * z)` (deflation.py 62, 153-154). -/
def hMlr (y : HSys 𝕜 E) (h : Heap E) (z : ℕ) : Heap E × ℕ :=
  let az := y.A h z
  let r := az.1.alloc (az.1.mem y.b - az.1.mem az.2)
  y.Ml r.1 r.2

/-- deflation.py 58-68: `correct(z)`: a new array. -/
noncomputable def hCorrect (y : HSys 𝕜 E) (p : HProj 𝕜 k) (h : Heap E) (z : ℕ) : Heap E × Except Err ℕ :=
  let l := hMlr y h z
  match solveQR p.QR (coefs y.ip (l.1.cols p.W) (l.1.mem l.2)) with
  | .error e => (l.1, .error e)
  | .ok c => match undoVR (p.val l.1) c with
    | .error e => (l.1, .error e)
    | .ok c =>
      let x := l.1.alloc (l.1.mem z + lincomb (l.1.cols p.W) c)
      (x.1, .ok x.2)

/-! ## The deflated solvers -/

/-- deflation.py 150-154: `Mlr`; for `x0 is None` it is the array of the linear system. -/
def hDeflMlr (y : HSys 𝕜 E) (h : Heap E) : Option ℕ → Heap E × ℕ
  | none => (h, y.Mlb)
  | some x => hMlr y h x

/-- deflation.py 145-159: `_get_initial_residual(x0)`; for `x0 is None` the projection is applied to the attribute `Mlb` of the
linear system (151). -/
noncomputable def hDeflRes (y : HSys 𝕜 E) (p : HProj 𝕜 k) (h : Heap E) (x0 : Option ℕ) :
    Heap E × Except Err (ℕ × ℕ × ℝ) :=
  let l := hDeflMlr y h x0
  match hApplyCompl y.ip p l.1 l.2 with
  | (h, .error e) => (h, .error e)
  | (h, .ok (PMlr, _)) =>
    let m := y.Mo h PMlr
    match npNorm (y.ip (m.1.mem PMlr) (m.1.mem m.2)) with
    | .error e => (m.1, .error e)
    | .ok nr => (m.1, .ok (m.2, PMlr, nr))

/-- The operator `P * linear_system.MlAMr` (deflation.py 127-143).  A `LinAlgError` is raised by `hDeflRes` before, see
`Obl.compl`. -/
noncomputable def hDeflOp (y : HSys 𝕜 E) (p : HProj 𝕜 k) : OpObj E := fun h a =>
  let Av := y.op h a
  match hApplyCompl y.ip p Av.1 Av.2 with
  | (h, .error _) => h.alloc 0
  | (h, .ok (z, _)) => (h, z)

/-- deflation.py 161-163: `_get_xk` of the mixin, after the one of the solver. -/
noncomputable def hThen {S : Type*} (y : HSys 𝕜 E) (p : HProj 𝕜 k) (g : Heap E → S → Heap E × Except Err ℕ) (h : Heap E) (s : S) :
    Heap E × Except Err ℕ :=
  match g h s with
  | (h, .error e) => (h, .error e)
  | (h, .ok x) => hCorrect y p h x

/-- The inner products `UAv` which `apply_complement` returns when the operator is applied to the array at `a`
(deflation.py 135-143).  The memory is dropped: it is the application in the step of the solver. -/
noncomputable def hNewC (y : HSys 𝕜 E) (p : HProj 𝕜 k) (h : Heap E) (a : ℕ) : Except Err (Fin k → 𝕜) :=
  let Av := y.op h a
  match (hApplyCompl y.ip p Av.1 Av.2).2 with
  | .error e => .error e
  | .ok (_, UAv) => .ok UAv

/-- A method which also changes `C` and `_UAps` in each step (deflation.py 142, 251-262), see `Method.log`. -/
def HMethod.log {S L : Type*} (m : HMethod E S) (f : Heap E → S → L → Except Err L) : HMethod E (S × L) where
  more s := m.more s.1
  step h s := match f h s.1 s.2 with
    | .error e => (h, .error e)
    | .ok l => match m.step h s.1 with
      | (h, .error e) => (h, .error e)
      | (h, .ok (s', r)) => (h, .ok ((s', l), r))
  getXk h s := m.getXk h s.1
  k s := m.k s.1
  post s r := (m.post s.1 r, s.2)
  countAfter := m.countAfter

/-- linsys.py 391-401: the initial error norm, where `_get_xk(None)` is `correct(x0)` (deflation.py 161-163). -/
noncomputable def hInitErrC (y : HSys 𝕜 E) (a : HArgs) (xk0 : Heap E → ℕ → Heap E × Except Err ℕ) (x0 : ℕ) (h : Heap E) :
    Heap E × Except Err (Option (List ℝ)) :=
  match a.exact with
  | none => (h, .ok none)
  | some ex => match xk0 h x0 with
    | (h, .error e) => (h, .error e)
    | (h, .ok x) => match hErr y.ip ex h x with
      | (h, .error e) => (h, .error e)
      | (h, .ok e) => (h, .ok (some [e]))

/-- linsys.py 382-405, see `hRun`; with `hInitErrC`. -/
noncomputable def hRunC {S : Type*} (y : HSys 𝕜 E) (a : HArgs) (m : HMethod E S) (x0 : ℕ) (r0 : ℝ)
    (xk0 : Heap E → ℕ → Heap E × Except Err ℕ) (init : Heap E → Heap E × Except Err S) (h : Heap E) :
    Heap E × Except Err (HSt E S × HEnd) :=
  let xk : Option ℕ := if y.nb = 0 then some x0 else none
  let resnorms : List ℝ := if y.nb = 0 then [0] else [r0 / y.nb]
  match hInitErrC y a xk0 x0 h with
  | (h, .error e) => (h, .error e)
  | (h, .ok errnorms) => match init h with
    | (h, .error e) => (h, .error e)
    | (h, .ok s) =>
      let r := hLoop y a m a.maxiter ⟨h, s, 0, xk, resnorms, errnorms, 0⟩
      (r.1.h, .ok r)

/-- The Arnoldi object of `DeflatedGmres` and `DeflatedMinres` (linsys.py 796-805, 953-962 with the attribute `MlAMr` of
deflation.py 132). -/
noncomputable def HSys.deflArn (y : HSys 𝕜 E) (p : HProj 𝕜 k) (maxiter : ℕ) (ortho : Ortho) : HArnCfg 𝕜 E :=
  ⟨hDeflOp y p, y.M, y.ip, maxiter, ortho⟩

/-- The loop of `DeflatedGmres` without `C` (linsys.py 971-997, deflation.py 127-133, 161-163). -/
noncomputable def hdGmresBase (y : HSys 𝕜 E) (p : HProj 𝕜 k) (ortho : Ortho) (maxiter : ℕ) : HMethod E (HGmresSt 𝕜) where
  more := fun s => decide (s.arn.iter < maxiter) && !s.arn.invariant
  step := hgmresStep (y.deflArn p maxiter ortho)
  getXk := hThen y p (hgmresXk y.Mr)
  k := fun s => s.arn.iter
  post := fun s _ => s
  countAfter := false

/-- The loop of `DeflatedGmres` (linsys.py 971-997, deflation.py 127-163); `advance` applies the operator to a copy of the newest
basis vector (utils.py 968). -/
noncomputable def hdGmresMethod (y : HSys 𝕜 E) (p : HProj 𝕜 k) (ortho : Ortho) (maxiter : ℕ) :
    HMethod E (HGmresSt 𝕜 × List (Fin k → 𝕜)) :=
  (hdGmresBase y p ortho maxiter).log fun h s l =>
      let col := h.alloc (h.mem (s.arn.vb + s.arn.iter))
      match hNewC y p col.1 col.2 with
      | .error e => .error e
      | .ok c => .ok (l ++ [c])

/-- `DeflatedGmres` (deflation.py 276-283) with the constructed projection. -/
noncomputable def hDeflGmres (y : HSys 𝕜 E) (p : HProj 𝕜 k) (ortho : Ortho) (a : HArgs) (h : Heap E) :
    Heap E × Except Err (HSt E (HGmresSt 𝕜 × List (Fin k → 𝕜)) × HEnd) :=
  match hDeflRes y p h a.x0 with
  | (h, .error e) => (h, .error e)
  | (h, .ok (MMlr0, Mlr0, r0)) =>
    let g := hGuess y a h
    hRunC y a (hdGmresMethod y p ortho a.maxiter) g.2 r0 (hCorrect y p)
      (fun h =>
        let i := hArnInit (y.deflArn p a.maxiter ortho) Mlr0 MMlr0 r0 h
        (i.1, .ok (⟨i.2, g.2, fun _ => ⟨1, 0, 0⟩, fun _ _ => 0, fun i => if i = 0 then (r0 : 𝕜) else 0⟩, []))) g.1

/-- The loop of `DeflatedMinres` without `C` (linsys.py 816-853, deflation.py 127-133, 161-163). -/
noncomputable def hdMinresBase (y : HSys 𝕜 E) (p : HProj 𝕜 k) (ortho : Ortho) (maxiter : ℕ) : HMethod E (HMinresSt 𝕜 E) where
  more := fun s => decide (s.arn.iter < maxiter) && !s.arn.invariant
  step := hminresStep (y.deflArn p maxiter ortho) maxiter
  getXk := hThen y p fun h s => let r := hXk y.Mr s.x0 s.yk h; (r.1, .ok r.2)
  k := fun s => s.arn.iter
  post := fun s _ => s
  countAfter := false

/-- The loop of `DeflatedMinres` (linsys.py 816-853, deflation.py 127-163). -/
noncomputable def hdMinresMethod (y : HSys 𝕜 E) (p : HProj 𝕜 k) (ortho : Ortho) (maxiter : ℕ) :
    HMethod E (HMinresSt 𝕜 E × List (Fin k → 𝕜)) :=
  (hdMinresBase y p ortho maxiter).log fun h s l =>
      let col := h.alloc (h.mem (s.arn.vb + s.arn.iter))
      match hNewC y p col.1 col.2 with
      | .error e => .error e
      | .ok c => .ok (l ++ [c])

/-- `DeflatedMinres` (deflation.py 266-273). -/
noncomputable def hDeflMinres (y : HSys 𝕜 E) (p : HProj 𝕜 k) (ortho : Ortho) (a : HArgs) (h : Heap E) :
    Heap E × Except Err (HSt E (HMinresSt 𝕜 E × List (Fin k → 𝕜)) × HEnd) :=
  match hDeflRes y p h a.x0 with
  | (h, .error e) => (h, .error e)
  | (h, .ok (MMlr0, Mlr0, r0)) =>
    let g := hGuess y a h
    hRunC y a (hdMinresMethod y p ortho a.maxiter) g.2 r0 (hCorrect y p)
      (fun h =>
        let i := hArnInit (y.deflArn p a.maxiter ortho) Mlr0 MMlr0 r0 h
        let z := i.1.alloc 0
        (z.1, .ok (⟨i.2, g.2, none, none, 0, 0, r0, z.2⟩, []))) g.1

/-- The arrays in `_UAps` and the columns of `C` (deflation.py 244, 251, 262).  The contents `none` stands for an array with
NaN entries. -/
structure UApMem (𝕜 : Type*) (k : ℕ) where
  h : Heap (Option (Fin k → 𝕜))
  UAps : List ℕ
  C : List (Option (Fin k → 𝕜))

/-- An empty list of arrays (deflation.py 115, 244). -/
def UApMem.init (𝕜 : Type*) (k : ℕ) : UApMem 𝕜 k := ⟨⟨fun _ => none, 0⟩, [], []⟩

/-- deflation.py 251-262 (with `iter = n`, `rhos[-1] = r1`, `rhos[-2] = r2`, `rhos[-3] = r3`): `c` is a copy of the array which
was appended to `_UAps`; 255, 257, 258 and 260 change `c` in place.  (The lists are never too short.) -/
noncomputable def hUApPush (n : ℕ) (r1 r2 r3 : ℝ) (UAp : Fin k → 𝕜) (l : UApMem 𝕜 k) : UApMem 𝕜 k :=
  let u := l.h.alloc (some UAp)
  let UAps := l.UAps ++ [u.2]
  let c := u.1.alloc (u.1.mem u.2)
  let h := c.1
  let h := if 0 < n then h.write c.2 (if r2 = 0 then none else match fromEnd UAps 2 with
      | some a => (h.mem c.2).bind fun x => (h.mem a).map fun u => x - ((1 + r1 / r2 : ℝ) : 𝕜) • u
      | none => h.mem c.2)
    else h
  let h := if 1 < n then h.write c.2 (if r3 = 0 then none else match fromEnd UAps 3 with
      | some a => (h.mem c.2).bind fun x => (h.mem a).map fun u => x + ((r2 / r3 : ℝ) : 𝕜) • u
      | none => h.mem c.2)
    else h
  let h := h.write c.2 (if r1 = 0 then none else
    (h.mem c.2).map fun x => (((-1 : ℝ) ^ n / Real.sqrt r1 : ℝ) : 𝕜) • x)
  let h := if 0 < n then h.write c.2 (match fromEnd l.C 1 with
      | some w => (h.mem c.2).bind fun x => w.map fun w => x - ((Real.sqrt (r2 / r1) : ℝ) : 𝕜) • w
      | none => h.mem c.2)
    else h
  ⟨h, UAps, l.C ++ [h.mem c.2]⟩

/-- deflation.py 247-263: `_apply_projection` of `DeflatedCg`. -/
noncomputable def hNewCgC (y : HSys 𝕜 E) (p : HProj 𝕜 k) (h : Heap E) (st : HCgSt E) (l : UApMem 𝕜 k) : Except Err (UApMem 𝕜 k) :=
  match hcgDir 𝕜 h st with
  | (_, .error e) => .error e
  | (h, .ok d) => match hNewC y p h d with
    | .error e => .error e
    | .ok UAp => .ok (hUApPush st.k (st.rho st.k) (st.rho (st.k - 1)) (st.rho (st.k - 2)) UAp l)

/-- The loop of `DeflatedCg` without `C` and `_UAps` (linsys.py 623-689, deflation.py 127-133, 161-163). -/
noncomputable def hdCgBase (y : HSys 𝕜 E) (p : HProj 𝕜 k) (store : Bool) (maxiter : ℕ) : HMethod E (HCgSt E) where
  more := fun s => decide (s.k < maxiter)
  step := hcgStep y.ip y.Mo (hDeflOp y p) store
  getXk := hThen y p fun h s => let r := hXk y.Mr s.x0 s.yk h; (r.1, .ok r.2)
  k := fun s => s.k
  post := fun s => fun
    | none => s
    | some r => { s with rho := Function.update s.rho s.k (r ^ 2) }
  countAfter := true

/-- The loop of `DeflatedCg` (linsys.py 623-689, deflation.py 161-163, 236-263). -/
noncomputable def hdCgMethod (y : HSys 𝕜 E) (p : HProj 𝕜 k) (store : Bool) (maxiter : ℕ) : HMethod E (HCgSt E × UApMem 𝕜 k) :=
  (hdCgBase y p store maxiter).log (hNewCgC y p)

/-- `DeflatedCg` (deflation.py 236-263). -/
noncomputable def hDeflCg (y : HSys 𝕜 E) (p : HProj 𝕜 k) (store : Bool) (a : HArgs) (h : Heap E) :
    Heap E × Except Err (HSt E (HCgSt E × UApMem 𝕜 k) × HEnd) :=
  match hDeflRes y p h a.x0 with
  | (h, .error e) => (h, .error e)
  | (h, .ok (MMlr0, Mlr0, r0)) =>
    let g := hGuess y a h
    hRunC y a (hdCgMethod y p store a.maxiter) g.2 r0 (hCorrect y p)
      (fun h => let i := hcgInit (𝕜 := 𝕜) g.2 MMlr0 Mlr0 r0 h; (i.1, .ok (i.2, UApMem.init 𝕜 k))) g.1

/-! ## The constructors -/

/-- `DeflatedCg(linear_system, U, projection_kwargs, ...)` (deflation.py 93-126, 243-245): the projection, then the solver. -/
noncomputable def hDeflatedCg (y : HSys 𝕜 E) (oa : HOblArgs 𝕜 E k) (U : Fin k → ℕ) (store : Bool) (a : HArgs) (h : Heap E) :
    Heap E × Except Err (HSt E (HCgSt E × UApMem 𝕜 k) × HEnd) :=
  match hMkObl y oa U h with
  | (h, .error e) => (h, .error e)
  | (h, .ok o) => hDeflCg y o.proj store a h

/-- `DeflatedGmres(linear_system, U, projection_kwargs, ...)` (deflation.py 93-126, 276-283). -/
noncomputable def hDeflatedGmres (y : HSys 𝕜 E) (oa : HOblArgs 𝕜 E k) (U : Fin k → ℕ) (ortho : Ortho) (a : HArgs) (h : Heap E) :
    Heap E × Except Err (HSt E (HGmresSt 𝕜 × List (Fin k → 𝕜)) × HEnd) :=
  match hMkObl y oa U h with
  | (h, .error e) => (h, .error e)
  | (h, .ok o) => hDeflGmres y o.proj ortho a h

/-- `DeflatedMinres(linear_system, U, projection_kwargs, ...)` (deflation.py 93-126, 266-273). -/
noncomputable def hDeflatedMinres (y : HSys 𝕜 E) (oa : HOblArgs 𝕜 E k) (U : Fin k → ℕ) (ortho : Ortho) (a : HArgs) (h : Heap E) :
    Heap E × Except Err (HSt E (HMinresSt 𝕜 E × List (Fin k → 𝕜)) × HEnd) :=
  match hMkObl y oa U h with
  | (h, .error e) => (h, .error e)
  | (h, .ok o) => hDeflMinres y o.proj ortho a h

end Krypy
