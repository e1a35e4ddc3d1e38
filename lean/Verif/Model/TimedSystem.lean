import Verif.Model.Operators
import Verif.Model.Timings
import Verif.Model.Inner

/-!
# `TimedLinearOperator`, `TimedLinearSystem` and `ConvertedTimedLinearSystem` with their measurements
(utils.py 1289-1318, 1605-1636, linsys.py 12-127, 204-274)

The world has a clock and timers.  `clk n` is the value of the `n`-th call of `time.time()`; timers are named by
keys of an arbitrary type `K` (a `Timings` object with its six entries is a map `Name → K`).  Not modelled: dtypes,
`flat_vecs`, `exact_solution`, the warning on line 102, sparse matrices and scipy operators.
-/

namespace Krypy.Timed
open Krypy.Ops
variable {𝕜 K F : Type*} [RCLike 𝕜] [DecidableEq K] [Field F] [LinearOrder F]

/-- State of the world: number of calls of `time.time()` so far, and all timers (utils.py 1289-1318; no counterpart in the code). -/
structure World (K F : Type*) where
  now : ℕ
  tm : Timings K F

/-- A Python computation: it may raise, and it changes the world (utils.py 1605-1636, linsys.py 204-275). -/
abbrev Act (K F ε α : Type*) := World K F → Except ε α × World K F

/-- Sequential composition: the second part is not run if the first one raises (see `Act`; no counterpart in the code). -/
def Act.bind {ε α β : Type*} (a : Act K F ε α) (f : α → Act K F ε β) : Act K F ε β := fun w =>
  match a w with
  | (.error e, w) => (.error e, w)
  | (.ok x, w) => f x w

/-- A computation without effects (see `Act`; no counterpart in the code). -/
def Act.lift {ε α : Type*} (r : Except ε α) : Act K F ε α := fun w => (r, w)

/-- utils.py 1310-1317: `with timer: ...`.  `__exit__` appends the duration also if the block raises. -/
def withTimer {ε α : Type*} (clk : ℕ → F) (key : K) (a : Act K F ε α) : Act K F ε α := fun w =>
  let tstart := clk w.now
  match a ⟨w.now + 1, w.tm⟩ with
  | (r, w) => (r, ⟨w.now + 1, w.tm.record key (clk w.now - tstart)⟩)

/-- `timer[-1] /= k` (utils.py 1625, 1635, linsys.py 236). -/
def divLast (key : K) (k : F) (w : World K F) : World K F :=
  match w.tm key with
  | some l => match l.getLast? with
    | some d => ⟨w.now, Function.update w.tm key (some (l.dropLast ++ [d / k]))⟩
    | none => w
  | none => w

/-- utils.py 1622-1626: timed application to a block of `k` columns; the division on line 1625 is not reached if the
block raises. -/
def timedBlock {ε α : Type*} (clk : ℕ → F) (key : K) (k : F) (a : Act K F ε α) : Act K F ε α := fun w =>
  match withTimer clk key a w with
  | (.error e, w) => (.error e, w)
  | (.ok r, w) => (.ok r, divLast key k w)

/-- A method of an operator object (utils.py 1381-1402, 1619-1636). -/
abbrev TFn (𝕜 K F : Type*) [RCLike 𝕜] := Arr 𝕜 → Act K F OpErr (Arr 𝕜)

/-- Operator objects built from operators without timers (`base`) and `TimedLinearOperator`s (utils.py 1365-1636). -/
inductive TOp (𝕜 K : Type*)
  | base (A : Ops.Op 𝕜)
  | timed (key : K) (A : TOp 𝕜 K)
  | sum (A B : TOp 𝕜 K)
  | prod (A B : TOp 𝕜 K)
  | scaled (A : TOp 𝕜 K) (α : 𝕜)
  | power (A : TOp 𝕜 K) (p : ℤ)
  | adj (A : TOp 𝕜 K)

/-- See `Ops.Op.shape` (utils.py 1374, 1475-1588, 1609). -/
def TOp.shape : TOp 𝕜 K → ℕ × ℕ
  | .base A => A.shape
  | .timed _ A => A.shape
  | .sum A _ => A.shape
  | .prod A B => (A.shape.1, B.shape.2)
  | .scaled A _ => A.shape
  | .power A _ => A.shape
  | .adj A => (A.shape.2, A.shape.1)

/-- `isinstance(A, IdentityLinearOperator)` (utils.py 1409-1411, 894). -/
def TOp.isIdent : TOp 𝕜 K → Bool
  | .base (.ident _ _) => true
  | _ => false

/-- See `Ops.guard` (utils.py 1382-1402). -/
def tguard (n : ℕ) (raw : Option (TFn 𝕜 K F)) : TFn 𝕜 K F := fun X =>
  if X.rows ≠ n then Act.lift (.error .linop)
  else match raw with
    | none => Act.lift (.error .linop)
    | some f => if X.cols = 0 then Act.lift (.ok (Arr.zeros X.rows X.cols)) else f X

/-- See `Ops.iter` (utils.py 1535-1539). -/
def titer (f : Option (TFn 𝕜 K F)) : ℕ → TFn 𝕜 K F
  | 0 => fun X => Act.lift (.ok X)
  | k + 1 => fun X => Act.bind (titer f k X) fun Y => match f with
    | none => Act.lift (.error .type)
    | some f => f Y

/-- See `Ops.andThen` (utils.py 1498, 1501). -/
def tandThen (f g : TFn 𝕜 K F) : TFn 𝕜 K F := fun X => Act.bind (f X) g

/-- See `Ops.plus` (utils.py 1480, 1483). -/
def tplus (f g : TFn 𝕜 K F) : TFn 𝕜 K F := fun X =>
  Act.bind (f X) fun Y => Act.bind (g X) fun Z => Act.lift (Y.add Z)

/-- See `Ops.times` (utils.py 1516, 1519). -/
def ttimes (α : 𝕜) (f : TFn 𝕜 K F) : TFn 𝕜 K F := fun X => Act.bind (f X) fun Y => Act.lift (.ok (Y.smul α))

/-- See `Ops.Calls` (utils.py 1371-1402). -/
structure TCalls (𝕜 K F : Type*) [RCLike 𝕜] where
  rawDot : Option (TFn 𝕜 K F)
  rawAdj : Option (TFn 𝕜 K F)
  dot : TFn 𝕜 K F
  dotAdj : TFn 𝕜 K F

/-- See `Ops.Calls.std` (utils.py 1381-1402). -/
def TCalls.std (shape : ℕ × ℕ) (raw rawAdj : Option (TFn 𝕜 K F)) : TCalls 𝕜 K F :=
  ⟨raw, rawAdj, tguard shape.2 raw, tguard shape.1 rawAdj⟩

/-- A method without effects (utils.py 1381-1402). -/
def liftFn (f : Fn 𝕜) : TFn 𝕜 K F := fun X => Act.lift (f X)

/-- The methods of the operator classes, see `Ops.Op.calls`; `TimedLinearOperator` utils.py 1605-1636: the attributes
`_dot`, `_dot_adj` are the methods of the wrapped operator (1608-1613), only `dot` and `dot_adj` measure. -/
def TOp.calls (clk : ℕ → F) : TOp 𝕜 K → TCalls 𝕜 K F
  | .base A => ⟨A.calls.rawDot.map liftFn, A.calls.rawAdj.map liftFn, liftFn A.calls.dot, liftFn A.calls.dotAdj⟩
  | .timed key A => ⟨some (A.calls clk).dot, some (A.calls clk).dotAdj,
      fun X => if X.cols = 0 then (A.calls clk).dot X else timedBlock clk key X.cols ((A.calls clk).dot X),
      fun X => if X.cols = 0 then (A.calls clk).dot X else timedBlock clk key X.cols ((A.calls clk).dotAdj X)⟩
  | .sum A B => .std A.shape (some (tplus (A.calls clk).dot (B.calls clk).dot))
      (some (tplus (A.calls clk).dotAdj (B.calls clk).dotAdj))
  | .prod A B => .std (A.shape.1, B.shape.2) (some (tandThen (B.calls clk).dot (A.calls clk).dot))
      (some (tandThen (A.calls clk).dotAdj (B.calls clk).dotAdj))
  | .scaled A α => .std A.shape (some (ttimes α (A.calls clk).dot)) (some (ttimes (star α) (A.calls clk).dotAdj))
  | .power A p => .std A.shape (some (titer (some (A.calls clk).dot) p.toNat)) (some (titer (A.calls clk).rawAdj p.toNat))
  | .adj A => .std (A.shape.2, A.shape.1) (A.calls clk).rawAdj (A.calls clk).rawDot

/-- `op.dot(X)` (utils.py 1381-1390, 1619-1626). -/
def TOp.dot (clk : ℕ → F) (A : TOp 𝕜 K) : TFn 𝕜 K F := (A.calls clk).dot
/-- `op.dot_adj(X)` (utils.py 1392-1402, 1628-1636). -/
def TOp.dotAdj (clk : ℕ → F) (A : TOp 𝕜 K) : TFn 𝕜 K F := (A.calls clk).dotAdj

/-- `op * X` for an array `X` (utils.py 1408-1421).  The conversion of `LinearOperatorError` into an object array by
numpy (see `Ops.Op.mul`) is left out: the error itself is kept. -/
def TOp.apply (clk : ℕ → F) (A : TOp 𝕜 K) : TFn 𝕜 K F := fun X => if A.isIdent then Act.lift (.ok X) else A.dot clk X

/-- `A * B` for operators (utils.py 1408-1421, 1487-1495); `NotImplemented` ends in a `TypeError`. -/
def TOp.mul (A B : TOp 𝕜 K) : Except OpErr (TOp 𝕜 K) :=
  if B.isIdent then .ok A
  else if A.isIdent then .ok B
  else if A.shape.2 = B.shape.1 then .ok (.prod A B) else .error .type

/-- Arguments of `get_linearoperator`: `None`, an operator, an array, something else (utils.py 241-273). -/
inductive TArg (𝕜 K : Type*)
  | none
  | op (A : TOp 𝕜 K)
  | arr (A : Arr 𝕜)
  | other

/-- utils.py 241-273; `timer` is the key of the timer, if one is passed. -/
def getOp (shape : ℕ × ℕ) (timer : Option K) (a : TArg 𝕜 K) : Except OpErr (TOp 𝕜 K) :=
  let ret : Except OpErr (TOp 𝕜 K) := match a with
    | .op A => .ok A
    | .none => .ok (.base (.ident shape.1 shape.2))
    | .arr A => .ok (.base (.mat A))
    | .other => .error .type
  match ret with
  | .error e => .error e
  | .ok r =>
    -- lines 262-267
    let r := match timer with
      | Option.none => r
      | some key => match a with
        | .none => r
        | .op A => if A.isIdent then r else .timed key r
        | _ => .timed key r
    if shape = r.shape then .ok r else .error .linop

/-- A callable inner product: a user function, or the function of linsys.py 229-237 around another one. -/
inductive TCallable (𝕜 K : Type*) [RCLike 𝕜]
  | base (f : Arr 𝕜 → Arr 𝕜 → Except OpErr (Arr 𝕜))
  | timed (key : K) (f : TCallable 𝕜 K)

/-- linsys.py 229-237. -/
def TCallable.call (clk : ℕ → F) : TCallable 𝕜 K → Arr 𝕜 → Arr 𝕜 → Act K F OpErr (Arr 𝕜)
  | .base f => fun X Y => Act.lift (f X Y)
  | .timed key f => fun X Y =>
    if X.cols = 0 ∨ Y.cols = 0 then f.call clk X Y
    else timedBlock clk key ((X.cols * Y.cols : ℕ) : F) (f.call clk X Y)

/-- The argument `ip_B`: something which `get_linearoperator` is called with, or a callable (for which it raises
`TypeError`) (linsys.py 205-216, 226-240). -/
inductive TIp (𝕜 K : Type*) [RCLike 𝕜]
  | arg (a : TArg 𝕜 K)
  | callable (f : TCallable 𝕜 K)

/-- The attribute `ip_B` of a system (linsys.py 84-90, 226-238). -/
inductive TIpAttr (𝕜 K : Type*) [RCLike 𝕜]
  | op (B : TOp 𝕜 K)
  | callable (f : TCallable 𝕜 K)

/-- utils.py 160-193 for the attribute `ip_B` of a system. -/
def tinner (clk : ℕ → F) (ip : TIpAttr 𝕜 K) (X Y : Arr 𝕜) : Act K F OpErr (Arr 𝕜) :=
  match ip with
  | .callable f => f.call clk X Y
  | .op B =>
    if B.isIdent then Act.lift (X.conjT.mul Y)
    else if (X.rows, X.rows) ≠ B.shape then Act.lift (.error .linop)
    else if Y.cols < X.cols then Act.bind (B.apply clk X) fun BX => Act.lift (BX.conjT.mul Y)
    else Act.bind (B.apply clk Y) fun BY => Act.lift (X.conjT.mul BY)

/-- Constructor arguments of `LinearSystem` and `TimedLinearSystem` (linsys.py 13-26, 205-218); `b` has one column. -/
structure TArgs (𝕜 K : Type*) [RCLike 𝕜] where
  N : ℕ
  A : TArg 𝕜 K
  b : Matrix (Fin N) (Fin 1) 𝕜
  M : TArg 𝕜 K
  Minv : TArg 𝕜 K
  Ml : TArg 𝕜 K
  Mr : TArg 𝕜 K
  ip : TIp 𝕜 K
  normal : Option Bool
  selfAdjoint : Bool
  positiveDefinite : Bool

/-- Attributes of a system (linsys.py 74-122). -/
structure TSys (𝕜 K : Type*) [RCLike 𝕜] where
  N : ℕ
  A : TOp 𝕜 K
  b : Matrix (Fin N) (Fin 1) 𝕜
  M : TOp 𝕜 K
  Minv : TOp 𝕜 K
  Ml : TOp 𝕜 K
  Mr : TOp 𝕜 K
  MlAMr : TOp 𝕜 K
  ip : TIpAttr 𝕜 K
  normal : Bool
  selfAdjoint : Bool
  positiveDefinite : Bool
  Mlb : Arr 𝕜
  MMlb : Arr 𝕜
  MMlbNorm : ℝ

/-- Errors of operators as exceptions of the package (utils.py 94-100). -/
def opErr : OpErr → Err
  | .linop => .operatorError
  | .value => .valueError
  | .type => .typeError

/-- The operators of a system (linsys.py 79-90). -/
structure TOps (𝕜 K : Type*) [RCLike 𝕜] where
  A : TOp 𝕜 K
  M : TOp 𝕜 K
  Minv : TOp 𝕜 K
  Ml : TOp 𝕜 K
  Mr : TOp 𝕜 K
  MlAMr : TOp 𝕜 K
  ip : TIpAttr 𝕜 K

/-- linsys.py 86-90 and 226-237: `get_linearoperator`, with callables being kept. -/
def getIp (shape : ℕ × ℕ) (timer : Option K) : TIp 𝕜 K → Except OpErr (TIpAttr 𝕜 K)
  | .arg a => (getOp shape timer a).map .op
  | .callable f => .ok (.callable (match timer with
    | none => f
    | some key => .timed key f))

/-- linsys.py 79-90.  `other` for `ip_B` stands for an object which is neither an operator nor callable; the `TypeError` is
swallowed (line 88) and raised by the call in `utils.norm` instead; the outcome is the same. -/
def lsOps (a : TArgs 𝕜 K) : Except OpErr (TOps 𝕜 K) :=
  let shape := (a.N, a.N)
  match getOp shape none a.A, getOp shape none a.M, getOp shape none a.Minv, getOp shape none a.Ml, getOp shape none a.Mr with
  | .ok A, .ok M, .ok Minv, .ok Ml, .ok Mr =>
    -- line 85
    match Ml.mul A with
    | .error e => .error e
    | .ok MlA => match MlA.mul Mr with
      | .error e => .error e
      | .ok MlAMr => match getIp shape none a.ip with
        | .error e => .error e
        | .ok ip => .ok ⟨A, M, Minv, Ml, Mr, MlAMr, ip⟩
  | .error e, _, _, _, _ | _, .error e, _, _, _ | _, _, .error e, _, _ | _, _, _, .error e, _ | _, _, _, _, .error e => .error e

/-- Errors of an operator computation turned into exceptions of the package (utils.py 94-100; no counterpart in the code). -/
def Act.mapErr {α : Type*} (a : Act K F OpErr α) : Act K F Err α := fun w => match a w with
  | (.error e, w) => (.error (opErr e), w)
  | (.ok x, w) => (.ok x, w)

/-- linsys.py 74-122: the constructor of `LinearSystem`. -/
noncomputable def lsInit (clk : ℕ → F) (a : TArgs 𝕜 K) : Act K F Err (TSys 𝕜 K) :=
  match lsOps a with
  | .error e => Act.lift (.error (opErr e))
  | .ok o =>
    -- lines 96-112
    let normal : Bool := if a.selfAdjoint then true else a.normal.getD false
    if a.selfAdjoint && !normal then Act.lift (.error .argumentError)
    else
      -- lines 120-122
      Act.bind (Act.mapErr (o.Ml.apply clk ⟨a.N, 1, a.b⟩)) fun Mlb =>
      Act.bind (Act.mapErr (o.M.apply clk Mlb)) fun MMlb =>
      Act.bind (Act.mapErr (tinner clk o.ip Mlb MMlb)) fun z =>
      match npNorm (z.get 0 0) with
      | .error e => Act.lift (.error e)
      | .ok nb => Act.lift (.ok ⟨a.N, o.A, a.b, o.M, o.Minv, o.Ml, o.Mr, o.MlAMr, o.ip, normal, a.selfAdjoint, a.positiveDefinite, Mlb, MMlb, nb⟩)

/-- The entries of `TimedLinearSystem.timings` (linsys.py 227, 241-246). -/
inductive Name | A | M | Minv | Ml | Mr | ipB
  deriving DecidableEq, Repr

/-- An operator as an argument (linsys.py 258-274). -/
def TIpAttr.asArg : TIpAttr 𝕜 K → TIp 𝕜 K
  | .op B => .arg (.op B)
  | .callable f => .callable f

/-- linsys.py 218-247: the arguments passed on to `LinearSystem.__init__`; `key` are the entries of the new `Timings`. -/
def timedArgs (key : Name → K) (a : TArgs 𝕜 K) : Except OpErr (TArgs 𝕜 K) :=
  let shape := (a.N, a.N)
  match getIp shape (some (key .ipB)) a.ip with
  | .error e => .error e
  | .ok ip =>
    match getOp shape (some (key .A)) a.A, getOp shape (some (key .M)) a.M, getOp shape (some (key .Minv)) a.Minv,
        getOp shape (some (key .Ml)) a.Ml, getOp shape (some (key .Mr)) a.Mr with
    | .ok A, .ok M, .ok Minv, .ok Ml, .ok Mr =>
      .ok { a with A := .op A, M := .op M, Minv := .op Minv, Ml := .op Ml, Mr := .op Mr, ip := ip.asArg }
    | .error e, _, _, _, _ | _, .error e, _, _, _ | _, _, .error e, _, _ | _, _, _, .error e, _ | _, _, _, _, .error e => .error e

/-- linsys.py 204-252: the constructor of `TimedLinearSystem`; the entries of the `defaultdict` are created by the look-ups
of lines 226, 241 and 243-246. -/
noncomputable def timedInit (clk : ℕ → F) (key : Name → K) (a : TArgs 𝕜 K) : Act K F Err (TSys 𝕜 K) := fun w =>
  match timedArgs key a with
  | .error e => (.error (opErr e), w)
  | .ok a' => lsInit clk a' ⟨w.now, (((((w.tm.touch (key .ipB)).touch (key .A)).touch (key .M)).touch (key .Minv)).touch
      (key .Ml)).touch (key .Mr)⟩

/-- linsys.py 257-273: all attributes as arguments. -/
def TSys.toArgs (s : TSys 𝕜 K) : TArgs 𝕜 K :=
  ⟨s.N, .op s.A, s.b, .op s.M, .op s.Minv, .op s.Ml, .op s.Mr, s.ip.asArg, some s.normal, s.selfAdjoint, s.positiveDefinite⟩

/-- linsys.py 255-274: `ConvertedTimedLinearSystem`. -/
noncomputable def convertedInit (clk : ℕ → F) (key : Name → K) (s : TSys 𝕜 K) : Act K F Err (TSys 𝕜 K) :=
  timedInit clk key s.toArgs

/-- linsys.py 130-161 with `compute_norm=False` for a column `z`: `(MMlr, Mlr)`. -/
def TSys.getResidual (clk : ℕ → F) (s : TSys 𝕜 K) (z : Arr 𝕜) : Act K F OpErr (Arr 𝕜 × Arr 𝕜) :=
  Act.bind (s.A.apply clk z) fun Az =>
  Act.bind (Act.lift ((⟨s.N, 1, s.b⟩ : Arr 𝕜).add (Az.smul (-1)))) fun r =>
  Act.bind (s.Ml.apply clk r) fun Mlr =>
  Act.bind (s.M.apply clk Mlr) fun MMlr => Act.lift (.ok (MMlr, Mlr))

end Krypy.Timed
