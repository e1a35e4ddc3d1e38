import Verif.Model.Driver
import Mathlib.Analysis.RCLike.Basic
import Mathlib.LinearAlgebra.Matrix.ConjTranspose

/-!
# Model of the operator classes (utils.py 1365-1636)

Arrays carry their shape at run time, as numpy arrays do.  Not modelled: dtypes, object identity,
the wall-clock side effect of `TimedLinearOperator` (see `Model/Timings`).
-/

namespace Krypy.Ops
open Matrix

/-- Exceptions which the operator code raises: `LinearOperatorError` (utils.py 96), numpy's
`ValueError` for incompatible shapes, Python's `TypeError`. -/
inductive OpErr
  | linop
  | value
  | type
  deriving DecidableEq, Repr

/-- A two-dimensional numpy array (arguments and results of utils.py 1381-1402). -/
structure Arr (𝕜 : Type*) where
  rows : ℕ
  cols : ℕ
  data : Matrix (Fin rows) (Fin cols) 𝕜

variable {𝕜 : Type*} [RCLike 𝕜]

/-- `A.dot(X)` of numpy: `ValueError` unless the inner dimensions agree (utils.py 1594, 1599). -/
def Arr.mul (A X : Arr 𝕜) : Except OpErr (Arr 𝕜) :=
  if h : X.rows = A.cols then
    .ok ⟨A.rows, X.cols, A.data * X.data.submatrix (Fin.cast h.symm) id⟩
  else .error .value

/-- numpy broadcasting of one axis (the sums of utils.py 1480, 1483). -/
def bdim (a b : ℕ) : Option ℕ :=
  if a = b then some a else if a = 1 then some b else if b = 1 then some a else none

/-- Element access (0 outside; never used outside) (no counterpart in the code). -/
def Arr.get (A : Arr 𝕜) (i j : ℕ) : 𝕜 :=
  if h : i < A.rows ∧ j < A.cols then A.data ⟨i, h.1⟩ ⟨j, h.2⟩ else 0

/-- `X + Y` of numpy arrays, with broadcasting (utils.py 1480, 1483). -/
def Arr.add (A B : Arr 𝕜) : Except OpErr (Arr 𝕜) :=
  match bdim A.rows B.rows, bdim A.cols B.cols with
  | some r, some c => .ok ⟨r, c, Matrix.of fun i j =>
      A.get (if A.rows = 1 then 0 else i) (if A.cols = 1 then 0 else j) +
      B.get (if B.rows = 1 then 0 else i) (if B.cols = 1 then 0 else j)⟩
  | _, _ => .error .value

/-- `alpha * X` (utils.py 1516, 1519). -/
def Arr.smul (α : 𝕜) (A : Arr 𝕜) : Arr 𝕜 := ⟨A.rows, A.cols, α • A.data⟩

/-- `X.T.conj()` (utils.py 1598). -/
def Arr.conjT (A : Arr 𝕜) : Arr 𝕜 := ⟨A.cols, A.rows, A.dataᴴ⟩

/-- `numpy.zeros((m, n))` (utils.py 1389, 1400, 1579, 1582). -/
def Arr.zeros (m n : ℕ) : Arr 𝕜 := ⟨m, n, 0⟩

/-- A Python function from arrays to arrays, which may raise (the attributes `_dot` and `_dot_adj`, utils.py 1378-1379). -/
abbrev Fn (𝕜 : Type*) := Arr 𝕜 → Except OpErr (Arr 𝕜)

/-- Operator objects, one constructor per class of utils.py 1365-1636; `user` is a plain
`LinearOperator(shape, dtype, dot, dot_adj)` (1371-1380) with optional functions. -/
inductive Op (𝕜 : Type*)
  | user (m n : ℕ) (dot dotAdj : Option (Fn 𝕜))
  | mat (A : Arr 𝕜)
  | ident (m n : ℕ)
  | zero (m n : ℕ)
  | sum (A B : Op 𝕜)
  | prod (A B : Op 𝕜)
  | scaled (A : Op 𝕜) (α : 𝕜)
  | power (A : Op 𝕜) (p : ℤ)
  | adj (A : Op 𝕜)
  | timed (A : Op 𝕜)

/-- The attribute `shape` as set by the constructors (1374, 1475, 1493, 1511, 1531, 1553, 1561, 1574,
1587, 1609) (of utils.py). -/
def Op.shape : Op 𝕜 → ℕ × ℕ
  | .user m n _ _ => (m, n)
  | .mat A => (A.rows, A.cols)
  | .ident m n => (m, n)
  | .zero m n => (m, n)
  | .sum A _ => A.shape
  | .prod A B => (A.shape.1, B.shape.2)
  | .scaled A _ => A.shape
  | .power A _ => A.shape
  | .adj A => (A.shape.2, A.shape.1)
  | .timed A => A.shape

/-- utils.py 1382-1402, the checks of `dot` (for `n` = number of columns of the operator) and of
`dot_adj` (for `n` = number of rows); line 1389/1400: for an array without columns the result is
`zeros(X.shape)`. -/
def guard (n : ℕ) (raw : Option (Fn 𝕜)) : Fn 𝕜 := fun X =>
  if X.rows ≠ n then .error .linop
  else match raw with
    | none => .error .linop
    | some f => if X.cols = 0 then .ok (Arr.zeros X.rows X.cols) else f X

/-- utils.py 1535-1539: `p`-fold application; `range(p)` is empty for negative `p`.  Calling `None`
is a `TypeError`. -/
def iter (f : Option (Fn 𝕜)) : ℕ → Fn 𝕜
  | 0 => fun X => .ok X
  | k + 1 => fun X => match iter f k X with
    | .error e => .error e
    | .ok Y => match f with
      | none => .error .type
      | some f => f Y

/-- Sequential composition of Python calls (e.g. utils.py 1498, 1501). -/
def andThen (f g : Fn 𝕜) : Fn 𝕜 := fun X => match f X with
  | .error e => .error e
  | .ok Y => g Y

/-- Sum of the results of two calls (utils.py 1480, 1483). -/
def plus (f g : Fn 𝕜) : Fn 𝕜 := fun X => match f X with
  | .error e => .error e
  | .ok Y => match g X with
    | .error e => .error e
    | .ok Z => Y.add Z

/-- Scalar multiple of the result of a call (utils.py 1516, 1519). -/
def times (α : 𝕜) (f : Fn 𝕜) : Fn 𝕜 := fun X => match f X with
  | .error e => .error e
  | .ok Y => .ok (Y.smul α)

/-- The four callables of an operator object: the raw attributes `_dot`, `_dot_adj` and the public
methods `dot`, `dot_adj` (utils.py 1371-1402). -/
structure Calls (𝕜 : Type*) where
  rawDot : Option (Fn 𝕜)
  rawAdj : Option (Fn 𝕜)
  dot : Fn 𝕜
  dotAdj : Fn 𝕜

/-- The public methods inherited from `LinearOperator` (1382-1402) (of utils.py). -/
def Calls.std (shape : ℕ × ℕ) (raw rawAdj : Option (Fn 𝕜)) : Calls 𝕜 :=
  ⟨raw, rawAdj, guard shape.2 raw, guard shape.1 rawAdj⟩

/-- The methods of every class: user 1371-1402, `MatrixLinearOperator` 1593-1599,
`IdentityLinearOperator` 1565-1569, `ZeroLinearOperator` 1578-1582, `_SumLinearOperator` 1479-1483,
`_ProductLinearOperator` 1497-1501, `_ScaledLinearOperator` 1515-1519, `_PowerLinearOperator`
1535-1545 (note the raw `_dot_adj` of the argument on line 1545), `_AdjointLinearOperator` 1553-1555,
`TimedLinearOperator` 1607-1636 (note `dot` instead of `dot_adj` on line 1631) (of utils.py). -/
def Op.calls : Op 𝕜 → Calls 𝕜
  | .user m n d a => .std (m, n) d a
  | .mat A => .std (A.rows, A.cols) (some fun X => A.mul X) (some fun X => A.conjT.mul X)
  | .ident m n => .std (m, n) (some .ok) (some .ok)
  | .zero m n => .std (m, n) (some fun X => .ok (.zeros X.rows X.cols))
      (some fun X => .ok (.zeros X.rows X.cols))
  | .sum A B => .std A.shape (some (plus A.calls.dot B.calls.dot))
      (some (plus A.calls.dotAdj B.calls.dotAdj))
  | .prod A B => .std (A.shape.1, B.shape.2) (some (andThen B.calls.dot A.calls.dot))
      (some (andThen A.calls.dotAdj B.calls.dotAdj))
  | .scaled A α => .std A.shape (some (times α A.calls.dot))
      (some (times (star α) A.calls.dotAdj))
  | .power A p => .std A.shape (some (iter (some A.calls.dot) p.toNat))
      (some (iter A.calls.rawAdj p.toNat))
  | .adj A => .std (A.shape.2, A.shape.1) A.calls.rawAdj A.calls.rawDot
  | .timed A => ⟨some A.calls.dot, some A.calls.dotAdj, A.calls.dot,
      fun X => if X.cols = 0 then A.calls.dot X else A.calls.dotAdj X⟩

/-- `op.dot(X)` (utils.py 1381-1390). -/
def Op.dot (A : Op 𝕜) : Fn 𝕜 := A.calls.dot
/-- `op.dot_adj(X)` (utils.py 1392-1402). -/
def Op.dotAdj (A : Op 𝕜) : Fn 𝕜 := A.calls.dotAdj

/-- Right operands of `*`: an operator, a scalar, or a two-dimensional array (utils.py 1407-1420). -/
inductive Val (𝕜 : Type*)
  | op (A : Op 𝕜)
  | scalar (α : 𝕜)
  | arr (X : Arr 𝕜)
  /-- A numpy array of dtype object whose entries are operators (see `Op.mul`). -/
  | objArr (m n : ℕ) (f : Fin m → Fin n → Op 𝕜)

/-- utils.py 1408-1421 together with Python's binary operator protocol.  `LinearOperatorError` turns
into `NotImplemented`.  For two operators this ends in a `TypeError` (the reflected `__rmul__` 1423
rejects a non-scalar).  For an ndarray `X`, Python then calls `X.__rmul__(A)`, and numpy treats the
operator as an object scalar: the result is an object array of the operators `A * X[i,j]`. -/
def Op.mul (A : Op 𝕜) : Val 𝕜 → Except OpErr (Val 𝕜)
  | .op (.ident _ _) => .ok (.op A)
  | v => match A with
    | .ident _ _ => .ok v
    | A => match v with
      | .op B => if A.shape.2 = B.shape.1 then .ok (.op (.prod A B)) else .error .type
      | .scalar α => .ok (.op (.scaled A α))
      | .objArr _ _ _ => .error .type
      | .arr X => match A.dot X with
        | .ok Y => .ok (.arr Y)
        | .error .linop => .ok (.objArr X.rows X.cols fun i j => .scaled A (X.data i j))
        | .error e => .error e

/-- utils.py 1423-1427: `alpha * A`. -/
def Op.rmul (A : Op 𝕜) (α : 𝕜) : Op 𝕜 := .scaled A α

/-- utils.py 1435-1439 and 1470-1474. -/
def Op.add (A B : Op 𝕜) : Except OpErr (Op 𝕜) :=
  if A.shape = B.shape then .ok (.sum A B) else .error .type

/-- utils.py 1441-1445. -/
def Op.neg (A : Op 𝕜) : Op 𝕜 := .scaled A (-1)

/-- utils.py 1447-1448. -/
def Op.sub (A B : Op 𝕜) : Except OpErr (Op 𝕜) := A.add B.neg

/-- utils.py 1429-1433 and 1523-1529. -/
def Op.pow (A : Op 𝕜) (p : ℤ) : Except OpErr (Op 𝕜) :=
  if A.shape.1 = A.shape.2 then .ok (.power A p) else .error .type

/-- `A * B` for two operators, keeping only an operator result (utils.py 1407-1420). -/
def Op.mulOp (A B : Op 𝕜) : Except OpErr (Op 𝕜) :=
  match A.mul (.op B) with
  | .ok (.op C) => .ok C
  | .ok _ => .error .type
  | .error e => .error e

/-- utils.py 241-273 with `timer=None`: argument kinds `None`, operator, ndarray; anything else
raises `TypeError`. -/
inductive OpArg (𝕜 : Type*)
  | none
  | op (A : Op 𝕜)
  | arr (A : Arr 𝕜)
  | other

/-- utils.py 241-273 (`timed` says whether a timer is passed). -/
def getLinearoperator (shape : ℕ × ℕ) (timed : Bool) (a : OpArg 𝕜) : Except OpErr (Op 𝕜) :=
  let ret : Except OpErr (Op 𝕜) := match a with
    | .op A => .ok A
    | .none => .ok (.ident shape.1 shape.2)
    | .arr A => .ok (.mat A)
    | .other => .error .type
  match ret with
  | .error e => .error e
  | .ok r =>
    let r := match a with
      | .none => r
      | .op (.ident _ _) => r
      | _ => if timed then .timed r else r
    if shape = r.shape then .ok r else .error .linop

end Krypy.Ops
