import Verif.Model.Minres
import Verif.Model.Cg

/-!
# Printing of solver objects and linear systems (linsys.py 178-201, 574-591, 771-789, 919-939)

Python evaluates the format arguments from left to right and line by line; the first missing attribute or entry raises.  How numpy
formats numbers and rows is not modelled: texts of numbers and of array rows are given.
-/

namespace Krypy

/-- Exceptions which can occur while an object is printed (linsys.py 178-201, 574-591, 771-789, 919-939). -/
inductive ReprErr
  | attributeError (name : String)
  | indexError
  | typeError
  deriving DecidableEq, Repr

/-- The attributes of a solver object which are printed, already formatted: arrays are lists of the texts of their rows, matrices
are given by their shape; `none` for an attribute which was never assigned (`R`, `V`) or has the value `None` (`xk`) (linsys.py 574-591, 771-789, 919-939). -/
structure Printable where
  MMlr0 : List String
  MMlr0Norm : String
  MlAMr : ℕ × ℕ
  Mlr0 : List String
  R : Option (ℕ × ℕ)
  V : Option (ℕ × ℕ)
  flatVecs : Bool
  storeArnoldi : Bool
  ortho : String
  tol : String
  maxiter : ℕ
  iter : ℕ
  explicitResidual : Bool
  resnorms : List String
  x0 : List String
  xk : Option (List String)

/-- `"{}".format(b)` for a Boolean (linsys.py 178-201, 574-591). -/
def pyBool (b : Bool) : String := if b then "True" else "False"

/-- `"...[{}, ..., {}]...".format(x[0], x[-1])`, e.g. linsys.py 576; an empty array has no entry 0. -/
def lineEnds (pre : String) (x : List String) (post : String) : Except ReprErr String :=
  match x.head?, x.getLast? with
  | some a, some b => .ok (pre ++ "[" ++ a ++ ", ..., " ++ b ++ "]" ++ post)
  | _, _ => .error .indexError

/-- `"...: {} x {} matrix\n".format(*self.<name>.shape)`, e.g. linsys.py 578, 925-926. -/
def lineShape (name : String) : Option (ℕ × ℕ) → Except ReprErr String
  | none => .error (.attributeError name)
  | some (m, n) => .ok ("    " ++ name ++ ": " ++ toString m ++ " x " ++ toString n ++ " matrix\n")

/-- `"    <name>: {}\n".format(value)`, e.g. linsys.py 580-585. -/
def lineVal (name value : String) : Except ReprErr String := .ok ("    " ++ name ++ ": " ++ value ++ "\n")

/-- The last line (linsys.py 590, 788, 938): `None[0]` is a `TypeError`. -/
def lineXk : Option (List String) → Except ReprErr String
  | none => .error .typeError
  | some x => lineEnds "    xk: " x ""

/-- `string = head; string += line; ...; return string`: the first exception ends the evaluation (linsys.py 178-201, 574-591, 771-789, 919-939). -/
def joinLines : String → List (Except ReprErr String) → Except ReprErr String
  | s, [] => .ok s
  | _, .error e :: _ => .error e
  | s, .ok l :: ls => joinLines (s ++ l) ls

/-- The first four lines after the header, common to the three solvers (linsys.py 576-579, 773-776, 921-924). -/
def reprStart (p : Printable) : List (Except ReprErr String) :=
  [lineEnds "    MMlr0 = " p.MMlr0 "\n", .ok ("    MMlr0_norm = " ++ p.MMlr0Norm ++ "\n"),
   lineShape "MlAMr" (some p.MlAMr), lineEnds "    Mlr0: " p.Mlr0 "\n"]

/-- The last lines, common to the three solvers (linsys.py 582-590, 780-788, 930-938). -/
def reprEnd (p : Printable) : List (Except ReprErr String) :=
  [lineVal "tol" p.tol, lineVal "maxiter" (toString p.maxiter), lineVal "iter" (toString p.iter),
   lineVal "explicit residual" (pyBool p.explicitResidual), lineEnds "    resnorms: " p.resnorms "\n",
   lineEnds "    x0: " p.x0 "\n", lineXk p.xk]

/-- `Cg.__repr__` (linsys.py 574-591). -/
def reprCg (p : Printable) : Except ReprErr String :=
  joinLines "krypy CG object\n" (reprStart p ++
    [lineVal "flat_vecs" (pyBool p.flatVecs), lineVal "store_arnoldi" (pyBool p.storeArnoldi)] ++ reprEnd p)

/-- `Minres.__repr__` (linsys.py 771-789). -/
def reprMinres (p : Printable) : Except ReprErr String :=
  joinLines "krypy MINRES object\n" (reprStart p ++
    [lineVal "flat_vecs" (pyBool p.flatVecs), lineVal "store_arnoldi" (pyBool p.storeArnoldi), lineVal "ortho" p.ortho] ++
    reprEnd p)

/-- `Gmres.__repr__` (linsys.py 919-939). -/
def reprGmres (p : Printable) : Except ReprErr String :=
  joinLines "krypy GMRES object\n" (reprStart p ++ [lineShape "R" p.R, lineShape "V" p.V,
    lineVal "flat_vecs" (pyBool p.flatVecs), lineVal "store_arnoldi" (pyBool p.storeArnoldi), lineVal "ortho" p.ortho] ++
    reprEnd p)

/-- The arguments of a call which are only stored for printing, and numpy's formatting: `rows x` are the texts of the rows of an
array of shape `(N, 1)` (linsys.py 178-201, 574-591). -/
structure Printer (E : Type*) where
  N : ℕ
  rows : E → List String
  num : ℝ → String
  flatVecs : Bool
  storeArnoldi : Bool
  ortho : String

section
variable {𝕜 E : Type*}

/-- The printed attributes of a solver object after `__init__` or in a `ConvergenceError` (linsys.py 345-405): `x0` is the
attribute, i.e. after it was replaced by zero for a zero right hand side; `R` and `V` are given by the solver. -/
def printable {S : Type*} (f : Printer E) (a : SolverArgs E) (MMlr0 Mlr0 : E) (r0 : ℝ) (x0 : E) (R V : Option (ℕ × ℕ))
    (st : St ℝ E S) : Printable :=
  ⟨f.rows MMlr0, f.num r0, (f.N, f.N), f.rows Mlr0, R, V, f.flatVecs, f.storeArnoldi, f.ortho, f.num a.tol, a.maxiter, st.iter,
    a.explicitResidual, st.resnorms.map f.num, f.rows x0, st.xk.map f.rows⟩

/-- `Gmres` objects: `R` is assigned before the loop (linsys.py 967), `V` in every iteration (979: the whole array) and by
`_finalize` if `store_arnoldi` (999-1004: the columns returned by `get()`, utils.py 1050-1061). -/
def printGmres (f : Printer E) (a : SolverArgs E) (MMlr0 Mlr0 : E) (r0 : ℝ) (st : St ℝ E (GmresSt 𝕜 E)) : Printable :=
  printable f a MMlr0 Mlr0 r0 st.s.x0 (some (a.maxiter + 1, a.maxiter))
    (if f.storeArnoldi then some (f.N, st.s.arn.get.basis)
     else if 0 < st.s.arn.iter then some (f.N, a.maxiter + 1) else none) st

/-- `Minres` objects (linsys.py 791-863). -/
def printMinres (f : Printer E) (a : SolverArgs E) (MMlr0 Mlr0 : E) (r0 : ℝ) (st : St ℝ E (MinresSt 𝕜 E)) : Printable :=
  printable f a MMlr0 Mlr0 r0 st.s.x0 none (if f.storeArnoldi then some (f.N, st.s.arn.get.basis) else none) st

/-- `Cg` objects (linsys.py 593-696). -/
def printCg (f : Printer E) (a : SolverArgs E) (MMlr0 Mlr0 : E) (r0 : ℝ) (st : St ℝ E (CgSt 𝕜 E)) : Printable :=
  printable f a MMlr0 Mlr0 r0 st.s.x0 none (if f.storeArnoldi then some (f.N, st.iter + 1) else none) st

end

/-- Values of the attributes which `LinearSystem.__repr__` lists (linsys.py 187-199): `None`, an `IdentityLinearOperator`, or
anything else with its `repr`. -/
inductive SysAttr
  | none
  | identity
  | shown (repr : String)

/-- `add(k)` (linsys.py 181-185). -/
def reprAttr (k : String) : SysAttr → String
  | .shown r => "  " ++ k ++ ": " ++ r ++ "\n"
  | _ => ""

/-- `get_linearoperator(shape, X)` (utils.py 241-273) as far as printing is concerned: `None` becomes the identity operator; an
argument which is already an `IdentityLinearOperator` (`.identity`) is kept. -/
def SysAttr.asOperator : SysAttr → SysAttr
  | .none => .identity
  | x => x

/-- The constructor arguments of `LinearSystem` (linsys.py 13-26) as far as printing is concerned. -/
structure SysArgs where
  A : SysAttr
  b : String
  M : SysAttr
  Minv : SysAttr
  Ml : SysAttr
  Mr : SysAttr
  ipB : SysAttr
  normal : Option Bool
  selfAdjoint : Bool
  positiveDefinite : Bool
  exact : Option String

/-- The attributes (linsys.py 80-108): operators go through `get_linearoperator` (a function `ip_B` is kept as it is), `normal` as in
`mkLS`. -/
def SysArgs.attrs (a : SysArgs) : List (String × SysAttr) :=
  [("A", a.A.asOperator), ("b", .shown a.b), ("M", a.M.asOperator), ("Minv", a.Minv.asOperator), ("Ml", a.Ml.asOperator),
   ("Mr", a.Mr.asOperator), ("ip_B", a.ipB.asOperator),
   ("normal", .shown (pyBool (if a.selfAdjoint then true else a.normal.getD false))),
   ("self_adjoint", .shown (pyBool a.selfAdjoint)), ("positive_definite", .shown (pyBool a.positiveDefinite)),
   ("exact_solution", match a.exact with | some r => .shown r | none => .none)]

/-- `LinearSystem.__repr__` (linsys.py 178-201). -/
def reprSystem (a : SysArgs) : String :=
  a.attrs.foldl (fun s x => s ++ reprAttr x.1 x.2) "LinearSystem {\n" ++ "}"

end Krypy
