import Verif.Model.Driver
import Mathlib.Data.Nat.Notation

/-!
# Model of the convenience functions (krypy/_convenience.py)

The functions assemble keyword arguments and call a solver class; the solver itself is a parameter
(`Call → Outcome`), so the statements hold for any solver behaviour and any arithmetic.
-/

namespace Krypy.Conv

/-- Which of the three functions `cg`, `minres`, `gmres` is called (_convenience.py 19, 82, 147). -/
inductive Fun
  | cg | minres | gmres
  deriving DecidableEq, Repr

/-- An array of the user: shape (1-d or 2-d) and data (arguments `b`, `x0` of _convenience.py 19-31, 82-95, 147-160). -/
structure UArr (D : Type*) where
  shape : List ℕ
  data : D

/-- _convenience.py 10-16: two-dimensional arrays are lists of columns; the result is the
list of rows.  Indexing `b[:, 0]` of an array without columns is an `IndexError`. -/
def wrapInner {V F : Type*} (inner : V → V → F) (a b : List V) : Except Err (List (List F)) :=
  match a with
  | [] => .ok [[]]
  | x :: _ => match b with
    | [] => .error .valueError
    | y :: _ => .ok [[inner x y]]

/-- The arguments of the convenience functions (_convenience.py 19-34, 82-98, 147-163); `O` are
operators, `D` array data, `I` inner products. `ortho` is not an argument of `cg`. -/
structure Args (F O D I : Type*) where
  A : O
  Ashape : List ℕ
  b : UArr D
  M : Option O
  Minv : Option O
  Ml : Option O
  Mr : Option O
  innerProduct : Option I
  exactSolution : Option (UArr D)
  ortho : String
  x0 : Option (UArr D)
  U : Option (UArr D)
  tol : F
  maxiter : Option ℕ
  useExplicitResidual : Bool
  storeArnoldi : Bool

/-- The call `Solver(LinearSystem(..), ..)` that is made.  `wrapped` is the inner product after
`wrap_inner_product`; an absent keyword has the default value of the callee
(linsys.py 13-29: `Mr=None`, flags `False`; 280-289: `explicit_residual=False, store_arnoldi=False`). -/
structure Call (F O D I : Type*) where
  solver : Fun
  deflated : Bool
  A : O
  b : UArr D
  M : Option O
  Minv : Option O
  Ml : Option O
  Mr : Option O
  wrapped : Option I
  normal : Bool
  selfAdjoint : Bool
  positiveDefinite : Bool
  exactSolution : Option (UArr D)
  ortho : Option String
  x0 : Option (UArr D)
  U : Option (UArr D)
  tol : F
  maxiter : Option ℕ
  explicitResidual : Bool
  storeArnoldi : Bool

/-- numpy `X.reshape(X.shape[0], -1)` of a 1-d or 2-d array (data unchanged) (_convenience.py 44, 46, 108, 110, 173, 175). -/
def reshape2 {D : Type*} (X : UArr D) : UArr D :=
  { X with shape := match X.shape with
      | [n] => [n, 1]
      | s => s }

/-- _convenience.py 35-78, 99-143, 164-206: the assertions and the call. `AssertionError` is
`Err.other`. -/
def mkCall {F O D I : Type*} (f : Fun) (wrap : I → I) (a : Args F O D I) :
    Except Err (Call F O D I) :=
  match a.Ashape with
  | [m, n] =>
    if m = n ∧ a.b.shape.head? = some n then
      .ok {
        solver := f
        deflated := a.U.isSome
        A := a.A
        b := a.b
        M := a.M
        Minv := a.Minv
        Ml := a.Ml
        Mr := none
        wrapped := a.innerProduct.map wrap
        normal := false
        selfAdjoint := f != .gmres
        positiveDefinite := f == .cg
        exactSolution := a.exactSolution
        ortho := if f = .cg then none else some a.ortho
        x0 := a.x0.map reshape2
        U := a.U.map reshape2
        tol := a.tol
        maxiter := a.maxiter
        explicitResidual := a.useExplicitResidual
        storeArnoldi := a.storeArnoldi }
    else .error .other
  | _ => .error .other

/-- The attributes of the solver object that are read afterwards (_convenience.py 79, 144, 207). -/
structure Solved (F D : Type*) where
  xk : UArr D
  resnorms : List F

/-- _convenience.py 79, 144, 207 and the surrounding function: a raised exception (in particular
`ConvergenceError`) propagates.  `resnorms[-1]` of an empty list is an `IndexError`. -/
def convenience {F O D I : Type*} [LT F] [DecidableLT F] (f : Fun) (wrap : I → I)
    (solve : Call F O D I → Outcome (Solved F D)) (a : Args F O D I) :
    Outcome (Option (UArr D) × Solved F D) :=
  match mkCall f wrap a with
  | .error e => .raised e
  | .ok c => match solve c with
    | .raised e => .raised e
    | .outOfFuel => .outOfFuel
    | .convergence out => .convergence (none, out)
    | .returned out => match out.resnorms.getLast? with
      | none => .raised .valueError
      | some r => .returned
          (if r < a.tol then some { out.xk with shape := a.b.shape } else none, out)

end Krypy.Conv
