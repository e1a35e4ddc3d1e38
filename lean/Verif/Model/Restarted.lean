import Verif.Model.Driver
import Mathlib.Data.Nat.Notation
import Mathlib.Data.Int.Notation

/-!
# Model of `_RestartedSolver` (krypy/linsys.py 1021-1072)

The inner solver is an arbitrary function of the initial guess; any arithmetic.
-/

namespace Krypy

/-- What the restart loop reads from the inner solver object (returned, or attached to the
`ConvergenceError`; linsys.py 1044-1054). -/
structure RSol (F X : Type*) where
  xk : X
  tol : F
  resnorms : List F
  errnorms : List F

/-- State of the restart loop. `sols` is a ghost field: the inner solver objects, in order (linsys.py 1029-1067). -/
structure RSt (F X : Type*) where
  xk : Option X
  resnorms : List F
  errnorms : List F
  tol : Option F
  restart : ℕ
  sols : List (RSol F X)

section
variable {F X : Type*} [LT F] [DecidableLT F]

/-- linsys.py 1042: `restart == 0 or (self.resnorms[-1] > tol and restart <= max_restarts)`. -/
def rGuard (maxRestarts : ℤ) (st : RSt F X) : Bool :=
  st.restart == 0 ||
    ((match st.tol, st.resnorms.getLast? with
      | some t, some r => decide (t < r)
      | _, _ => false) && decide ((st.restart : ℤ) ≤ maxRestarts))

/-- linsys.py 1043-1066: one cycle. `solve none` uses the user's `x0`, `solve (some x)` overrides it;
both normal return and `ConvergenceError` give a solver object, other exceptions propagate. -/
def rBody (solve : Option X → Except Err (RSol F X)) (st : RSt F X) : Except Err (RSt F X) :=
  match solve st.xk with
  | .error e => .error e
  | .ok sol => .ok {
      xk := some sol.xk
      tol := some sol.tol
      resnorms := st.resnorms.dropLast ++ sol.resnorms
      errnorms := st.errnorms.dropLast ++ sol.errnorms
      restart := st.restart + 1
      sols := st.sols ++ [sol] }

/-- linsys.py 1042-1072 with fuel. -/
def rLoop (maxRestarts : ℤ) (solve : Option X → Except Err (RSol F X)) :
    ℕ → RSt F X → Outcome (RSt F X)
  | fuel, st =>
    if rGuard maxRestarts st then
      match fuel with
      | 0 => .outOfFuel
      | fuel + 1 => match rBody solve st with
        | .error e => .raised e
        | .ok st => rLoop maxRestarts solve fuel st
    else
      match st.tol, st.resnorms.getLast? with
      | some t, some r => if t < r then .convergence st else .returned st
      | _, _ => .raised .other

/-- linsys.py 1024-1072: `_RestartedSolver.__init__`; `inf` is `numpy.Inf`. (`errnorms` is only kept by
the code when an exact solution is given; it is then treated in the same way as `resnorms`.) -/
def restarted (inf : F) (maxRestarts : ℤ) (solve : Option X → Except Err (RSol F X)) :
    Outcome (RSt F X) :=
  rLoop maxRestarts solve (maxRestarts.toNat + 1)
    { xk := none, resnorms := [inf], errnorms := [inf], tol := none, restart := 0, sols := [] }

end
end Krypy
