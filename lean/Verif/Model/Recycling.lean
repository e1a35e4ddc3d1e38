import Verif.Model.Driver
import Mathlib.Data.Nat.Notation

/-!
# Model of krypy/recycling/linsys.py (`_RecyclingSolver`) and of the timing bookkeeping

The linear system, the deflated solver and the vector factories are arbitrary functions.
-/

namespace Krypy

/-- The `vector_factory` argument: an object with a method `get`, or a string
(recycling/linsys.py 75-90).  `get` may raise. -/
inductive VFactory (Sol E : Type*)
  | obj (get : Sol → Except Err (List E))
  | str (name : String)

/-- The three shortcuts for strings (recycling/linsys.py 78-90). -/
structure Shortcuts (Sol E : Type*) where
  ritzApproxKrylov : Sol → Except Err (List E)
  ritzAprioriCg : Sol → Except Err (List E)
  ritzAprioriMinres : Sol → Except Err (List E)

/-- `vector_factory.get` after resolution of strings (recycling/linsys.py 78-90); other strings have
no attribute `get` (`AttributeError`). -/
def VFactory.getFun {Sol E : Type*} (sc : Shortcuts Sol E) :
    VFactory Sol E → Sol → Except Err (List E)
  | .obj get => get
  | .str "RitzApproxKrylov" => sc.ritzApproxKrylov
  | .str "RitzAprioriCg" => sc.ritzAprioriCg
  | .str "RitzAprioriMinres" => sc.ritzAprioriMinres
  | .str _ => fun _ => .error .other

/-- Attributes of `_RecyclingSolver` (recycling/linsys.py 36-50); of `timings` only the number of
measurements is kept. -/
structure RecState (Sol : Type*) where
  lastSolver : Option Sol
  nFactoryTimings : ℕ
  nSolveTimings : ℕ

/-- recycling/linsys.py 36-50: state after the constructor. -/
def RecState.init {Sol : Type*} : RecState Sol := ⟨none, 0, 0⟩

/-- One call of `solve`: the factory argument and the behaviour of
`DeflatedSolver(linear_system, U=U, store_arnoldi=True, ...)` as a function of `U` (recycling/linsys.py 51-103). -/
structure Call (Sol E : Type*) where
  factory : Option (VFactory Sol E)
  solver : List E → Except Err Sol

/-- recycling/linsys.py 74-76: the argument, else the constructor's factory. -/
def Call.effFactory {Sol E : Type*} (c : Call Sol E) (default : Option (VFactory Sol E)) :
    Option (VFactory Sol E) :=
  match c.factory with
  | none => default
  | some f => some f

/-- What happened in one call. `U = none` if the factory raised, i.e. the solver was not run (recycling/linsys.py 72-103; no counterpart in the code). -/
structure CallRecord (Sol E : Type*) where
  U : Option (List E)
  result : Except Err Sol

/-- recycling/linsys.py 98-103: run the deflated solver and store it. -/
def recRunSolver {Sol E : Type*} (st : RecState Sol) (c : Call Sol E) (U : List E) :
    RecState Sol × CallRecord Sol E :=
  match c.solver U with
  | .error e => ({ st with nSolveTimings := st.nSolveTimings + 1 }, ⟨some U, .error e⟩)
  | .ok s => ({ st with nSolveTimings := st.nSolveTimings + 1, lastSolver := some s },
      ⟨some U, .ok s⟩)

/-- recycling/linsys.py 52-103: `solve`.  Leaving a `with timer` block by an exception still appends a
measurement (`Timer.__exit__`, utils.py 1316-1317). -/
def recSolve {Sol E : Type*} (sc : Shortcuts Sol E) (default : Option (VFactory Sol E))
    (st : RecState Sol) (c : Call Sol E) : RecState Sol × CallRecord Sol E :=
  let factory := c.effFactory default
  let st := { st with nFactoryTimings := st.nFactoryTimings + 1 }
  -- lines 93-96
  let U := match st.lastSolver, factory with
    | some s, some f => f.getFun sc s
    | _, _ => .ok []
  match U with
  | .error e => (st, ⟨none, .error e⟩)
  | .ok U => recRunSolver st c U

/-- A sequence of calls of `solve` on one object (recycling/linsys.py 51-103). -/
def recRun {Sol E : Type*} (sc : Shortcuts Sol E) (default : Option (VFactory Sol E)) :
    RecState Sol → List (Call Sol E) → RecState Sol × List (CallRecord Sol E)
  | st, [] => (st, [])
  | st, c :: cs =>
    let r := recSolve sc default st c
    let rs := recRun sc default r.1 cs
    (rs.1, r.2 :: rs.2)

end Krypy
