import Verif.Model.Driver
import Mathlib.Data.Real.Basic
import Mathlib.Logic.Function.Basic
import Mathlib.Algebra.Order.Field.Basic

/-!
# Model of `Timer`, `Timings` (utils.py 1289-1362), the `operations` tables (linsys.py 698-708, 863-874,
1008-1018) and `estimate_time` (deflation.py 188-233)

Times are elements of a linearly ordered field (exact arithmetic).  A measured duration is an argument.
-/

namespace Krypy

/-- `Timings` is a `defaultdict` of lists of durations: `none` = key not present (utils.py 1321-1344). -/
abbrev Timings (K F : Type*) := K → Option (List F)

variable {K F : Type*} [DecidableEq K] [Field F] [LinearOrder F]

/-- `tm[key]` of a defaultdict: a missing key is created with an empty `Timer` (utils.py 1321-1344). -/
def Timings.touch (tm : Timings K F) (key : K) : Timings K F :=
  Function.update tm key (some ((tm key).getD []))

/-- utils.py 1313-1317: `with tm[key]: ...` taking `d` seconds appends `d`. -/
def Timings.record (tm : Timings K F) (key : K) (d : F) : Timings K F :=
  Function.update tm key (some ((tm key).getD [] ++ [d]))

/-- utils.py 1619-1626 (`TimedLinearOperator.dot`): applying a timed operator to a block of `k` columns;
for `k = 0` nothing is measured, otherwise the time per column is stored. -/
def Timings.recordBlock (tm : Timings K F) (key : K) (k : ℕ) (d : F) : Timings K F :=
  if k = 0 then tm else tm.record key (d / k)

/-- Python's `min` of a non-empty list (utils.py 1349). -/
def pyMin (t : F) : List F → F
  | [] => t
  | a :: l => pyMin (if a < t then a else t) l

/-- utils.py 1347-1352: `Timings.get`. -/
def Timings.get (tm : Timings K F) (key : K) : F :=
  match tm key with
  | some (t :: l) => pyMin t l
  | _ => 0

/-- utils.py 1354-1360: `Timings.get_ops`; the dictionary is an association list. -/
def Timings.getOps (tm : Timings K F) (ops : List (K × F)) : F :=
  ops.foldl (fun time oc => time + tm.get oc.1 * oc.2) 0

/-- The keys of the operation dictionaries (linsys.py 701-708, 867-874, 1011-1018, deflation.py 211-224). -/
inductive Op | A | M | Minv | Ml | Mr | ipB | axpy
  deriving DecidableEq, Repr

/-- The three solvers with an `operations` table (linsys.py 699, 865, 1009). -/
inductive SolverKind | cg | minres | gmres
  deriving DecidableEq, Repr

/-- linsys.py 698-708 (Cg), 863-874 (Minres), 1008-1018 (Gmres): `operations(nsteps)`. -/
def operations (kind : SolverKind) (nsteps : F) : List (Op × F) :=
  match kind with
  | .cg => [(.A, 1 + nsteps), (.M, 2 + nsteps), (.Ml, 2 + nsteps), (.Mr, 1 + nsteps),
      (.ipB, 2 + 2 * nsteps), (.axpy, 2 + 2 * nsteps)]
  | .minres => [(.A, 1 + nsteps), (.M, 2 + nsteps), (.Ml, 2 + nsteps), (.Mr, 1 + nsteps),
      (.ipB, 2 + 2 * nsteps), (.axpy, 4 + 8 * nsteps)]
  | .gmres => [(.A, 1 + nsteps), (.M, 2 + nsteps), (.Ml, 2 + nsteps), (.Mr, 1 + nsteps),
      (.ipB, 2 + nsteps + nsteps * (nsteps + 1) / 2),
      (.axpy, 4 + 2 * nsteps + nsteps * (nsteps + 1) / 2)]

/-- `ops[key]` (utils.py 1353-1359) -/
def opCount (ops : List (Op × F)) (op : Op) : F :=
  match ops.find? fun oc => oc.1 = op with
  | some oc => oc.2
  | none => 0

/-- deflation.py 206-222: operations of the projection. -/
def projOps (kind : SolverKind) (nsteps ndefl : F) : List (Op × F) :=
  let sMl := opCount (operations kind nsteps) .Ml
  [(.A, ndefl), (.M, ndefl), (.Ml, ndefl), (.Mr, ndefl),
    (.ipB, ndefl * (ndefl + 1) / 2 + ndefl ^ 2 + 2 * ndefl * sMl),
    (.axpy, ndefl * (ndefl + 1) / 2 + ndefl * ndefl + (2 * ndefl + 2) * sMl)]

/-- deflation.py 188-233: `estimate_time`; `timings = none` if the linear system is not a
`TimedLinearSystem`. -/
def estimateTime (kind : SolverKind) (timings : Option (Timings Op F)) (nsteps ndefl deflweight : F) :
    Except Err F :=
  match timings with
  | none => .error .other
  | some tm => .ok (tm.getOps (operations kind nsteps) +
      deflweight * tm.getOps (projOps kind nsteps ndefl))

end Krypy
