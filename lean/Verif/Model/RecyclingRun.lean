import Verif.Model.Recycling
import Verif.Model.Factories
import Verif.Model.DeflCg
import Mathlib.Logic.Equiv.Fin.Basic

/-!
# `RecyclingCg` with Ritz factories (recycling/linsys.py 52-114, recycling/factories.py 49-51, 166-208)

The models of `_RecyclingSolver` and of the factories are put together with those of `DeflatedCg` and `Ritz`.
`numpy.linalg`/`scipy.linalg` routines are parameters (for every size).  `TimedLinearSystem` is `LinearSystem`.
-/

namespace Krypy
variable {𝕜 E : Type*} [RCLike 𝕜] [AddCommGroup E] [Module 𝕜 E]

/-- The attributes of a `DeflatedCg` object after its constructor which the factories use: `projection.U.shape[1]`,
`linear_system`, `projection` and the attributes of the run (deflation.py 96-131, linsys.py 592-696). -/
structure CgSol (𝕜 E : Type*) [RCLike 𝕜] [AddCommGroup E] [Module 𝕜 E] where
  k : ℕ
  s : LS 𝕜 E
  o : Obl 𝕜 E k
  st : St ℝ E (CgSt 𝕜 E × List ((Fin k → 𝕜) × Option (Fin k → 𝕜)))

/-- Attributes `V`, `H` and their size (linsys.py 691-696). -/
def CgSol.lan (x : CgSol 𝕜 E) : CgLanczos E := ⟨x.st.iter, x.st.s.1.V, x.st.s.1.H⟩

/-- `DeflatedCg(linear_system, U=U, store_arnoldi=True, ...)` (recycling/linsys.py 98-100, deflation.py 95-132, 236-263).  The
columns of `U` are given as a list.  `ConvergenceError` is `Err.other`. -/
noncomputable def recCgSolver (a : LSArgs 𝕜 E) (oa : ∀ k, OblArgs 𝕜 E k) (p : SolverArgs E) (U : List E) :
    Except Err (CgSol 𝕜 E) :=
  match mkLS a with
  | .error e => .error e
  | .ok s => match mkObl s (oa U.length) (fun j => U.get j) with
    | .error e => .error e
    | .ok o => match deflatedCg s o true p with
      | .returned st => .ok ⟨U.length, s, o, st⟩
      | .convergence _ => .error .other
      | .raised e => .error e
      | .outOfFuel => .error .other

/-- `deflation.Ritz(solver)` with the default `mode='ritz'` (factories.py 50, 168). -/
noncomputable def CgSol.ritz (x : CgSol 𝕜 E) (rt : ∀ n m, EigRoutines 𝕜 (Fin n ⊕ Fin m)) :
    Except Err (DeflRitzOut 𝕜 x.lan.n x.k) :=
  x.o.cgRitz x.s (rt x.lan.n x.k) x.lan.H x.lan.V (x.st.s.2.map (·.2)) .ritz

/-- Position `i` in an array of length `n + m` (`numpy.column_stack`, deflation.py 849-851). -/
def ritzIdx (n m i : ℕ) : Option (Fin n ⊕ Fin m) :=
  if h : i < n + m then some (finSumFinEquiv.symm ⟨i, h⟩) else none

/-- `ritz.get_vectors(indices)` (deflation.py 844-851); an index out of range is an `IndexError`.  Only the last column of `V`,
which is not used here, can be NaN (C33). -/
noncomputable def CgSol.getVectors (x : CgSol 𝕜 E) (out : DeflRitzOut 𝕜 x.lan.n x.k) (indices : List ℕ) : Except Err (List E) :=
  match indices.mapM (ritzIdx x.lan.n x.k) with
  | none => .error .valueError
  | some l => .ok (l.map fun i => deflRitzVec (fun j => (x.lan.V j).getD 0) x.o.U (out.coeffs i))

/-- An array of length `n + m` as a list (the arrays of deflation.py 765-767, 801-815). -/
def sumList {T : Type*} {n m : ℕ} (f : Fin n ⊕ Fin m → T) : List T := List.ofFn fun i => f (finSumFinEquiv.symm i)

/-- A scalar as a complex number (the arrays of deflation.py 796, 801). -/
noncomputable def toCplx (z : 𝕜) : ℂ := ⟨RCLike.re z, RCLike.im z⟩

/-- `RitzFactorySimple(n_vectors=n, which=which).get(solver)` (factories.py 166-194).  If the `resnorms` are NaN, all of them are,
and `argsort` returns any permutation, as for equal numbers. -/
noncomputable def simpleGet (rt : ∀ n m, EigRoutines 𝕜 (Fin n ⊕ Fin m)) (argsort : List ℝ → List ℕ) (n : ℕ) (which : Which)
    (x : CgSol 𝕜 E) : Except Err (List E) :=
  match x.ritz rt with
  | .error e => .error e
  | .ok out =>
    match simpleIndices argsort ((sumList out.values).map fun v => toCplx (v.getD 0))
        ((sumList out.resnorms).map fun r => r.getD 0) n which with
    | .error e => .error e
    | .ok indices => x.getVectors out indices

/-- What `RitzFactory` needs besides the Ritz pairs: `subset_evaluator.evaluate(ritz, subset)`, `subsets_generator.generate(ritz,
remaining)`, sums of residual norms (factories.py 99-101) and the order of `list(frozenset)` (factories.py 110). -/
structure RitzFactoryArgs (𝕜 E F : Type*) [RCLike 𝕜] [AddCommGroup E] [Module 𝕜 E] where
  eval : (x : CgSol 𝕜 E) → DeflRitzOut 𝕜 x.lan.n x.k → Finset ℕ → Except Err F
  gen : (x : CgSol 𝕜 E) → DeflRitzOut 𝕜 x.lan.n x.k → Finset ℕ → List (Finset ℕ)
  resSum : (x : CgSol 𝕜 E) → DeflRitzOut 𝕜 x.lan.n x.k → Finset ℕ → F
  order : Finset ℕ → List ℕ

/-- `RitzFactory(...).get(solver)` (factories.py 49-51). -/
noncomputable def ritzGet {F : Type*} [LT F] [DecidableLT F] (rt : ∀ n m, EigRoutines 𝕜 (Fin n ⊕ Fin m))
    (f : RitzFactoryArgs 𝕜 E F) (x : CgSol 𝕜 E) : Except Err (List E) :=
  match x.ritz rt with
  | .error e => .error e
  | .ok out => match getBestSubset (x.lan.n + x.k) (f.eval x out) (f.gen x out) (f.resSum x out) with
    | none => .error .other
    | some (.error e) => .error e
    | some (.ok sel) => x.getVectors out (f.order sel.1)

end Krypy
