import Verif.Model.RecyclingRun

/-!
# `RecyclingMinres` and `RecyclingGmres` with Ritz factories (recycling/linsys.py 117-136, recycling/factories.py 49-51, 166-194)

As `Model/RecyclingRun`, for the two solvers which are based on `Arnoldi`.
-/

namespace Krypy
variable {𝕜 E : Type*} [RCLike 𝕜] [AddCommGroup E] [Module 𝕜 E]

/-- The attributes of a `DeflatedMinres` or `DeflatedGmres` object after its constructor which are used later: those of
`CgSol`, where `arn` is the `Arnoldi` object whose `get()` became `V`, `H` (linsys.py 855-862, 999-1006) and `C` the list of the
columns of the attribute `C` (deflation.py 134-142). -/
structure ArnSol (𝕜 E : Type*) [RCLike 𝕜] [AddCommGroup E] [Module 𝕜 E] where
  k : ℕ
  s : LS 𝕜 E
  o : Obl 𝕜 E k
  arn : Arn 𝕜 E
  C : List (Fin k → 𝕜)
  xk : Option E
  resnorms : List ℝ

/-- The result of a constructor; `ConvergenceError` is `Err.other` (recycling/linsys.py 96-100). -/
def ArnSol.ofOutcome {S : Type*} {k : ℕ} (s : LS 𝕜 E) (o : Obl 𝕜 E k) (arn : S → Arn 𝕜 E) :
    Outcome (St ℝ E (S × List (Fin k → 𝕜))) → Except Err (ArnSol 𝕜 E)
  | .returned st => .ok ⟨k, s, o, arn st.s.1, st.s.2, st.xk, st.resnorms⟩
  | .convergence _ => .error .other
  | .raised e => .error e
  | .outOfFuel => .error .other

/-- `DeflatedGmres(linear_system, U=U, store_arnoldi=True, ...)` (recycling/linsys.py 98-100, deflation.py 95-132, 276-283). -/
noncomputable def recGmresSolver (a : LSArgs 𝕜 E) (oa : ∀ k, OblArgs 𝕜 E k) (ortho : Ortho) (p : SolverArgs E) (U : List E) :
    Except Err (ArnSol 𝕜 E) :=
  match mkLS a with
  | .error e => .error e
  | .ok s => match mkObl s (oa U.length) (fun j => U.get j) with
    | .error e => .error e
    | .ok o => ArnSol.ofOutcome s o GmresSt.arn (deflatedGmres s o ortho p)

/-- `DeflatedMinres(linear_system, U=U, store_arnoldi=True, ...)` (recycling/linsys.py 98-100, deflation.py 95-132, 266-273). -/
noncomputable def recMinresSolver (a : LSArgs 𝕜 E) (oa : ∀ k, OblArgs 𝕜 E k) (ortho : Ortho) (p : SolverArgs E) (U : List E) :
    Except Err (ArnSol 𝕜 E) :=
  match mkLS a with
  | .error e => .error e
  | .ok s => match mkObl s (oa U.length) (fun j => U.get j) with
    | .error e => .error e
    | .ok o => ArnSol.ofOutcome s o MinresSt.arn (deflatedMinres s o ortho p)

/-- The two subclasses of `_RecyclingSolver` based on `Arnoldi` (recycling/linsys.py 117-136). -/
inductive ArnKind
  | gmres
  | minres

/-- `self._DeflatedSolver(linear_system, U=U, store_arnoldi=True, ...)` (recycling/linsys.py 98-100, 117-136). -/
noncomputable def recArnSolver (kind : ArnKind) (a : LSArgs 𝕜 E) (oa : ∀ k, OblArgs 𝕜 E k) (ortho : Ortho) (p : SolverArgs E)
    (U : List E) : Except Err (ArnSol 𝕜 E) :=
  match kind with
  | .gmres => recGmresSolver a oa ortho p U
  | .minres => recMinresSolver a oa ortho p U

/-- `deflation.Ritz(solver)` with the default `mode='ritz'` (factories.py 50, 168). -/
noncomputable def ArnSol.ritz (x : ArnSol 𝕜 E) (rt : ∀ n m, EigRoutines 𝕜 (Fin n ⊕ Fin m)) :
    Except Err (DeflRitzOut 𝕜 x.arn.get.cols x.k) :=
  x.o.ritz x.s (rt x.arn.get.cols x.k) x.arn.H x.arn.get.rows x.arn.V x.C .ritz

/-- `ritz.get_vectors(indices)` (deflation.py 844-851); an index out of range is an `IndexError`. -/
noncomputable def ArnSol.getVectors (x : ArnSol 𝕜 E) (out : DeflRitzOut 𝕜 x.arn.get.cols x.k) (indices : List ℕ) :
    Except Err (List E) :=
  match indices.mapM (ritzIdx x.arn.get.cols x.k) with
  | none => .error .valueError
  | some l => .ok (l.map fun i => deflRitzVec x.arn.V x.o.U (out.coeffs i))

/-- `RitzFactorySimple(n_vectors=n, which=which).get(solver)` (factories.py 166-194). -/
noncomputable def simpleGetA (rt : ∀ n m, EigRoutines 𝕜 (Fin n ⊕ Fin m)) (argsort : List ℝ → List ℕ) (n : ℕ) (which : Which)
    (x : ArnSol 𝕜 E) : Except Err (List E) :=
  match x.ritz rt with
  | .error e => .error e
  | .ok out =>
    match simpleIndices argsort ((sumList out.values).map fun v => toCplx (v.getD 0))
        ((sumList out.resnorms).map fun r => r.getD 0) n which with
    | .error e => .error e
    | .ok indices => x.getVectors out indices

/-- See `RitzFactoryArgs` (recycling/factories.py 21-46). -/
structure RitzFactoryArgsA (𝕜 E F : Type*) [RCLike 𝕜] [AddCommGroup E] [Module 𝕜 E] where
  eval : (x : ArnSol 𝕜 E) → DeflRitzOut 𝕜 x.arn.get.cols x.k → Finset ℕ → Except Err F
  gen : (x : ArnSol 𝕜 E) → DeflRitzOut 𝕜 x.arn.get.cols x.k → Finset ℕ → List (Finset ℕ)
  resSum : (x : ArnSol 𝕜 E) → DeflRitzOut 𝕜 x.arn.get.cols x.k → Finset ℕ → F
  order : Finset ℕ → List ℕ

/-- `RitzFactory(...).get(solver)` (factories.py 49-51). -/
noncomputable def ritzGetA {F : Type*} [LT F] [DecidableLT F] (rt : ∀ n m, EigRoutines 𝕜 (Fin n ⊕ Fin m))
    (f : RitzFactoryArgsA 𝕜 E F) (x : ArnSol 𝕜 E) : Except Err (List E) :=
  match x.ritz rt with
  | .error e => .error e
  | .ok out => match getBestSubset (x.arn.get.cols + x.k) (f.eval x out) (f.gen x out) (f.resSum x out) with
    | none => .error .other
    | some (.error e) => .error e
    | some (.ok sel) => x.getVectors out (f.order sel.1)

end Krypy
