import Verif.Model.HeapDefl

/-!
# Arrays as objects: the recycling solvers

Continues `Model/HeapDefl` for recycling/linsys.py 52-103: a recycling solver keeps the deflated solver of the last call, the factory reads the arrays of this
solver, and the next deflated solver is constructed with the array which the factory returns.  Nothing is copied in between.
-/

namespace Krypy
variable {𝕜 E : Type*} [RCLike 𝕜] [AddCommGroup E] [Module 𝕜 E] {k : ℕ}

/-- The class `_DeflatedSolver` (recycling/linsys.py 10, 36, 107-134): the attributes of its instances and the part of the constructor after the projection has been
made (deflation.py 93-126). -/
structure HSolverT (𝕜 E : Type*) where
  S : ℕ → Type*
  run : ∀ {k : ℕ}, HSys 𝕜 E → HProj 𝕜 k → HArgs → Heap E → Heap E × Except Err (HSt E (S k) × HEnd)

/-- `DeflatedCg` with `store_arnoldi=True` (recycling/linsys.py 98-100, 107-114). -/
noncomputable def hCgT (𝕜 E : Type*) [RCLike 𝕜] [AddCommGroup E] [Module 𝕜 E] : HSolverT 𝕜 E where
  S k := HCgSt E × UApMem 𝕜 k
  run y p a h := hDeflCg y p true a h

/-- `DeflatedGmres` (recycling/linsys.py 127-134); the Arnoldi object is always kept by the model. -/
noncomputable def hGmresT (𝕜 E : Type*) [RCLike 𝕜] [AddCommGroup E] [Module 𝕜 E] (ortho : Ortho) : HSolverT 𝕜 E where
  S k := HGmresSt 𝕜 × List (Fin k → 𝕜)
  run y p a h := hDeflGmres y p ortho a h

/-- `DeflatedMinres` (recycling/linsys.py 117-124). -/
noncomputable def hMinresT (𝕜 E : Type*) [RCLike 𝕜] [AddCommGroup E] [Module 𝕜 E] (ortho : Ortho) : HSolverT 𝕜 E where
  S k := HMinresSt 𝕜 E × List (Fin k → 𝕜)
  run y p a h := hDeflMinres y p ortho a h

/-- An instance of the deflated solver with its attribute `projection` (deflation.py 107-113); the arrays are addresses. -/
structure HInst (T : HSolverT 𝕜 E) where
  k : ℕ
  obl : HObl 𝕜 k
  st : HSt E (T.S k)

/-- `vector_factory.get(last_solver)` (recycling/factories.py 12-17; recycling/linsys.py 96): a program which reads the memory and the arrays of the solver and
returns an array of deflation vectors or raises an exception. -/
abbrev HFactory (T : HSolverT 𝕜 E) := Heap E → HInst T → Heap E × Except Err (Σ k, Fin k → ℕ)

/-- One call of `solve` (recycling/linsys.py 51): the system, `projection_kwargs` (for every number of deflation vectors), the other arguments and the factory. -/
structure HRecCall (T : HSolverT 𝕜 E) where
  y : HSys 𝕜 E
  oa : ∀ k, HOblArgs 𝕜 E k
  a : HArgs
  factory : Option (HFactory T)

/-- recycling/linsys.py 93-96: without a last solver or a factory an array with no columns. -/
def hRecVectors {T : HSolverT 𝕜 E} (default : Option (HFactory T)) (last : Option (HInst T)) (c : HRecCall T) (h : Heap E) : Heap E × Except Err (Σ k, Fin k → ℕ) :=
  match last, c.factory.or default with
  | some l, some f => f h l
  | _, _ => (h, .ok ⟨0, Fin.elim0⟩)

/-- The constructor of the deflated solver (recycling/linsys.py 98-102, deflation.py 93-126): the projection, then the iteration; the outcome `HEnd` says if
it returned or raised an exception during the iteration. -/
noncomputable def hRecConstruct {T : HSolverT 𝕜 E} (y : HSys 𝕜 E) (oa : HOblArgs 𝕜 E k) (U : Fin k → ℕ) (a : HArgs) (h : Heap E) : Heap E × Except Err (HInst T × HEnd) :=
  match hMkObl y oa U h with
  | (h, .error e) => (h, .error e)
  | (h, .ok o) => match T.run y o.proj a h with
    | (h, .error e) => (h, .error e)
    | (h, .ok (st, e)) => (h, .ok (⟨k, o, st⟩, e))

/-- recycling/linsys.py 100: `last_solver` is assigned only if the constructor returns. -/
def hRecLast {T : HSolverT 𝕜 E} (last : Option (HInst T)) : Except Err (HInst T × HEnd) → Option (HInst T)
  | .ok (i, .returned) => some i
  | _ => last

/-- recycling/linsys.py 72-103: `solve`; the memory, `last_solver`, and the new instance (also if an exception was raised in the iteration, since a
`ConvergenceError` carries it) or the exception. -/
noncomputable def hRecSolve {T : HSolverT 𝕜 E} (default : Option (HFactory T)) (last : Option (HInst T)) (c : HRecCall T) (h : Heap E) :
    Heap E × Option (HInst T) × Except Err (HInst T × HEnd) :=
  match hRecVectors default last c h with
  | (h, .error e) => (h, last, .error e)
  | (h, .ok U) =>
    let r := hRecConstruct (T := T) c.y (c.oa U.1) U.2 c.a h
    (r.1, hRecLast last r.2, r.2)

/-- A sequence of calls of `solve` on one object (recycling/linsys.py 51-103): the memory and `last_solver` afterwards. -/
noncomputable def hRecRun {T : HSolverT 𝕜 E} (default : Option (HFactory T)) : Heap E × Option (HInst T) → List (HRecCall T) → Heap E × Option (HInst T)
  | s, [] => s
  | s, c :: l =>
    let r := hRecSolve default s.2 c s.1
    hRecRun default (r.1, r.2.1) l

/-- deflation.py 845-847: `column_stack([V[:, :n], projection.U]).dot(coeffs)`, a new array (the stacked array is temporary); `coeffs` is the list of the selected columns. -/
noncomputable def hGetVectors {n : ℕ} (V : ℕ → ℕ) (U : Fin k → ℕ) (coeffs : List ((Fin n → 𝕜) × (Fin k → 𝕜))) (h : Heap E) : Heap E × Σ k, Fin k → ℕ :=
  let c := h.allocCols (k := coeffs.length) fun i => ∑ j, (coeffs.get i).1 j • h.mem (V j) + ∑ j, (coeffs.get i).2 j • h.mem (U j)
  (c.1, ⟨coeffs.length, c.2⟩)

/-- `RitzFactorySimple.get` and `RitzFactory.get` (recycling/factories.py 49-51, 167-194) for a solver whose basis is stored in the columns `V` (`n` of them): a selection, which
may depend on all attributes of the solver and on the contents of its arrays, and the combinations of the columns. -/
noncomputable def hRitzFactory {T : HSolverT 𝕜 E} (basis : HInst T → (ℕ → ℕ) × ℕ)
    (select : ∀ (h : Heap E) (i : HInst T), Except Err (List ((Fin (basis i).2 → 𝕜) × (Fin i.k → 𝕜)))) : HFactory T := fun h i =>
  match select h i with
  | .error e => (h, .error e)
  | .ok coeffs =>
    let r := hGetVectors (basis i).1 i.obl.U coeffs h
    (r.1, .ok r.2)

/-- recycling/factories.py 207: the factories are called one after the other. -/
def hUnionGet {T : HSolverT 𝕜 E} (i : HInst T) : List (HFactory T) → Heap E → Heap E × Except Err (List ℕ)
  | [], h => (h, .ok [])
  | f :: l, h => match f h i with
    | (h, .error e) => (h, .error e)
    | (h, .ok U) => match hUnionGet i l h with
      | (h, .error e) => (h, .error e)
      | (h, .ok L) => (h, .ok (List.ofFn U.2 ++ L))

/-- `UnionFactory.get` (recycling/factories.py 206-208): `numpy.block` makes a new array, and raises `ValueError` for an empty list. -/
def hUnionFactory {T : HSolverT 𝕜 E} (fs : List (HFactory T)) : HFactory T := fun h i =>
  if fs.isEmpty then (h, .error .valueError)
  else match hUnionGet i fs h with
    | (h, .error e) => (h, .error e)
    | (h, .ok L) =>
      let c := h.allocCols (k := L.length) fun j => h.mem (L.get j)
      (c.1, .ok ⟨L.length, c.2⟩)

/-- The columns `V[:, :iter]` of `DeflatedGmres` (linsys.py 999-1003, utils.py 1047-1069). -/
def hGmresBasis (𝕜 E : Type*) [RCLike 𝕜] [AddCommGroup E] [Module 𝕜 E] (ortho : Ortho) (i : HInst (hGmresT 𝕜 E ortho)) : (ℕ → ℕ) × ℕ :=
  let s : HGmresSt 𝕜 × List (Fin i.k → 𝕜) := i.st.s
  (fun j => s.1.arn.vb + j, s.1.arn.iter)

/-- The columns `V[:, :iter]` of `DeflatedMinres` (linsys.py 854-861, utils.py 1047-1069). -/
def hMinresBasis (𝕜 E : Type*) [RCLike 𝕜] [AddCommGroup E] [Module 𝕜 E] (ortho : Ortho) (i : HInst (hMinresT 𝕜 E ortho)) : (ℕ → ℕ) × ℕ :=
  let s : HMinresSt 𝕜 E × List (Fin i.k → 𝕜) := i.st.s
  (fun j => s.1.arn.vb + j, s.1.arn.iter)

end Krypy
