import Verif.Model.Arnoldi
import Verif.Props.House

/-!
# Model of `utils.arnoldi_projected` (utils.py 1084-1168)

`n = N + 1` (a matrix without columns raises an IndexError at `numpy.eye(n, 1)`-dependent indexing and is not
modelled).  `P` is a linear operator.  `ortho` is mgs, dmgs or lanczos.
-/

namespace Krypy
variable {𝕜 : Type*} [RCLike 𝕜] {N : ℕ}

/-- utils.py 1149-1153: the leading `n` rows of `H` as an operator. -/
def hessOp (N : ℕ) (H : ℕ → ℕ → 𝕜) : (Fin (N + 1) → 𝕜) →ₗ[𝕜] (Fin (N + 1) → 𝕜) :=
  Matrix.toLin' (Matrix.of fun (i j : Fin (N + 1)) => H i j)

/-- utils.py 1152: `hlast`; `rows` is `H.shape[0]`. -/
def hLast (N : ℕ) (H : ℕ → ℕ → 𝕜) (rows : ℕ) : 𝕜 := if rows = N + 1 then 0 else H (rows - 1) N

/-- utils.py 1161-1164: the loop; `F` is the array of line 1157. -/
noncomputable def projLoop (c : ArnCfg 𝕜 (Fin (N + 1) → 𝕜)) (hlast : 𝕜) :
    ℕ → Arn 𝕜 (Fin (N + 1) → 𝕜) → (ℕ → 𝕜) → Except Err (Arn 𝕜 (Fin (N + 1) → 𝕜) × (ℕ → 𝕜))
  | fuel, s, F =>
    if s.iter < c.maxiter ∧ s.invariant = false then
      match fuel with
      | 0 => .error .other
      | fuel + 1 => match s.getLast.1 with
        | none => .error .typeError
        | some u => match arnAdvance c s with
          | .error e => .error e
          | .ok s' => projLoop c hlast fuel s' (Function.update F s.iter (hlast * u (Fin.last N)))
    else .ok (s, F)

/-- utils.py 1158-1160: the parameters of the inner `Arnoldi` object: operator `x ↦ P (H x)`, Euclidean inner
product, no preconditioner. -/
noncomputable def projCfg (H : ℕ → ℕ → 𝕜) (P : (Fin (N + 1) → 𝕜) →ₗ[𝕜] (Fin (N + 1) → 𝕜)) (maxiter : ℕ) (ortho : Ortho) :
    ArnCfg 𝕜 (Fin (N + 1) → 𝕜) := ⟨P ∘ₗ hessOp N H, none, edot, maxiter, ortho⟩

/-- utils.py 1154-1155: `v = P * eye(n, 1)`. -/
def projStart (P : (Fin (N + 1) → 𝕜) →ₗ[𝕜] (Fin (N + 1) → 𝕜)) : Fin (N + 1) → 𝕜 := P (Pi.single 0 1)

/-- utils.py 1148-1168.  A matrix with a wrong number of rows is refused by `get_linearoperator` (1153); for
`k > n + 1` the size of the array `F` is negative (1157).  The result is the final `Arnoldi` object, of which
`get()` (`U`, `G`) is returned, and the array `F`, of which the first `iter` entries are returned. -/
noncomputable def arnoldiProjected (H : ℕ → ℕ → 𝕜) (rows : ℕ) (P : (Fin (N + 1) → 𝕜) →ₗ[𝕜] (Fin (N + 1) → 𝕜))
    (k : ℕ) (ortho : Ortho) : Except Err (Arn 𝕜 (Fin (N + 1) → 𝕜) × (ℕ → 𝕜)) :=
  if rows ≠ N + 1 ∧ rows ≠ N + 2 then .error .operatorError
  else if N + 2 < k then .error .valueError
  else
    let c := projCfg H P (N + 2 - k) ortho
    match arnInit c (projStart P) none none with
    | .error e => .error e
    | .ok s => projLoop c (hLast N H rows) c.maxiter s (fun _ => 0)

end Krypy
