import Verif.Model.Projection

/-!
# `utils.ritz` (utils.py 1171-1286)

`H` is an array of shape `(n_, n)`, given by its entries.  The eigenvalue routines of scipy are parameters with the
contracts `IsEig`, `IsEigh` and `IsGenEig`.  Infinite or undefined entries of the returned arrays are `none`.
Not modelled: dtypes (utils.py 1258-1259), the warning for non-Hermitian `H` (1241-1243).
-/

namespace Krypy
variable {𝕜 E : Type*} [RCLike 𝕜] [AddCommGroup E] [Module 𝕜 E] {n : ℕ}
open scoped ComplexConjugate
open Matrix

/-- The results of `scipy.linalg.eig`: eigenvalues, and the eigenvectors (columns of an array) (utils.py 1251, 1255, 1267, deflation.py 796, 800). -/
abbrev Eigs (𝕜 ι : Type*) := (ι → 𝕜) × (ι → ι → 𝕜)

/-- `numpy.linalg.norm(u, 2)` (utils.py 1259, 1264, 1270, 1277). -/
noncomputable def vecNorm {ι : Type*} [Fintype ι] (u : ι → 𝕜) : ℝ := Real.sqrt (∑ i, ‖u i‖ ^ 2)

/-- Contract of `scipy.linalg.eig(M)`: eigenpairs with vectors of norm one (utils.py 1248, 1251). -/
def IsEig {ι : Type*} [Fintype ι] (M : Matrix ι ι 𝕜) (e : Eigs 𝕜 ι) : Prop :=
  ∀ i, M *ᵥ e.2 i = e.1 i • e.2 i ∧ vecNorm (e.2 i) = 1

/-- Contract of `scipy.linalg.eigh(M)` for a Hermitian matrix: additionally the eigenvalues are real and the vectors
orthonormal (utils.py 1248, 1251). -/
structure IsEigh {ι : Type*} [Fintype ι] [DecidableEq ι] (M : Matrix ι ι 𝕜) (e : Eigs 𝕜 ι) : Prop where
  eig : IsEig M e
  real : ∀ i, conj (e.1 i) = e.1 i
  orth : ∀ i j, star (e.2 i) ⬝ᵥ e.2 j = if i = j then 1 else 0

/-- Contract of `scipy.linalg.eig(M, N)` and `eigh(M, N)` for an invertible matrix `N`: generalised eigenpairs (utils.py 1255, 1267, deflation.py 800). -/
def IsGenEig {ι : Type*} [Fintype ι] (M N : Matrix ι ι 𝕜) (e : Eigs 𝕜 ι) : Prop :=
  ∀ i, M *ᵥ e.2 i = e.1 i • (N *ᵥ e.2 i) ∧ e.2 i ≠ 0

/-- The eigenvalue routines `eig` and `eigh` of scipy, for one and for two matrices (utils.py 1248, deflation.py 792). -/
structure EigRoutines (𝕜 ι : Type*) where
  eig : Matrix ι ι 𝕜 → Except Err (Eigs 𝕜 ι)
  eigh : Matrix ι ι 𝕜 → Except Err (Eigs 𝕜 ι)
  geig : Matrix ι ι 𝕜 → Matrix ι ι 𝕜 → Except Err (Eigs 𝕜 ι)
  geigh : Matrix ι ι 𝕜 → Matrix ι ι 𝕜 → Except Err (Eigs 𝕜 ι)

/-- The argument `type` (utils.py 1248, 1252, 1264). -/
inductive RitzType
  | ritz | harmonic | harmonicImproved | other
  deriving DecidableEq

/-- `theta, U, resnorm` (utils.py 1283-1286); `U i` is column `i`. -/
structure RitzOut (𝕜 : Type*) (n : ℕ) where
  theta : Fin n → Option 𝕜
  U : Fin n → Fin n → 𝕜
  resnorm : Fin n → Option ℝ

/-- `H[:m, :n]` (utils.py 1243, 1251, 1255, 1271). -/
def subMat (H : ℕ → ℕ → 𝕜) (m n : ℕ) : Matrix (Fin m) (Fin n) 𝕜 := Matrix.of fun i j => H i j

/-- `u[-1]` (zero for an empty vector, which does not occur) (utils.py 1253). -/
def lastEntry (u : Fin n → 𝕜) : 𝕜 := if h : 0 < n then u ⟨n - 1, by omega⟩ else 0

/-- A vector of length `n` as the first entries of one of length `n_` (utils.py 1263, 1276). -/
def padZero (n_ : ℕ) (u : Fin n → 𝕜) : Fin n_ → 𝕜 := fun i => if h : (i : ℕ) < n then u ⟨i, h⟩ else 0

/-- utils.py 1257-1260 and 1273-1274: `resi = H.dot(u); resi[:n] -= theta * u`. -/
def ritzResi (H : ℕ → ℕ → 𝕜) (n_ : ℕ) (u : Fin n → 𝕜) (theta : 𝕜) : Fin n_ → 𝕜 :=
  subMat H n_ n *ᵥ u - theta • padZero n_ u

/-- utils.py 1256, 1268: `U[:, i] /= norm(U[:, i], 2)`. -/
noncomputable def normalise {ι : Type*} [Fintype ι] (u : ι → 𝕜) : ι → 𝕜 := ((vecNorm u : 𝕜)⁻¹) • u

/-- utils.py 1236-1286 without the product `Z = V[:, :n] U` (which the caller of the model forms); `nV` is the number of
columns of `V` if `V` is given.  1248-1251: Ritz pairs; 1252-1263: harmonic Ritz pairs (`1/0` is infinite, the
residual norm then undefined); 1264-1277: improved harmonic Ritz pairs.  For `n = 0` the access `U[-1, :]` raises
`IndexError` (for the other types the behaviour depends on the version of scipy). -/
noncomputable def ritz (rt : EigRoutines 𝕜 (Fin n)) (H : ℕ → ℕ → 𝕜) (n_ : ℕ) (nV : Option ℕ) (hermitian : Bool)
    (type : RitzType) : Except Err (RitzOut 𝕜 n) :=
  if nV.any (fun m => m ≠ n_) then .error .argumentError
  else if n_ ≠ n ∧ n_ ≠ n + 1 then .error .argumentError
  else match type with
  | .other => .error .argumentError
  | .ritz =>
    if n = 0 then .error .valueError
    else match (if hermitian then rt.eigh else rt.eig) (subMat H n n) with
      | .error e => .error e
      | .ok (theta, U) =>
        let beta := if n_ = n then 0 else H (n_ - 1) (n - 1)
        .ok ⟨fun i => some (theta i), U, fun i => some ‖beta * lastEntry (U i)‖⟩
  | .harmonic =>
    if n = 0 then .error .valueError
    else match (if hermitian then rt.geigh else rt.geig) (subMat H n n)ᴴ ((subMat H n_ n)ᴴ * subMat H n_ n) with
      | .error e => .error e
      | .ok (sigma, U) =>
        let theta := fun i => if sigma i = 0 then none else some (1 / sigma i)
        let U := fun i => normalise (U i)
        .ok ⟨theta, U, fun i => (theta i).map fun t => vecNorm (ritzResi H n_ (U i) t)⟩
  | .harmonicImproved =>
    if n = 0 then .error .valueError
    else match (if hermitian then rt.geigh else rt.geig) (subMat H n n)ᴴ ((subMat H n_ n)ᴴ * subMat H n_ n) with
      | .error e => .error e
      | .ok (_, U) =>
        let U := fun i => normalise (U i)
        let theta := fun i => star (U i) ⬝ᵥ (subMat H n n *ᵥ U i)
        .ok ⟨fun i => some (theta i), U, fun i => some (vecNorm (ritzResi H n_ (U i) (theta i)))⟩

/-- utils.py 1283-1284: `Z = V[:, :n].dot(U)`. -/
def ritzVec (V : ℕ → E) (u : Fin n → 𝕜) : E := lincomb (fun j : Fin n => V j) u

end Krypy
