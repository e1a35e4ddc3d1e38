import Verif.Model.Deflation
import Verif.Model.Ritz
import Mathlib.Data.Matrix.Block
import Mathlib.Data.Matrix.ColumnRowPartitioned

/-!
# `deflation.Ritz` (deflation.py 737-869)

Arrays built by `numpy.block` are indexed by sums of index types.  `H_` has the shape `(n_, n)`; `C` is the list of its columns
and `B_` the list of its rows, as in `Verif.Model.Deflation`.  Infinite values and undefined residual norms are `none`.
-/

namespace Krypy
variable {𝕜 E : Type*} [RCLike 𝕜] [AddCommGroup E] [Module 𝕜 E] {n m : ℕ}
open scoped ComplexConjugate
open Matrix

/-- The argument `mode` (deflation.py 797, 799). -/
inductive RitzMode
  | ritz | harmonic | other
  deriving DecidableEq

/-- The attributes `values`, `coeffs` (columns) and `resnorms` (deflation.py 749-758). -/
structure DeflRitzOut (𝕜 : Type*) (n m : ℕ) where
  values : Fin n ⊕ Fin m → Option 𝕜
  coeffs : Fin n ⊕ Fin m → Fin n ⊕ Fin m → 𝕜
  resnorms : Fin n ⊕ Fin m → Option ℝ

/-- The array whose columns are the entries of a list (arrays such as `C` and `B_` of deflation.py 771-778). -/
def colsMat (l : List (Fin m → 𝕜)) (n : ℕ) : Matrix (Fin m) (Fin n) 𝕜 := Matrix.of fun i j => l.getD j 0 i

/-- The array whose rows are the (first `n`) entries of a list (arrays such as `H_` and `C` of deflation.py 755-778). -/
def rowsMat (l : List (Fin m → 𝕜)) (n : ℕ) : Matrix (Fin n) (Fin m) 𝕜 := Matrix.of fun i j => l.getD i 0 j

/-- `numpy.eye(n_, n)` (deflation.py 311, 761, 823). -/
def eyeMat (n_ n : ℕ) : Matrix (Fin n_) (Fin n) 𝕜 := Matrix.of fun i j => if (i : ℕ) = j then 1 else 0

/-- deflation.py 782: `M = [[H + B EinvC, B], [C, E]]`. -/
def ritzM (H : ℕ → ℕ → 𝕜) (Em : Matrix (Fin m) (Fin m) 𝕜) (C EinvC : Matrix (Fin m) (Fin n) 𝕜)
    (B : Matrix (Fin n) (Fin m) 𝕜) : Matrix (Fin n ⊕ Fin m) (Fin n ⊕ Fin m) 𝕜 :=
  fromBlocks (subMat H n n + B * EinvC) B C Em

/-- deflation.py 784-790: `S = [[I, B_, 0], [B_^H, F, E], [0, E^H, I]]`. -/
def ritzS {n_ : ℕ} (B_ : Matrix (Fin n_) (Fin m) 𝕜) (F Em : Matrix (Fin m) (Fin m) 𝕜) :
    Matrix (Fin n_ ⊕ (Fin m ⊕ Fin m)) (Fin n_ ⊕ (Fin m ⊕ Fin m)) 𝕜 :=
  fromBlocks 1 (fromCols B_ 0) (fromRows B_ᴴ 0) (fromBlocks F Em Emᴴ 1)

/-- deflation.py 800: `L = [[H_, 0], [EinvC, I]]`. -/
def ritzL (H : ℕ → ℕ → 𝕜) (n_ : ℕ) (EinvC : Matrix (Fin m) (Fin n) 𝕜) :
    Matrix (Fin n_ ⊕ Fin m) (Fin n ⊕ Fin m) 𝕜 := fromBlocks (subMat H n_ n) 0 EinvC 1

/-- deflation.py 801: `K = [[I, B_], [B_^H, F]]`. -/
def ritzK {n_ : ℕ} (B_ : Matrix (Fin n_) (Fin m) 𝕜) (F : Matrix (Fin m) (Fin m) 𝕜) :
    Matrix (Fin n_ ⊕ Fin m) (Fin n_ ⊕ Fin m) 𝕜 := fromBlocks 1 B_ B_ᴴ F

/-- deflation.py 823-829: `G = [[H_ - mu I, 0], [EinvC, I], [0, -mu I]]`. -/
def ritzG (H : ℕ → ℕ → 𝕜) (n_ : ℕ) (EinvC : Matrix (Fin m) (Fin n) 𝕜) (mu : 𝕜) :
    Matrix (Fin n_ ⊕ (Fin m ⊕ Fin m)) (Fin n ⊕ Fin m) 𝕜 :=
  fromBlocks (subMat H n_ n - mu • eyeMat n_ n) 0 (fromRows EinvC 0) (fromRows 1 (-mu • (1 : Matrix (Fin m) (Fin m) 𝕜)))

/-- deflation.py 830-832: `sqrt(abs(Gy^H S Gy))`. -/
noncomputable def ritzResnorm {n_ : ℕ} (S : Matrix (Fin n_ ⊕ (Fin m ⊕ Fin m)) (Fin n_ ⊕ (Fin m ⊕ Fin m)) 𝕜)
    (Gy : Fin n_ ⊕ (Fin m ⊕ Fin m) → 𝕜) : ℝ := Real.sqrt ‖star Gy ⬝ᵥ (S *ᵥ Gy)‖

/-- `numpy.finfo(float).eps` (deflation.py 802). -/
noncomputable def floatEps : ℝ := 2 ^ (-52 : ℤ)

/-- deflation.py 775-778: `solve(E, C)`, which raises `LinAlgError` for a singular matrix. -/
noncomputable def solveE (Em : Matrix (Fin m) (Fin m) 𝕜) (C : Matrix (Fin m) (Fin n) 𝕜) :
    Except Err (Matrix (Fin m) (Fin n) 𝕜) :=
  if m = 0 then .ok C else if Em.det = 0 then .error .linAlgError else .ok (Em⁻¹ * C)

/-- deflation.py 738-834 (constructor) for a projection which is an `ObliqueProjection` (as it is in all deflated solvers).
Arrays `C` and `B_` of the wrong shapes (`DeflatedCg` after a `ConvergenceError`) lead to a `ValueError` of numpy or scipy. -/
noncomputable def deflRitz (rt : EigRoutines 𝕜 (Fin n ⊕ Fin m)) (H : ℕ → ℕ → 𝕜) (n_ : ℕ)
    (Em : Matrix (Fin m) (Fin m) 𝕜) (C B_ : List (Fin m → 𝕜)) (F : Matrix (Fin m) (Fin m) 𝕜) (selfAdjoint : Bool)
    (mode : RitzMode) : Except Err (DeflRitzOut 𝕜 n m) :=
  if n + m = 0 then .ok ⟨fun _ => none, fun _ _ => 0, fun _ => none⟩
  else if C.length ≠ n ∨ B_.length ≠ n_ then .error .valueError
  else match solveE Em (colsMat C n) with
    | .error e => .error e
    | .ok EinvC =>
      let M := ritzM H Em (colsMat C n) EinvC (rowsMat B_ n)
      let Bu := rowsMat B_ n_
      let finish (values : Fin n ⊕ Fin m → Option 𝕜) (coeffs : Fin n ⊕ Fin m → Fin n ⊕ Fin m → 𝕜) :
          DeflRitzOut 𝕜 n m :=
        ⟨values, fun i => normalise (coeffs i), fun i => (values i).map fun mu =>
          ritzResnorm (ritzS Bu F Em) (ritzG H n_ EinvC mu *ᵥ normalise (coeffs i))⟩
      match mode with
      | .other => .error .argumentError
      | .ritz => match (if selfAdjoint then rt.eigh else rt.eig) M with
        | .error e => .error e
        | .ok (values, coeffs) => .ok (finish (fun i => some (values i)) coeffs)
      | .harmonic =>
        let L := ritzL H n_ EinvC
        match (if selfAdjoint then rt.geigh else rt.geig) Mᴴ (Lᴴ * (ritzK Bu F * L)) with
        | .error e => .error e
        | .ok (sigmas, coeffs) =>
          .ok (finish (fun i => if ‖sigmas i‖ < floatEps then none else some (1 / sigmas i)) coeffs)

/-- deflation.py 844-851: column of `get_vectors()` for coefficients `y`: `[V_n, U] y`. -/
def deflRitzVec (V : ℕ → E) (U : Fin m → E) (y : Fin n ⊕ Fin m → 𝕜) : E :=
  lincomb (fun j : Fin n => V j) (fun j => y (.inl j)) + lincomb U (fun j => y (.inr j))

/-- deflation.py 853-859: column of `get_explicit_residual()`: `MlAMr z - mu z`. -/
def deflRitzRes (s : LS 𝕜 E) (z : E) (mu : 𝕜) : E := s.MlAMr z - mu • z

/-- deflation.py 861-869: entry of `get_explicit_resnorms()`. -/
noncomputable def deflRitzExplicit (s : LS 𝕜 E) (z : E) (mu : 𝕜) : Except Err ℝ :=
  let res := deflRitzRes s z mu
  npNorm (s.ip res (s.M res))

/-- `Ritz(deflated_solver, mode)` for a solver which has run: `H`, `E`, `C`, `B_` are its attributes and `F` is
`<AU, MAU>` (deflation.py 764-783; `MAU = M AU`, deflation.py 70-76). -/
noncomputable def Obl.ritz (s : LS 𝕜 E) (o : Obl 𝕜 E m) (rt : EigRoutines 𝕜 (Fin n ⊕ Fin m)) (H : ℕ → ℕ → 𝕜) (n_ : ℕ)
    (V : ℕ → E) (C : List (Fin m → 𝕜)) (mode : RitzMode) : Except Err (DeflRitzOut 𝕜 n m) :=
  deflRitz rt H n_ o.Emat C (o.B_ s n_ n V C) (gram s.ip o.AU fun j => s.M (o.AU j)) s.selfAdjoint mode

end Krypy
