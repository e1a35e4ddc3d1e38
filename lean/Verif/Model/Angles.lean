import Verif.Model.Projection
import Mathlib.Analysis.SpecialFunctions.Trigonometric.Inverse

/-!
# Model of `utils.angles` (utils.py 710-809)

`(N,k)` arrays are families `Fin k → E`.  `qr` (utils.py 680-707) and `scipy.linalg.svd` are parameters.
-/

namespace Krypy
variable {𝕜 E : Type*} [RCLike 𝕜] [AddCommGroup E] [Module 𝕜 E] {k l : ℕ}
open scoped ComplexConjugate
open Matrix

/-- The rectangular diagonal matrix with entries `s` (the middle factor of `svd` at utils.py 768, 787). -/
def rectDiag (k : ℕ) (s : Fin l → ℝ) : Matrix (Fin k) (Fin l) 𝕜 :=
  Matrix.of fun i j => if (i : ℕ) = j then ((s j : ℝ) : 𝕜) else 0

/-- Contract of `Y, s, Z = scipy.linalg.svd(A)` for a matrix with at least as many rows as columns (utils.py 768, 787). -/
structure IsSvd (A : Matrix (Fin k) (Fin l) 𝕜) (Y : Matrix (Fin k) (Fin k) 𝕜) (s : Fin l → ℝ)
    (Z : Matrix (Fin l) (Fin l) 𝕜) : Prop where
  fact : A = Y * rectDiag k s * Z
  unitaryY : Yᴴ * Y = 1
  unitaryZ : Zᴴ * Z = 1
  nonneg : ∀ i, 0 ≤ s i
  anti : Antitone s

/-- The result of `scipy.linalg.svd` (utils.py 768, 787). -/
structure Svd (𝕜 : Type*) (k l : ℕ) where
  Y : Matrix (Fin k) (Fin k) 𝕜
  s : Fin l → ℝ
  Z : Matrix (Fin l) (Fin l) 𝕜

/-- The routines used by `angles` (`qr` at utils.py 759-760, `svd` at 768, 787). -/
structure AngleRoutines (𝕜 E : Type*) where
  qr : {k : ℕ} → (Fin k → E) → Except Err ((Fin k → E) × Matrix (Fin k) (Fin k) 𝕜)
  svd : {k l : ℕ} → Matrix (Fin k) (Fin l) 𝕜 → Svd 𝕜 k l

/-- The return value; `U` and `V` are returned only with `compute_vectors=True` (utils.py 804-809). -/
structure AnglesOut (E : Type*) (k l : ℕ) where
  theta : List ℝ
  U : Fin k → E
  V : Fin l → E

/-- utils.py 770-771: `n_small`. -/
noncomputable def nSmall (s : Fin l → ℝ) : ℕ :=
  l - (Finset.univ.filter fun i => s i ^ 2 < 0.5).card

theorem nSmall_le (s : Fin l → ℝ) : nSmall s ≤ l := Nat.sub_le _ _

section
variable (ip : E → E → 𝕜) (QF : Fin k → E) (QG : Fin l → E) (d : Svd 𝕜 k l)

/-- utils.py 769: `Vcos = numpy.dot(QG, Z.T.conj())`. -/
def vcos : Fin l → E := fun j => lincomb QG fun i => d.Zᴴ i j

/-- utils.py 779: `Ucos = numpy.dot(QF, Y)`. -/
def ucos : Fin k → E := fun j => lincomb QF fun i => d.Y i j

/-- utils.py 772-777: the angles computed from cosines, and the right angles. -/
noncomputable def thetaCos : List ℝ :=
  (List.ofFn fun i : Fin l => Real.arccos (d.s i)).drop (nSmall d.s) ++ List.replicate (k - l) (Real.pi / 2)

/-- utils.py 784: `RG = Vcos[:, :n_small]`. -/
noncomputable def angRG : Fin (nSmall d.s) → E := fun i => vcos QG d (Fin.castLE (nSmall_le d.s) i)

/-- utils.py 785: `S = RG - numpy.dot(QF, inner(QF, RG, ip_B=ip_B))`. -/
noncomputable def angS : Fin (nSmall d.s) → E :=
  fun i => angRG QG d i - lincomb QF (coefs ip QF (angRG QG d i))

/-- utils.py 790: `RF = Ucos[:, :n_small]`; its columns exist because `n_small <= l <= k`. -/
noncomputable def angRF : Fin (nSmall d.s) → E := fun i => if h : (i : ℕ) < k then ucos QF d ⟨i, h⟩ else 0

variable (d2 : Svd 𝕜 (nSmall d.s) (nSmall d.s))

/-- utils.py 788: `numpy.arcsin(u[::-1][:n_small])`. -/
noncomputable def thetaSin : List ℝ := List.ofFn fun i => Real.arcsin (d2.s (Fin.rev i))

/-- utils.py 791: `Vsin = numpy.dot(RG, Z.T.conj())`. -/
noncomputable def vsin : Fin (nSmall d.s) → E := fun j => lincomb (angRG QG d) fun i => d2.Zᴴ i j

/-- utils.py 796-799: `diag(1 / s) (Z^H diag(s))`. -/
noncomputable def usinCoef : Matrix (Fin (nSmall d.s)) (Fin (nSmall d.s)) 𝕜 := Matrix.of fun i j =>
  (((d.s (Fin.castLE (nSmall_le d.s) i))⁻¹ : ℝ) : 𝕜) * (d2.Zᴴ i j * ((d.s (Fin.castLE (nSmall_le d.s) j) : ℝ) : 𝕜))

/-- utils.py 794-800: `Usin`. -/
noncomputable def usin : Fin (nSmall d.s) → E := fun j => lincomb (angRF QF d) fun i => usinCoef d d2 i j

/-- `numpy.column_stack([X, Y[:, n_small:]])` (utils.py 780-781, 801-802). -/
def stackCols {n m : ℕ} (X : Fin n → E) (Y : Fin m → E) : Fin m → E :=
  fun j => if h : (j : ℕ) < n then X ⟨j, h⟩ else Y j

end

/-- utils.py 758-802: after exchanging `F` and `G` if necessary (`l ≤ k`).  759-760: orthonormal bases; 763-766: empty `G`;
768-781: the cosine based part; 783-802: the sine based part. -/
noncomputable def anglesCore (ip : E → E → 𝕜) (rt : AngleRoutines 𝕜 E) (F : Fin k → E) (G : Fin l → E) :
    Except Err (AnglesOut E k l) :=
  match rt.qr F with
  | .error e => .error e
  | .ok (QF, _) => match rt.qr G with
    | .error e => .error e
    | .ok (QG, _) =>
      if l = 0 then .ok ⟨List.replicate k (Real.pi / 2), QF, QG⟩
      else
        let d := rt.svd (gram ip QF QG)
        if 0 < nSmall d.s then
          match rt.qr (angS ip QF QG d) with
          | .error e => .error e
          | .ok (_, R) =>
            let d2 := rt.svd R
            .ok ⟨thetaSin d d2 ++ thetaCos d, stackCols (usin QF d d2) (ucos QF d), stackCols (vsin QG d d2) (vcos QG d)⟩
        else .ok ⟨thetaCos d, ucos QF d, vcos QG d⟩

/-- `angles(F, G, ip_B, compute_vectors=True)` (utils.py 710-809): `F` and `G` are exchanged if `F` has fewer columns
(752-756, 805-806). -/
noncomputable def angles (ip : E → E → 𝕜) (rt : AngleRoutines 𝕜 E) (F : Fin k → E) (G : Fin l → E) :
    Except Err (AnglesOut E k l) :=
  if k < l then
    match anglesCore ip rt G F with
    | .error e => .error e
    | .ok o => .ok ⟨o.theta, o.V, o.U⟩
  else anglesCore ip rt F G

end Krypy
