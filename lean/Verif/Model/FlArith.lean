import Verif.Model.Ritz
import Verif.Model.Driver
import Mathlib.LinearAlgebra.Matrix.DotProduct
import Mathlib.Data.Matrix.Mul

/-!
# Model of the evaluation of residual norms in floating point arithmetic

The explicit residual norm which decides about convergence (linsys.py 453-457) is `norm(b - A x)` for systems without `M`, `Ml` and `ip_B` (linsys.py 151-158;
utils.py 160-238, 1593-1594).  It is evaluated with rounding errors.  The model describes the *possible* results with the usual assumptions about IEEE
arithmetic: the sum of two numbers has a relative error of at most `u`, a product a relative error of at most `v` and an absolute error of at most
`η` (underflow), the square root of the modulus a relative error of at most `w`.  (For complex numbers the constants `v`, `w` are larger than for real ones.)
Sums may be evaluated in any order and association and with fused multiplications (`numpy.dot` leaves this to BLAS).  Overflow is not described by these
relations: the theorems assume that the results are finite.
-/

namespace Krypy
variable {𝕜 : Type*} [RCLike 𝕜]

/-- Bounds of the rounding errors of the elementary operations (of utils.py 160-238, 1594, linsys.py 154). -/
structure FlPar where
  /-- addition, subtraction and division -/
  u : ℝ
  /-- multiplication -/
  v : ℝ
  /-- square root of the modulus -/
  w : ℝ
  /-- underflow in a multiplication or division -/
  η : ℝ

/-- `s` is a possible result of the summation of the numbers in the list, in any order and association (BLAS; adding zero is exact) (one sum of utils.py 182, 1594). -/
inductive FlSum (p : FlPar) : List 𝕜 → 𝕜 → Prop
  | nil : FlSum p [] 0
  | one (x : 𝕜) : FlSum p [x] x
  | node {l₁ l₂ l : List 𝕜} {s₁ s₂ s : 𝕜} (h₁ : FlSum p l₁ s₁) (h₂ : FlSum p l₂ s₂) (ne₁ : l₁ ≠ []) (ne₂ : l₂ ≠ []) (perm : l.Perm (l₁ ++ l₂))
      (err : ‖s - (s₁ + s₂)‖ ≤ p.u * ‖s₁ + s₂‖) : FlSum p l s

/-- `s` is a possible result of `numpy.dot(x, y)` for vectors (one entry of utils.py 1594, and utils.py 182 with `x` conjugated). -/
def FlDot (p : FlPar) {n : ℕ} (x y : Fin n → 𝕜) (s : 𝕜) : Prop :=
  ∃ t : Fin n → 𝕜, (∀ i, ‖t i - x i * y i‖ ≤ p.v * ‖x i * y i‖ + p.η) ∧ FlSum p (List.ofFn t) s

/-- `r` is a possible result of `self.b - self.A * z` (linsys.py 154). -/
def FlResidual (p : FlPar) {n : ℕ} (A : Matrix (Fin n) (Fin n) 𝕜) (b x r : Fin n → 𝕜) : Prop :=
  ∃ y : Fin n → 𝕜, (∀ i, FlDot p (A i) x (y i)) ∧ ∀ i, ‖r i - (b i - y i)‖ ≤ p.u * ‖b i - y i‖

/-- `N` is a possible result of `norm(r, r)` (utils.py 224-238 with `ip_B=None`: the square root of the modulus of `numpy.dot(r.T.conj(), r)`). -/
def FlNorm (p : FlPar) {n : ℕ} (r : Fin n → 𝕜) (N : ℝ) : Prop :=
  ∃ d : 𝕜, FlDot p (star r) r d ∧ |N - Real.sqrt ‖d‖| ≤ p.w * Real.sqrt ‖d‖

/-- `N` is a possible third component of `get_residual(x, compute_norm=True)` (linsys.py 154-158 without `M`, `Ml`: the identity returns its
argument, utils.py 1565-1566). -/
def FlResNorm (p : FlPar) {n : ℕ} (A : Matrix (Fin n) (Fin n) 𝕜) (b x : Fin n → 𝕜) (N : ℝ) : Prop :=
  ∃ r, FlResidual p A b x r ∧ FlNorm p r N

/-- A floating point format: `val` is the real number represented by a float (`none` for infinities and NaN).  Comparisons of finite numbers are exact,
quotients have a relative error of at most `u` and an absolute one of at most `η` due to underflow; a finite quotient with a finite divisor has
a finite dividend (comparisons and quotients of linsys.py 385-390, 449-489, 623). -/
structure FlFormat (F : Type*) [LE F] [LT F] [Div F] [Zero F] [BEq F] (p : FlPar) (val : F → Option ℝ) : Prop where
  beq_zero : ∀ {x a}, val x = some a → ((x == 0) = true ↔ a = 0)
  le_iff : ∀ {x y a b}, val x = some a → val y = some b → (x ≤ y ↔ a ≤ b)
  lt_iff : ∀ {x y a b}, val x = some a → val y = some b → (x < y ↔ a < b)
  div_finite : ∀ {x y b q}, val y = some b → b ≠ 0 → val (x / y) = some q → ∃ a, val x = some a
  div : ∀ {x y a b q}, val x = some a → val y = some b → b ≠ 0 → val (x / y) = some q → |q - a / b| ≤ p.u * |a / b| + p.η

end Krypy
