import Verif.Model.Inner
import Mathlib.LinearAlgebra.Matrix.ConjTranspose
import Mathlib.LinearAlgebra.Matrix.NonsingularInverse

/-!
# `utils.inner` for blocks of vectors (utils.py 160-193)

Operators are represented by the matrices they denote (see C01).  Errors of operators (shape mismatches) are
not part of this file, see `Model/Operators`.
-/

namespace Krypy
variable {𝕜 : Type*} [RCLike 𝕜] {N : ℕ}
open Matrix

/-- The values of `ip_B` which `inner` distinguishes (utils.py 181-189): `None` or the identity operator,
something that `get_linearoperator` accepts, or a callable for blocks of any width. -/
inductive IpB (𝕜 : Type*) (N : ℕ)
  | euclid
  | op (B : Matrix (Fin N) (Fin N) 𝕜)
  | callable (f : ∀ {m n : ℕ}, Matrix (Fin N) (Fin m) 𝕜 → Matrix (Fin N) (Fin n) 𝕜 →
      Matrix (Fin m) (Fin n) 𝕜)

/-- utils.py 160-193. -/
def innerB {m n : ℕ} (X : Matrix (Fin N) (Fin m) 𝕜) (Y : Matrix (Fin N) (Fin n) 𝕜) :
    IpB 𝕜 N → Matrix (Fin m) (Fin n) 𝕜
  | .euclid => Xᴴ * Y
  | .op B => if m > n then (B * X)ᴴ * Y else Xᴴ * (B * Y)
  | .callable f => f X Y

/-- A vector as `(N,1)` array (utils.py 125-127). -/
def colv (x : Fin N → 𝕜) : Matrix (Fin N) (Fin 1) 𝕜 := Matrix.of fun i _ => x i

/-- `inner(x, y, ip_B)[0, 0]` for single columns (utils.py 160-193, used at 1015 and linsys.py 634). -/
def inner1 (B : IpB 𝕜 N) (x y : Fin N → 𝕜) : 𝕜 := innerB (colv x) (colv y) B 0 0

/-- linsys.py 163-176, `get_ip_Minv_B`.  `M = none` stands for the identity operator; `Minv = none` likewise
(then line 168 raises).  Operator branch: the product `Minv * ip_B` (172), where `self.ip_B` is the
identity operator for `ip_B=None` (so that `Minv * ip_B` is `Minv`); callable branch: line 174. -/
def ipMinvB (M Minv : Option (Matrix (Fin N) (Fin N) 𝕜)) (B : IpB 𝕜 N) : Except Err (IpB 𝕜 N) :=
  match M with
  | none => .ok B
  | some _ => match Minv with
    | none => .error .argumentError
    | some Minv => match B with
      | .euclid => .ok (.op Minv)
      | .op B => .ok (.op (Minv * B))
      | .callable f => .ok (.callable fun X Y => f X (Minv * Y))

end Krypy
