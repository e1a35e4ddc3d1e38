import Verif.Model.Inner
import Mathlib.LinearAlgebra.Matrix.NonsingularInverse
import Mathlib.LinearAlgebra.Matrix.ConjTranspose

/-!
# Model of `utils.Projection` (utils.py 439-677)

`(N,k)` arrays are families `Fin k → E`.  The array `a` to which the projection is applied is a single
vector (the code treats columns independently).  `qr` of arrays of vectors (utils.py 680-707 or
`scipy.linalg.qr(mode='economic')`) and `scipy.linalg.qr` of the Gram matrix are parameters;
`IsQr`/`IsMatQr` are their contracts.
-/

namespace Krypy
variable {𝕜 E : Type*} [RCLike 𝕜] [AddCommGroup E] [Module 𝕜 E] {k : ℕ}
open scoped ComplexConjugate
open Matrix

/-- `V.dot(c)` for an `(N,k)` array (utils.py 549, 564). -/
def lincomb {ι : Type*} [Fintype ι] (V : ι → E) (c : ι → 𝕜) : E := ∑ i, c i • V i

/-- `inner(W, a)` for a single vector `a` (utils.py 540, 559). -/
def coefs {ι : Type*} (ip : E → E → 𝕜) (W : ι → E) (a : E) : ι → 𝕜 := fun i => ip (W i) a

/-- `inner(W, V)` (utils.py 519). -/
def gram {ι κ : Type*} (ip : E → E → 𝕜) (W : ι → E) (V : κ → E) : Matrix ι κ 𝕜 :=
  Matrix.of fun i j => ip (W i) (V j)

/-- Contract of a QR factorisation of `k` vectors: `X = V R`, `V` orthonormal, `R` upper triangular (utils.py 505, 515). -/
structure IsQr (ip : E → E → 𝕜) (X V : Fin k → E) (R : Matrix (Fin k) (Fin k) 𝕜) : Prop where
  fact : ∀ j, X j = lincomb V fun i => R i j
  orth : gram ip V V = 1
  upper : ∀ i j, j < i → R i j = 0

/-- Contract of `scipy.linalg.qr(M)` for a square matrix (utils.py 520). -/
structure IsMatQr (M Q R : Matrix (Fin k) (Fin k) 𝕜) : Prop where
  fact : Q * R = M
  unitary : Qᴴ * Q = 1
  upper : ∀ i j, j < i → R i j = 0

/-- `scipy.linalg.solve_triangular(R, c)`: only the upper triangle is read; `LinAlgError` for a zero
diagonal entry, otherwise the unique solution (utils.py 548, deflation.py 65, 67). -/
noncomputable def solveUpper (R : Matrix (Fin k) (Fin k) 𝕜) (c : Fin k → 𝕜) :
    Except Err (Fin k → 𝕜) :=
  open Classical in
  if ∃ i, R i i = 0 then .error .linAlgError
  else .ok ((Matrix.of fun i j => if j < i then 0 else R i j)⁻¹ *ᵥ c)

/-- `scipy.linalg.solve_triangular(L, c, lower=True)` (utils.py 562). -/
noncomputable def solveLower (L : Matrix (Fin k) (Fin k) 𝕜) (c : Fin k → 𝕜) :
    Except Err (Fin k → 𝕜) :=
  open Classical in
  if ∃ i, L i i = 0 then .error .linAlgError
  else .ok ((Matrix.of fun i j => if i < j then 0 else L i j)⁻¹ *ᵥ c)

/-- Attributes of a `Projection` object; `WR` and `QR` are `None` where the code stores `None` (utils.py 490-520). -/
structure Proj (𝕜 E : Type*) (k : ℕ) where
  V : Fin k → E
  W : Fin k → E
  VR : Option (Matrix (Fin k) (Fin k) 𝕜)
  WR : Option (Matrix (Fin k) (Fin k) 𝕜)
  QR : Option (Matrix (Fin k) (Fin k) 𝕜 × Matrix (Fin k) (Fin k) 𝕜)
  iterations : ℕ

/-- The factorisation routines used by the constructor (utils.py 505, 515, 520). -/
structure QrRoutines (𝕜 E : Type*) (k : ℕ) where
  qr : (Fin k → E) → Except Err ((Fin k → E) × Matrix (Fin k) (Fin k) 𝕜)
  matQr : Matrix (Fin k) (Fin k) 𝕜 → Matrix (Fin k) (Fin k) 𝕜 × Matrix (Fin k) (Fin k) 𝕜

/-- utils.py 482-520.  `Y = none` models `Y is None` (and `Y is X`). -/
def mkProj (ip : E → E → 𝕜) (rt : QrRoutines 𝕜 E k) (X : Fin k → E) (Y : Option (Fin k → E))
    (orthogonalize : Bool) (iterations : ℤ) : Except Err (Proj 𝕜 E k) :=
  if iterations < 1 then .error .argumentError
  else if k = 0 then .ok ⟨0, 0, none, none, none, iterations.toNat⟩
  else if orthogonalize then
    match rt.qr X with
    | .error e => .error e
    | .ok (V, VR) => match Y with
      | none => .ok ⟨V, V, some VR, some VR, none, iterations.toNat⟩
      | some Y => match rt.qr Y with
        | .error e => .error e
        | .ok (W, WR) =>
          .ok ⟨V, W, some VR, some WR, some (rt.matQr (gram ip W V)), iterations.toNat⟩
  else
    let W := Y.getD X
    .ok ⟨X, W, none, none, some (rt.matQr (gram ip W X)), iterations.toNat⟩

/-- utils.py 522-552: `_apply(a, return_Ya=True)`. -/
noncomputable def Proj.apply1 (ip : E → E → 𝕜) (p : Proj 𝕜 E k) (a : E) :
    Except Err (E × (Fin k → 𝕜)) :=
  if k = 0 then .ok (0, fun _ => 0)
  else
    let c := coefs ip p.W a
    let Ya := match p.WR with
      | some WR => WRᴴ *ᵥ c
      | none => c
    match p.QR with
    | none => .ok (lincomb p.V c, Ya)
    | some (Q, R) => match solveUpper R (Qᴴ *ᵥ c) with
      | .error e => .error e
      | .ok c => .ok (lincomb p.V c, Ya)

/-- utils.py 554-564: `_apply_adj`. -/
noncomputable def Proj.applyAdj1 (ip : E → E → 𝕜) (p : Proj 𝕜 E k) (a : E) : Except Err E :=
  if k = 0 then .ok 0
  else
    let c := coefs ip p.V a
    match p.QR with
    | none => .ok (lincomb p.W c)
    | some (Q, R) => match solveLower Rᴴ c with
      | .error e => .error e
      | .ok c => .ok (lincomb p.W (Q *ᵥ c))

/-- utils.py 585-588 (and 598-601): `n` refinement steps `x = x + f(a - x)`. -/
def refine (f : E → Except Err E) (a : E) : ℕ → E → Except Err E
  | 0, x => .ok x
  | n + 1, x => match refine f a n x with
    | .error e => .error e
    | .ok x => match f (a - x) with
      | .error e => .error e
      | .ok w => .ok (x + w)

/-- utils.py 622-624 (and 635-637): `n` steps `z = z - f(z)`. -/
def refineCompl (f : E → Except Err E) : ℕ → E → Except Err E
  | 0, z => .ok z
  | n + 1, z => match refineCompl f n z with
    | .error e => .error e
    | .ok z => match f z with
      | .error e => .error e
      | .ok w => .ok (z - w)

/-- First component of `_apply` (utils.py 522-552). -/
noncomputable def Proj.apply1x (ip : E → E → 𝕜) (p : Proj 𝕜 E k) (a : E) : Except Err E :=
  match p.apply1 ip a with
  | .error e => .error e
  | .ok (x, _) => .ok x

/-- utils.py 566-591: `apply(a, return_Ya=True)`. -/
noncomputable def Proj.apply (ip : E → E → 𝕜) (p : Proj 𝕜 E k) (a : E) :
    Except Err (E × (Fin k → 𝕜)) :=
  if k = 0 then .ok (0, fun _ => 0)
  else match p.apply1 ip a with
    | .error e => .error e
    | .ok (x, Ya) => match refine (p.apply1x ip) a (p.iterations - 1) x with
      | .error e => .error e
      | .ok x => .ok (x, Ya)

/-- utils.py 593-602: `apply_adj`. -/
noncomputable def Proj.applyAdj (ip : E → E → 𝕜) (p : Proj 𝕜 E k) (a : E) : Except Err E :=
  if k = 0 then .ok 0
  else match p.applyAdj1 ip a with
    | .error e => .error e
    | .ok x => refine (p.applyAdj1 ip) a (p.iterations - 1) x

/-- utils.py 604-627: `apply_complement(a, return_Ya=True)`. -/
noncomputable def Proj.applyCompl (ip : E → E → 𝕜) (p : Proj 𝕜 E k) (a : E) :
    Except Err (E × (Fin k → 𝕜)) :=
  if k = 0 then .ok (a, fun _ => 0)
  else match p.apply1 ip a with
    | .error e => .error e
    | .ok (x, Ya) => match refineCompl (p.apply1x ip) (p.iterations - 1) (a - x) with
      | .error e => .error e
      | .ok z => .ok (z, Ya)

/-- utils.py 629-638: `apply_complement_adj`. -/
noncomputable def Proj.applyComplAdj (ip : E → E → 𝕜) (p : Proj 𝕜 E k) (a : E) : Except Err E :=
  if k = 0 then .ok a
  else match p.applyAdj1 ip a with
    | .error e => .error e
    | .ok x => refineCompl (p.applyAdj1 ip) (p.iterations - 1) (a - x)

end Krypy
