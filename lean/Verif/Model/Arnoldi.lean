import Verif.Model.Inner
import Mathlib.Analysis.CStarAlgebra.Matrix

/-!
# `utils.Arnoldi` for `ortho` in `mgs`, `dmgs`, `lanczos` (utils.py 854-1081)

The Householder variant is in `Model/ArnoldiHouse`.  `A` and `M` are linear maps, `M = none` stands for `None` or
an identity operator (which lines 894-895 replace by `None`).  The arrays `V`, `P`, `H` of
lines 900-908 are functions of their indices that are zero where not yet written.  For `M = None` the code
has no array `P` and uses `V` in its place; the model then keeps `P = V`.
Not modelled: dtypes, warnings.
-/

namespace Krypy
variable {𝕜 E : Type*} [RCLike 𝕜] [AddCommGroup E] [Module 𝕜 E]

/-- The orthogonalisation variants of this file (utils.py 923-926). -/
inductive Ortho
  | mgs | dmgs | lanczos
  deriving DecidableEq

/-- utils.py 924-926: number of additional orthogonalisation passes. -/
def Ortho.reorthos : Ortho → ℕ
  | .dmgs => 1
  | _ => 0

/-- Parameters of the object (utils.py 891-896). -/
structure ArnCfg (𝕜 E : Type*) [RCLike 𝕜] [AddCommGroup E] [Module 𝕜 E] where
  A : E →ₗ[𝕜] E
  M : Option (E →ₗ[𝕜] E)
  ip : E → E → 𝕜
  maxiter : ℕ
  ortho : Ortho

/-- The preconditioner as an operator (utils.py 893-895, 1030-1031). -/
def ArnCfg.Mop (c : ArnCfg 𝕜 E) : E →ₗ[𝕜] E := c.M.getD LinearMap.id

/-- Attributes of the object (utils.py 899-908, 933-952). -/
structure Arn (𝕜 E : Type*) where
  iter : ℕ
  V : ℕ → E
  P : ℕ → E
  H : ℕ → ℕ → 𝕜
  invariant : Bool
  vnorm : ℝ

/-- `numpy.linalg.norm(H[:m, :n], 2)`: the largest singular value, i.e. the operator norm (utils.py 985, 1036). -/
noncomputable def specNorm (H : ℕ → ℕ → 𝕜) (m n : ℕ) : ℝ :=
  open scoped Matrix.Norms.L2Operator in
  ‖(Matrix.of fun (i : Fin m) (j : Fin n) => H i j : Matrix (Fin m) (Fin n) 𝕜)‖

/-- utils.py 927-932: with `M`, the argument `v` is the vector `p` and `M p` may be passed as `Mv`; without
`M`, `Mv` is ignored. -/
def startV (c : ArnCfg 𝕜 E) (v : E) (Mv : Option E) : E := match c.M with
  | none => v
  | some M => Mv.getD (M v)

/-- utils.py 933-943: `Mv_norm` overrides the computed norm. -/
noncomputable def startNorm (c : ArnCfg 𝕜 E) (v w : E) : Option ℝ → Except Err ℝ
  | some r => .ok r
  | none => npNorm (c.ip v w)

/-- utils.py 891-952 (`ortho` in mgs, dmgs, lanczos). -/
noncomputable def arnInit (c : ArnCfg 𝕜 E) (v : E) (Mv : Option E) (MvNorm : Option ℝ) :
    Except Err (Arn 𝕜 E) :=
  let w : E := startV c v Mv
  match startNorm c v w MvNorm with
  | .error e => .error e
  | .ok r =>
    if 0 < r then
      .ok ⟨0, Function.update 0 0 (((r : 𝕜)⁻¹) • w), Function.update 0 0 (((r : 𝕜)⁻¹) • v), fun _ _ => 0,
        false, r⟩
    else .ok ⟨0, 0, 0, fun _ _ => 0, true, r⟩

/-- One step of the inner loop (utils.py 1015-1029) on `(Av, H[:, k])`: `alpha` is replaced by its real part
for Lanczos (1024). -/
noncomputable def orthoStep (c : ArnCfg 𝕜 E) (V P : ℕ → E) (st : E × (ℕ → 𝕜)) (j : ℕ) :
    E × (ℕ → 𝕜) :=
  let alpha := c.ip (V j) st.1
  let alpha := if c.ortho = .lanczos then ((RCLike.re alpha : ℝ) : 𝕜) else alpha
  (st.1 - alpha • P j, Function.update st.2 j (st.2 j + alpha))

/-- The loop over `j in range(start, k + 1)` (utils.py 1014-1029). -/
noncomputable def orthoPass (c : ArnCfg 𝕜 E) (V P : ℕ → E) (start k : ℕ) (st : E × (ℕ → 𝕜)) :
    E × (ℕ → 𝕜) :=
  (List.range' start (k + 1 - start)).foldl (orthoStep c V P) st

/-- The loop over `reortho in range(reorthos + 1)` (utils.py 1012). -/
noncomputable def orthoPasses (c : ArnCfg 𝕜 E) (V P : ℕ → E) (start k : ℕ) :
    ℕ → E × (ℕ → 𝕜) → E × (ℕ → 𝕜)
  | 0, st => orthoPass c V P start k st
  | n + 1, st => orthoPasses c V P start k n (orthoPass c V P start k st)

/-- utils.py 968, 997-1029: everything from the multiplication with `A` to the end of the
orthogonalisation; result `(Av, H[:, k])`.  For Lanczos with `k > 0` the entry `H[k-1, k]` is copied from
`H[k, k-1]` and the corresponding multiple of the previous vector is subtracted (1000-1009). -/
noncomputable def orthogonalise (c : ArnCfg 𝕜 E) (s : Arn 𝕜 E) : E × (ℕ → 𝕜) :=
  let k := s.iter
  let Av := c.A (s.V k)
  let h : ℕ → 𝕜 := fun i => s.H i k
  if c.ortho = .lanczos then
    let st := if 0 < k then (Av - s.H k (k - 1) • s.P (k - 1), Function.update h (k - 1) (s.H k (k - 1)))
      else (Av, h)
    orthoPasses c s.V s.P k k c.ortho.reorthos st
  else orthoPasses c s.V s.P 0 k c.ortho.reorthos (Av, h)

/-- Write column `k` of `H` (utils.py 979-983, 1003, 1025, 1032-1034). -/
def setCol (H : ℕ → ℕ → 𝕜) (k : ℕ) (h : ℕ → 𝕜) : ℕ → ℕ → 𝕜 := fun i j => if j = k then h i else H i j

/-- utils.py 954-1048: `advance()`.  1030-1034: norm of the remainder; 1035-1039: the invariance
test (a division by zero gives NaN, for which the comparison is false and the new basis vector becomes
NaN: `nonFinite`); 1041-1045: the new basis vectors. -/
noncomputable def arnAdvance (c : ArnCfg 𝕜 E) (s : Arn 𝕜 E) : Except Err (Arn 𝕜 E) :=
  if c.maxiter ≤ s.iter then .error .argumentError
  else if s.invariant then .error .argumentError
  else
    let k := s.iter
    let (Av, h) := orthogonalise c s
    let MAv := c.Mop Av
    match npNorm (c.ip Av MAv) with
    | .error e => .error e
    | .ok r =>
      let H := setCol s.H k (Function.update h (k + 1) (r : 𝕜))
      let nH := specNorm H (k + 2) (k + 1)
      if nH = 0 then .error .nonFinite
      else if r / nH ≤ 1e-14 then
        .ok ⟨k + 1, s.V, s.P, H, true, s.vnorm⟩
      else
        .ok ⟨k + 1, Function.update s.V (k + 1) (((r : 𝕜)⁻¹) • MAv),
          Function.update s.P (k + 1) (((r : 𝕜)⁻¹) • Av), H, false, s.vnorm⟩

/-- The arrays returned by `get` (utils.py 1050-1061): number of basis vectors, rows and columns of
`H`; the entries are those of the object. -/
structure ArnShape where
  basis : ℕ
  rows : ℕ
  cols : ℕ
  deriving DecidableEq

/-- utils.py 1050-1061: slices returned by `get()`. -/
def Arn.get (s : Arn 𝕜 E) : ArnShape :=
  if s.invariant then ⟨s.iter, s.iter, s.iter⟩ else ⟨s.iter + 1, s.iter + 1, s.iter⟩

/-- utils.py 1063-1074: `get_last()`: the last basis vector (`None` if invariant) and the rows of the last
column of `H`. -/
def Arn.getLast (s : Arn 𝕜 E) : Option E × ℕ :=
  if s.invariant then (none, s.iter) else (some (s.V s.iter), s.iter + 1)

/-- The loop of `arnoldi()` (utils.py 1079-1080); the fuel is proved to be sufficient. -/
noncomputable def arnLoop (c : ArnCfg 𝕜 E) : ℕ → Arn 𝕜 E → Except Err (Arn 𝕜 E)
  | fuel, s =>
    if s.iter < c.maxiter ∧ s.invariant = false then
      match fuel with
      | 0 => .error .other
      | fuel + 1 => match arnAdvance c s with
        | .error e => .error e
        | .ok s => arnLoop c fuel s
    else .ok s

/-- utils.py 1077-1081: `arnoldi(...)`. -/
noncomputable def arnoldi (c : ArnCfg 𝕜 E) (v : E) (Mv : Option E) (MvNorm : Option ℝ) :
    Except Err (Arn 𝕜 E) :=
  match arnInit c v Mv MvNorm with
  | .error e => .error e
  | .ok s => arnLoop c c.maxiter s

end Krypy
