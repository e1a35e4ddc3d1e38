import Verif.Model.Inner
import Mathlib.Logic.Function.Basic
import Mathlib.Data.Finset.Range

/-!
# Model of `utils.qr` (utils.py 680-707), the branch with a user inner product

For `ip_B is None` and at least one column the code calls `scipy.linalg.qr`, whose contract is
`IsQr` in `Model/Projection.lean`.
-/

namespace Krypy
variable {𝕜 E : Type*} [RCLike 𝕜] [AddCommGroup E] [Module 𝕜 E]

/-- utils.py 700-703: one pass `for j in range(i)`; `q` is column `i` of `Q`, `r` column `i` of `R`. -/
def qrPass (ip : E → E → 𝕜) (Q : ℕ → E) : ℕ → E × (ℕ → 𝕜) → E × (ℕ → 𝕜)
  | 0, s => s
  | j + 1, s =>
    let (q, r) := qrPass ip Q j s
    let alpha := ip (Q j) q
    (q - alpha • Q j, Function.update r j (r j + alpha))

/-- utils.py 699-703: `reorthos + 1` passes. -/
def qrPasses (ip : E → E → 𝕜) (Q : ℕ → E) (i : ℕ) : ℕ → E × (ℕ → 𝕜) → E × (ℕ → 𝕜)
  | 0, s => s
  | p + 1, s => qrPass ip Q i (qrPasses ip Q i p s)

/-- utils.py 698-706: column `i`. -/
noncomputable def qrCol (ip : E → E → 𝕜) (reorthos : ℕ) (i : ℕ) (Q : ℕ → E) (R : ℕ → ℕ → 𝕜) :
    Except Err ((ℕ → E) × (ℕ → ℕ → 𝕜)) :=
  let (q, r) := qrPasses ip Q i (reorthos + 1) (Q i, fun j => R j i)
  match npNorm (ip q q) with
  | .error e => .error e
  | .ok rii =>
    let r := Function.update r i (rii : 𝕜)
    let q := if 1e-15 ≤ rii then ((rii : 𝕜)⁻¹) • q else q
    .ok (Function.update Q i q, fun a b => if b = i then r a else R a b)

/-- utils.py 695-707: the first `k` columns.  `Q` starts as a copy of `X`, `R` as zeros. -/
noncomputable def qrLoop (ip : E → E → 𝕜) (reorthos : ℕ) (X : ℕ → E) :
    ℕ → Except Err ((ℕ → E) × (ℕ → ℕ → 𝕜))
  | 0 => .ok (X, fun _ _ => 0)
  | i + 1 => match qrLoop ip reorthos X i with
    | .error e => .error e
    | .ok (Q, R) => qrCol ip reorthos i Q R

end Krypy
