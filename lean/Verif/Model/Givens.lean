import Verif.Model.Driver
import Mathlib.Analysis.RCLike.Basic

/-!
# Model of `utils.Givens` (utils.py 405-436)

BLAS `drotg`/`zrotg` are external; the reference BLAS algorithms are written out below and used in the
model.  `IsRotg` is the contract which everything else relies on.
-/

namespace Krypy
variable {𝕜 : Type*} [RCLike 𝕜]
open scoped ComplexConjugate
open RCLike

/-- Contract of `rotg`: `c` is real, `c² + |s|² = 1` and the second component is annihilated (utils.py 424, 427). -/
def IsRotg (a b : 𝕜) (c : ℝ) (s : 𝕜) : Prop :=
  c ^ 2 + ‖s‖ ^ 2 = 1 ∧ -conj s * a + (c : 𝕜) * b = 0

/-- Reference BLAS `DROTG` (real arguments) (utils.py 424). -/
noncomputable def drotg (a b : ℝ) : ℝ × ℝ :=
  let scale := |a| + |b|
  if scale = 0 then (1, 0)
  else
    let r := scale * Real.sqrt ((a / scale) ^ 2 + (b / scale) ^ 2)
    let roe := if |b| < |a| then a else b
    let r := if roe < 0 then -r else r
    (a / r, b / r)

/-- Reference BLAS `ZROTG` (utils.py 427). -/
noncomputable def zrotg (a b : 𝕜) : ℝ × 𝕜 :=
  if ‖a‖ = 0 then (0, 1)
  else
    let scale := ‖a‖ + ‖b‖
    let norm := scale * Real.sqrt (‖a / (scale : 𝕜)‖ ^ 2 + ‖b / (scale : 𝕜)‖ ^ 2)
    let alpha := a / (‖a‖ : 𝕜)
    (‖a‖ / norm, alpha * conj b / (norm : 𝕜))

/-- utils.py 419-430. -/
structure Givens (𝕜 : Type*) where
  c : ℝ
  s : 𝕜
  r : 𝕜

/-- utils.py 419-431: the real routine is used when both entries are real. -/
noncomputable def mkGivens (a b : 𝕜) : Givens 𝕜 :=
  let cs : ℝ × 𝕜 :=
    if im a = 0 ∧ im b = 0 then
      let p := drotg (re a) (re b)
      (p.1, (p.2 : 𝕜))
    else zrotg a b
  { c := cs.1, s := cs.2, r := (cs.1 : 𝕜) * a + cs.2 * b }

/-- utils.py 432-436: `numpy.dot(G, x)` with `G = [[c, s], [-conj(s), c]]`. -/
noncomputable def Givens.apply (G : Givens 𝕜) (x : 𝕜 × 𝕜) : 𝕜 × 𝕜 :=
  ((G.c : 𝕜) * x.1 + G.s * x.2, -conj G.s * x.1 + (G.c : 𝕜) * x.2)

end Krypy
