import Verif.Model.Gmres

/-!
# Model of `utils.get_residual_norms` (utils.py 2103-2121)

The matrix is modelled by a function of two indices together with its shape `(n_, n)`.  Not modelled: the dtype of `H`
(with an integer `H` the assignments in lines 2114-2117 truncate).
-/

namespace Krypy
variable {𝕜 : Type*} [RCLike 𝕜]

/-- The variables of the loop: `H`, `y` and `resnorms` (utils.py 2107-2110). -/
structure RnSt (𝕜 : Type*) where
  H : ℕ → ℕ → 𝕜
  y : ℕ → 𝕜
  res : List ℝ

/-- `H[i:i+2, i:hi] = G.apply(H[i:i+2, i:hi])` (utils.py 2114, 2116). -/
noncomputable def rotRows (G : Givens 𝕜) (i hi : ℕ) (H : ℕ → ℕ → 𝕜) : ℕ → ℕ → 𝕜 :=
  fun r c => if i ≤ c ∧ c < hi then rot G i (fun r => H r c) r else H r c

/-- utils.py 2111-2118: the body of the loop; `H[i:i+2, [i]]` raises `IndexError` if there is no column `i`.
Slices that reach beyond the last column are cut (2114). -/
noncomputable def rnStep (sa : Bool) (n i : ℕ) (st : RnSt 𝕜) : Except Err (RnSt 𝕜) :=
  if n ≤ i then .error .valueError
  else
    let G := mkGivens (st.H i i) (st.H (i + 1) i)
    let H := rotRows G i (if sa then min n (i + 3) else n) st.H
    let y := rot G i st.y
    .ok ⟨H, y, st.res ++ [‖y (i + 1)‖]⟩

/-- utils.py 2107-2118: the first `i` passes. -/
noncomputable def rnLoop (sa : Bool) (H : ℕ → ℕ → 𝕜) (n : ℕ) : ℕ → Except Err (RnSt 𝕜)
  | 0 => .ok ⟨H, fun r => if r = 0 then 1 else 0, [1]⟩
  | i + 1 => match rnLoop sa H n i with
    | .error e => .error e
    | .ok st => rnStep sa n i st

/-- `get_residual_norms(H, self_adjoint)` (utils.py 2103-2121) for a matrix with shape `(n_, n)`. -/
noncomputable def getResidualNorms (H : ℕ → ℕ → 𝕜) (n_ n : ℕ) (sa : Bool) : Except Err (List ℝ) :=
  match rnLoop sa H n (n_ - 1) with
  | .error e => .error e
  | .ok st => .ok (if n_ = n then st.res ++ [0] else st.res)

end Krypy
