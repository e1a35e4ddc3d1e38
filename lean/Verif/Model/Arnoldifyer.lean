import Verif.Model.DeflRitz
import Verif.Model.House

/-!
# Model of `deflation.Arnoldifyer` (deflation.py 286-470)

Arrays built by `numpy.block` are indexed by sums of index types, as in `Model/DeflRitz`.  `d` is the number of deflation
vectors (`U.shape[1]`), `(n_, n)` the shape of `H`, `k` the number of columns of `Wt` and `p + 1 = n + d - k` the order of
the result.  The factorisations of scipy are parameters with contracts.
-/

namespace Krypy
variable {𝕜 E : Type*} [RCLike 𝕜] [AddCommGroup E] [Module 𝕜 E] {n_ n d k : ℕ}
open scoped ComplexConjugate
open Matrix

/-- Euclidean inner product of coefficient vectors (`ip_B=None` in the call of `Projection`, deflation.py 389-391). -/
def cdot {ι : Type*} [Fintype ι] (x y : ι → 𝕜) : 𝕜 := star x ⬝ᵥ y

/-- `numpy.linalg.norm(M, 2)` for a matrix (deflation.py 313, 433, 584). -/
noncomputable def matNorm2 {ι κ : Type*} [Fintype ι] [Fintype κ] [DecidableEq κ] (M : Matrix ι κ 𝕜) : ℝ :=
  open scoped Matrix.Norms.L2Operator in ‖M‖

/-- Contract of `scipy.linalg.qr(X, mode='economic', pivoting=True)`: `X[:, P] = Q R` with orthonormal `Q` in the
Euclidean inner product `eip` and upper triangular `R`; by the choice of pivots no later column is longer than the current one
in the remaining rows (deflation.py 317-319). -/
structure IsPivQr (eip : E → E → 𝕜) (X Q : Fin d → E) (R : Matrix (Fin d) (Fin d) 𝕜) (P : Equiv.Perm (Fin d)) : Prop where
  fact : ∀ j, X (P j) = lincomb Q fun i => R i j
  orth : gram eip Q Q = 1
  upper : ∀ i j, j < i → R i j = 0
  pivot : ∀ i j, i ≤ j → ∑ a ∈ Finset.Icc i j, ‖R a j‖ ^ 2 ≤ ‖R i i‖ ^ 2

/-- The routines used in the constructor: pivoted QR (deflation.py 317-319) and `utils.qr(Q1, ip_B=ls.get_ip_Minv_B())` (332). -/
structure ArnfRoutines (𝕜 E : Type*) (d : ℕ) where
  pqr : (Fin d → E) → (Fin d → E) × Matrix (Fin d) (Fin d) 𝕜 × Equiv.Perm (Fin d)
  qrM : (l : ℕ) → (Fin l → E) → Except Err ((Fin l → E) × Matrix (Fin l) (Fin l) 𝕜)

/-- Attributes of an `Arnoldifyer` (deflation.py 310-347): `l` is the numerical rank, `Q1` the last `l` columns of `Z`. -/
structure Arnf (𝕜 E : Type*) (n_ n d : ℕ) where
  l : ℕ
  L : Matrix (Fin n_ ⊕ Fin d) (Fin n ⊕ Fin d) 𝕜
  J : Matrix (Fin n ⊕ Fin d) (Fin n_ ⊕ Fin d) 𝕜
  A_norm : ℝ
  R12 : Matrix (Fin l) (Fin d) 𝕜
  N : Matrix (Fin (n_ - n) ⊕ Fin l) (Fin n_ ⊕ Fin d) 𝕜
  Z : Fin (n_ - n) ⊕ Fin l → E

/-- deflation.py 318: column `j` of `MAU - U.dot(E) - V.dot(B_)`. -/
def arnfX (V : ℕ → E) (U MAU : Fin d → E) (Em : Matrix (Fin d) (Fin d) 𝕜) (B_ : Matrix (Fin n_) (Fin d) 𝕜) : Fin d → E :=
  fun j => MAU j - lincomb U (fun i => Em i j) - lincomb (fun i : Fin n_ => V i) (fun i => B_ i j)

/-- deflation.py 311: `J = [[eye(n, n_), B], [0, E]]`. -/
def arnfJ (n_ : ℕ) (B : Matrix (Fin n) (Fin d) 𝕜) (Em : Matrix (Fin d) (Fin d) 𝕜) :
    Matrix (Fin n ⊕ Fin d) (Fin n_ ⊕ Fin d) 𝕜 := fromBlocks (eyeMat n n_) B 0 Em

/-- deflation.py 336-338 and 342-344: the product of the block matrices, i.e. `[[x[n:] + B_[n:] y], [R12 y]]`. -/
def arnfN {l : ℕ} (n : ℕ) (B_ : Matrix (Fin n_) (Fin d) 𝕜) (R12 : Matrix (Fin l) (Fin d) 𝕜) :
    Matrix (Fin (n_ - n) ⊕ Fin l) (Fin n_ ⊕ Fin d) 𝕜 :=
  fromBlocks (Matrix.of fun i j => if (j : ℕ) = n + i then 1 else 0)
    (Matrix.of fun i j => B_ ⟨n + i, by omega⟩ j) 0 R12

/-- deflation.py 325: `(abs(diag(R)) > 1e-14 * A_norm).sum()`. -/
noncomputable def arnfRank (R : Matrix (Fin d) (Fin d) 𝕜) (A_norm : ℝ) : ℕ :=
  (Finset.univ.filter fun i : Fin d => 1e-14 * A_norm < ‖R i i‖).card

theorem arnfRank_le (R : Matrix (Fin d) (Fin d) 𝕜) (A_norm : ℝ) : arnfRank R A_norm ≤ d := by
  unfold arnfRank
  exact (Finset.card_le_univ _).trans (by simp)

/-- deflation.py 287-347.  Arrays `C` and `B_` of the wrong shapes (`DeflatedCg` after a `ConvergenceError`) lead to a
`ValueError`; `solve` raises `LinAlgError` for a singular `E`.  322, 327: `P_inv` is the inverse permutation.  For `n + d = 0` the
norm of the empty matrix is taken to be zero (depending on its version numpy raises a `ValueError`). -/
noncomputable def mkArnf (rt : ArnfRoutines 𝕜 E d) (H : ℕ → ℕ → 𝕜) (Em : Matrix (Fin d) (Fin d) 𝕜)
    (C B_ : List (Fin d → 𝕜)) (V : ℕ → E) (U MAU : Fin d → E) : Except Err (Arnf 𝕜 E n_ n d) :=
  if C.length ≠ n ∨ B_.length ≠ n_ then .error .valueError
  else match solveE Em (colsMat C n) with
    | .error e => .error e
    | .ok EinvC =>
      let L := ritzL H n_ EinvC
      let J := arnfJ n_ (rowsMat B_ n) Em
      let A_norm := matNorm2 (ritzM H Em (colsMat C n) EinvC (rowsMat B_ n))
      let Bu := rowsMat B_ n_
      let Vn : Fin (n_ - n) → E := fun i => V (n + i)
      if d = 0 then .ok ⟨0, L, J, A_norm, 0, arnfN n Bu 0, Sum.elim Vn Fin.elim0⟩
      else
        let QRP := rt.pqr (arnfX V U MAU Em Bu)
        let Q := QRP.1
        let R := QRP.2.1
        let P := QRP.2.2
        let l := arnfRank R A_norm
        let R12 : Matrix (Fin l) (Fin d) 𝕜 := Matrix.of fun i j => R (Fin.castLE (arnfRank_le R A_norm) i) (P.symm j)
        match rt.qrM l fun i => Q (Fin.castLE (arnfRank_le R A_norm) i) with
        | .error e => .error e
        | .ok (Q1, Rt) => .ok ⟨l, L, J, A_norm, Rt * R12, arnfN n Bu (Rt * R12), Sum.elim Vn Q1⟩

/-- The routines used in `get`: the full QR decomposition of `Wt` split after column `k` (deflation.py 381-383), those of
`Projection` (389-391), `scipy.linalg.hessenberg(calc_q=True)` (422-424), the economic QR decomposition (445) and the least
singular value (449). -/
structure ArnfGetRoutines (𝕜 : Type*) (n_ n d k p : ℕ) where
  fullQr : Matrix (Fin n ⊕ Fin d) (Fin k) 𝕜 →
    Matrix (Fin n ⊕ Fin d) (Fin k) 𝕜 × Matrix (Fin n ⊕ Fin d) (Fin (p + 1)) 𝕜
  proj : QrRoutines 𝕜 (Fin n_ ⊕ Fin d → 𝕜) k
  hess : Matrix (Fin (p + 1)) (Fin (p + 1)) 𝕜 → Matrix (Fin (p + 1)) (Fin (p + 1)) 𝕜 × Matrix (Fin (p + 1)) (Fin (p + 1)) 𝕜
  ecoQr : (l : ℕ) → Matrix (Fin n_ ⊕ (Fin d ⊕ Fin l)) (Fin k) 𝕜 → Matrix (Fin n_ ⊕ (Fin d ⊕ Fin l)) (Fin k) 𝕜
  svdmin : Matrix (Fin k) (Fin k) 𝕜 → ℝ

/-- Contract of the full QR decomposition: `[Wq, Wo]` is unitary and `Wt = Wq R` (deflation.py 381). -/
structure IsFullQr {ι : Type*} [Fintype ι] [DecidableEq ι] {k p : ℕ} (Wt Wq : Matrix ι (Fin k) 𝕜)
    (Wo : Matrix ι (Fin (p + 1)) 𝕜) : Prop where
  fact : ∃ R : Matrix (Fin k) (Fin k) 𝕜, Wt = Wq * R
  qq : Wqᴴ * Wq = 1
  oo : Woᴴ * Wo = 1
  qo : Wqᴴ * Wo = 0
  full : Wq * Wqᴴ + Wo * Woᴴ = 1

/-- Contract of `scipy.linalg.hessenberg`: `T Hh T^H = A` with unitary `T` whose first column is `e_1` (the reflectors of LAPACK do
not touch the first entry) and upper Hessenberg `Hh` (deflation.py 420-424). -/
structure IsHess {p : ℕ} (A Hh T : Matrix (Fin (p + 1)) (Fin (p + 1)) 𝕜) : Prop where
  fact : A = T * Hh * Tᴴ
  unit : Tᴴ * T = 1
  first : ∀ i, T i 0 = if i = 0 then 1 else 0
  hess : ∀ i j : Fin (p + 1), (j : ℕ) + 1 < i → Hh i j = 0

/-- Contract of the economic QR decomposition of a matrix of full rank (deflation.py 445). -/
def IsEcoQr {ι : Type*} [Fintype ι] {k : ℕ} (X Q : Matrix ι (Fin k) 𝕜) : Prop :=
  Qᴴ * Q = 1 ∧ ∃ R : Matrix (Fin k) (Fin k) 𝕜, X = Q * R

/-- Contract of `numpy.min(svdvals(M))` (deflation.py 449, 537). -/
def IsSvdMin {k : ℕ} (M : Matrix (Fin k) (Fin k) 𝕜) (s : ℝ) : Prop :=
  IsLeast {r | ∃ x : Fin k → 𝕜, vecNorm x = 1 ∧ r = vecNorm (M *ᵥ x)} s

/-- `House.apply` for an array with several columns (utils.py 379-389). -/
noncomputable def houseCols {p : ℕ} {κ : Type*} (h : House 𝕜 p) (M : Matrix (Fin (p + 1)) κ 𝕜) : Matrix (Fin (p + 1)) κ 𝕜 :=
  Matrix.of fun i j => h.apply (fun i => M i j) i

/-- The operator `Pt` applied to the columns of an array.  A `LinAlgError` can be disregarded: it does not depend on the array
and is raised by the first application (deflation.py 392-405). -/
noncomputable def complCols {κ : Type*} (q : Proj 𝕜 (Fin n_ ⊕ Fin d → 𝕜) k) (M : Matrix (Fin n_ ⊕ Fin d) κ 𝕜) :
    Matrix (Fin n_ ⊕ Fin d) κ 𝕜 :=
  Matrix.of fun i j => match q.applyCompl cdot (fun i => M i j) with
    | .error _ => 0
    | .ok (z, _) => z i

/-- deflation.py 150-156: the attribute `UMlr` of a deflated solver. -/
noncomputable def Obl.UMlr (s : LS 𝕜 E) (o : Obl 𝕜 E k) (x0 : Option E) : Except Err (Fin k → 𝕜) :=
  let Mlr := match x0 with
    | none => s.Mlb
    | some x0 => s.Ml (s.b - s.A x0)
  match o.proj.applyCompl s.ip Mlr with
  | .error e => .error e
  | .ok (_, UMlr) => .ok UMlr

/-- deflation.py 392-405: `[[MMlr0_norm], [0], [solve(E, UMlr)]]`; without deflation vectors the last block is empty. -/
noncomputable def arnfRhs (Em : Matrix (Fin d) (Fin d) 𝕜) (r0 : ℝ) (UMlr : Fin d → 𝕜) : Fin n_ ⊕ Fin d → 𝕜 :=
  Sum.elim (fun i => if (i : ℕ) = 0 then (r0 : 𝕜) else 0) (Em⁻¹ *ᵥ UMlr)

/-- deflation.py 438-444: `Y = [[I, B_], [0, E], [0, R12]]`. -/
def arnfY {l : ℕ} (B_ : Matrix (Fin n_) (Fin d) 𝕜) (Em : Matrix (Fin d) (Fin d) 𝕜) (R12 : Matrix (Fin l) (Fin d) 𝕜) :
    Matrix (Fin n_ ⊕ (Fin d ⊕ Fin l)) (Fin n_ ⊕ Fin d) 𝕜 :=
  fromBlocks 1 B_ 0 (fromRows Em R12)

/-- deflation.py 448: `vstack([YL_Q[:n, :], YL_Q[n_:n_+d, :]])`. -/
def arnfPick {l : ℕ} {κ : Type*} (hn : n ≤ n_) (Q : Matrix (Fin n_ ⊕ (Fin d ⊕ Fin l)) κ 𝕜) : Matrix (Fin n ⊕ Fin d) κ 𝕜 :=
  Matrix.of fun i j => match i with
    | .inl i => Q (.inl (Fin.castLE hn i)) j
    | .inr i => Q (.inr (.inl i)) j

/-- The returned values (deflation.py 469, `full=True`). -/
structure ArnfOut (𝕜 E : Type*) (n_ n l p : ℕ) where
  Hh : Matrix (Fin (p + 1)) (Fin (p + 1)) 𝕜
  Rh : Matrix (Fin (n_ - n) ⊕ Fin l) (Fin (p + 1)) 𝕜
  qNorm : ℝ
  vdiffNorm : ℝ
  pwawNorm : ℝ
  Vh : Fin (p + 1) → E
  F : E → E

/-- deflation.py 385: `numpy.eye(n + d)` with its columns numbered from zero. -/
def eyeCols (n d p : ℕ) : Matrix (Fin n ⊕ Fin d) (Fin (p + 1)) 𝕜 :=
  Matrix.of fun i j => match i with
    | .inl i => if (i : ℕ) = j then 1 else 0
    | .inr i => if n + (i : ℕ) = j then 1 else 0

/-- deflation.py 349-470: `get(Wt, full=True)`.  For `k ≥ n + d` there is no column left and `House` raises an `IndexError`;
for `n_ = 0` (a vanishing initial residual) the array of 392-405 cannot be formed. -/
noncomputable def Arnf.get (a : Arnf 𝕜 E n_ n d) (rt : ArnfGetRoutines 𝕜 n_ n d k (n + d - k - 1)) (ipM : E → E → 𝕜)
    (Em : Matrix (Fin d) (Fin d) 𝕜) (B_ : List (Fin d → 𝕜)) (V : ℕ → E) (U : Fin d → E) (r0 : ℝ) (UMlr : Fin d → 𝕜)
    (hn : n ≤ n_) (Wt : Matrix (Fin n ⊕ Fin d) (Fin k) 𝕜) : Except Err (ArnfOut 𝕜 E n_ n a.l (n + d - k - 1)) :=
  if n + d ≤ k ∨ n_ = 0 then .error .valueError
  else
    -- 380-385
    let WW := if 0 < k then rt.fullQr Wt else (Wt, eyeCols n d (n + d - k - 1))
    let Wq := WW.1
    let Wo := WW.2
    -- 389-391
    match mkProj cdot rt.proj (fun j i => (a.L * Wq) i j) (some fun j i => (a.Jᴴ * Wq) i j) true 2 with
    | .error e => .error e
    | .ok Pt => match Pt.applyCompl cdot (arnfRhs Em r0 UMlr) with
      | .error e => .error e
      | .ok (qt, _) =>
        let q := Woᴴ *ᵥ (a.J *ᵥ qt)
        let Q := mkHouse q
        let WtoQ := (houseCols Q Woᴴ)ᴴ
        let HT := rt.hess (houseCols Q (Woᴴ * a.J * complCols Pt (a.L * WtoQ)))
        let QT := houseCols Q HT.2
        let Rh := a.N * complCols Pt (a.L * (Wo * QT))
        let vdiff := a.N *ᵥ qt
        let pwaw := if 0 < k then
            1 / rt.svdmin (Wqᴴ * arnfPick hn (rt.ecoQr a.l (arnfY (rowsMat B_ n_) Em a.R12 * (a.L * Wq))))
          else 1
        let Vh : Fin (n + d - k - 1 + 1) → E := fun j => deflRitzVec V U fun i => (Wo * QT) i j
        .ok ⟨HT.1, Rh, Q.xnorm, vecNorm vdiff, pwaw, Vh, fun x =>
          -(lincomb a.Z (Rh *ᵥ coefs ipM Vh x) + lincomb Vh (Rhᴴ *ᵥ coefs ipM a.Z x))⟩

end Krypy
