import Verif.Model.Gmres
import Verif.Props.Givens
import Mathlib.Algebra.BigOperators.Intervals

/-! # Sequences of Givens rotations and the small least squares problem -/

set_option linter.unusedSectionVars false

namespace Krypy
variable {𝕜 : Type*} [RCLike 𝕜]
open scoped ComplexConjugate
open Finset

/-- The rotation is unitary. -/
def Givens.Unit (G : Givens 𝕜) : Prop := G.c ^ 2 + ‖G.s‖ ^ 2 = 1

theorem rot_apply (G : Givens 𝕜) (i : ℕ) (x : ℕ → 𝕜) (m : ℕ) :
    rot G i x m = if m = i + 1 then -conj G.s * x i + (G.c : 𝕜) * x (i + 1)
      else if m = i then (G.c : 𝕜) * x i + G.s * x (i + 1) else x m := by
  simp only [rot, Givens.apply, Function.update_apply]

/-- `rot` is linear. -/
noncomputable def rotL (G : Givens 𝕜) (i : ℕ) : (ℕ → 𝕜) →ₗ[𝕜] (ℕ → 𝕜) where
  toFun := rot G i
  map_add' x y := by
    funext m
    simp only [Pi.add_apply, rot_apply]
    split_ifs <;> ring
  map_smul' t x := by
    funext m
    simp only [Pi.smul_apply, smul_eq_mul, rot_apply, RingHom.id_apply]
    split_ifs <;> ring

/-- `rots` is linear. -/
noncomputable def rotsL (G : ℕ → Givens 𝕜) : ℕ → (ℕ → 𝕜) →ₗ[𝕜] (ℕ → 𝕜)
  | 0 => LinearMap.id
  | n + 1 => (rotL (G n) n).comp (rotsL G n)

theorem rotsL_apply (G : ℕ → Givens 𝕜) (n : ℕ) (x : ℕ → 𝕜) : rotsL G n x = rots G n x := by
  induction n with
  | zero => rfl
  | succ n ih => change rot (G n) n (rotsL G n x) = _; rw [ih]; rfl

theorem rots_congr {G G' : ℕ → Givens 𝕜} {n : ℕ} (h : ∀ i < n, G i = G' i) (x : ℕ → 𝕜) :
    rots G n x = rots G' n x := by
  induction n with
  | zero => rfl
  | succ n ih =>
    rw [rots, rots, ih (fun i hi => h i (by omega)), h n (by omega)]

theorem rot_sum_sq {G : Givens 𝕜} (hG : G.Unit) {i N : ℕ} (hi : i + 1 < N) (x : ℕ → 𝕜) :
    ∑ m ∈ range N, ‖rot G i x m‖ ^ 2 = ∑ m ∈ range N, ‖x m‖ ^ 2 := by
  have hG' : IsRotg (0 : 𝕜) 0 G.c G.s := ⟨hG, by simp⟩
  have h1 := hG'.isometry (x i) (x (i + 1))
  have hmem : i ∈ range N := Finset.mem_range.mpr (by omega)
  have hmem2 : i + 1 ∈ (range N).erase i := Finset.mem_erase.mpr ⟨by omega, Finset.mem_range.mpr hi⟩
  rw [← Finset.add_sum_erase _ _ hmem, ← Finset.add_sum_erase _ _ hmem2,
    ← Finset.add_sum_erase (range N) (fun m => ‖x m‖ ^ 2) hmem,
    ← Finset.add_sum_erase ((range N).erase i) (fun m => ‖x m‖ ^ 2) hmem2, ← add_assoc, ← add_assoc]
  congr 1
  · simp only [rot_apply]
    rw [if_neg (by omega), if_pos trivial, if_pos trivial]
    exact h1
  · refine Finset.sum_congr rfl fun m hm => ?_
    simp only [Finset.mem_erase] at hm
    rw [rot_apply, if_neg hm.1, if_neg hm.2.1]

theorem rots_sum_sq {G : ℕ → Givens 𝕜} {n N : ℕ} (hG : ∀ i < n, (G i).Unit) (hn : n < N) (x : ℕ → 𝕜) :
    ∑ m ∈ range N, ‖rots G n x m‖ ^ 2 = ∑ m ∈ range N, ‖x m‖ ^ 2 := by
  induction n with
  | zero => rfl
  | succ n ih =>
    rw [rots, rot_sum_sq (hG n (by omega)) (by omega), ih (fun i hi => hG i (by omega)) (by omega)]

theorem rots_above (G : ℕ → Givens 𝕜) {n m : ℕ} (hm : n < m) (x : ℕ → 𝕜) : rots G n x m = x m := by
  induction n with
  | zero => rfl
  | succ n ih => rw [rots, rot_apply, if_neg (by omega), if_neg (by omega), ih (by omega)]

theorem rot_trivial (G : Givens 𝕜) {i : ℕ} {x : ℕ → 𝕜} (h0 : x i = 0) (h1 : x (i + 1) = 0) :
    rot G i x = x := by
  funext m
  rw [rot_apply, h0, h1]
  split_ifs with h h'
  · rw [h, h1]; simp
  · rw [h', h0]; simp
  · rfl

theorem rots_stable (G : ℕ → Givens 𝕜) {j n : ℕ} (hn : j + 1 ≤ n) {x : ℕ → 𝕜}
    (hz : ∀ m, j < m → rots G (j + 1) x m = 0) : rots G n x = rots G (j + 1) x := by
  induction n with
  | zero => omega
  | succ n ih =>
    rcases Nat.lt_or_ge j n with h | h
    · rw [rots, ih (by omega)]
      exact rot_trivial _ (hz n h) (hz (n + 1) (by omega))
    · obtain rfl : n = j := by omega
      rfl

/-- Rotations `G_0, ..., G_(n-1)` that annihilate the subdiagonal of the first `n` columns of `H`. -/
structure QrUpdate (H : ℕ → ℕ → 𝕜) (G : ℕ → Givens 𝕜) (R : ℕ → ℕ → 𝕜) (n : ℕ) : Prop where
  hess : ∀ i j, j + 1 < i → H i j = 0
  rotg : ∀ j < n, IsRotg (rots G j (fun i => H i j) j) (rots G j (fun i => H i j) (j + 1)) (G j).c (G j).s
  R : ∀ j < n, ∀ i, R i j = rots G (j + 1) (fun i => H i j) i

section
variable {H : ℕ → ℕ → 𝕜} {G : ℕ → Givens 𝕜} {R : ℕ → ℕ → 𝕜} {n : ℕ} (q : QrUpdate H G R n)
include q

theorem QrUpdate.upper {i j : ℕ} (hj : j < n) (hij : j < i) : R i j = 0 := by
  rw [q.R j hj]
  change rot (G j) j (rots G j fun i => H i j) i = 0
  rw [rot_apply]
  split_ifs with h h'
  · exact (q.rotg j hj).2
  · omega
  · rw [rots_above G hij]
    exact q.hess i j (by omega)

theorem QrUpdate.col {j : ℕ} (hj : j < n) (i : ℕ) : rots G n (fun i => H i j) i = R i j := by
  rw [rots_stable G (show j + 1 ≤ n by omega), q.R j hj]
  intro m hm
  rw [← q.R j hj]
  exact q.upper hj hm

theorem QrUpdate.unit {j : ℕ} (hj : j < n) : (G j).Unit := (q.rotg j hj).1

/-- The diagonal entry is at least as large as the annihilated subdiagonal entry. -/
theorem QrUpdate.diag {j : ℕ} (hj : j < n) : ‖R j j‖ ^ 2 =
    ‖rots G j (fun i => H i j) j‖ ^ 2 + ‖H (j + 1) j‖ ^ 2 := by
  have h1 := (q.rotg j hj).annihilates
  rw [rots_above G (Nat.lt_succ_self j)] at h1
  rw [← h1, q.R j hj]
  change ‖rot (G j) j (rots G j fun i => H i j) j‖ ^ 2 = _
  rw [rot_apply, if_neg (by omega), if_pos rfl, rots_above G (Nat.lt_succ_self j)]

/-- Transformation of the least squares functional. -/
theorem QrUpdate.functional (b u : ℕ → 𝕜) :
    ∑ i ∈ range (n + 1), ‖b i - ∑ j ∈ range n, H i j * u j‖ ^ 2 =
    ∑ i ∈ range n, ‖rots G n b i - ∑ j ∈ range n, R i j * u j‖ ^ 2 + ‖rots G n b n‖ ^ 2 := by
  have hfun : (fun i => b i - ∑ j ∈ range n, H i j * u j) =
      b - ∑ j ∈ range n, u j • (fun i => H i j) := by
    funext i
    simp only [Pi.sub_apply, Finset.sum_apply, Pi.smul_apply, smul_eq_mul]
    congr 1
    exact Finset.sum_congr rfl fun j _ => mul_comm _ _
  have hrots : ∀ i, rots G n (fun i => b i - ∑ j ∈ range n, H i j * u j) i =
      rots G n b i - ∑ j ∈ range n, R i j * u j := by
    intro i
    rw [hfun, ← rotsL_apply, map_sub, map_sum]
    simp only [map_smul, rotsL_apply, Pi.sub_apply, Finset.sum_apply, Pi.smul_apply, smul_eq_mul]
    congr 1
    refine Finset.sum_congr rfl fun j hj => ?_
    rw [q.col (Finset.mem_range.mp hj), mul_comm]
  rw [← rots_sum_sq (fun i hi => q.unit hi) (Nat.lt_succ_self n)
    (fun i => b i - ∑ j ∈ range n, H i j * u j), Finset.sum_range_succ]
  congr 1
  · exact Finset.sum_congr rfl fun i _ => by rw [hrots]
  · rw [hrots, Finset.sum_eq_zero, sub_zero]
    intro j hj
    rw [q.upper (Finset.mem_range.mp hj) (Finset.mem_range.mp hj), zero_mul]

end

/-- Extending the factorisation by one column. -/
theorem QrUpdate.step {H H' : ℕ → ℕ → 𝕜} {G : ℕ → Givens 𝕜} {R : ℕ → ℕ → 𝕜} {n : ℕ}
    (q : QrUpdate H G R n) (hold : ∀ i j, j < n → H' i j = H i j)
    (hess : ∀ i j, j + 1 < i → H' i j = 0) (hRz : ∀ i, n ≤ i → R i n = 0) :
    let col := rots G n (fun i => if i < n + 2 then H' i n else R i n)
    let g := mkGivens (col n) (col (n + 1))
    QrUpdate H' (Function.update G n g) (setCol R n (rot g n col)) (n + 1) := by
  intro col g
  have hcol0 : (fun i => if i < n + 2 then H' i n else R i n) = fun i => H' i n := by
    funext i
    split
    · rfl
    · rw [hRz i (by omega), hess i n (by omega)]
  have hcol : col = rots G n (fun i => H' i n) := by rw [← hcol0]
  have hGold : ∀ i < n, Function.update G n g i = G i :=
    fun i hi => Function.update_of_ne (by omega) _ _
  have hGle : ∀ m ≤ n, ∀ x, rots (Function.update G n g) m x = rots G m x :=
    fun m hm x => rots_congr (fun i hi => hGold i (by omega)) x
  refine ⟨hess, fun j hj => ?_, fun j hj i => ?_⟩
  · rw [hGle j (by omega)]
    rcases Nat.lt_or_ge j n with h | h
    · have e : (fun i => H' i j) = fun i => H i j := funext fun i => hold i j h
      rw [e, hGold j h]
      exact q.rotg j h
    · obtain rfl : j = n := by omega
      rw [Function.update_self, ← hcol]
      exact mkGivens_spec _ _
  · rcases Nat.lt_or_ge j n with h | h
    · have e : (fun i => H' i j) = fun i => H i j := funext fun i => hold i j h
      rw [e, hGle (j + 1) (by omega), setCol, if_neg (by omega)]
      exact q.R j h i
    · obtain rfl : j = n := by omega
      rw [setCol, if_pos rfl, rots, Function.update_self, hGle j le_rfl, ← hcol]

end Krypy
