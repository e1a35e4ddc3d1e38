import Verif.Props.PseudoBound
import Mathlib.Analysis.InnerProductSpace.GramSchmidtOrtho
import Mathlib.Analysis.Matrix.Spectrum

/-!
# Routines which satisfy the contracts of `bound_pseudo` exist, for all sizes
-/

namespace Krypy
open Matrix Polynomial Finset
variable {𝕜 : Type*} [RCLike 𝕜] {k p N : ℕ}

/-- Economic QR decompositions exist. -/
theorem exists_qr {m n : ℕ} (hmn : n ≤ m) (X : Matrix (Fin m) (Fin n) 𝕜) :
    ∃ QR : Matrix (Fin m) (Fin n) 𝕜 × Matrix (Fin n) (Fin n) 𝕜, X = QR.1 * QR.2 ∧ QR.1ᴴ * QR.1 = 1 := by
  let f : Fin m → EuclideanSpace 𝕜 (Fin m) := fun j => WithLp.toLp 2 fun r => if h : j.val < n then X r ⟨j, h⟩ else 0
  let b := InnerProductSpace.gramSchmidtOrthonormalBasis (𝕜 := 𝕜) (E := EuclideanSpace 𝕜 (Fin m)) (by simp) f
  let Q : Matrix (Fin m) (Fin n) 𝕜 := Matrix.of fun r c => b ⟨c, by omega⟩ r
  have hip : ∀ x y : EuclideanSpace 𝕜 (Fin m), inner 𝕜 x y = ∑ r, star (x r) * y r := by
    intro x y
    rw [PiLp.inner_apply]
    exact Finset.sum_congr rfl fun r _ => by rw [RCLike.inner_apply']; rfl
  refine ⟨(Q, Qᴴ * X), ?_, ?_⟩
  · ext r c
    have h1 := b.sum_repr' (f ⟨c, by omega⟩)
    have h2 := congrArg (fun v : EuclideanSpace 𝕜 (Fin m) => v r) h1
    have h3 : f ⟨c, by omega⟩ r = X r c := by simp [f]
    dsimp only at h2
    rw [h3] at h2
    rw [← h2, Matrix.mul_apply]
    have h4 : (∑ i : Fin m, inner 𝕜 (b i) (f ⟨c, by omega⟩) • b i) r =
      ∑ i ∈ range m, if h : i < n then Q r ⟨i, h⟩ * (Qᴴ * X) ⟨i, h⟩ c else 0 := by
      rw [Finset.sum_range, WithLp.ofLp_sum, Finset.sum_apply]
      apply Finset.sum_congr rfl
      intro i _
      by_cases h : i.val < n
      · rw [dif_pos h, PiLp.smul_apply, smul_eq_mul, mul_comm, hip, Matrix.mul_apply]
        simp [Q, f]
      · rw [dif_neg h, InnerProductSpace.gramSchmidtOrthonormalBasis_inv_triangular _ _ (show (⟨c, by omega⟩ : Fin m) < i from Fin.mk_lt_of_lt_val (by omega)), zero_smul]
        rfl
    rw [h4, ← Finset.sum_subset (Finset.range_subset_range.mpr hmn), Finset.sum_range]
    · apply Finset.sum_congr rfl
      intro i _
      simp
    · intro i _ hi
      have : ¬ i < n := by simpa using hi
      simp [this]
  · ext r c
    have h1 := orthonormal_iff_ite.mp b.orthonormal ⟨r, by omega⟩ ⟨c, by omega⟩
    rw [hip] at h1
    rw [Matrix.mul_apply, Matrix.one_apply]
    simp only [Matrix.conjTranspose_apply, Q, Matrix.of_apply]
    rw [h1]
    simp [Fin.ext_iff]

/-- Least singular values exist. -/
theorem exists_svdMin (hk : 0 < k) (M : Matrix (Fin k) (Fin k) 𝕜) : ∃ s, IsSvdMin M s := by
  have hcont : Continuous fun x : Fin k → 𝕜 => vecNorm x := by
    unfold vecNorm
    fun_prop
  have hcont' : Continuous fun x : Fin k → 𝕜 => vecNorm (M *ᵥ x) := by
    refine hcont.comp ?_
    exact Continuous.matrix_mulVec continuous_const continuous_id
  have hcl : IsClosed {x : Fin k → 𝕜 | vecNorm x = 1} := isClosed_eq hcont continuous_const
  have hsub : {x : Fin k → 𝕜 | vecNorm x = 1} ⊆ Metric.closedBall 0 1 := by
    intro x hx
    rw [mem_closedBall_zero_iff, pi_norm_le_iff_of_nonneg zero_le_one]
    intro j
    have h1 : vecNorm x ^ 2 = ∑ i, ‖x i‖ ^ 2 := Real.sq_sqrt (Finset.sum_nonneg fun _ _ => by positivity)
    have hx' : vecNorm x = 1 := hx
    rw [hx'] at h1
    have h2 : ‖x j‖ ^ 2 ≤ ∑ i, ‖x i‖ ^ 2 := Finset.single_le_sum (f := fun i => ‖x i‖ ^ 2) (fun _ _ => by positivity) (mem_univ j)
    nlinarith [norm_nonneg (x j)]
  have hcomp : IsCompact {x : Fin k → 𝕜 | vecNorm x = 1} := (isCompact_closedBall 0 1).of_isClosed_subset hcl hsub
  have hne : {x : Fin k → 𝕜 | vecNorm x = 1}.Nonempty := by
    refine ⟨fun j => if j = ⟨0, hk⟩ then 1 else 0, ?_⟩
    change vecNorm _ = 1
    unfold vecNorm
    rw [Finset.sum_eq_single ⟨0, hk⟩]
    · simp
    · intro r _ hr
      simp [hr]
    · simp
  obtain ⟨x, hx, hmin⟩ := hcomp.exists_isMinOn hne hcont'.continuousOn
  refine ⟨vecNorm (M *ᵥ x), ⟨x, hx, rfl⟩, ?_⟩
  rintro _ ⟨y, hy, rfl⟩
  exact hmin hy

/-- All contracts can be met, also the one for `eigvalsh`. -/
theorem pseudoHyp_exists (𝕜 : Type*) [RCLike 𝕜] (k p : ℕ) : ∃ rt : PseudoRoutines 𝕜 k p, PseudoHyp rt ∧
    ∀ i (B : Matrix (Fin i) (Fin i) 𝕜), Bᴴ = B → ((rt.eigh i B).map ((↑) : ℝ → 𝕜) : Multiset 𝕜) = B.charpoly.roots := by
  have hcand : ∀ roots : List ℝ, ∃ cand : List ℝ, IsMinmaxCandidates (roots.map ((↑) : ℝ → ℂ)) (cand.map ((↑) : ℝ → ℂ)) := by
    intro roots
    obtain ⟨l, hl⟩ := Quotient.exists_rep (Polynomial.derivative (fromRoots (roots.map ((↑) : ℝ → ℂ)))).roots
    have hc : IsMinmaxCandidates (roots.map ((↑) : ℝ → ℂ)) l := hl.symm
    obtain ⟨lo, hlo⟩ : ∃ lo : ℝ, ∀ θ ∈ roots, lo ≤ θ := by
      obtain ⟨lo, hlo⟩ := (roots.toFinset.finite_toSet).bddBelow
      exact ⟨lo, fun θ hθ => hlo (by simpa using hθ)⟩
    obtain ⟨hi, hhi⟩ : ∃ hi : ℝ, ∀ θ ∈ roots, θ ≤ hi := by
      obtain ⟨hi, hhi⟩ := (roots.toFinset.finite_toSet).bddAbove
      exact ⟨hi, fun θ hθ => hhi (by simpa using hθ)⟩
    refine ⟨l.map Complex.re, ?_⟩
    have e : (l.map Complex.re).map ((↑) : ℝ → ℂ) = l := by
      rw [List.map_map]
      refine (List.map_congr_left fun z hz => ?_).trans (List.map_id l)
      obtain ⟨h1, -⟩ := C54_real hc hlo hhi z hz
      apply Complex.ext <;> simp [h1]
    rw [e]
    exact hc
  choose cand hcand using hcand
  choose build hbuild using C04_built_total (α := ℝ)
  have hqr : ∀ (i : ℕ) (X : Matrix (Fin (min (i + 1) (p + 1))) (Fin i) 𝕜), ∃ QR : Matrix (Fin (min (i + 1) (p + 1))) (Fin i) 𝕜 × Matrix (Fin i) (Fin i) 𝕜,
      i ≤ p + 1 → X = QR.1 * QR.2 ∧ QR.1ᴴ * QR.1 = 1 := by
    intro i X
    by_cases hi : i ≤ p + 1
    · obtain ⟨QR, h⟩ := exists_qr (by omega) X
      exact ⟨QR, fun _ => h⟩
    · exact ⟨(0, 0), fun h => absurd h hi⟩
  choose qr hqr using hqr
  have hsv : ∀ M : Matrix (Fin k) (Fin k) 𝕜, ∃ s, 0 < k → IsSvdMin M s := by
    intro M
    by_cases hk : 0 < k
    · obtain ⟨s, hs⟩ := exists_svdMin hk M
      exact ⟨s, fun _ => hs⟩
    · exact ⟨0, fun h => absurd h hk⟩
  choose sv hsv using hsv
  have heig : ∀ (i : ℕ) (B : Matrix (Fin i) (Fin i) 𝕜), ∃ l : List ℝ, Bᴴ = B → (l.map ((↑) : ℝ → 𝕜) : Multiset 𝕜) = B.charpoly.roots := by
    intro i B
    by_cases hB : Bᴴ = B
    · have hh : B.IsHermitian := hB
      refine ⟨List.ofFn hh.eigenvalues, fun _ => ?_⟩
      rw [hh.roots_charpoly_eq_eigenvalues, Fin.univ_val_map, List.map_ofFn]
    · exact ⟨[], fun h => absurd h hB⟩
  choose eigh heigh using heig
  refine ⟨⟨sv, fun M => M.charpoly.roots.toList, qr, fun i A B => (B⁻¹ * A).charpoly.roots.toList, eigh,
    fun l => (List.range l.length).mergeSort fun i j => decide (l.getD i 0 ≤ l.getD j 0), cand, build, fun _ _ => .error .other,
    fun f a b => f (a + (3 - √5) / 2 * (b - a))⟩, ⟨hsv, fun M => by simp, fun i hi X => hqr i X hi,
    fun i A B hB => by simp, fun l => ⟨?_, ?_⟩, hcand, hbuild, (fun _ _ _ h => by cases h), ?_⟩, heigh⟩
  · exact List.mergeSort_perm _ _
  · have := List.pairwise_mergeSort (le := fun i j => decide (l.getD i 0 ≤ l.getD j 0)) (by
      intro a b c; simp only [decide_eq_true_eq]; exact le_trans) (by
      intro a b; simp only [Bool.or_eq_true, decide_eq_true_eq]; exact le_total _ _) (List.range l.length)
    refine this.imp fun {i j} hij a b hi hj => ?_
    simpa [List.getD_eq_getElem?_getD, hi, hj] using hij
  · have hc0 : 0 ≤ (3 - √5) / 2 := by
      have : √5 ≤ 3 := by rw [Real.sqrt_le_left (by norm_num)]; norm_num
      linarith
    have hc1 : (3 - √5) / 2 ≤ 1 := by
      have : 1 ≤ √5 := Real.le_sqrt_of_sq_le (by norm_num)
      linarith
    have hin : ∀ a b : ℝ, a ≤ b → a ≤ a + (3 - √5) / 2 * (b - a) ∧ a + (3 - √5) / 2 * (b - a) ≤ b := by
      intro a b hab
      constructor <;> nlinarith
    exact ⟨fun f a b m hab h => ⟨_, (hin a b hab).1, (hin a b hab).2, h⟩,
      fun f a b m v hab h hv => le_of_eq (Except.ok.inj (h.symm.trans hv)),
      fun f a b hab h => h _ (hin a b hab).1 (hin a b hab).2⟩

end Krypy
