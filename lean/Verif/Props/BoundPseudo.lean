import Verif.Model.BoundPseudo
import Verif.Props.Arnoldifyer
import Verif.Props.ResNorms
import Verif.Props.MinMax
import Verif.Props.Evaluators

/-! # Property C58: bounds and step counts from an approximate Krylov subspace (`deflation.bound_pseudo`, `RitzApproxKrylov`) -/

set_option linter.unusedSectionVars false

namespace Krypy
variable {𝕜 E : Type*} [RCLike 𝕜] [AddCommGroup E] [Module 𝕜 E] {n_ n d k p : ℕ}
open scoped ComplexConjugate
open Matrix Finset

/-! ## Residual norms in a space with a Hessenberg relation -/

section hess

/-- A finite sequence continued by zeros. -/
def natVec {m : ℕ} (V : Fin m → E) (i : ℕ) : E := if h : i < m then V ⟨i, h⟩ else 0

theorem natVec_lt {m : ℕ} (V : Fin m → E) {i : ℕ} (h : i < m) : natVec V i = V ⟨i, h⟩ := dif_pos h

theorem natMat_lt {r c : ℕ} (M : Matrix (Fin r) (Fin c) 𝕜) {i j : ℕ} (hi : i < r) (hj : j < c) : natMat M i j = M ⟨i, hi⟩ ⟨j, hj⟩ :=
  dif_pos ⟨hi, hj⟩

theorem natMat_hess {Hh : Matrix (Fin (p + 1)) (Fin (p + 1)) 𝕜} (hH : ∀ i j : Fin (p + 1), (j : ℕ) + 1 < i → Hh i j = 0) :
    Hessenberg (natMat Hh) := by
  intro i j hij
  unfold natMat
  split
  next h => exact hH _ _ hij
  next => rfl

variable {g : E → E → 𝕜} (hi : IsInner g) {B : E →ₗ[𝕜] E} {Vh : Fin (p + 1) → E}
  (hV : ∀ i j, g (Vh i) (Vh j) = if i = j then 1 else 0) {Hh : Matrix (Fin (p + 1)) (Fin (p + 1)) 𝕜}
  (hH : ∀ i j : Fin (p + 1), (j : ℕ) + 1 < i → Hh i j = 0) (hrel : ∀ j, B (Vh j) = ∑ i, Hh i j • Vh i)

include hrel in
theorem hess_rel {j : ℕ} (hj : j < p + 1) : B (natVec Vh j) = ∑ i ∈ range (p + 1), natMat Hh i j • natVec Vh i := by
  rw [natVec_lt _ hj, hrel, Finset.sum_range]
  refine Finset.sum_congr rfl fun i _ => ?_
  rw [natMat_lt _ i.2 hj, natVec_lt _ i.2]

include hH hrel in
theorem hess_rel' {j : ℕ} (hj : j < p) : B (natVec Vh j) = ∑ i ∈ range (j + 2), natMat Hh i j • natVec Vh i := by
  rw [hess_rel hrel (by omega), ← Finset.sum_subset (Finset.range_mono (show j + 2 ≤ p + 1 by omega))]
  intro i _ hi'
  rw [natMat_hess hH i j (by simp at hi'; omega), zero_smul]

include hi hV hH hrel in
theorem hess_dist {i m : ℕ} (hip : i ≤ p + 1) (hm : m = min (i + 1) (p + 1)) (b : 𝕜) (u : ℕ → 𝕜) :
    nrm g (b • Vh 0 - B (∑ j ∈ range i, (b * u j) • natVec Vh j)) = ‖b‖ * lsDist (natMat Hh) m i u := by
  have h0 : Vh 0 = natVec Vh 0 := (natVec_lt Vh (Nat.succ_pos p)).symm
  have horth : ∀ a < p + 1, ∀ c < p + 1, g (natVec Vh a) (natVec Vh c) = if a = c then 1 else 0 := by
    intro a ha c hc
    rw [natVec_lt _ ha, natVec_lt _ hc, hV]
    simp [Fin.ext_iff]
  have e : b • Vh 0 - B (∑ j ∈ range i, (b * u j) • natVec Vh j) =
      ∑ r ∈ range (p + 1), (b * ((if r = 0 then 1 else 0) - ∑ j ∈ range i, natMat Hh r j * u j)) • natVec Vh r := by
    have e1 : B (∑ j ∈ range i, (b * u j) • natVec Vh j) =
        ∑ r ∈ range (p + 1), (b * ∑ j ∈ range i, natMat Hh r j * u j) • natVec Vh r := by
      rw [map_sum]
      have : ∀ j ∈ range i, B ((b * u j) • natVec Vh j) =
          ∑ r ∈ range (p + 1), (b * (natMat Hh r j * u j)) • natVec Vh r := by
        intro j hj
        rw [map_smul, hess_rel hrel (by simp at hj; omega), Finset.smul_sum]
        refine Finset.sum_congr rfl fun r _ => ?_
        rw [smul_smul]
        congr 1
        ring
      rw [Finset.sum_congr rfl this, Finset.sum_comm]
      refine Finset.sum_congr rfl fun r _ => ?_
      rw [Finset.mul_sum, Finset.sum_smul]
    have e2 : b • Vh 0 = ∑ r ∈ range (p + 1), (b * (if r = 0 then 1 else 0)) • natVec Vh r := by
      rw [Finset.sum_eq_single 0]
      · simp [h0]
      · intro r _ hr
        simp [hr]
      · simp
    rw [e1, e2, ← Finset.sum_sub_distrib]
    refine Finset.sum_congr rfl fun r _ => ?_
    rw [← sub_smul, mul_sub]
  rw [e, nrm, hi.nsq_sum horth, lsDist, ← Real.sqrt_sq (norm_nonneg b), ← Real.sqrt_mul (sq_nonneg _), Finset.mul_sum]
  congr 1
  rw [← Finset.sum_subset (Finset.range_mono (show m ≤ p + 1 by omega))]
  · refine Finset.sum_congr rfl fun r _ => ?_
    rw [norm_mul, mul_pow]
  · intro r hr hr'
    have hr1 : r < p + 1 := by simpa using hr
    have hr2 : m ≤ r := by simpa using hr'
    rw [if_neg (by omega), Finset.sum_eq_zero]
    · simp
    · intro j hj
      rw [natMat_hess hH r j (by simp at hj; omega), zero_mul]

include hH hrel in
theorem krylov_le_natVec {i : ℕ} (hip : i ≤ p + 1) : krylov B (Vh 0) i ≤ spanTo (natVec Vh) i := by
  have key : ∀ j < p + 1, (B ^ j) (Vh 0) ∈ spanTo (𝕜 := 𝕜) (natVec Vh) (j + 1) := by
    intro j
    induction j with
    | zero =>
      intro _
      rw [pow_zero, Module.End.one_apply, show Vh 0 = natVec Vh 0 from (natVec_lt Vh (Nat.succ_pos p)).symm]
      exact mem_spanTo (by omega)
    | succ j ih =>
      intro hj
      obtain ⟨c, hc⟩ := mem_spanTo_iff.mp (ih (by omega))
      rw [pow_succ']
      change B ((B ^ j) (Vh 0)) ∈ _
      rw [hc, map_sum]
      refine Submodule.sum_mem _ fun r hr => ?_
      have hr' := Finset.mem_range.mp hr
      rw [map_smul, hess_rel' hH hrel (by omega)]
      refine Submodule.smul_mem _ _ (Submodule.sum_mem _ fun l hl => Submodule.smul_mem _ _ (mem_spanTo ?_))
      have := Finset.mem_range.mp hl
      omega
  rw [krylov_eq_spanTo, spanTo_le]
  intro j hj
  exact spanTo_mono (by omega) (key j (by omega))

include hH hrel in
theorem krylov_eq_natVec {i : ℕ} (hip : i ≤ p + 1) (hs : ∀ j, j + 1 < i → natMat Hh (j + 1) j ≠ 0) :
    krylov B (Vh 0) i = spanTo (natVec Vh) i := by
  have h := spanTo_eq_krylov (B := B) (u := Vh 0) (V := natVec Vh) (h := natMat Hh) (k := i - 1) (t := 1) one_ne_zero
    (by rw [one_smul, natVec_lt Vh (Nat.succ_pos p)]; rfl) (fun j hj => hess_rel' hH hrel (by omega))
    (fun j hj => hs j (by omega)) i (by omega)
  exact h.symm

include hi hV hH hrel in
/-- The norms returned by `get_residual_norms` are lower bounds of the residual norms in the Krylov subspaces. -/
theorem hess_lower {res : List ℝ} (hres : getResidualNorms (natMat Hh) (p + 1) (p + 1) false = .ok res) {q : ℝ} (hq : 0 ≤ q)
    {i : ℕ} (hil : i < res.length) {z : E} (hz : z ∈ krylov B (Vh 0) i) : res[i] * q ≤ nrm g ((q : 𝕜) • Vh 0 - B z) := by
  obtain ⟨res', h', hlen⟩ := (C48_shape (natMat Hh) (p + 1) (p + 1) false).1 (by omega)
  obtain rfl := Except.ok.inj (hres.symm.trans h')
  have hip : i ≤ p + 1 := by simp at hlen; omega
  obtain ⟨w, rfl⟩ := mem_spanTo_iff.mp (krylov_le_natVec hH hrel hip hz)
  rcases hq.eq_or_lt with rfl | hq'
  · rw [mul_zero]; exact nrm_nonneg _ _
  rcases Nat.lt_or_ge i (p + 1) with hlt | hge
  · have hb : (q : 𝕜) ≠ 0 := by exact_mod_cast hq'.ne'
    have := hess_dist hi hV hH hrel hip (m := i + 1) (by omega) (q : 𝕜) fun j => (q : 𝕜)⁻¹ * w j
    simp only [mul_inv_cancel_left₀ hb] at this
    rw [this, RCLike.norm_ofReal, abs_of_nonneg hq, mul_comm]
    exact mul_le_mul_of_nonneg_left (C48_lower (natMat_hess hH) hres hlt hil _) hq
  · obtain rfl : i = p + 1 := by omega
    rw [(C48_square (by omega) hres hil).1, zero_mul]
    exact nrm_nonneg _ _

include hi hV hH hrel in
/-- They are the minima as long as the subdiagonal has no zeros; the last one if the matrix is also nonsingular. -/
theorem hess_least {res : List ℝ} (hres : getResidualNorms (natMat Hh) (p + 1) (p + 1) false = .ok res) {q : ℝ} (hq : 0 ≤ q)
    {i : ℕ} (hil : i < res.length) (hs : ∀ j < i, j < p → natMat Hh (j + 1) j ≠ 0) (hdet : i = p + 1 → Hh.det ≠ 0) :
    IsLeast ((fun z => nrm g ((q : 𝕜) • Vh 0 - B z)) '' (krylov B (Vh 0) i : Set E)) (res[i] * q) := by
  obtain ⟨res', h', hlen⟩ := (C48_shape (natMat Hh) (p + 1) (p + 1) false).1 (by omega)
  obtain rfl := Except.ok.inj (hres.symm.trans h')
  have hip : i ≤ p + 1 := by simp at hlen; omega
  refine ⟨?_, ?_⟩
  · have hmin : ∃ u, lsDist (natMat Hh) (min (i + 1) (p + 1)) i u = res[i] := by
      rcases Nat.lt_or_ge i (p + 1) with hlt | hge
      · rw [min_eq_left (by omega)]
        exact (C48_least (natMat_hess hH) hres hlt hil
          (ColsIndep.of_subdiag (natMat_hess hH) fun j hj => hs j hj (by omega))).1
      · obtain rfl : i = p + 1 := by omega
        rw [min_eq_right (by omega)]
        refine ((C48_square (by omega) hres hil).2 fun u hu => ?_).1
        have hk : Hh *ᵥ (fun j : Fin (p + 1) => u j) = 0 := by
          funext r
          have := hu r r.2
          rw [Finset.sum_range] at this
          rw [Matrix.mulVec, dotProduct, Pi.zero_apply, ← this]
          refine Finset.sum_congr rfl fun c _ => ?_
          rw [natMat_lt _ r.2 c.2]
        have := Matrix.eq_zero_of_mulVec_eq_zero (hdet rfl) hk
        intro j hj
        exact congrFun this ⟨j, hj⟩
    obtain ⟨u, hu⟩ := hmin
    refine ⟨_, ?_, (hess_dist hi hV hH hrel hip rfl (q : 𝕜) u).trans ?_⟩
    · rw [SetLike.mem_coe, krylov_eq_natVec hH hrel hip fun j hj => hs j (by omega) (by omega)]
      exact mem_spanTo_iff.mpr ⟨_, rfl⟩
    · rw [hu, RCLike.norm_ofReal, abs_of_nonneg hq, mul_comm]
  · rintro _ ⟨z, hz, rfl⟩
    exact hess_lower hi hV hH hrel hres hq hil hz

end hess

/-! ## `pseudo_type = 'omit'` -/

section omitted
open DeflRitzRel
variable {g eip : E → E → 𝕜} {T : E →ₗ[𝕜] E} {V : ℕ → E} {U : Fin d → E} {H : ℕ → ℕ → 𝕜}
  {Em F : Matrix (Fin d) (Fin d) 𝕜} {C B_ : List (Fin d → 𝕜)} {rt : ArnfRoutines 𝕜 E d} {a : Arnf 𝕜 E n_ n d}
  (h : DeflRitzRel g T V U H n_ n Em F C B_) (hr : ArnfHyp g eip rt)
  (ha : mkArnf rt H Em C B_ V U (fun j => T (U j)) = .ok a)
  {grt : ArnfGetRoutines 𝕜 n_ n d k (n + d - k - 1)} (hg : ArnfGetHyp grt) {Wt : Matrix (Fin n ⊕ Fin d) (Fin k) 𝕜}
  (hdet : (gram g (arnfW V U Wt) fun j => T (arnfW V U Wt j)).det ≠ 0) (hk : k < n + d) (hn0 : 0 < n_)
  (r0 : ℝ) (UMlr : Fin d → 𝕜)
include h hr ha

/-- C58: the matrix in line 536 is `⟨W, M A W⟩` for the deflation vectors `W = [V_n, U] Wt`. -/
theorem C58_waw : Wtᴴ * (a.J * (a.L * Wt)) = gram g (arnfW V U Wt) fun j => T (arnfW V U Wt j) := by
  obtain ⟨ok, -, -⟩ := mkArnf_ok h hr ha
  rw [arnf_gramW h ok, Matrix.conjTranspose_mul, Matrix.conjTranspose_conjTranspose, Matrix.mul_assoc]

include hg hdet hk hn0

/-- C58: exceptions; everything else returns for the class of methods which minimise residuals.  The first condition means that
`⟨W, M A W⟩` is too close to a singular matrix, the second one that the right hand side changes too much. -/
theorem C58_omit_total (prt : PseudoRoutines 𝕜 k (n + d - k - 1)) (hsv : ∀ M, 0 < k → IsSvdMin M (prt.svdmin M)) (sa : Bool) (bNorm : ℝ)
    (nb : PseudoNorms) (deltaN : ℕ) (tf : ℝ) :
    let run := boundPseudo a grt g Em B_ V U r0 UMlr h.le Wt prt .minRes sa bNorm nb .omit deltaN tf
    ((0 < k ∧ ∃ x : Fin k → 𝕜, vecNorm x = 1 ∧ vecNorm ((gram g (arnfW V U Wt) fun j => T (arnfW V U Wt j)) *ᵥ x) ≤ nb.WGW) ∨
      bNorm ≤ nb.g → run = .error .assumptionError) ∧
    (¬(0 < k ∧ ∃ x : Fin k → 𝕜, vecNorm x = 1 ∧ vecNorm ((gram g (arnfW V U Wt) fun j => T (arnfW V U Wt j)) *ᵥ x) ≤ nb.WGW) →
      nb.g < bNorm → ∃ res, run = .ok res ∧ res.length = n + d - k + 1) := by
  intro run
  obtain ⟨out, ho⟩ := C56_total h hr ha hg hdet hk hn0 r0 UMlr
  have hw := C58_waw h hr ha (Wt := Wt)
  have hrun : run = match pseudoEta prt.svdmin (Wtᴴ * (a.J * (a.L * Wt))) nb with
    | .error e => .error e
    | .ok eta => pseudoCore prt .minRes sa bNorm out eta nb .omit deltaN tf := by
    simp only [run, boundPseudo, ho]
    cases pseudoEta prt.svdmin (Wtᴴ * (a.J * (a.L * Wt))) nb <;> rfl
  obtain ⟨res, hres, hlen⟩ := (C48_shape (natMat out.Hh) (n + d - k - 1 + 1) (n + d - k - 1 + 1) sa).1 (by omega)
  have hcore : ∀ eta, pseudoCore prt .minRes sa bNorm out eta nb .omit deltaN tf =
      if bNorm ≤ nb.g then .error .assumptionError else .ok ((res.map (· * out.qNorm)).map (· / (bNorm - nb.g))) := by
    intro eta
    simp only [pseudoCore, pseudoAres, hres, if_true]
  have hiff : (∃ x : Fin k → 𝕜, vecNorm x = 1 ∧
      vecNorm ((gram g (arnfW V U Wt) fun j => T (arnfW V U Wt j)) *ᵥ x) ≤ nb.WGW) ↔ (0 < k →
      prt.svdmin (Wtᴴ * (a.J * (a.L * Wt))) ≤ nb.WGW) ∧ 0 < k := by
    rw [hw]
    constructor
    · rintro ⟨x, hx, hle⟩
      have hk0 : 0 < k := by
        rcases Nat.eq_zero_or_pos k with rfl | h0
        · exfalso
          rw [Subsingleton.elim x 0, vecNorm_eq_zero.mpr rfl] at hx
          exact zero_ne_one hx
        · exact h0
      exact ⟨fun h0 => ((hsv _ h0).2 ⟨x, hx, rfl⟩).trans hle, hk0⟩
    · rintro ⟨h1, h0⟩
      obtain ⟨x, hx, e⟩ := (hsv (gram g (arnfW V U Wt) fun j => T (arnfW V U Wt j)) h0).1
      exact ⟨x, hx, e ▸ h1 h0⟩
  refine ⟨fun hc => ?_, fun h1 h2 => ?_⟩
  · rw [hrun]
    by_cases h3 : 0 < k ∧ prt.svdmin (Wtᴴ * (a.J * (a.L * Wt))) ≤ nb.WGW
    · rw [pseudoEta, if_pos h3.1, if_pos h3.2]
    · have h4 : bNorm ≤ nb.g := by
        rcases hc with hc | hc
        · exact absurd ⟨hc.1, (hiff.mp hc.2).1 hc.1⟩ h3
        · exact hc
      have h5 : ∃ eta, pseudoEta prt.svdmin (Wtᴴ * (a.J * (a.L * Wt))) nb = .ok eta := by
        unfold pseudoEta
        split
        next h0 => exact ⟨_, if_neg fun hle => h3 ⟨h0, hle⟩⟩
        next => exact ⟨_, rfl⟩
      obtain ⟨eta, he⟩ := h5
      rw [he]
      dsimp only
      rw [hcore, if_pos h4]
  · have h5 : ∃ eta, pseudoEta prt.svdmin (Wtᴴ * (a.J * (a.L * Wt))) nb = .ok eta := by
      unfold pseudoEta
      split
      next h0 => exact ⟨_, if_neg fun hle => h1 ⟨h0, hiff.mpr ⟨fun _ => hle, h0⟩⟩⟩
      next => exact ⟨_, rfl⟩
    obtain ⟨eta, he⟩ := h5
    refine ⟨_, by rw [hrun, he]; dsimp only; rw [hcore, if_neg (not_le.mpr h2)], ?_⟩
    rw [List.length_map, List.length_map, hlen]
    simp
    omega

variable {out : ArnfOut 𝕜 E n_ n a.l (n + d - k - 1)} (ho : a.get grt g Em B_ V U r0 UMlr h.le Wt = .ok out)
include ho

/-- C58: the perturbed operator is linear. -/
theorem C58_operator : ∃ B : E →ₗ[𝕜] E, ∀ x, B x = deflOp g T (arnfW V U Wt) x + out.F x := by
  obtain ⟨hF, -, -⟩ := C56_perturbation h hr ha hg hdet hk hn0 r0 UMlr ho
  have hi := h.inner
  refine ⟨⟨⟨fun x => deflOp g T (arnfW V U Wt) x + out.F x, fun x y => ?_⟩, fun c x => ?_⟩, fun x => rfl⟩
  · have e1 : deflOp g T (arnfW V U Wt) (x + y) = deflOp g T (arnfW V U Wt) x + deflOp g T (arnfW V U Wt) y := by
      have := map_add (complLin hi T (arnfW V U Wt) ∘ₗ T) x y
      exact this
    have e2 : out.F (x + y) = out.F x + out.F y := by
      simp only [hF, hi.add_right, mul_add, Finset.sum_add_distrib, add_smul]
      abel
    rw [e1, e2]
    abel
  · have e1 : deflOp g T (arnfW V U Wt) (c • x) = c • deflOp g T (arnfW V U Wt) x := by
      have := map_smul (complLin hi T (arnfW V U Wt) ∘ₗ T) c x
      exact this
    have e2 : out.F (c • x) = c • out.F x := by
      simp only [hF, hi.smul_right, smul_sub, smul_neg, Finset.smul_sum, smul_smul, Finset.mul_sum]
      congr 1
      · congr 1
        refine Finset.sum_congr rfl fun i _ => ?_
        congr 1
        exact Finset.sum_congr rfl fun j _ => by ring
      · refine Finset.sum_congr rfl fun i _ => ?_
        congr 1
        exact Finset.sum_congr rfl fun j _ => by ring
    dsimp only
    rw [e1, e2, smul_add]
    rfl

/-- For a self-adjoint operator `Hh` is tridiagonal. -/
theorem arnf_tridiag (hT : ∀ x y, g (T x) y = g x (T y)) (i j : ℕ) (hij : i + 1 < j) : natMat out.Hh i j = 0 := by
  obtain ⟨hH, -⟩ := C56_relation h hr ha hg hdet hk hn0 r0 UMlr ho
  obtain ⟨hP, -⟩ := C56_projection h hr ha hg hdet hk hn0 r0 UMlr ho
  have hi := h.inner
  unfold natMat
  split
  next hb =>
    have e := complLin_selfadj hi hdet hT (out.Vh ⟨i, hb.1⟩) (out.Vh ⟨j, hb.2⟩)
    rw [← hP]
    have e2 : g (out.Vh ⟨j, hb.2⟩) (deflOp g T (arnfW V U Wt) (out.Vh ⟨i, hb.1⟩)) = 0 := by
      rw [hP]; exact hH _ _ hij
    exact e.symm.trans (hi.orth_symm e2)
  next => rfl

/-- What `bound_pseudo` returns with `pseudo_type='omit'`. -/
theorem omit_ok {prt : PseudoRoutines 𝕜 k (n + d - k - 1)} {sa : Bool} (hsa : sa = true → ∀ x y, g (T x) y = g x (T y)) {bNorm : ℝ}
    {nb : PseudoNorms} {deltaN : ℕ} {tf : ℝ} {res : List ℝ}
    (hrun : boundPseudo a grt g Em B_ V U r0 UMlr h.le Wt prt .minRes sa bNorm nb .omit deltaN tf = .ok res) :
    nb.g < bNorm ∧ ∃ l, getResidualNorms (natMat out.Hh) (n + d - k - 1 + 1) (n + d - k - 1 + 1) false = .ok l ∧
      l.length = n + d - k + 1 ∧ res = l.map fun x => x * out.qNorm / (bNorm - nb.g) := by
  obtain ⟨l, hl, hlen⟩ := (C48_shape (natMat out.Hh) (n + d - k - 1 + 1) (n + d - k - 1 + 1) sa).1 (by omega)
  have hl' : getResidualNorms (natMat out.Hh) (n + d - k - 1 + 1) (n + d - k - 1 + 1) false = .ok l := by
    cases sa with
    | false => exact hl
    | true =>
      rw [← C48_self_adjoint fun i j hij => arnf_tridiag h hr ha hg hdet hk hn0 r0 UMlr ho (hsa rfl) i j hij]
      exact hl
  unfold boundPseudo at hrun
  simp only [ho] at hrun
  cases he : pseudoEta prt.svdmin (Wtᴴ * (a.J * (a.L * Wt))) nb with
  | error e => rw [he] at hrun; cases hrun
  | ok eta =>
    rw [he] at hrun
    by_cases hb : bNorm ≤ nb.g
    · simp only [pseudoCore, if_pos hb] at hrun
      cases hrun
    · simp only [pseudoCore, if_neg hb, pseudoAres, hl, if_true] at hrun
      refine ⟨not_le.mp hb, l, hl', by rw [hlen]; simp; omega, ?_⟩
      rw [← Except.ok.inj hrun, List.map_map]
      rfl

/-- C58, `omit`: let `B = P_W M A + F` be the perturbed deflated operator of the `Arnoldifyer`.  The numbers which are returned do not
increase; multiplied by `‖b‖ - ‖g‖`, number `i` is a lower bound of the residual norms `‖q_norm Vh_0 - B z‖` for all `z` in the `i`-th Krylov
subspace, and the minimum as long as the subdiagonal of `Hh` has no zeros (for the last number: if `Hh` is also nonsingular). -/
theorem C58_omit (hD : ∀ j, arnfDefect a V U (fun j => T (U j)) Em B_ j = 0) {prt : PseudoRoutines 𝕜 k (n + d - k - 1)} {sa : Bool}
    (hsa : sa = true → ∀ x y, g (T x) y = g x (T y)) {bNorm : ℝ} {nb : PseudoNorms} {deltaN : ℕ} {tf : ℝ} {res : List ℝ}
    (hrun : boundPseudo a grt g Em B_ V U r0 UMlr h.le Wt prt .minRes sa bNorm nb .omit deltaN tf = .ok res)
    {B : E →ₗ[𝕜] E} (hB : ∀ x, B x = deflOp g T (arnfW V U Wt) x + out.F x) :
    res.length = n + d - k + 1 ∧ res.Pairwise (fun x y => y ≤ x) ∧ res.getLast? = some 0 ∧
    (∀ (i : ℕ) (hil : i < res.length), ∀ z ∈ krylov B (out.Vh 0) i,
      res[i] * (bNorm - nb.g) ≤ nrm g ((out.qNorm : 𝕜) • out.Vh 0 - B z)) ∧
    ∀ (i : ℕ) (hil : i < res.length), (∀ j < i, j < n + d - k - 1 → natMat out.Hh (j + 1) j ≠ 0) →
      (i = n + d - k - 1 + 1 → out.Hh.det ≠ 0) →
      IsLeast ((fun z => nrm g ((out.qNorm : 𝕜) • out.Vh 0 - B z)) '' (krylov B (out.Vh 0) i : Set E)) (res[i] * (bNorm - nb.g)) := by
  obtain ⟨hb, l, hl, hlen, rfl⟩ := omit_ok h hr ha hg hdet hk hn0 r0 UMlr ho hsa hrun
  obtain ⟨e1, -, -, -⟩ := C56_basis h hr ha hg hdet hk hn0 r0 UMlr ho
  obtain ⟨hH, hR⟩ := C56_relation h hr ha hg hdet hk hn0 r0 UMlr ho
  have hq : 0 ≤ out.qNorm := by
    obtain ⟨Wq, S, Pm, G⟩ := arnf_got h hr ha hg hdet hk hn0 r0 UMlr ho
    exact G.qNorm
  have hrel : ∀ j, B (out.Vh j) = ∑ i, out.Hh i j • out.Vh i := by
    intro j
    obtain ⟨c, -, hc⟩ := hR j
    rw [hB, hc]
    simp [hD]
  have hpos : 0 < bNorm - nb.g := sub_pos.mpr hb
  have hval : ∀ x : ℝ, x * out.qNorm / (bNorm - nb.g) * (bNorm - nb.g) = x * out.qNorm := fun x => by
    field_simp
  refine ⟨by simp [hlen], ?_, ?_, fun i hil z hz => ?_, fun i hil hs hd => ?_⟩
  · rw [List.pairwise_map]
    refine (C48_antitone hl).imp fun {x y} hxy => ?_
    gcongr
  · rw [List.getLast?_eq_getElem?, List.length_map, List.getElem?_map]
    have hlast := (C48_square (by omega) hl (by omega)).1
    have : l.length - 1 = n + d - k - 1 + 1 := by omega
    rw [this, List.getElem?_eq_getElem (by omega), hlast]
    simp
  · rw [List.getElem_map, hval]
    rw [List.length_map] at hil
    exact hess_lower h.inner e1 hH hrel hl hq hil hz
  · rw [List.getElem_map, hval]
    rw [List.length_map] at hil
    exact hess_least h.inner e1 hH hrel hl hq hil hs hd

/-- C58, `omit`, without approximation errors: if the residual block `Rh` and `vdiff_norm` vanish then number `i`, multiplied by
`‖b‖ - ‖g‖`, is the minimal residual norm of the deflated system with operator `P_W M A` and initial residual `P_W r` over the `i`-th Krylov
subspace. -/
theorem C58_omit_exact (hD : ∀ j, arnfDefect a V U (fun j => T (U j)) Em B_ j = 0) {prt : PseudoRoutines 𝕜 k (n + d - k - 1)} {sa : Bool}
    (hsa : sa = true → ∀ x y, g (T x) y = g x (T y)) {bNorm : ℝ} {nb : PseudoNorms} {deltaN : ℕ} {tf : ℝ} {res : List ℝ}
    (hrun : boundPseudo a grt g Em B_ V U r0 UMlr h.le Wt prt .minRes sa bNorm nb .omit deltaN tf = .ok res)
    {r : E} (hres : r = (r0 : 𝕜) • V 0 + ∑ j, (Em⁻¹ *ᵥ UMlr) j • T (U j)) (hRh : out.Rh = 0) (hvd : out.vdiffNorm = 0)
    (i : ℕ) (hil : i < res.length) (hs : ∀ j < i, j < n + d - k - 1 → natMat out.Hh (j + 1) j ≠ 0)
    (hd : i = n + d - k - 1 + 1 → out.Hh.det ≠ 0) (hq : out.qNorm ≠ 0) :
    IsLeast ((fun z => nrm g (complLin h.inner T (arnfW V U Wt) (r - T z))) ''
      (krylov (complLin h.inner T (arnfW V U Wt) ∘ₗ T) (complLin h.inner T (arnfW V U Wt) r) i : Set E)) (res[i] * (bNorm - nb.g)) := by
  obtain ⟨hF, -, -⟩ := C56_perturbation h hr ha hg hdet hk hn0 r0 UMlr ho
  obtain ⟨al, z, hal, hq0, hin, -, hz⟩ := C56_initial h hr ha hg hdet hk hn0 r0 UMlr ho hres hD
  have hi := h.inner
  rw [hvd, hi.nrm_eq_zero] at hz
  rw [hz, add_zero] at hin
  set P := complLin hi T (arnfW V U Wt) with hP
  have hin' : P r = (al * (out.qNorm : 𝕜)) • out.Vh 0 := hin
  have hB : ∀ x, (P ∘ₗ T) x = deflOp g T (arnfW V U Wt) x + out.F x := by
    intro x
    rw [hF, hRh]
    simp only [Matrix.zero_apply, zero_mul, map_zero, Finset.sum_const_zero, zero_smul, neg_zero, sub_zero, add_zero]
    rfl
  have hal0 : al ≠ 0 := fun h0 => by rw [h0, norm_zero] at hal; exact zero_ne_one hal
  have hqk : (out.qNorm : 𝕜) ≠ 0 := by exact_mod_cast hq
  have hkry : krylov (P ∘ₗ T) (P r) i = krylov (P ∘ₗ T) (out.Vh 0) i := by
    have hsp : ∀ (c : 𝕜) (x : E), krylov (P ∘ₗ T) (c • x) i ≤ krylov (P ∘ₗ T) x i := by
      intro c x
      rw [krylov_eq_spanTo, spanTo_le]
      intro j hj
      rw [map_smul]
      exact Submodule.smul_mem _ _ (Submodule.subset_span ⟨j, hj, rfl⟩)
    refine le_antisymm (by rw [hin']; exact hsp _ _) ?_
    have : out.Vh 0 = (al * (out.qNorm : 𝕜))⁻¹ • P r := by
      rw [hin', smul_smul, inv_mul_cancel₀ (mul_ne_zero hal0 hqk), one_smul]
    rw [this]
    exact hsp _ _
  obtain ⟨hlen, -, -, -, hmin⟩ := C58_omit h hr ha hg hdet hk hn0 r0 UMlr ho hD hsa hrun hB
  have h1 := hmin i hil hs hd
  have hnrm : ∀ w, nrm g (P (r - T (al • w))) = nrm g ((out.qNorm : 𝕜) • out.Vh 0 - (P ∘ₗ T) w) := by
    intro w
    have : P (r - T (al • w)) = al • ((out.qNorm : 𝕜) • out.Vh 0 - (P ∘ₗ T) w) := by
      rw [map_sub, hin', map_smul, map_smul, smul_sub, smul_smul]
      rfl
    rw [this, hi.nrm_smul, hal, one_mul]
  rw [hkry]
  obtain ⟨⟨w, hw, e⟩, hlow⟩ := h1
  refine ⟨⟨al • w, Submodule.smul_mem _ _ hw, (hnrm w).trans e⟩, ?_⟩
  rintro _ ⟨w, hw, rfl⟩
  have h2 := hlow ⟨al⁻¹ • w, Submodule.smul_mem _ _ hw, rfl⟩
  dsimp only at h2 ⊢
  rwa [← hnrm, smul_smul, mul_inv_cancel₀ hal0, one_smul] at h2

end omitted

/-! ## The next linear system: perturbations of the operator and of the right hand side -/

section perturb
variable {g : E → E → 𝕜} (hi : IsInner g)
include hi

theorem IsInner.nrm_add_le (x y : E) : nrm g (x + y) ≤ nrm g x + nrm g y := by
  have h1 := hi.cauchy_schwarz x y
  rw [← hi.nrm_sq, ← hi.nrm_sq, ← mul_pow] at h1
  have h2 : ‖g x y‖ ≤ nrm g x * nrm g y :=
    (sq_le_sq₀ (norm_nonneg _) (mul_nonneg (nrm_nonneg _ _) (nrm_nonneg _ _))).mp h1
  have h3 := (RCLike.re_le_norm (g x y)).trans h2
  rw [← sq_le_sq₀ (nrm_nonneg _ _) (add_nonneg (nrm_nonneg _ _) (nrm_nonneg _ _)), hi.nrm_sq, hi.nsq_add, ← hi.nrm_sq, ← hi.nrm_sq]
  nlinarith

theorem IsInner.nrm_neg (x : E) : nrm g (-x) = nrm g x := by
  rw [nrm, hi.nsq_neg]; rfl

theorem IsInner.nrm_sub_le (x y : E) : nrm g (x - y) ≤ nrm g x + nrm g y := by
  rw [sub_eq_add_neg, ← hi.nrm_neg y]
  exact hi.nrm_add_le x (-y)

omit hi in
theorem vecNorm_add_le {ι : Type*} [Fintype ι] (u v : ι → 𝕜) : vecNorm (u + v) ≤ vecNorm u + vecNorm v := by
  classical
  rw [vecNorm_eq, vecNorm_eq, vecNorm_eq, WithLp.toLp_add]
  exact norm_add_le _ _

variable {T T' : E →ₗ[𝕜] E} {W : Fin k → E} (hW : gram g W W = 1) {s wgw : ℝ}
  (hs : 0 < k → IsSvdMin (gram g W fun j => T (W j)) s)
  (hwgw : ∀ c : Fin k → 𝕜, vecNorm ((gram g W fun j => T' (W j) - T (W j)) *ᵥ c) ≤ wgw * vecNorm c) (hlt : wgw < s)

include hs hwgw in
/-- C58: if the singular values of `⟨W, A W⟩` are larger than `‖⟨W, G W⟩‖` then `⟨W, B W⟩` with `B = A + G` is nonsingular, with singular
values of at least the difference. -/
theorem C58_assumption (c : Fin k → 𝕜) : (s - wgw) * vecNorm c ≤ vecNorm ((gram g W fun j => T' (W j)) *ᵥ c) := by
  have e : (gram g W fun j => T (W j)) *ᵥ c = (gram g W fun j => T' (W j)) *ᵥ c +
      -((gram g W fun j => T' (W j) - T (W j)) *ᵥ c) := by
    rw [← sub_eq_add_neg, ← Matrix.sub_mulVec]
    congr 1
    ext i j
    simp [gram, hi.sub_right]
  have h1 : s * vecNorm c ≤ vecNorm ((gram g W fun j => T (W j)) *ᵥ c) := by
    by_cases hc : c = 0
    · subst hc
      rw [vecNorm_eq_zero.mpr rfl, mul_zero]
      exact vecNorm_nonneg _
    · have hn : vecNorm c ≠ 0 := fun h => hc (vecNorm_eq_zero.mp h)
      have hk : 0 < k := by
        rcases Nat.eq_zero_or_pos k with rfl | h0
        · exact absurd (Subsingleton.elim c 0) hc
        · exact h0
      have hpos := lt_of_le_of_ne (vecNorm_nonneg c) (Ne.symm hn)
      have h2 := (hs hk).2 ⟨((vecNorm c : ℝ) : 𝕜)⁻¹ • c, by
        rw [vecNorm_smul, norm_inv, RCLike.norm_ofReal, abs_of_pos hpos, inv_mul_cancel₀ hn], rfl⟩
      rw [Matrix.mulVec_smul, vecNorm_smul, norm_inv, RCLike.norm_ofReal, abs_of_pos hpos, inv_mul_eq_div,
        le_div_iff₀ hpos] at h2
      exact h2
  have h3 := vecNorm_add_le ((gram g W fun j => T' (W j)) *ᵥ c) (-((gram g W fun j => T' (W j) - T (W j)) *ᵥ c))
  rw [← e] at h3
  have h4 : vecNorm (-((gram g W fun j => T' (W j) - T (W j)) *ᵥ c)) = vecNorm ((gram g W fun j => T' (W j) - T (W j)) *ᵥ c) := by
    have := vecNorm_smul (-1 : 𝕜) ((gram g W fun j => T' (W j) - T (W j)) *ᵥ c)
    rwa [neg_one_smul, norm_neg, norm_one, one_mul] at this
  rw [h4] at h3
  linarith [hwgw c]

include hs hwgw hlt in
theorem C58_nonsingular : (gram g W fun j => T' (W j)).det ≠ 0 := by
  intro h0
  obtain ⟨c, hc, hz⟩ := Matrix.exists_mulVec_eq_zero_iff.mpr h0
  have h1 := C58_assumption hi hs hwgw c
  rw [hz, vecNorm_eq_zero.mpr rfl] at h1
  have hpos := lt_of_le_of_ne (vecNorm_nonneg c) (Ne.symm fun h => hc (vecNorm_eq_zero.mp h))
  nlinarith

variable (hdet : (gram g W fun j => T (W j)).det ≠ 0)

include hs hwgw hlt hdet in
/-- The projection for the perturbed operator in terms of the one for the original operator. -/
theorem compl_perturb (v : E) : ∃ c : Fin k → 𝕜, (s - wgw) * vecNorm c ≤ vecNorm (coefs g W v) ∧
    complLin hi T' W v = complLin hi T W (v - (T' (lincomb W c) - T (lincomb W c))) := by
  have hd' := C58_nonsingular hi hs hwgw hlt
  refine ⟨(gram g W fun j => T' (W j))⁻¹ *ᵥ coefs g W v, ?_, ?_⟩
  · refine (C58_assumption hi hs hwgw _).trans ?_
    rw [Matrix.mulVec_mulVec, Matrix.mul_nonsing_inv _ (isUnit_iff_ne_zero.mpr hd'), Matrix.one_mulVec]
  · have h1 := complLin_of_orth hi hdet (complLin_orth hi hd' v)
    rw [← h1]
    set c := (gram g W fun j => T' (W j))⁻¹ *ᵥ coefs g W v with hc
    have h2 : complLin hi T' W v = v - T' (lincomb W c) := by
      rw [complLin_apply, map_lincomb]
      rfl
    rw [h2, map_sub, map_sub, map_sub, complLin_B hi hdet, sub_zero]

variable {pw gw : ℝ} (hpw0 : 0 ≤ pw) (hpw : ∀ x, nrm g (complLin hi T W x) ≤ pw * nrm g x)
  (hgw : ∀ c : Fin k → 𝕜, nrm g (T' (lincomb W c) - T (lincomb W c)) ≤ gw * vecNorm c) (hgw0 : 0 ≤ gw)

include hs hwgw hlt hdet hpw0 hpw hgw hgw0 in
theorem compl_perturb_le (v v' : E) : nrm g (complLin hi T' W v' - complLin hi T W v) ≤
    pw * (gw / (s - wgw) * vecNorm (coefs g W v') + nrm g (v' - v)) := by
  obtain ⟨c, hc, e⟩ := compl_perturb hi hs hwgw hlt hdet v'
  have hpos : 0 < s - wgw := sub_pos.mpr hlt
  rw [e, ← map_sub]
  refine (hpw _).trans (mul_le_mul_of_nonneg_left ?_ hpw0)
  have h1 : v' - (T' (lincomb W c) - T (lincomb W c)) - v = (v' - v) - (T' (lincomb W c) - T (lincomb W c)) := by abel
  rw [h1]
  have h2 := hi.nrm_sub_le (v' - v) (T' (lincomb W c) - T (lincomb W c))
  have h3 : gw * vecNorm c ≤ gw / (s - wgw) * vecNorm (coefs g W v') := by
    rw [div_mul_eq_mul_div, le_div_iff₀ hpos, mul_assoc, mul_comm (vecNorm c)]
    exact mul_le_mul_of_nonneg_left hc hgw0
  linarith [hgw c]

end perturb

/-- The first columns of a matrix. -/
theorem slice_bound {ι : Type*} [Fintype ι] [DecidableEq ι] {Vh : Fin (p + 1) → E} (Rh : Matrix ι (Fin (p + 1)) 𝕜) {i : ℕ} {x : E}
    (hx : x ∈ spanTo (𝕜 := 𝕜) (natVec Vh) i) : ∃ u, x = lincomb Vh u ∧
      vecNorm (Rh *ᵥ u) ≤ matNorm2 (Matrix.of fun r (c : Fin (min i (p + 1))) => Rh r ⟨c, by omega⟩) * vecNorm u := by
  obtain ⟨w, hw⟩ := mem_spanTo_iff.mp hx
  have hx' : x = lincomb Vh fun j => if (j : ℕ) < i then w j else 0 := by
    have h3 : ∑ j ∈ range i, w j • natVec Vh j = ∑ j ∈ range (p + 1), (if j < i then w j else 0) • natVec Vh j := by
      rcases Nat.le_total i (p + 1) with hm | hm
      · exact sum_trunc hm w _
      · have h4 : ∑ j ∈ range i, w j • natVec Vh j = ∑ j ∈ range (p + 1), w j • natVec Vh j := by
          rw [← Finset.sum_subset (Finset.range_mono hm)]
          intro j _ hj
          rw [natVec, dif_neg (by simpa using hj), smul_zero]
        rw [h4]
        refine Finset.sum_congr rfl fun j hj => ?_
        rw [if_pos ((Finset.mem_range.mp hj).trans_le hm)]
    rw [hw, h3, lincomb, Finset.sum_range]
    refine Finset.sum_congr rfl fun j _ => ?_
    rw [natVec_lt _ j.2]
  set u : Fin (p + 1) → 𝕜 := fun j => if (j : ℕ) < i then w j else 0 with hu
  refine ⟨u, hx', ?_⟩
  set u' : Fin (min i (p + 1)) → 𝕜 := fun c => w c with hu'
  have hfin : ∀ f : ℕ → 𝕜, ∑ j : Fin (p + 1), (if (j : ℕ) < i then f j else 0) = ∑ j : Fin (min i (p + 1)), f j := by
    intro f
    rw [← Finset.sum_range (fun j => if j < i then f j else 0), ← Finset.sum_range f]
    rw [← Finset.sum_subset (Finset.range_mono (min_le_right i (p + 1)))]
    · refine Finset.sum_congr rfl fun j hj => if_pos ?_
      have := Finset.mem_range.mp hj
      omega
    · intro j hj hj'
      rw [if_neg]
      simp at hj hj'
      omega
  have k1 : Rh *ᵥ u = (Matrix.of fun r (c : Fin (min i (p + 1))) => Rh r ⟨c, by omega⟩) *ᵥ u' := by
    funext r
    rw [Matrix.mulVec, Matrix.mulVec, dotProduct, dotProduct]
    have := hfin fun j => if hj : j < p + 1 then Rh r ⟨j, hj⟩ * w j else 0
    simp only [Fin.is_lt, dite_true, Fin.eta] at this
    calc ∑ j, Rh r j * u j = ∑ j : Fin (p + 1), (if (j : ℕ) < i then Rh r j * w j else 0) := by
          refine Finset.sum_congr rfl fun j _ => ?_
          rw [hu]
          dsimp only
          split <;> simp
      _ = _ := by
        rw [this]
        refine Finset.sum_congr rfl fun j _ => ?_
        rw [dif_pos (by omega)]
        rfl
  have k2 : vecNorm u' ≤ vecNorm u := by
    unfold vecNorm
    apply Real.sqrt_le_sqrt
    have := hfin fun j => ((‖w j‖ ^ 2 : ℝ) : 𝕜)
    have h5 : (∑ j : Fin (p + 1), if (j : ℕ) < i then ‖w j‖ ^ 2 else 0) = ∑ j : Fin (min i (p + 1)), ‖w j‖ ^ 2 := by
      have h6 : ((∑ j : Fin (p + 1), if (j : ℕ) < i then ‖w j‖ ^ 2 else 0 : ℝ) : 𝕜) =
          ((∑ j : Fin (min i (p + 1)), ‖w j‖ ^ 2 : ℝ) : 𝕜) := by
        push_cast
        push_cast at this
        rw [← this]
        refine Finset.sum_congr rfl fun j _ => ?_
        split <;> simp
      exact_mod_cast h6
    rw [hu', ← h5]
    refine Finset.sum_le_sum fun j _ => ?_
    rw [hu]
    dsimp only
    split <;> simp
  rw [k1]
  exact (vecNorm_mulVec_le _ _).trans (mul_le_mul_of_nonneg_left k2 (matNorm2_nonneg _))

section nextSystem
open DeflRitzRel
variable {g eip : E → E → 𝕜} {T : E →ₗ[𝕜] E} {V : ℕ → E} {U : Fin d → E} {H : ℕ → ℕ → 𝕜}
  {Em F : Matrix (Fin d) (Fin d) 𝕜} {C B_ : List (Fin d → 𝕜)} {rt : ArnfRoutines 𝕜 E d} {a : Arnf 𝕜 E n_ n d}
  (h : DeflRitzRel g T V U H n_ n Em F C B_) (hr : ArnfHyp g eip rt)
  (ha : mkArnf rt H Em C B_ V U (fun j => T (U j)) = .ok a)
  {grt : ArnfGetRoutines 𝕜 n_ n d k (n + d - k - 1)} (hg : ArnfGetHyp grt) {Wt : Matrix (Fin n ⊕ Fin d) (Fin k) 𝕜}
  (hWt : Wtᴴ * Wt = 1)
  (hdet : (gram g (arnfW V U Wt) fun j => T (arnfW V U Wt j)).det ≠ 0) (hk : k < n + d) (hn0 : 0 < n_)
  (r0 : ℝ) (UMlr : Fin d → 𝕜)
  {out : ArnfOut 𝕜 E n_ n a.l (n + d - k - 1)} (ho : a.get grt g Em B_ V U r0 UMlr h.le Wt = .ok out)
  (hD : ∀ j, arnfDefect a V U (fun j => T (U j)) Em B_ j = 0)
  {prt : PseudoRoutines 𝕜 k (n + d - k - 1)} (hsv : ∀ M, 0 < k → IsSvdMin M (prt.svdmin M))
  {T' : E →ₗ[𝕜] E} {nb : PseudoNorms} {eta : ℝ}
  (heta : pseudoEta prt.svdmin (Wtᴴ * (a.J * (a.L * Wt))) nb = .ok eta)
  (hWGW : ∀ c : Fin k → 𝕜, vecNorm ((gram g (arnfW V U Wt) fun j => T' (arnfW V U Wt j) - T (arnfW V U Wt j)) *ᵥ c) ≤ nb.WGW * vecNorm c)
  (hGW : ∀ c : Fin k → 𝕜, nrm g (T' (lincomb (arnfW V U Wt) c) - T (lincomb (arnfW V U Wt) c)) ≤ nb.GW * vecNorm c) (hGW0 : 0 ≤ nb.GW)
include h hr ha

include hWt in
theorem arnfW_orth : gram g (arnfW V U Wt) (arnfW V U Wt) = 1 := by
  rw [funext (arnfW_eq V U Wt), h.inner.gram_left, h.inner.gram_right, h.gram_wb, Matrix.one_mul, hWt]

include hsv heta hWGW hGW hGW0 hg hdet hk hn0 ho hD

theorem next_le (v v' : E) : 0 ≤ eta ∧ nrm g (complLin h.inner T' (arnfW V U Wt) v' - complLin h.inner T (arnfW V U Wt) v) ≤
    out.pwawNorm * (eta * vecNorm (coefs g (arnfW V U Wt) v') + nrm g (v' - v)) := by
  have hi := h.inner
  obtain ⟨⟨hpw0, hpw⟩, -⟩ := C56_projection_norm h hr ha hg hdet hk hn0 r0 UMlr ho hD
  have hw := C58_waw h hr ha (Wt := Wt)
  rcases Nat.eq_zero_or_pos k with rfl | hk0
  · unfold pseudoEta at heta
    rw [if_neg (by omega)] at heta
    obtain rfl := Except.ok.inj heta
    refine ⟨le_rfl, ?_⟩
    have := compl_perturb_le hi (T' := T') (s := nb.WGW + 1) (fun h0 => absurd h0 (by omega)) hWGW (by linarith) hdet hpw0
      (fun x => hpw x) hGW hGW0 v v'
    have h0 : vecNorm (coefs g (arnfW V U Wt) v') = 0 := vecNorm_eq_zero.mpr (Subsingleton.elim _ _)
    rwa [h0, mul_zero] at this ⊢
  · unfold pseudoEta at heta
    rw [if_pos hk0, hw] at heta
    split at heta
    · cases heta
    next hlt =>
      obtain rfl := Except.ok.inj heta
      have hlt' := not_le.mp hlt
      exact ⟨div_nonneg hGW0 (sub_nonneg.mpr hlt'.le), compl_perturb_le hi (fun h0 => hsv _ h0) hWGW hlt' hdet hpw0 (fun x => hpw x)
        hGW hGW0 v v'⟩

include hWt

/-- C58: let `B` be the operator and `r'` the preconditioned right hand side of the next system (`T'` and `r'` are `M B` and `M c`) and let the four
norms of the differences be bounded by the arguments.  Then the initial residual `P r'` of the next deflated system differs from a multiple
of `Vh_0` of norm `q_norm` by at most `beta` (line 545). -/
theorem C58_beta {r r' : E} (hres : r = (r0 : 𝕜) • V 0 + ∑ j, (Em⁻¹ *ᵥ UMlr) j • T (U j)) {bNorm : ℝ} (hb : nrm g r ≤ bNorm)
    (hg' : nrm g (r' - r) ≤ nb.g) : ∃ al : 𝕜, ‖al‖ = 1 ∧
      nrm g (complLin h.inner T' (arnfW V U Wt) r' - (al * (out.qNorm : 𝕜)) • out.Vh 0) ≤
        out.pwawNorm * (eta * (bNorm + nb.g) + nb.g) + out.vdiffNorm := by
  have hi := h.inner
  obtain ⟨⟨hpw0, -⟩, -⟩ := C56_projection_norm h hr ha hg hdet hk hn0 r0 UMlr ho hD
  obtain ⟨al, z, hal, -, hin, -, hz⟩ := C56_initial h hr ha hg hdet hk hn0 r0 UMlr ho hres hD
  refine ⟨al, hal, ?_⟩
  obtain ⟨he0, h1⟩ := next_le h hr ha hg hdet hk hn0 r0 UMlr ho hD hsv heta hWGW hGW hGW0 r r'
  have h2 := bessel hi (arnfW_orth h hr ha hWt) r'
  have h3 : nrm g r' ≤ bNorm + nb.g := by
    have := hi.nrm_add_le r (r' - r)
    rw [add_sub_cancel] at this
    linarith
  have e : complLin hi T' (arnfW V U Wt) r' - (al * (out.qNorm : 𝕜)) • out.Vh 0 =
      (complLin hi T' (arnfW V U Wt) r' - complLin hi T (arnfW V U Wt) r) + z := by
    rw [complLin_apply hi T, hin]
    abel
  rw [e]
  refine (hi.nrm_add_le _ _).trans ?_
  rw [hz]
  have h4 : eta * vecNorm (coefs g (arnfW V U Wt) r') + nrm g (r' - r) ≤ eta * (bNorm + nb.g) + nb.g :=
    add_le_add (mul_le_mul_of_nonneg_left (h2.trans h3) he0) hg'
  have h5 := mul_le_mul_of_nonneg_left h4 hpw0
  linarith

/-- C58: on the space spanned by the first `i` vectors of `Vh` the operator of the next deflated system differs from the perturbed operator
`P_W M A + F` of the `Arnoldifyer` by at most `epsilon` (lines 654-659), provided that `‖⟨W, M A x⟩‖ ≤ ‖Hh‖ ‖x‖` there. -/
theorem C58_epsilon (hG : ∀ x, nrm g (T' x - T x) ≤ nb.G * nrm g x) {i : ℕ} {rh : ℝ}
    (hrh : rhNorm out.Rh i = .ok rh) {x : E} (hx : x ∈ spanTo (𝕜 := 𝕜) (natVec out.Vh) i)
    (hHn : vecNorm (coefs g (arnfW V U Wt) (T x)) ≤ matNorm2 out.Hh * nrm g x) :
    nrm g (complLin h.inner T' (arnfW V U Wt) (T' x) - (deflOp g T (arnfW V U Wt) x + out.F x)) ≤
      pseudoEps out.pwawNorm eta (matNorm2 out.Hh) nb.G rh * nrm g x := by
  have hi := h.inner
  obtain ⟨⟨hpw0, -⟩, -⟩ := C56_projection_norm h hr ha hg hdet hk hn0 r0 UMlr ho hD
  obtain ⟨Wq, S, Pm, G⟩ := arnf_got h hr ha hg hdet hk hn0 r0 UMlr ho
  obtain ⟨e1, -, e3, -⟩ := C56_basis h hr ha hg hdet hk hn0 r0 UMlr ho
  obtain ⟨ok, -, -⟩ := mkArnf_ok h hr ha
  obtain ⟨he0, h1⟩ := next_le h hr ha hg hdet hk hn0 r0 UMlr ho hD hsv heta hWGW hGW hGW0 (T x) (T' x)
  have hVV : gram g out.Vh out.Vh = 1 := by
    ext i j
    rw [gram, Matrix.of_apply, e1, Matrix.one_apply]
  -- the norm of `F x`
  have hF : nrm g (out.F x) ≤ rh * nrm g x := by
    unfold rhNorm at hrh
    split at hrh
    · cases hrh
    obtain rfl := Except.ok.inj hrh
    obtain ⟨u, hx', hb⟩ := slice_bound out.Rh hx
    have c1 : coefs g out.Vh x = u := by
      rw [hx', hi.coefs_lincomb, hVV, Matrix.one_mulVec]
    have c2 : coefs g a.Z x = 0 := by
      rw [hx', hi.coefs_lincomb, show gram g a.Z out.Vh = 0 from by ext l j; exact e3 j l, Matrix.zero_mulVec]
    have hxn : nrm g x = vecNorm u := by rw [hx', nrm_lincomb_orth hi hVV]
    rw [G.F, c1, c2, Matrix.mulVec_zero, lincomb_zero, add_zero, hi.nrm_neg, nrm_lincomb_orth hi (arnf_gram_Z h ok).1, hxn]
    exact hb
  have e : complLin hi T' (arnfW V U Wt) (T' x) - (deflOp g T (arnfW V U Wt) x + out.F x) =
      (complLin hi T' (arnfW V U Wt) (T' x) - complLin hi T (arnfW V U Wt) (T x)) - out.F x := by
    rw [complLin_apply hi T]
    unfold deflOp
    abel
  have h6 : vecNorm (coefs g (arnfW V U Wt) (T' x)) ≤ (matNorm2 out.Hh + nb.G) * nrm g x := by
    have e2 : coefs g (arnfW V U Wt) (T' x) = coefs g (arnfW V U Wt) (T x) + coefs g (arnfW V U Wt) (T' x - T x) := by
      rw [← hi.coefs_add, add_sub_cancel]
    rw [e2]
    have h7 := bessel hi (arnfW_orth h hr ha hWt) (T' x - T x)
    have h8 := vecNorm_add_le (coefs g (arnfW V U Wt) (T x)) (coefs g (arnfW V U Wt) (T' x - T x))
    linarith [hG x]
  have h7 : nrm g (complLin hi T' (arnfW V U Wt) (T' x) - (deflOp g T (arnfW V U Wt) x + out.F x)) ≤
      (out.pwawNorm * (eta * (matNorm2 out.Hh + nb.G) + nb.G) + rh) * nrm g x := by
    rw [e]
    refine (hi.nrm_sub_le _ _).trans ?_
    have h8 : eta * vecNorm (coefs g (arnfW V U Wt) (T' x)) + nrm g (T' x - T x) ≤
        eta * ((matNorm2 out.Hh + nb.G) * nrm g x) + nb.G * nrm g x :=
      add_le_add (mul_le_mul_of_nonneg_left h6 he0) (hG x)
    have h9 := mul_le_mul_of_nonneg_left h8 hpw0
    linarith
  refine h7.trans (mul_le_mul_of_nonneg_right ?_ (nrm_nonneg _ _))
  unfold pseudoEps
  dsimp only
  split
  next h0 => rw [h0]; norm_num
  next => exact le_rfl

omit hWt hsv heta hWGW hGW hGW0 hD in
/-- C58: the condition of `C58_epsilon` holds if `M A` is self-adjoint and the deflation vectors are Ritz vectors: then `⟨W, M A x⟩ = 0`. -/
theorem C58_epsilon_ritz (hT : ∀ x y, g (T x) y = g x (T y))
    (hritz : ∀ l, ∃ θ : 𝕜, (∀ j < n, g (V j) (T (arnfW V U Wt l) - θ • arnfW V U Wt l) = 0) ∧
      ∀ j, g (U j) (T (arnfW V U Wt l) - θ • arnfW V U Wt l) = 0)
    {i : ℕ} {x : E} (hx : x ∈ spanTo (𝕜 := 𝕜) (natVec out.Vh) i) : coefs g (arnfW V U Wt) (T x) = 0 := by
  have hi := h.inner
  obtain ⟨e1, e2, e3, espan⟩ := C56_basis h hr ha hg hdet hk hn0 r0 UMlr ho
  have hsub : spanTo (𝕜 := 𝕜) (natVec out.Vh) i ≤ Submodule.span 𝕜 (Set.range out.Vh) := by
    rw [spanTo_le]
    intro j _
    unfold natVec
    split
    next hj => exact Submodule.subset_span ⟨_, rfl⟩
    next => exact Submodule.zero_mem _
  have hx1 := hsub hx
  have hx2 : x ∈ Submodule.span 𝕜 (Set.range (wb n V U)) := by
    rw [← espan]
    exact Submodule.mem_sup_left hx1
  funext l
  obtain ⟨θ, hv, hu⟩ := hritz l
  have hx3 : g (arnfW V U Wt l) x = 0 := by
    obtain ⟨c, rfl⟩ := (mem_span_iff_lincomb _ _).mp hx1
    rw [lincomb, hi.sum_right]
    exact Finset.sum_eq_zero fun j _ => by rw [hi.smul_right, e2, mul_zero]
  have hx4 : g (T (arnfW V U Wt l) - θ • arnfW V U Wt l) x = 0 := by
    obtain ⟨c, rfl⟩ := (mem_span_iff_lincomb _ _).mp hx2
    rw [lincomb, hi.sum_right]
    refine Finset.sum_eq_zero fun j _ => ?_
    rw [hi.smul_right, hi.orth_symm (show g (wb n V U j) _ = 0 from ?_), mul_zero]
    rcases j with j | j
    · exact hv j j.2
    · exact hu j
  rw [coefs, ← hT, Pi.zero_apply]
  rwa [hi.sub_left, hi.smul_left, hx3, mul_zero, sub_zero] at hx4

end nextSystem

/-- Non-vacuity of C58 with a deflation vector: the previous system is the one of `exArnf_routines`, the operator of the next one is
`T + s / 2` with the smallest singular value `s` of `⟨W, T W⟩`, the bounds of the norms are `s / 2`, and the function returns a list of two numbers. -/
example : ∃ (rt : ArnfRoutines ℝ (Fin 4 → ℝ) 1) (grt : ArnfGetRoutines ℝ 2 1 1 1 (1 + 1 - 1 - 1)) (V : ℕ → Fin 4 → ℝ) (U : Fin 1 → Fin 4 → ℝ)
    (H : ℕ → ℕ → ℝ) (Em F : Matrix (Fin 1) (Fin 1) ℝ) (C B_ : List (Fin 1 → ℝ)) (Wt : Matrix (Fin 1 ⊕ Fin 1) (Fin 1) ℝ)
    (h : DeflRitzRel cdot exArnfT V U H 2 1 Em F C B_) (a : Arnf ℝ (Fin 4 → ℝ) 2 1 1) (prt : PseudoRoutines ℝ 1 (1 + 1 - 1 - 1))
    (T' : (Fin 4 → ℝ) →ₗ[ℝ] (Fin 4 → ℝ)) (nb : PseudoNorms) (eta : ℝ) (res : List ℝ),
    ArnfHyp cdot cdot rt ∧ ArnfGetHyp grt ∧ Wtᴴ * Wt = 1 ∧
      mkArnf (n_ := 2) (n := 1) rt H Em C B_ V U (fun j => exArnfT (U j)) = .ok a ∧
      (∀ j, arnfDefect a V U (fun j => exArnfT (U j)) Em B_ j = 0) ∧
      (gram cdot (arnfW V U Wt) fun j => exArnfT (arnfW V U Wt j)).det ≠ 0 ∧ (∀ M, IsSvdMin M (prt.svdmin M)) ∧
      (∀ c : Fin 1 → ℝ, vecNorm ((gram cdot (arnfW V U Wt) fun j => T' (arnfW V U Wt j) - exArnfT (arnfW V U Wt j)) *ᵥ c) ≤ nb.WGW * vecNorm c) ∧
      (∀ c : Fin 1 → ℝ, nrm cdot (T' (lincomb (arnfW V U Wt) c) - exArnfT (lincomb (arnfW V U Wt) c)) ≤ nb.GW * vecNorm c) ∧
      (∀ x, nrm cdot (T' x - exArnfT x) ≤ nb.G * nrm cdot x) ∧ 0 < nb.GW ∧
      pseudoEta prt.svdmin (Wtᴴ * (a.J * (a.L * Wt))) nb = .ok eta ∧ res.length = 2 ∧
      boundPseudo a grt cdot Em B_ V U 1 (fun _ => 0) h.le Wt prt .minRes false 1 nb .omit 20 (101 / 100) = .ok res := by
  obtain ⟨rt, grt, V, U, H, Em, F, C, B_, Wt, h, hr, hg, hWt, ⟨a, ha, hD⟩, hdet⟩ := exArnf_routines
  have hi := h.inner
  have horth := arnfW_orth h hr ha hWt
  let prt : PseudoRoutines ℝ 1 (1 + 1 - 1 - 1) :=
    ⟨grt.svdmin, fun _ => [], fun _ _ => (0, 0), fun _ _ _ => [], fun _ _ => [], fun _ => [], fun _ => [], fun _ => [],
      fun _ _ => .error .other, fun _ _ _ => .error .other⟩
  have hs : IsSvdMin _ (prt.svdmin (gram cdot (arnfW V U Wt) fun j => exArnfT (arnfW V U Wt j))) :=
    hg.svdmin (gram cdot (arnfW V U Wt) fun j => exArnfT (arnfW V U Wt j)) one_pos
  obtain ⟨⟨u, hu1, hus⟩, hle⟩ := hs
  have hw := C58_waw h hr ha (Wt := Wt)
  generalize hsdef : prt.svdmin (gram cdot (arnfW V U Wt) fun j => exArnfT (arnfW V U Wt j)) = s at hus hle
  have hs0 : 0 < s := by
    rw [hus]
    refine lt_of_le_of_ne (vecNorm_nonneg _) fun h0 => ?_
    have := Matrix.eq_zero_of_mulVec_eq_zero hdet (vecNorm_eq_zero.mp h0.symm)
    rw [this, vecNorm_eq_zero.mpr rfl] at hu1
    exact zero_ne_one hu1
  let T' : (Fin 4 → ℝ) →ₗ[ℝ] (Fin 4 → ℝ) := exArnfT + (s / 2) • LinearMap.id
  have hT' : ∀ x, T' x - exArnfT x = (s / 2) • x := fun x => by simp [T']
  have hG : ∀ x, nrm cdot (T' x - exArnfT x) ≤ s / 2 * nrm cdot x := fun x => by
    rw [hT', hi.nrm_smul, Real.norm_eq_abs, abs_of_pos (half_pos hs0)]
  have hne : ¬(0 < 1 ∧ ∃ x : Fin 1 → ℝ, vecNorm x = 1 ∧
      vecNorm ((gram cdot (arnfW V U Wt) fun j => exArnfT (arnfW V U Wt j)) *ᵥ x) ≤ s / 2) := by
    rintro ⟨-, x, hx, hx2⟩
    have := hle ⟨x, hx, rfl⟩
    linarith
  have heta : pseudoEta prt.svdmin (Wtᴴ * (a.J * (a.L * Wt))) ⟨1 / 2, s / 2, s / 2, s / 2⟩ = .ok (s / 2 / (s - s / 2)) := by
    unfold pseudoEta
    rw [hw, hsdef, if_pos one_pos]
    dsimp only
    rw [if_neg (by linarith)]
  obtain ⟨res, hres, hlen⟩ := (C58_omit_total h hr ha hg hdet (by omega) (by omega) 1 (fun _ => 0) prt (fun M _ => hg.svdmin M one_pos) false 1
    ⟨1 / 2, s / 2, s / 2, s / 2⟩ 20 (101 / 100)).2 hne (by norm_num)
  refine ⟨rt, grt, V, U, H, Em, F, C, B_, Wt, h, a, prt, T', ⟨1 / 2, s / 2, s / 2, s / 2⟩, _, res, hr, hg, hWt, ha, hD, hdet,
    fun M => hg.svdmin M one_pos, fun c => ?_, fun c => ?_, hG, half_pos hs0, heta, hlen, hres⟩
  · have e : (gram cdot (arnfW V U Wt) fun j => T' (arnfW V U Wt j) - exArnfT (arnfW V U Wt j)) = (s / 2) • (1 : Matrix (Fin 1) (Fin 1) ℝ) := by
      rw [← horth]
      ext i j
      rw [gram, Matrix.of_apply, hT', hi.smul_right]
      rfl
    rw [e, Matrix.smul_mulVec, Matrix.one_mulVec]
    have h1 := hi.nrm_smul (s / 2) (lincomb (arnfW V U Wt) c)
    rw [← lincomb_smul, nrm_lincomb_orth hi horth, nrm_lincomb_orth hi horth, Real.norm_eq_abs, abs_of_pos (half_pos hs0)] at h1
    exact h1.le
  · refine (hG _).trans ?_
    rw [nrm_lincomb_orth hi horth]

end Krypy
