import Verif.Props.DeflTerm
import Verif.Props.DeflMatrices
import Verif.Props.IterCount

/-!
# Property C75: what deflation does to the convergence

`deflation._DeflationMixin`, `DeflatedCg`, `DeflatedMinres`, `DeflatedGmres` (deflation.py 32-283): the convergence is governed by the
operator `Q Ml A Mr M` on the orthogonal complement of the deflation space instead of `Ml A Mr M` on the whole space.  Eigenvectors in
the deflation space remove the corresponding eigenvalues from the bounds of the residual norms and errors and from the number of
iterations, and the extreme Rayleigh quotients of positive definite systems never get worse.
-/

set_option linter.unusedSectionVars false

namespace Krypy
open Polynomial
variable {𝕜 E : Type*} [RCLike 𝕜] [AddCommGroup E] [Module 𝕜 E] {k : ℕ}

/-! ## Specification -/

/-- `μ` is an eigenvalue of the deflated operator `Q Ml A Mr M` on the orthogonal complement of the deflation space. -/
def IsDeflEig (a : LSArgs 𝕜 E) (U : Fin k → E) (Q : E →ₗ[𝕜] E) (μ : ℝ) : Prop :=
  ∃ x, x ≠ 0 ∧ (∀ j, a.ip (U j) x = 0) ∧ Q (a.Ml (a.A (a.Mr (a.M x)))) = (μ : 𝕜) • x

/-- `μ` is an eigenvalue of `Ml A Mr M` with an eigenvector which is orthogonal to the deflation space. -/
def IsRemainingEig (a : LSArgs 𝕜 E) (U : Fin k → E) (μ : ℝ) : Prop :=
  ∃ x, x ≠ 0 ∧ (∀ j, a.ip (U j) x = 0) ∧ a.Ml (a.A (a.Mr (a.M x))) = (μ : 𝕜) • x

/-- Polynomials of degree at most `n` with the value one at the origin. -/
def ResPoly (𝕜 : Type*) [RCLike 𝕜] (n : ℕ) : Set 𝕜[X] := {q | q.natDegree ≤ n ∧ q.eval 0 = 1}

/-! ## Lemmas -/

/-- The residuals of the search space are the residual polynomials applied to the initial residual. -/
theorem searchSpace_residuals (a : LSArgs 𝕜 E) (x0 : E) (n : ℕ) (w : E) :
    (∃ x ∈ searchSpace a x0 n, a.Ml (a.b - a.A x) = w) ↔
    ∃ q ∈ ResPoly 𝕜 n, aeval (resOp a) q (a.Ml (a.b - a.A x0)) = w := by
  have key : ∀ z, a.Ml (a.b - a.A (x0 + a.Mr z)) = a.Ml (a.b - a.A x0) - a.Ml (a.A (a.Mr z)) := fun z => by
    simp only [map_add, map_sub]; abel
  constructor
  · rintro ⟨x, ⟨z, hz, rfl⟩, rfl⟩
    obtain ⟨q, hq, rfl⟩ := krylov_poly hz
    refine ⟨1 - q * X, ⟨?_, by simp⟩, ?_⟩
    · refine (natDegree_sub_le _ _).trans (max_le (by simp) ?_)
      by_cases h0 : q = 0
      · simp [h0]
      · rw [natDegree_mul_X h0]
        exact (natDegree_lt_iff_degree_lt h0).mpr hq
    · rw [map_sub, map_one, LinearMap.sub_apply, aeval_mul_X_resOp, Module.End.one_apply, ← key]
  · rintro ⟨p, ⟨hd, h0⟩, rfl⟩
    have hc : p.coeff 0 = 1 := by rw [coeff_zero_eq_eval_zero, h0]
    have hpe : p = p.divX * X + 1 := by
      conv_lhs => rw [← divX_mul_X_add p, hc, map_one]
    refine ⟨x0 + a.Mr (-(aeval (a.M ∘ₗ a.Ml ∘ₗ a.A ∘ₗ a.Mr) p.divX (a.M (a.Ml (a.b - a.A x0))))),
      ⟨_, Submodule.neg_mem _ (aeval_mem_krylov ?_), rfl⟩, ?_⟩
    · by_cases hz : p.divX = 0
      · rw [hz, degree_zero]; exact WithBot.bot_lt_coe _
      · rw [← natDegree_lt_iff_degree_lt hz]
        have h1 : p.natDegree = p.divX.natDegree + 1 := by
          conv_lhs => rw [hpe]
          rw [show (1 : 𝕜[X]) = C 1 from rfl, natDegree_add_C, natDegree_mul_X hz]
        omega
    · conv_rhs => rw [hpe, map_add, map_one, LinearMap.add_apply, aeval_mul_X_resOp, Module.End.one_apply]
      rw [key]
      simp only [map_neg, sub_neg_eq_add]
      rw [add_comm]

/-- The system with the projection applied to operator and right hand side. -/
def deflSys (a : LSArgs 𝕜 E) (Q : E →ₗ[𝕜] E) : LSArgs 𝕜 E := { a with Ml := Q ∘ₗ a.Ml }

theorem deflSys_searchSpace (a : LSArgs 𝕜 E) (Q : E →ₗ[𝕜] E) (x0 : E) (n : ℕ) :
    searchSpace (deflSys a Q) x0 n = {x | ∃ z ∈ deflKry a Q x0 n, x = x0 + a.Mr z} := rfl

section
variable {a : LSArgs 𝕜 E} {oa : OblArgs 𝕜 E k} {U : Fin k → E} (h : DeflHyp a oa U) {Q : E →ₗ[𝕜] E} (hQ : IsDeflProj a U Q)
include h hQ

theorem IsDeflProj.of_orth {v : E} (hv : ∀ j, a.ip (U j) v = 0) : Q v = v := by
  rw [hQ.eq_compl h.ls.inner h.nonsing]
  exact complLin_of_orth h.ls.inner h.nonsing hv

theorem IsDeflProj.map_span {u : E} (hu : u ∈ Submodule.span 𝕜 (Set.range U)) : Q (a.B u) = 0 := by
  obtain ⟨c, rfl⟩ := mem_span_lincomb.mp hu
  rw [hQ.eq_compl h.ls.inner h.nonsing]
  exact complLin_B h.ls.inner h.nonsing c

omit h in
theorem IsDeflProj.diff_span (v : E) : ∃ u ∈ Submodule.span 𝕜 (Set.range U), v - Q v = a.B u := by
  obtain ⟨c, hc⟩ := mem_span_lincomb.mp (hQ.diff v)
  refine ⟨lincomb U c, mem_span_lincomb.mpr ⟨c, rfl⟩, ?_⟩
  rw [hc, map_lincomb]
  rfl

omit h hQ in
theorem Mr_span (hMr : ∀ j, a.Mr (U j) = U j) {u : E} (hu : u ∈ Submodule.span 𝕜 (Set.range U)) : a.Mr u = u := by
  obtain ⟨c, rfl⟩ := mem_span_lincomb.mp hu
  rw [map_lincomb a.Mr]
  simp only [hMr]

/-- The residuals of the admissible approximations are those of the projected system. -/
theorem deflSpace_residuals (hMr : ∀ j, a.Mr (U j) = U j) (x0 : E) (n : ℕ) (w : E) :
    (∃ x ∈ deflSpace a U Q x0 n, a.Ml (a.b - a.A x) = w) ↔
    ∃ x ∈ searchSpace (deflSys a Q) x0 n, Q (a.Ml (a.b - a.A x)) = w := by
  constructor
  · rintro ⟨x, ⟨⟨z, hz, hx⟩, hor⟩, rfl⟩
    refine ⟨x0 + a.Mr z, ⟨z, hz, rfl⟩, ?_⟩
    have h1 : a.Ml (a.b - a.A (x0 + a.Mr z)) = a.Ml (a.b - a.A x) + a.B (x - (x0 + a.Mr z)) := by
      change _ = _ + a.Ml (a.A (a.Mr (x - (x0 + a.Mr z))))
      rw [Mr_span hMr hx]
      simp only [map_sub, map_add]
      abel
    rw [h1, map_add, hQ.map_span h hx, add_zero, hQ.of_orth h hor]
  · rintro ⟨_, ⟨z, hz, rfl⟩, rfl⟩
    obtain ⟨u, hu, he⟩ := hQ.diff_span (a.Ml (a.b - a.A (x0 + a.Mr z)))
    have h1 : a.Ml (a.b - a.A (x0 + a.Mr z + u)) = Q (a.Ml (a.b - a.A (x0 + a.Mr z))) := by
      have h2 : a.B u = a.Ml (a.A u) := by
        change a.Ml (a.A (a.Mr u)) = _
        rw [Mr_span hMr hu]
      rw [h2] at he
      rw [map_add a.A, ← sub_sub, map_sub, ← he]
      abel
    refine ⟨x0 + a.Mr z + u, ⟨⟨z, hz, ?_⟩, fun j => ?_⟩, h1⟩
    · rw [add_sub_cancel_left]; exact hu
    · rw [h1]; exact hQ.orth _ j

/-- The residual norms of the admissible approximations in terms of polynomials. -/
theorem deflSpace_resid (hMr : ∀ j, a.Mr (U j) = U j) (x0 : E) (n : ℕ) : resid a '' deflSpace a U Q x0 n =
    (fun q => nrm (gform a.ip a.M) (aeval (Q ∘ₗ resOp a) q (Q (a.Ml (a.b - a.A x0))))) '' ResPoly 𝕜 n := by
  have h1 := fun w => (deflSpace_residuals h hQ hMr x0 n w).trans (searchSpace_residuals (deflSys a Q) x0 n w)
  ext r
  constructor
  · rintro ⟨x, hx, rfl⟩
    obtain ⟨q, hq, he⟩ := (h1 _).mp ⟨x, hx, rfl⟩
    refine ⟨q, hq, ?_⟩
    change nrm _ (aeval (resOp (deflSys a Q)) q _) = _
    unfold resid
    rw [← he]
    rfl
  · rintro ⟨q, hq, rfl⟩
    obtain ⟨x, hx, he⟩ := (h1 _).mpr ⟨q, hq, rfl⟩
    refine ⟨x, hx, ?_⟩
    unfold resid
    rw [he]
    rfl

/-- Restriction of the deflated operator to the orthogonal complement of the deflation space. -/
theorem exists_restrict : ∃ T : perp h.ls.inner U →ₗ[𝕜] perp h.ls.inner U, ∀ x, ((T x : perp h.ls.inner U) : E) = Q (resOp a x) :=
  ⟨((Q ∘ₗ resOp a) ∘ₗ (perp h.ls.inner U).subtype).codRestrict _ fun _ => hQ.orth _, fun _ => rfl⟩

omit h hQ in
theorem aeval_restrict {W : Submodule 𝕜 E} {T : W →ₗ[𝕜] W} {S : E →ₗ[𝕜] E} (hT : ∀ x, ((T x : W) : E) = S x) (q : 𝕜[X]) (x : W) :
    ((aeval T q x : W) : E) = aeval S q (x : E) := by
  induction q using Polynomial.induction_on' generalizing x with
  | add p q hp hq => simp only [map_add, LinearMap.add_apply, Submodule.coe_add, hp, hq]
  | monomial n c =>
    rw [← C_mul_X_pow_eq_monomial]
    simp only [map_mul, aeval_C, map_pow, aeval_X, Module.End.mul_apply, Module.algebraMap_end_apply, Submodule.coe_smul]
    congr 1
    induction n generalizing x with
    | zero => rfl
    | succ n ih => rw [pow_succ, pow_succ, Module.End.mul_apply, Module.End.mul_apply, ih, hT]

/-- Spectral estimate for the deflated operator. -/
theorem defl_poly_le [FiniteDimensional 𝕜 E] (hsa : ∀ x y, a.ip (a.Ml (a.A (a.Mr x))) y = a.ip x (a.Ml (a.A (a.Mr y)))) {p : ℝ[X]}
    {c : ℝ} (hc : 0 ≤ c) (hp : ∀ μ, IsDeflEig a U Q μ → |p.eval μ| ≤ c) {r : E} (hr : ∀ j, a.ip (U j) r = 0) :
    nrm (gform a.ip a.M) (aeval (Q ∘ₗ resOp a) (p.map (algebraMap ℝ 𝕜)) r) ≤ c * nrm (gform a.ip a.M) r := by
  obtain ⟨T, hT⟩ := exists_restrict h hQ
  have hG : IsInner (gform a.ip a.M) := h.ls.prec
  have hin : IsInner fun x y : perp h.ls.inner U => gform a.ip a.M (x : E) y :=
    ⟨fun x y z => hG.add_right _ _ _, fun c x y => hG.smul_right _ _ _, fun x y => hG.conj_symm _ _,
      fun x hx => hG.pos _ fun h0 => hx (Subtype.ext h0)⟩
  have h1 := polyOp_norm_le hin (T := T) (p := p) (c := c) (by
    intro x y
    rw [hT, hT]
    have h2 := complLin_selfadj h.ls.inner h.nonsing (B := a.B) hsa (a.M (x : E)) (a.M (y : E))
    rw [← hQ.eq_compl h.ls.inner h.nonsing] at h2
    change a.ip (Q (a.B (a.M x))) (a.M y) = a.ip x (a.M (Q (a.B (a.M y))))
    rw [h2, h.ls.symm]) hc (by
    rintro μ ⟨x, hx, hxe⟩
    refine hp μ ⟨x, fun h0 => hx (Subtype.ext h0), x.2, ?_⟩
    have h3 := congrArg Subtype.val hxe
    rw [hT] at h3
    exact h3) ⟨r, hr⟩
  have h4 := aeval_restrict (S := Q ∘ₗ resOp a) (T := T) (fun x => hT x) (p.map (algebraMap ℝ 𝕜)) ⟨r, hr⟩
  rw [← h4]
  exact h1

/-- Spectral estimate for the deflated operator in the energy inner product. -/
theorem defl_energy_le [FiniteDimensional 𝕜 E] (hpd : SpdHyp a) {p : ℝ[X]} {c : ℝ} (hc : 0 ≤ c)
    (hp : ∀ μ, IsDeflEig a U Q μ → |p.eval μ| ≤ c) {e d : E} (he : ∀ j, a.ip (U j) (a.B e) = 0)
    (hd : a.B d = aeval (Q ∘ₗ resOp a) (p.map (algebraMap ℝ 𝕜)) (a.B e)) :
    Real.sqrt (errEnergy a d) ≤ c * Real.sqrt (errEnergy a e) := by
  have hin := h.ls.inner
  have hinj : Function.Injective a.B := by
    rw [← LinearMap.ker_eq_bot, LinearMap.ker_eq_bot']
    intro x hx
    by_contra h0
    have := hpd.pos x h0
    change 0 < RCLike.re (a.ip x (a.B x)) at this
    rw [hx, hin.zero_right, map_zero] at this
    exact lt_irrefl _ this
  let L := LinearEquiv.ofInjectiveEndo a.B hinj
  have hL : ∀ x, L.symm (a.B x) = x := fun x => L.symm_apply_apply x
  have hL' : ∀ x, a.B (L.symm x) = x := fun x => L.apply_symm_apply x
  have hsa : ∀ x y, a.ip (a.B x) y = a.ip x (a.B y) := hpd.sa
  obtain ⟨T, hT⟩ := exists_restrict h hQ
  have hIn : IsInner fun x y : perp h.ls.inner U => a.ip (L.symm (x : E)) y := by
    refine ⟨fun x y z => hin.add_right _ _ _, fun c x y => hin.smul_right _ _ _, fun x y => ?_, fun x hx => ?_⟩
    · have h1 := hsa (L.symm (x : E)) (L.symm (y : E))
      rw [hL', hL'] at h1
      rw [← h1]
      exact hin.conj_symm _ _
    · have h0 : L.symm (x : E) ≠ 0 := by
        intro h0
        refine hx (Subtype.ext ?_)
        rw [← hL' (x : E), h0, map_zero]
        rfl
      have := hpd.pos _ h0
      change 0 < RCLike.re (a.ip (L.symm (x : E)) (a.B (L.symm (x : E)))) at this
      rwa [hL'] at this
  have hTe : ∀ x : perp h.ls.inner U, ∃ u ∈ Submodule.span 𝕜 (Set.range U), ((T x : perp h.ls.inner U) : E) = a.B (a.M x - u) := by
    intro x
    obtain ⟨u, hu, h1⟩ := hQ.diff_span (a.B (a.M x))
    refine ⟨u, hu, ?_⟩
    rw [hT, map_sub, ← h1]
    change Q (a.B (a.M x)) = _
    abel
  have hor : ∀ (x : perp h.ls.inner U) {u : E}, u ∈ Submodule.span 𝕜 (Set.range U) → a.ip u x = 0 := by
    intro x u hu
    obtain ⟨c, rfl⟩ := mem_span_lincomb.mp hu
    exact perp_lincomb h.ls.inner x.2 c
  have h1 := polyOp_norm_le hIn (T := T) (p := p) (c := c) (by
    intro x y
    obtain ⟨u, hu, hx⟩ := hTe x
    obtain ⟨v, hv, hy⟩ := hTe y
    rw [hx, hy, hL, hin.sub_left, hor y hu, sub_zero, ← hsa, hL', hin.sub_right, hin.orth_symm (hor x hv), sub_zero, h.ls.symm]) hc
    (by
    rintro μ ⟨x, hx, hxe⟩
    refine hp μ ⟨x, fun h0 => hx (Subtype.ext h0), x.2, ?_⟩
    have h3 := congrArg Subtype.val hxe
    rw [hT] at h3
    exact h3) ⟨a.B e, he⟩
  have h4 : ((aeval T (p.map (algebraMap ℝ 𝕜)) ⟨a.B e, he⟩ : perp h.ls.inner U) : E) = a.B d := by
    rw [hd]
    exact aeval_restrict (S := Q ∘ₗ resOp a) (T := T) (fun x => hT x) (p.map (algebraMap ℝ 𝕜)) ⟨a.B e, he⟩
  have h5 : ∀ x : perp h.ls.inner U, ∀ y, (x : E) = a.B y →
      nrm (fun x y : perp h.ls.inner U => a.ip (L.symm (x : E)) y) x = Real.sqrt (errEnergy a y) := by
    intro x y hxy
    unfold nrm nsq errEnergy
    dsimp only
    rw [hxy, hL]
    rfl
  rw [← h5 _ d h4, ← h5 ⟨a.B e, he⟩ e rfl]
  exact h1

/-! ## Minimal residual methods -/

variable (hMr : ∀ j, a.Mr (U j) = U j) (hb : a.Ml a.b ≠ 0)
include hMr

theorem DeflMinRes.poly {x0 x : E} {l : List ℝ} (hm : DeflMinRes a U Q x0 l x) {i : ℕ} (hi : i < l.length) :
    IsLeast ((fun q => nrm (gform a.ip a.M) (aeval (Q ∘ₗ resOp a) q (Q (a.Ml (a.b - a.A x0))))) '' ResPoly 𝕜 i)
      (l[i] * resid a 0) := by
  rw [← deflSpace_resid h hQ hMr]
  exact hm.minima i hi

theorem DeflMinRes.zero {x0 x : E} {l : List ℝ} (hm : DeflMinRes a U Q x0 l x) (hi : 0 < l.length) :
    l[0] * resid a 0 = nrm (gform a.ip a.M) (Q (a.Ml (a.b - a.A x0))) := by
  obtain ⟨q, ⟨hd, h0⟩, he⟩ := (hm.poly h hQ hMr hi).1
  rw [← he]
  have h1 := eq_C_of_natDegree_le_zero hd
  rw [coeff_zero_eq_eval_zero, h0, map_one] at h1
  rw [h1]
  simp

include hb

theorem DeflMinRes.count {x0 x : E} {l : List ℝ} (hm : DeflMinRes a U Q x0 l x) {tol : ℝ} (htol : 0 ≤ tol)
    (he : ∀ i r, i + 1 < l.length → l[i]? = some r → tol < r) {n : ℕ} {q : 𝕜[X]} (hq : q ∈ ResPoly 𝕜 n)
    (h0 : aeval (Q ∘ₗ resOp a) q (Q (a.Ml (a.b - a.A x0))) = 0) : l.length ≤ n + 1 := by
  by_contra hlt
  have hn : n < l.length := by omega
  have h1 := (hm.poly h hQ hMr hn).2 ⟨q, hq, rfl⟩
  dsimp only at h1
  rw [h0, (show nrm (gform a.ip a.M) 0 = 0 from h.ls.prec.nrm_eq_zero.mpr rfl)] at h1
  have h2 := he n l[n] (by omega) (List.getElem?_eq_getElem hn)
  have h3 := mul_pos (lt_of_le_of_lt htol h2) (resid_pos h.ls hb)
  linarith

theorem DeflMinRes.spectrum [FiniteDimensional 𝕜 E]
    (hsa : ∀ x y, a.ip (a.Ml (a.A (a.Mr x))) y = a.ip x (a.Ml (a.A (a.Mr y)))) {x0 x : E} {l : List ℝ}
    (hm : DeflMinRes a U Q x0 l x) {i : ℕ} (hi : i < l.length) {p : ℝ[X]} (hd : p.natDegree ≤ i) (h0 : p.eval 0 = 1) {c : ℝ}
    (hc : 0 ≤ c) (hp : ∀ μ, IsDeflEig a U Q μ → |p.eval μ| ≤ c) : l[i] ≤ c * l[0] := by
  have h1 := (hm.poly h hQ hMr hi).2 ⟨p.map (algebraMap ℝ 𝕜), ⟨(natDegree_map_le).trans hd, by
    rw [← map_zero (algebraMap ℝ 𝕜), eval_map_apply, h0, map_one]⟩, rfl⟩
  have h2 := h1.trans (defl_poly_le h hQ hsa hc hp fun j => hQ.orth _ j)
  rw [← hm.zero h hQ hMr (by omega), ← mul_assoc] at h2
  exact le_of_mul_le_mul_right h2 (resid_pos h.ls hb)

end

theorem map_mem_ResPoly {p : ℝ[X]} {n : ℕ} (hd : p.natDegree ≤ n) (h0 : p.eval 0 = 1) : p.map (algebraMap ℝ 𝕜) ∈ ResPoly 𝕜 n :=
  ⟨natDegree_map_le.trans hd, by rw [← map_zero (algebraMap ℝ 𝕜), eval_map_apply, h0, map_one]⟩

theorem rootPoly_eval_mem {S : Finset ℝ} (h0 : (0 : ℝ) ∉ S) {μ : ℝ} (hμ : μ ∈ S) : (rootPoly S).eval μ = 0 := by
  have hne : μ ≠ 0 := fun h => h0 (h ▸ hμ)
  unfold rootPoly
  rw [eval_prod]
  refine Finset.prod_eq_zero hμ ?_
  simp [hne]

section
variable {a : LSArgs 𝕜 E} {oa : OblArgs 𝕜 E k} {U : Fin k → E} (h : DeflHyp a oa U) {s : LS 𝕜 E}
  (hs : mkLS a = .ok s) {o : Obl 𝕜 E k} (ho : mkObl s oa U = .ok o) {Q : E →ₗ[𝕜] E} (hQ : IsDeflProj a U Q)
  (hMr : ∀ j, a.Mr (U j) = U j) (p : SolverArgs E) (htol : 0 ≤ p.tol) (hb : a.Ml a.b ≠ 0)
include h hs ho hQ hMr htol hb

/-- C75: the relative residual norms which `DeflatedGmres` records are the minima of `‖q(Q Ml A Mr M) Q Ml (b - A x0)‖` over the
polynomials of degree at most `i` with `q(0) = 1`; if such a polynomial of degree `n` annihilates the projected initial residual, at
most `n` iterations are carried out. -/
theorem C75_gmres {ortho : Ortho} (hg : GmresHyp a ortho) {st : St ℝ E (GmresSt 𝕜 E × List (Fin k → 𝕜))}
    (hrun : deflatedGmres s o ortho p = .returned st ∨ deflatedGmres s o ortho p = .convergence st) :
    (∀ i (hi : i < st.resnorms.length),
      IsLeast ((fun q => nrm (gform a.ip a.M) (aeval (Q ∘ₗ resOp a) q (Q (a.Ml (a.b - a.A (p.x0.getD 0)))))) '' ResPoly 𝕜 i)
        (st.resnorms[i] * resid a 0)) ∧
    ∀ n, ∀ q ∈ ResPoly 𝕜 n, aeval (Q ∘ₗ resOp a) q (Q (a.Ml (a.b - a.A (p.x0.getD 0)))) = 0 → st.resnorms.length ≤ n + 1 := by
  obtain ⟨x, -, hm, -⟩ := C37_gmres h hs ho hg hMr p htol hb hQ hrun
  exact ⟨fun i hi => hm.poly h hQ hMr hi, fun n q hq h0 => hm.count h hQ hMr hb htol
    ((C22_deflated_gmres s o ortho p).earlier st hrun) hq h0⟩

/-- C75: the same for `DeflatedMinres`. -/
theorem C75_minres (hm : MinresHyp a) (ortho : Ortho) {st : St ℝ E (MinresSt 𝕜 E × List (Fin k → 𝕜))}
    (hrun : deflatedMinres s o ortho p = .returned st ∨ deflatedMinres s o ortho p = .convergence st) :
    (∀ i (hi : i < st.resnorms.length),
      IsLeast ((fun q => nrm (gform a.ip a.M) (aeval (Q ∘ₗ resOp a) q (Q (a.Ml (a.b - a.A (p.x0.getD 0)))))) '' ResPoly 𝕜 i)
        (st.resnorms[i] * resid a 0)) ∧
    ∀ n, ∀ q ∈ ResPoly 𝕜 n, aeval (Q ∘ₗ resOp a) q (Q (a.Ml (a.b - a.A (p.x0.getD 0)))) = 0 → st.resnorms.length ≤ n + 1 := by
  obtain ⟨x, -, hm, -⟩ := C37_minres h hs ho hm ortho hMr p htol hb hQ hrun
  exact ⟨fun i hi => hm.poly h hQ hMr hi, fun n q hq h0 => hm.count h hQ hMr hb htol
    ((C22_deflated_minres s o ortho p).earlier st hrun) hq h0⟩

/-- C75: for self-adjoint `Ml A Mr` the residual norms of `DeflatedMinres` are at most `max |q(μ)|` times the first one, for every
polynomial of degree at most `i` with `q(0) = 1`, where the maximum is over the eigenvalues of the deflated operator on the orthogonal
complement of the deflation space only; and there are at most as many iterations as there are such eigenvalues. -/
theorem C75_minres_spectrum [FiniteDimensional 𝕜 E] (hm : MinresHyp a) (ortho : Ortho)
    {st : St ℝ E (MinresSt 𝕜 E × List (Fin k → 𝕜))}
    (hrun : deflatedMinres s o ortho p = .returned st ∨ deflatedMinres s o ortho p = .convergence st) :
    (∀ i (hi : i < st.resnorms.length) (q : ℝ[X]) (c : ℝ), q.natDegree ≤ i → q.eval 0 = 1 → 0 ≤ c →
      (∀ μ, IsDeflEig a U Q μ → |q.eval μ| ≤ c) → st.resnorms[i] ≤ c * st.resnorms[0]) ∧
    ∀ S : Finset ℝ, (0 : ℝ) ∉ S → (∀ μ, IsDeflEig a U Q μ → μ ∈ S) → st.resnorms.length ≤ S.card + 1 := by
  obtain ⟨x, -, hmr, -⟩ := C37_minres h hs ho hm ortho hMr p htol hb hQ hrun
  refine ⟨fun i hi q c h1 h2 h3 h4 => hmr.spectrum h hQ hMr hb hm.sa hi h1 h2 h3 h4, fun S h0 hS => ?_⟩
  refine hmr.count h hQ hMr hb htol ((C22_deflated_minres s o ortho p).earlier st hrun)
    (map_mem_ResPoly (rootPoly_natDegree S) (rootPoly_eval_zero S)) ?_
  refine h.ls.prec.nrm_eq_zero.mp (le_antisymm ?_ (nrm_nonneg _ _))
  have := defl_poly_le h hQ hm.sa le_rfl (fun μ hμ => by rw [rootPoly_eval_mem h0 (hS μ hμ), abs_zero])
    (fun j => hQ.orth (a.Ml (a.b - a.A (p.x0.getD 0))) j) (p := rootPoly S)
  rwa [zero_mul] at this

/-- C75: if `BoundMinres` accepts an array or `Intervals` object which contains the eigenvalues of the deflated operator (and these are
positive), then the residual norms of `DeflatedMinres` are at most `eval_step(i)` times the first one. -/
theorem C75_minres_bound [FiniteDimensional 𝕜 E] (hm : MinresHyp a) (ortho : Ortho)
    {st : St ℝ E (MinresSt 𝕜 E × List (Fin k → 𝕜))}
    (hrun : deflatedMinres s o ortho p = .returned st ∨ deflatedMinres s o ortho p = .convergence st)
    {spec : Spectrum} (hv : spec.Valid) (hc : ∀ μ, IsDeflEig a U Q μ → spec.Covers μ ∧ 0 < μ) {bd : Bound}
    (hbd : boundMinres spec = .ok bd) (hcg : bd.isCG = true) {i : ℕ} (hi : i < st.resnorms.length) :
    st.resnorms[i] ≤ bd.evalStep i * st.resnorms[0] := by
  have h1 := (C75_minres_spectrum h hs ho hQ hMr p htol hb hm ortho hrun).1
  have hbd' := boundMinres_cg hbd hcg
  by_cases hex : ∃ μ, IsDeflEig a U Q μ
  · obtain ⟨μ, hμ⟩ := hex
    obtain ⟨m, M, hm', hM, rfl, hr⟩ := boundCG_range hv hbd' (hc μ hμ).1 (hc μ hμ).2
    obtain ⟨q, e1, e2, e3⟩ := exists_cheb_interval hm' hM i
    rw [evalStep_cg]
    refine h1 i hi q _ e1 e2 ?_ fun ν hν => e3 ν (hr ν (hc ν hν).1).1 (hr ν (hc ν hν).1).2
    have := (cgFactor_range (κ := M / m) ((one_le_div hm').mpr hM)).1
    positivity
  · obtain ⟨x, -, hmr, -⟩ := C37_minres h hs ho hm ortho hMr p htol hb hQ hrun
    have h2 := h1 i hi 1 0 (by simp) (by simp) le_rfl fun μ hμ => (hex ⟨μ, hμ⟩).elim
    have h3 := h1 0 (by omega) 1 0 (by simp) (by simp) le_rfl fun μ hμ => (hex ⟨μ, hμ⟩).elim
    have h4 : (0 : ℝ) ≤ st.resnorms[0] * resid a 0 := by rw [hmr.zero h hQ hMr (by omega)]; exact nrm_nonneg _ _
    have h5 := nonneg_of_mul_nonneg_left h4 (resid_pos h.ls hb)
    rw [zero_mul] at h2 h3
    rw [le_antisymm h3 h5, mul_zero]
    exact h2

/-! ## CG -/

/-- C75: for self-adjoint positive definite `Ml A Mr` the energy norms of the errors of `DeflatedCg` are at most `max |q(μ)|` times the one
of the corrected initial guess, for every polynomial of degree at most `i` with `q(0) = 1`, where the maximum is over the eigenvalues of
the deflated operator on the orthogonal complement of the deflation space only.  The errors belong to vectors `x0 + Mr w_i` whose residual
norms are those recorded and the last of which is the approximate solution. -/
theorem C75_cg_spectrum [FiniteDimensional 𝕜 E] (hpd : SpdHyp a) (store : Bool)
    {st : St ℝ E (CgSt 𝕜 E × List ((Fin k → 𝕜) × Option (Fin k → 𝕜)))}
    (hrun : deflatedCg s o store p = .returned st ∨ deflatedCg s o store p = .convergence st) {ystar : E}
    (hy : a.Ml (a.A (p.x0.getD 0 + a.Mr ystar)) = a.Ml a.b) :
    ∃ w : ℕ → E, st.xk = some (p.x0.getD 0 + a.Mr (w (st.resnorms.length - 1))) ∧ w 0 ∈ Submodule.span 𝕜 (Set.range U) ∧
      (∀ j, a.ip (U j) (a.Ml (a.b - a.A (p.x0.getD 0 + a.Mr (w 0)))) = 0) ∧
      ∀ i (hi : i < st.resnorms.length), st.resnorms[i] * resid a 0 = resid a (p.x0.getD 0 + a.Mr (w i)) ∧
        ∀ (q : ℝ[X]) (c : ℝ), q.natDegree ≤ i → q.eval 0 = 1 → 0 ≤ c → (∀ μ, IsDeflEig a U Q μ → |q.eval μ| ≤ c) →
          Real.sqrt (errEnergy a (ystar - w i)) ≤ c * Real.sqrt (errEnergy a (ystar - w 0)) := by
  obtain ⟨-, -, w, hx, hw⟩ := C37_cg h hs ho hpd hMr store p htol hb hQ hrun
  have hpos : 0 < st.resnorms.length := by have := ((C22_deflated_cg s o store p).history st hrun).1; omega
  have hBy : ∀ z, a.B (ystar - z) = a.Ml (a.b - a.A (p.x0.getD 0 + a.Mr z)) := by
    intro z
    rw [map_sub a.Ml, ← hy]
    change a.Ml (a.A (a.Mr _)) = _
    simp only [map_sub, map_add]
    abel
  have hw0 : w 0 ∈ Submodule.span 𝕜 (Set.range U) := by
    have := (hw 0 hpos).1
    have h0 : deflKry a Q (p.x0.getD 0) 0 = ⊥ := by
      unfold deflKry krylov
      rw [Submodule.span_eq_bot]
      rintro _ ⟨i, hi, -⟩
      exact absurd hi (Nat.not_lt_zero _)
    rwa [h0, bot_sup_eq] at this
  refine ⟨w, hx, hw0, (hw 0 hpos).2.2.1, fun i hi => ⟨(hw i hi).2.1, fun q c hd h0 hc hp => ?_⟩⟩
  -- the residual of the corrected initial guess is the projected one
  have hr0 : a.B (ystar - w 0) = Q (a.Ml (a.b - a.A (p.x0.getD 0))) := by
    have h1 : a.Ml (a.b - a.A (p.x0.getD 0)) = a.B (ystar - w 0) + a.B (w 0) := by
      rw [← map_add, sub_add_cancel, ← sub_zero ystar, hBy, map_zero, add_zero]
    rw [h1, map_add, hQ.map_span h hw0, add_zero, hBy]
    exact (hQ.of_orth h (hw 0 hpos).2.2.1).symm
  obtain ⟨x, ⟨⟨z, hz, hxz⟩, -⟩, hxe⟩ := (deflSpace_residuals h hQ hMr (p.x0.getD 0) i _).mpr
    ((searchSpace_residuals (deflSys a Q) (p.x0.getD 0) i _).mpr ⟨_, map_mem_ResPoly hd h0, rfl⟩)
  have hmem : z + (x - (p.x0.getD 0 + a.Mr z)) ∈ deflKry a Q (p.x0.getD 0) i ⊔ Submodule.span 𝕜 (Set.range U) :=
    Submodule.add_mem_sup hz hxz
  refine (Real.sqrt_le_sqrt ((hw i hi).2.2.2 ystar hy _ hmem).1).trans ?_
  refine defl_energy_le h hQ hpd hc hp (fun j => ?_) ?_
  · rw [hBy]; exact (hw 0 hpos).2.2.1 j
  · rw [hr0, hBy, map_add a.Mr, Mr_span hMr hxz, ← add_assoc, add_sub_cancel, hxe]
    rfl

omit hs ho hMr htol hb in
/-- The deflated operator of a positive definite system is positive definite on the orthogonal complement of the deflation space:
`μ ⟨x, M x⟩ = ⟨M x - u, Ml A Mr (M x - u)⟩` with `u` in the deflation space. -/
theorem deflEig_energy (hpd : SpdHyp a) {μ : ℝ} {x : E} (hor : ∀ j, a.ip (U j) x = 0)
    (hx : Q (a.Ml (a.A (a.Mr (a.M x)))) = (μ : 𝕜) • x) : ∃ u ∈ Submodule.span 𝕜 (Set.range U),
    μ * RCLike.re (a.ip x (a.M x)) = errEnergy a (a.M x - u) ∧ a.ip u x = 0 ∧
    errEnergy a (a.M x) = errEnergy a (a.M x - u) + errEnergy a u := by
  have hin := h.ls.inner
  obtain ⟨u, hu, he⟩ := hQ.diff_span (a.B (a.M x))
  have hB : a.B (a.M x - u) = (μ : 𝕜) • x := by
    rw [map_sub, ← he, sub_sub_cancel]
    exact hx
  have hux : a.ip u x = 0 := by
    obtain ⟨c, rfl⟩ := mem_span_lincomb.mp hu
    exact perp_lincomb hin (show x ∈ perp hin U from hor) c
  have hsa : ∀ x y, a.ip (a.B x) y = a.ip x (a.B y) := hpd.sa
  have huB : a.ip u (a.B (a.M x - u)) = 0 := by rw [hB, hin.smul_right, hux, mul_zero]
  refine ⟨u, hu, ?_, hux, ?_⟩
  · change _ = RCLike.re (a.ip (a.M x - u) (a.B (a.M x - u)))
    rw [hin.sub_left, huB, sub_zero, hB, hin.smul_right, RCLike.re_ofReal_mul, h.ls.symm]
  · change RCLike.re (a.ip (a.M x) (a.B (a.M x))) = RCLike.re (a.ip (a.M x - u) (a.B (a.M x - u))) +
      RCLike.re (a.ip u (a.B u))
    have h1 : a.M x = (a.M x - u) + u := by abel
    have h2 : a.ip (a.M x - u) (a.B u) = 0 := by
      rw [← hsa]; exact hin.orth_symm huB
    conv_lhs => rw [h1]
    rw [map_add, hin.add_left, hin.add_right, hin.add_right, h2, huB, add_zero, zero_add, map_add]

omit hs ho hMr htol hb in
theorem deflEig_pos (hpd : SpdHyp a) {μ : ℝ} (hμ : IsDeflEig a U Q μ) : 0 < μ := by
  obtain ⟨x, hx0, hor, hx⟩ := hμ
  obtain ⟨u, hu, h1, h2, -⟩ := deflEig_energy h hQ hpd hor hx
  have hpos : 0 < RCLike.re (a.ip x (a.M x)) := h.ls.prec.pos x hx0
  have hne : a.M x - u ≠ 0 := by
    intro h0
    rw [sub_eq_zero.mp h0, h.ls.inner.orth_symm h2, map_zero] at hpos
    exact lt_irrefl _ hpos
  have := hpd.pos _ hne
  change 0 < errEnergy a (a.M x - u) at this
  rw [← h1] at this
  exact (pos_iff_pos_of_mul_pos this).mpr hpos

omit hs ho hMr htol hb in
/-- C75: deflation never makes the bounds of the spectrum of a positive definite system worse: if the quotients
`⟨M y, Ml A Mr M y⟩ / ⟨y, M y⟩` lie in `[α, β]`, the eigenvalues of the deflated operator on the orthogonal complement of an arbitrary
deflation space do as well. -/
theorem C75_rayleigh [FiniteDimensional 𝕜 E] (hpd : SpdHyp a) {α β : ℝ} (hα0 : 0 ≤ α)
    (hα : ∀ y, α * RCLike.re (a.ip y (a.M y)) ≤ errEnergy a (a.M y))
    (hβ : ∀ y, errEnergy a (a.M y) ≤ β * RCLike.re (a.ip y (a.M y))) {μ : ℝ} (hμ : IsDeflEig a U Q μ) : α ≤ μ ∧ μ ≤ β := by
  obtain ⟨x, hx0, hor, hx⟩ := hμ
  obtain ⟨u, hu, h1, h2, h3⟩ := deflEig_energy h hQ hpd hor hx
  have hpos : 0 < RCLike.re (a.ip x (a.M x)) := h.ls.prec.pos x hx0
  have hnn : ∀ y, 0 ≤ errEnergy a y := by
    intro y
    by_cases hy : y = 0
    · subst hy
      unfold errEnergy
      rw [h.ls.inner.zero_left, map_zero]
    · exact (hpd.pos y hy).le
  constructor
  · have hM : Function.Injective a.M := by
      rw [← LinearMap.ker_eq_bot, LinearMap.ker_eq_bot']
      exact fun y hy => precond_inj h y hy
    obtain ⟨w, rfl⟩ := LinearMap.injective_iff_surjective.mp hM u
    have h4 := hα (x - w)
    rw [map_sub a.M, ← h1] at h4
    have h5 : a.ip x (a.M w) = 0 := h.ls.inner.orth_symm h2
    have h6 : a.ip w (a.M x) = 0 := by rw [← h.ls.symm]; exact h2
    rw [h.ls.inner.sub_left, h.ls.inner.sub_right, h.ls.inner.sub_right, h5, h6, sub_zero, zero_sub, sub_neg_eq_add, map_add] at h4
    have h7 : 0 ≤ RCLike.re (a.ip w (a.M w)) := by
      by_cases hw : w = 0
      · rw [hw, h.ls.inner.zero_left, map_zero]
      · exact (h.ls.prec.pos w hw).le
    have h8 := mul_nonneg hα0 h7
    refine le_of_mul_le_mul_right ?_ hpos
    linarith
  · refine le_of_mul_le_mul_right ?_ hpos
    rw [h1]
    have := hβ x
    have := hnn u
    linarith

/-- C75: if `BoundCG` accepts an array or `Intervals` object which contains the eigenvalues of the deflated operator, the energy norms of
the errors of `DeflatedCg` are at most `eval_step(i)` times the one of the corrected initial guess. -/
theorem C75_cg_bound [FiniteDimensional 𝕜 E] (hpd : SpdHyp a) (store : Bool)
    {st : St ℝ E (CgSt 𝕜 E × List ((Fin k → 𝕜) × Option (Fin k → 𝕜)))}
    (hrun : deflatedCg s o store p = .returned st ∨ deflatedCg s o store p = .convergence st) {ystar : E}
    (hy : a.Ml (a.A (p.x0.getD 0 + a.Mr ystar)) = a.Ml a.b) {spec : Spectrum} (hv : spec.Valid)
    (hc : ∀ μ, IsDeflEig a U Q μ → spec.Covers μ) {bd : Bound} (hbd : boundCG spec = .ok bd) :
    ∃ w : ℕ → E, st.xk = some (p.x0.getD 0 + a.Mr (w (st.resnorms.length - 1))) ∧ w 0 ∈ Submodule.span 𝕜 (Set.range U) ∧
      (∀ j, a.ip (U j) (a.Ml (a.b - a.A (p.x0.getD 0 + a.Mr (w 0)))) = 0) ∧
      ∀ i (hi : i < st.resnorms.length), st.resnorms[i] * resid a 0 = resid a (p.x0.getD 0 + a.Mr (w i)) ∧
        Real.sqrt (errEnergy a (ystar - w i)) ≤ bd.evalStep i * Real.sqrt (errEnergy a (ystar - w 0)) := by
  obtain ⟨w, h1, h2, h3, h4⟩ := C75_cg_spectrum h hs ho hQ hMr p htol hb hpd store hrun hy
  refine ⟨w, h1, h2, h3, fun i hi => ⟨(h4 i hi).1, ?_⟩⟩
  by_cases hex : ∃ μ, IsDeflEig a U Q μ
  · obtain ⟨μ, hμ⟩ := hex
    obtain ⟨m, M, hm', hM, rfl, hr⟩ := boundCG_range hv hbd (hc μ hμ) (deflEig_pos h hQ hpd hμ)
    obtain ⟨q, e1, e2, e3⟩ := exists_cheb_interval hm' hM i
    rw [evalStep_cg]
    refine (h4 i hi).2 q _ e1 e2 ?_ fun ν hν => e3 ν (hr ν (hc ν hν)).1 (hr ν (hc ν hν)).2
    have := (cgFactor_range (κ := M / m) ((one_le_div hm').mpr hM)).1
    positivity
  · have e1 := (h4 i hi).2 1 0 (by simp) (by simp) le_rfl fun μ hμ => (hex ⟨μ, hμ⟩).elim
    have e2 := (h4 0 (by omega)).2 1 0 (by simp) (by simp) le_rfl fun μ hμ => (hex ⟨μ, hμ⟩).elim
    rw [zero_mul] at e1 e2
    rw [le_antisymm e2 (Real.sqrt_nonneg _), mul_zero]
    exact e1

/-- C75: the usual bound of the errors of CG also holds with an arbitrary deflation space, with respect to the error of the corrected
initial guess. -/
theorem C75_cg_any [FiniteDimensional 𝕜 E] (hpd : SpdHyp a) (store : Bool)
    {st : St ℝ E (CgSt 𝕜 E × List ((Fin k → 𝕜) × Option (Fin k → 𝕜)))}
    (hrun : deflatedCg s o store p = .returned st ∨ deflatedCg s o store p = .convergence st) {ystar : E}
    (hy : a.Ml (a.A (p.x0.getD 0 + a.Mr ystar)) = a.Ml a.b) {α β : ℝ} (hα0 : 0 < α) (hαβ : α ≤ β)
    (hα : ∀ y, α * RCLike.re (a.ip y (a.M y)) ≤ errEnergy a (a.M y))
    (hβ : ∀ y, errEnergy a (a.M y) ≤ β * RCLike.re (a.ip y (a.M y))) :
    ∃ w : ℕ → E, st.xk = some (p.x0.getD 0 + a.Mr (w (st.resnorms.length - 1))) ∧ w 0 ∈ Submodule.span 𝕜 (Set.range U) ∧
      (∀ j, a.ip (U j) (a.Ml (a.b - a.A (p.x0.getD 0 + a.Mr (w 0)))) = 0) ∧
      ∀ i (hi : i < st.resnorms.length), st.resnorms[i] * resid a 0 = resid a (p.x0.getD 0 + a.Mr (w i)) ∧
        Real.sqrt (errEnergy a (ystar - w i)) ≤
          2 * ((Real.sqrt (β / α) - 1) / (Real.sqrt (β / α) + 1)) ^ i * Real.sqrt (errEnergy a (ystar - w 0)) := by
  obtain ⟨w, h1, h2, h3, h4⟩ := C75_cg_spectrum h hs ho hQ hMr p htol hb hpd store hrun hy
  refine ⟨w, h1, h2, h3, fun i hi => ⟨(h4 i hi).1, ?_⟩⟩
  obtain ⟨q, e1, e2, e3⟩ := exists_cheb_interval hα0 hαβ i
  refine (h4 i hi).2 q _ e1 e2 ?_ fun ν hν => ?_
  · have : 1 ≤ Real.sqrt (β / α) := Real.one_le_sqrt.mpr ((one_le_div hα0).mpr hαβ)
    have h5 : 0 ≤ (Real.sqrt (β / α) - 1) / (Real.sqrt (β / α) + 1) := div_nonneg (by linarith) (by linarith)
    positivity
  · obtain ⟨h5, h6⟩ := C75_rayleigh h hQ hpd hα0.le hα hβ hν
    exact e3 ν h5 h6

/-- C75: `DeflatedCg` carries out at most as many iterations as the deflated operator has distinct eigenvalues on the orthogonal
complement of the deflation space. -/
theorem C75_cg_count [FiniteDimensional 𝕜 E] (hpd : SpdHyp a) (store : Bool)
    {st : St ℝ E (CgSt 𝕜 E × List ((Fin k → 𝕜) × Option (Fin k → 𝕜)))}
    (hrun : deflatedCg s o store p = .returned st ∨ deflatedCg s o store p = .convergence st) {S : Finset ℝ}
    (hS : ∀ μ, IsDeflEig a U Q μ → μ ∈ S) : st.resnorms.length ≤ S.card + 1 := by
  have hinj : Function.Injective a.B := by
    rw [← LinearMap.ker_eq_bot, LinearMap.ker_eq_bot']
    intro x hx
    by_contra h0
    have := hpd.pos x h0
    change 0 < RCLike.re (a.ip x (a.B x)) at this
    rw [hx, h.ls.inner.zero_right, map_zero] at this
    exact lt_irrefl _ this
  obtain ⟨ystar, hys⟩ := LinearMap.injective_iff_surjective.mp hinj (a.Ml (a.b - a.A (p.x0.getD 0)))
  have hy : a.Ml (a.A (p.x0.getD 0 + a.Mr ystar)) = a.Ml a.b := by
    change a.Ml (a.A (a.Mr ystar)) = _ at hys
    rw [map_add, map_add, hys]
    simp
  obtain ⟨w, h1, h2, h3, h4⟩ := C75_cg_spectrum h hs ho hQ hMr p htol hb hpd store hrun hy
  have h0 : (0 : ℝ) ∉ S.erase 0 := by simp
  have hS' : ∀ μ, IsDeflEig a U Q μ → μ ∈ S.erase 0 := fun μ hμ =>
    Finset.mem_erase.mpr ⟨(deflEig_pos h hQ hpd hμ).ne', hS μ hμ⟩
  have hcard : (S.erase 0).card ≤ S.card := Finset.card_erase_le
  by_contra hlt
  have hn : (S.erase 0).card < st.resnorms.length := by omega
  have h5 := (h4 _ hn).2 (rootPoly (S.erase 0)) 0 (rootPoly_natDegree _) (rootPoly_eval_zero _) le_rfl
    fun μ hμ => by rw [rootPoly_eval_mem h0 (hS' μ hμ), abs_zero]
  rw [zero_mul] at h5
  have h6 : errEnergy a (ystar - w (S.erase 0).card) ≤ 0 := Real.sqrt_eq_zero'.mp (le_antisymm h5 (Real.sqrt_nonneg _))
  have h7 : ystar - w (S.erase 0).card = 0 := by
    by_contra hne
    exact absurd (hpd.pos _ hne) (not_lt.mpr h6)
  have h8 := (h4 _ hn).1
  rw [← sub_eq_zero.mp h7,
    (resid_eq_zero h.ls (x := p.x0.getD 0 + a.Mr ystar)).mpr (by rw [map_sub, hy, sub_self])] at h8
  have h9 := (C22_deflated_cg s o store p).earlier st hrun _ _ (by omega) (List.getElem?_eq_getElem hn)
  have h10 := mul_pos (lt_of_le_of_lt htol h9) (resid_pos h.ls hb)
  linarith

end

/-! ## Invariant subspaces -/

section
variable {a : LSArgs 𝕜 E} {oa : OblArgs 𝕜 E k} {U : Fin k → E} (h : DeflHyp a oa U) {Q : E →ₗ[𝕜] E} (hQ : IsDeflProj a U Q)
  (hm : MinresHyp a) (hU : ∀ j, a.M (a.Ml (a.A (a.Mr (U j)))) ∈ Submodule.span 𝕜 (Set.range U))
include h hQ hm hU

/-- C75: if the deflation space is invariant under `M Ml A Mr` (for example spanned by eigenvectors), the eigenvalues of the deflated
operator are those of the original one with eigenvectors orthogonal to the deflation space. -/
theorem C75_invariant (μ : ℝ) : IsDeflEig a U Q μ ↔ IsRemainingEig a U μ := by
  refine exists_congr fun x => and_congr_right fun _ => and_congr_right fun hor => ?_
  rw [hQ.of_orth h fun j => ?_]
  obtain ⟨c, hc⟩ := mem_span_lincomb.mp (hU j)
  rw [← hm.sa, ← h.ls.symm, hc]
  exact perp_lincomb h.ls.inner (show x ∈ perp h.ls.inner U from hor) c

/-- C75: deflation with exact eigenvectors removes eigenvalues: if the deflation space is invariant under `M Ml A Mr` and contains all
eigenvectors for the numbers in `D`, then the eigenvalues of the deflated operator are eigenvalues of the original one and not in `D`. -/
theorem C75_removes {D : Set ℝ} (hD : ∀ μ ∈ D, ∀ x, a.M (a.Ml (a.A (a.Mr x))) = (μ : 𝕜) • x → x ∈ Submodule.span 𝕜 (Set.range U))
    {μ : ℝ} (hμ : IsDeflEig a U Q μ) : IsSysEig a μ ∧ μ ∉ D := by
  obtain ⟨x, hx0, hor, hx⟩ := (C75_invariant h hQ hm hU μ).mp hμ
  have he : a.M (a.Ml (a.A (a.Mr (a.M x)))) = (μ : 𝕜) • a.M x := by rw [hx, map_smul]
  refine ⟨⟨a.M x, fun h0 => hx0 (precond_inj h x h0), he⟩, fun hmem => hx0 ?_⟩
  obtain ⟨c, hc⟩ := mem_span_lincomb.mp (hD μ hmem _ he)
  refine h.ls.prec.self_eq_zero.mp ?_
  rw [hc]
  exact h.ls.inner.orth_symm (perp_lincomb h.ls.inner (show x ∈ perp h.ls.inner U from hor) c)

end

/-! ## Example -/

/-- `A = diag(1, 2)`, deflated with the eigenvector `(1, 0)`. -/
theorem exSpd_defl_eig : DeflHyp exSpd (exObl exSpd.ip) (fun _ => ((1 : ℝ), (0 : ℝ))) := by
  refine exObl_hyp exSpd_hyp.ls (by simp) ?_
  simp [gram, LSArgs.B, exSpd, exCfg]

/-- Only the eigenvalue two remains. -/
theorem exSpd_remaining {Q : ℝ × ℝ →ₗ[ℝ] ℝ × ℝ} (hQ : IsDeflProj exSpd (fun _ : Fin 1 => ((1 : ℝ), (0 : ℝ))) Q) (μ : ℝ) :
    IsDeflEig exSpd (fun _ : Fin 1 => ((1 : ℝ), (0 : ℝ))) Q μ ↔ μ = 2 := by
  rw [C75_invariant exSpd_defl_eig hQ ⟨exSpd_hyp.ls, exSpd_hyp.sa⟩ (fun j => Submodule.subset_span ⟨j, by simp [exSpd]⟩)]
  constructor
  · rintro ⟨⟨x, y⟩, h0, h1, h2⟩
    have hx : x = 0 := by simpa [exSpd, exCfg] using h1 0
    subst hx
    have hy : y ≠ 0 := fun hy => h0 (by rw [hy]; rfl)
    have h3 := congrArg Prod.snd h2
    simp [exSpd] at h3
    exact (h3.resolve_right hy).symm
  · rintro rfl
    exact ⟨(0, 1), by simp, fun j => by simp [exSpd, exCfg], by simp [exSpd]⟩

/-- Non-vacuity of C75: without deflation two iterations are needed for `A = diag(1, 2)`, `b = (1, 1)`, `x0 = 0` (`exSpd_solvedIn`); after
deflation of the eigenvector `(1, 0)` the three solvers are done after one. -/
example : ¬ SolvedIn exSpd 0 1 ∧ ∃ s o st st' st'', mkLS exSpd = .ok s ∧
    mkObl s (exObl exSpd.ip) (fun _ => ((1 : ℝ), (0 : ℝ))) = .ok o ∧
    deflatedCg s o true ⟨none, 0, 5, false, none⟩ = .returned st ∧ st.resnorms.length ≤ 2 ∧
    deflatedGmres s o .mgs ⟨none, 0, 5, false, none⟩ = .returned st' ∧ st'.resnorms.length ≤ 2 ∧
    deflatedMinres s o .lanczos ⟨none, 0, 5, false, none⟩ = .returned st'' ∧ st''.resnorms.length ≤ 2 := by
  refine ⟨exSpd_solvedIn.2.1, ?_⟩
  have hd := exSpd_defl_eig
  obtain ⟨s, hs, -⟩ := mkLS_ok hd.ls
  obtain ⟨o, ho⟩ := C36_total hd hs
  obtain ⟨Q, hQ, -⟩ := C37_projection_unique hd
  have hb : exSpd.Ml exSpd.b ≠ 0 := by simp [exSpd]
  have hfin : Module.finrank ℝ (ℝ × ℝ) ≤ 5 + 1 := by simp
  have hMr : ∀ j : Fin 1, exSpd.Mr ((fun _ => ((1 : ℝ), (0 : ℝ)) : Fin 1 → ℝ × ℝ) j) = (1, 0) := fun _ => rfl
  have hinj : ∀ x, exSpd.Ml (exSpd.A (exSpd.Mr x)) = 0 → x = 0 := by
    intro x hx
    by_contra hne
    have := exSpd_hyp.pos x hne
    rw [hx, exSpd_hyp.ls.inner.zero_right] at this
    simp at this
  have hm : MinresHyp exSpd := ⟨exSpd_hyp.ls, exSpd_hyp.sa⟩
  have htol : (0 : ℝ) ≤ (⟨none, 0, 5, false, none⟩ : SolverArgs (ℝ × ℝ)).tol := le_rfl
  obtain ⟨st, h1, -⟩ := C37_cg_terminates hd hs ho exSpd_hyp hMr true ⟨none, 0, 5, false, none⟩ htol hb hfin
  obtain ⟨st', h2, -⟩ := C37_gmres_terminates hd hs ho (hm.gmres .mgs) hMr ⟨none, 0, 5, false, none⟩ htol hb hinj hfin
  obtain ⟨st'', h3, -⟩ := C37_minres_terminates hd hs ho hm .lanczos hMr ⟨none, 0, 5, false, none⟩ htol hb hinj hfin
  have hS : ∀ μ, IsDeflEig exSpd (fun _ : Fin 1 => ((1 : ℝ), (0 : ℝ))) Q μ → μ ∈ ({2} : Finset ℝ) := fun μ hμ => by
    rw [(exSpd_remaining hQ μ).mp hμ]; simp
  refine ⟨s, o, st, st', st'', hs, ho, h1, ?_, h2, ?_, h3, ?_⟩
  · exact C75_cg_count hd hs ho hQ hMr ⟨none, 0, 5, false, none⟩ htol hb exSpd_hyp true (Or.inl h1) hS
  · refine (C75_gmres hd hs ho hQ hMr ⟨none, 0, 5, false, none⟩ htol hb (hm.gmres .mgs) (Or.inl h2)).2 1 (1 - C 2⁻¹ * X)
      ⟨?_, by simp⟩ ?_
    · refine (natDegree_sub_le _ _).trans (max_le (by simp) ?_)
      exact (natDegree_C_mul_le _ _).trans natDegree_X_le
    · have h5 := hQ.orth (exSpd.Ml (exSpd.b - exSpd.A ((none : Option (ℝ × ℝ)).getD 0))) 0
      generalize Q (exSpd.Ml (exSpd.b - exSpd.A ((none : Option (ℝ × ℝ)).getD 0))) = r at h5 ⊢
      obtain ⟨x, y⟩ := r
      have hx : x = 0 := by simpa [exSpd, exCfg] using h5
      subst hx
      have h6 : Q (resOp exSpd (0, y)) = (0, 2 * y) := by
        rw [exSpd_resOp]
        exact hQ.of_orth hd fun j => by simp [exSpd, exCfg]
      simp [h6]
  · exact (C75_minres_spectrum hd hs ho hQ hMr ⟨none, 0, 5, false, none⟩ htol hb hm .lanczos (Or.inl h3)).2 {2} (by simp) hS

end Krypy
