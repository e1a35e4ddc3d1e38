import Verif.Model.RecyclingRun
import Verif.Props.DeflCg
import Verif.Props.DeflTerm
import Verif.Props.Recycling
import Verif.Props.Factories
import Verif.Props.SolverCalls
import Verif.Proofs.Contracts
import Mathlib.LinearAlgebra.LinearIndependent.Lemmas

/-! # Property C60: sequences of linear systems solved by `RecyclingCg` with Ritz factories -/

set_option linter.unusedSectionVars false

namespace Krypy
variable {𝕜 E : Type*} [RCLike 𝕜] [AddCommGroup E] [Module 𝕜 E]
open scoped ComplexConjugate
open Matrix

/-! ## Specification -/

/-- The factorisation routines used by `DeflatedCg` obey their contracts for linearly independent vectors; `utils.qr` orthonormalises
with respect to `get_ip_Minv_B()`, i.e. `⟨V_i, M^{-1} V_j⟩ = δ_ij`. -/
structure CgOblOk (a : LSArgs 𝕜 E) (oa : ∀ k, OblArgs 𝕜 E k) : Prop where
  qrM : ∀ k (U : Fin k → E), LinearIndependent 𝕜 U → ∃ V R, (oa k).qrM U = .ok (V, R) ∧
    (∀ j, U j = lincomb V fun i => R i j) ∧ ∃ W : Fin k → E, (∀ j, V j = a.M (W j)) ∧
      ∀ i j, a.ip (V i) (W j) = if i = j then 1 else 0
  qr : ∀ k, (oa k).orthogonalize = true → ∀ X, LinearIndependent 𝕜 X → ∃ V R, (oa k).rt.qr X = .ok (V, R) ∧ IsQr a.ip X V R
  matQr : ∀ k M, IsMatQr M ((oa k).rt.matQr M).1 ((oa k).rt.matQr M).2
  same : ∀ k, (oa k).same = true → ∀ x, a.B x = x
  iterations : ∀ k, 1 ≤ (oa k).iterations

/-- An admissible call of `solve`: a self-adjoint positive definite system which is declared to be so, without right preconditioner
(see C37), a tolerance `≥ 0` and `maxiter ≥ dim`. -/
structure GoodCall (a : LSArgs 𝕜 E) (oa : ∀ k, OblArgs 𝕜 E k) (p : SolverArgs E) : Prop where
  spd : SpdHyp a
  flag : a.selfAdjoint = true
  Mr : ∀ x, a.Mr x = x
  tol : 0 ≤ p.tol
  maxiter : Module.finrank 𝕜 E ≤ p.maxiter
  obl : CgOblOk a oa

/-- The solver object of an admissible call with linearly independent deflation vectors. -/
def GoodSol (x : CgSol 𝕜 E) : Prop :=
  ∃ a oa p U, GoodCall a oa p ∧ LinearIndependent 𝕜 (U : List E).get ∧ recCgSolver a oa p U = .ok x

/-- A factory which returns linearly independent vectors. -/
def GoodFactory (f : CgSol 𝕜 E → Except Err (List E)) : Prop :=
  ∀ x, GoodSol x → ∃ U, f x = .ok U ∧ LinearIndependent 𝕜 U.get

/-- The eigenvalue routine `eigh` obeys its contract and does not fail. -/
structure EigTotal (rt : ∀ n m, EigRoutines 𝕜 (Fin n ⊕ Fin m)) : Prop where
  ok : ∀ n m, EigOk (rt n m)
  total : ∀ n m M, ∃ e, (rt n m).eigh M = .ok e

/-! ## One call -/

theorem spd_gram_det {a : LSArgs 𝕜 E} (h : SpdHyp a) {k : ℕ} {U : Fin k → E} (hU : LinearIndependent 𝕜 U) :
    (gram a.ip U fun j => a.B (U j)).det ≠ 0 := by
  intro h0
  obtain ⟨c, hc, h1⟩ := Matrix.exists_mulVec_eq_zero_iff.mpr h0
  have h2 : a.ip (lincomb U c) (a.B (lincomb U c)) = 0 := by
    rw [map_lincomb, h.ls.inner.ip_lincomb_left, h.ls.inner.coefs_lincomb, h1, dotProduct_zero]
  have h3 : lincomb U c = 0 := by
    by_contra hne
    have := h.pos _ hne
    change 0 < RCLike.re (a.ip (lincomb U c) (a.B (lincomb U c))) at this
    rw [h2] at this
    simp at this
  exact hc (funext fun i => Fintype.linearIndependent_iff.mp hU c h3 i)

section
variable {a : LSArgs 𝕜 E} {oa : ∀ k, OblArgs 𝕜 E k} {p : SolverArgs E}

theorem GoodCall.defl (h : GoodCall a oa p) {k : ℕ} {U : Fin k → E} (hU : LinearIndependent 𝕜 U) :
    DeflHyp a (oa k) U where
  ls := h.spd.ls
  qrM := by
    obtain ⟨V, R, h1, h2, -⟩ := h.obl.qrM k U hU
    exact ⟨V, R, h1, h2⟩
  qr ho _ _ _ X _ hX := h.obl.qr k ho X hX
  matQr := h.obl.matQr k
  nonsing := spd_gram_det h.spd hU
  same := h.obl.same k
  iterations := h.obl.iterations k

/-- The basis stored in the projection is orthonormal with respect to the implied inner product. -/
theorem GoodCall.basis (h : GoodCall a oa p) {k : ℕ} {U : Fin k → E} (hU : LinearIndependent 𝕜 U) {s : LS 𝕜 E} {o : Obl 𝕜 E k}
    (ho : mkObl s (oa k) U = .ok o) :
    ∃ W : Fin k → E, (∀ j, o.U j = a.M (W j)) ∧ ∀ i j, a.ip (o.U i) (W j) = if i = j then 1 else 0 := by
  obtain ⟨V, R, h1, -, W, h2, h3⟩ := h.obl.qrM k U hU
  unfold mkObl at ho
  rw [h1] at ho
  dsimp only at ho
  split at ho
  · cases ho
  · obtain rfl := Except.ok.inj ho
    exact ⟨W, h2, h3⟩

/-- Zero right-hand side: nothing happens. -/
theorem deflCg_zero {k : ℕ} {U : Fin k → E} {oak : OblArgs 𝕜 E k} (h : DeflHyp a oak U) {s : LS 𝕜 E} (hs : mkLS a = .ok s)
    {o : Obl 𝕜 E k} (ho : mkObl s oak U = .ok o) (store : Bool) (htol : 0 ≤ p.tol) (hb : a.Ml a.b = 0) :
    ∃ st, deflatedCg s o store p = .returned st ∧ st.xk = some 0 ∧ st.resnorms = [0] ∧ st.iter = 0 ∧ st.s.2 = [] ∧
      ∃ v, st.s.1.V 0 = some v := by
  have ok := LSOK.of_defl h hs
  have hob := OblOK.of_defl h hs ho
  have hnb : (mkCfg s p).MMlbNorm = 0 := by
    rw [ok.nb, resid, map_zero, sub_zero, hb]
    exact h.ls.prec.nrm_eq_zero.mpr rfl
  obtain ⟨eo, heo⟩ : ∃ eo, initErr (mkCfg s p) (o.correct s 0) = .ok eo := by
    unfold initErr
    rw [hob.correct]
    have := ok.errNorm p
    cases he : (mkCfg s p).errNorm with
    | none => exact ⟨_, rfl⟩
    | some en =>
      obtain ⟨y, hy⟩ := this en he (0 + lincomb U ((gram a.ip U fun j => a.B (U j))⁻¹ *ᵥ coefs a.ip U (a.Ml (a.b - a.A 0))))
      simp only [hy]
      exact ⟨_, rfl⟩
  unfold deflatedCg
  rw [hob.initRes ok]
  dsimp only
  unfold run
  simp only [hnb, beq_self_eq_true, if_true, heo]
  have hg : ∀ (m : Method ℝ E (CgSt 𝕜 E × List ((Fin k → 𝕜) × Option (Fin k → 𝕜)))) (fuel : ℕ) (st : St ℝ E _),
      st.resnorms = [0] → st.xk = some 0 → loop (mkCfg s p) m fuel st = .returned st := by
    intro m fuel st h1 h2
    unfold loop
    have : loopGuard (mkCfg s p) m st = false := by
      unfold loopGuard
      rw [h1]
      have : ¬ (mkCfg s p).tol < 0 := not_lt.mpr htol
      simp [this]
    rw [this]
    simp only [Bool.false_eq_true, if_false]
    unfold finish
    rw [h2]
  rw [hg _ _ _ rfl rfl]
  refine ⟨_, rfl, rfl, rfl, rfl, rfl, ?_⟩
  simp only [cgInit]
  split <;> simp

/-- C60, one call: for linearly independent deflation vectors an admissible call succeeds and returns an approximation whose residual
is below the tolerance. -/
theorem C60_solve [FiniteDimensional 𝕜 E] (h : GoodCall a oa p) (U : List E) (hU : LinearIndependent 𝕜 U.get) :
    ∃ x z, recCgSolver a oa p U = .ok x ∧ x.st.xk = some z ∧ resid a z ≤ p.tol * resid a 0 := by
  have hd := h.defl hU
  obtain ⟨s, hs, -⟩ := mkLS_ok h.spd.ls
  obtain ⟨o, ho, -⟩ := mkObl_ok (LSOK.of_defl hd hs) hd
  have hrec : ∀ st, deflatedCg s o true p = .returned st → recCgSolver a oa p U = .ok ⟨U.length, s, o, st⟩ := by
    intro st hst
    unfold recCgSolver
    rw [hs]
    dsimp only
    rw [ho]
    dsimp only
    rw [hst]
  by_cases hb : a.Ml a.b = 0
  · obtain ⟨st, h1, h2, -⟩ := deflCg_zero (p := p) hd hs ho true h.tol hb
    refine ⟨_, 0, hrec st h1, h2, ?_⟩
    have : resid a 0 = 0 := by
      rw [resid, map_zero, sub_zero, hb]
      exact h.spd.ls.prec.nrm_eq_zero.mpr rfl
    rw [this, mul_zero]
  · obtain ⟨st, h1, r, h2, h3⟩ := C37_cg_terminates hd hs ho h.spd (fun j => h.Mr _) true p h.tol hb
      (le_trans h.maxiter (by omega))
    obtain ⟨Q, hQ, -⟩ := C37_projection_unique hd
    obtain ⟨-, -, w, h4, h5⟩ := C37_cg hd hs ho h.spd (fun j => h.Mr _) true p h.tol hb hQ (Or.inl h1)
    have hne : st.resnorms ≠ [] := by rintro h0; rw [h0] at h2; cases h2
    have hlt : st.resnorms.length - 1 < st.resnorms.length := by
      have := List.length_pos_iff.mpr hne
      omega
    have h6 := (h5 _ hlt).2.1
    rw [List.getLast?_eq_getElem?, List.getElem?_eq_getElem hlt] at h2
    rw [Option.some.inj h2] at h6
    refine ⟨_, _, hrec st h1, h4, ?_⟩
    rw [← h6]
    exact mul_le_mul_of_nonneg_right h3 (nrm_nonneg _ _)

end

/-- C60: whatever vectors a factory returns and whatever the factorisations do: if the solver returns after at least one iteration,
then the residual of the approximation is below the tolerance. -/
theorem C60_honest {a : LSArgs 𝕜 E} {oa : ∀ k, OblArgs 𝕜 E k} {p : SolverArgs E} (h : LSHyp a.ip a.M) (hb : a.Ml a.b ≠ 0)
    (hmax : 1 ≤ p.maxiter) {U : List E} {x : CgSol 𝕜 E} (hx : recCgSolver a oa p U = .ok x) (hl : 2 ≤ x.st.resnorms.length) :
    ∃ z, x.st.xk = some z ∧ resid a z ≤ p.tol * resid a 0 := by
  unfold recCgSolver at hx
  split at hx
  · cases hx
  next s hs =>
  split at hx
  · cases hx
  next o ho =>
  split at hx
  · next st hst =>
    obtain rfl := Except.ok.inj hx
    have ok : LSOK a s := by
      obtain ⟨s', hs', h1, -⟩ := mkLS_ok h
      rw [hs] at hs'
      obtain rfl := Except.ok.inj hs'
      exact h1
    have hc := C22_deflated_cg s o true p
    obtain ⟨-, r, h1, h2⟩ := hc.returned hmax st hst
    have h3 : r ≤ p.tol := by
      rcases h2 with h2 | h2
      · exact not_lt.mp h2
      · cases h2
    obtain ⟨z, v, h4, h5, h6⟩ := hc.explicit st hst hl r h1 h3
    refine ⟨z, h4, ?_⟩
    rw [ok.resNorm] at h5
    rw [Except.ok.inj h5]
    rw [h6, ok.nb] at h3
    exact (div_le_iff₀ (resid_pos h hb)).mp h3
  · cases hx
  · cases hx
  · cases hx

/-! ## Ritz vectors of the last solver -/

theorem DeflRitzRel.out_eigh {n m : ℕ} {g : E → E → 𝕜} {T : E →ₗ[𝕜] E} {P : ℕ → E} {W : Fin m → E} {H : ℕ → ℕ → 𝕜} {n_ : ℕ}
    {Em F : Matrix (Fin m) (Fin m) 𝕜} {C B_ : List (Fin m → 𝕜)} (h : DeflRitzRel g T P W H n_ n Em F C B_)
    {rt : EigRoutines 𝕜 (Fin n ⊕ Fin m)} (hrt : EigOk rt) (htot : ∀ M, ∃ e, rt.eigh M = .ok e)
    (hsa : ∀ x y, g (T x) y = g x (T y)) :
    ∃ out, deflRitz rt H n_ Em C B_ F true .ritz = .ok out ∧
      ∀ i j, star (out.coeffs i) ⬝ᵥ out.coeffs j = if i = j then 1 else 0 := by
  unfold deflRitz
  by_cases hnm : n + m = 0
  · rw [if_pos hnm]
    refine ⟨_, rfl, fun i => ?_⟩
    rcases i with i | i <;> have := i.2 <;> omega
  have hM : (ritzM H Em (colsMat C n) (Em⁻¹ * colsMat C n) (rowsMat B_ n)).IsHermitian := by
    rw [← h.gram_M, Matrix.IsHermitian, h.inner.gram_conjTranspose]
    ext i j
    exact hsa _ _
  have hc : ¬ (C.length ≠ n ∨ B_.length ≠ n_) := by rw [h.lenC, h.lenB]; simp
  rw [if_neg hnm, if_neg hc, h.solve]
  dsimp only
  obtain ⟨e, he⟩ := htot (ritzM H Em (colsMat C n) (Em⁻¹ * colsMat C n) (rowsMat B_ n))
  have hE := hrt.eigh _ _ hM he
  rw [if_pos rfl, he]
  refine ⟨_, rfl, fun i j => ?_⟩
  dsimp only
  rw [normalise_of_norm_one (hE.eig i).2, normalise_of_norm_one (hE.eig j).2]
  exact hE.orth i j

/-- Linear combinations of an orthonormal family with orthonormal coefficients, mapped by an injective operator. -/
theorem indep_of_coeffs {ι κ : Type*} [Fintype ι] [Fintype κ] [DecidableEq κ] {g : E → E → 𝕜} (hg : IsInner g) {X : ι → E}
    [DecidableEq ι] (hX : gram g X X = 1) {c : κ → ι → 𝕜} (hc : ∀ i j, star (c i) ⬝ᵥ c j = if i = j then 1 else 0)
    {M : E →ₗ[𝕜] E} (hM : ∀ x, M x = 0 → x = 0) : LinearIndependent 𝕜 fun i => M (lincomb X (c i)) := by
  rw [Fintype.linearIndependent_iff]
  intro d hd i
  have h1 : ∑ j, d j • M (lincomb X (c j)) = M (lincomb X (∑ j, d j • c j)) := by
    simp only [lincomb, map_sum, map_smul, Finset.sum_apply, Pi.smul_apply, Finset.sum_smul, Finset.smul_sum, smul_smul,
      smul_eq_mul]
    exact Finset.sum_comm
  rw [h1] at hd
  have h2 := nrm_lincomb_orth hg hX (∑ j, d j • c j)
  rw [hM _ hd, hg.nrm_eq_zero.mpr rfl] at h2
  have h3 := vecNorm_eq_zero.mp h2.symm
  have h4 : star (c i) ⬝ᵥ ∑ j, d j • c j = d i := by
    rw [dotProduct_sum]
    simp [dotProduct_smul, hc]
  rw [← h4, h3, dotProduct_zero]

/-- C60: the Ritz pairs of the last solver exist, and the Ritz vectors are orthonormal in the inner product implied by `M`, i.e.
they are `M w` with `⟨M w_i, w_j⟩ = δ_ij`. -/
theorem C60_ritz_orthonormal {a : LSArgs 𝕜 E} {oa : ∀ k, OblArgs 𝕜 E k} {p : SolverArgs E} {U : List E} (h : GoodCall a oa p)
    (hU : LinearIndependent 𝕜 U.get) {x : CgSol 𝕜 E} (hx : recCgSolver a oa p U = .ok x)
    {rt : ∀ n m, EigRoutines 𝕜 (Fin n ⊕ Fin m)} (hrt : EigTotal rt) :
    ∃ out, x.ritz rt = .ok out ∧ ∃ w : Fin x.lan.n ⊕ Fin x.k → E,
      (∀ i, deflRitzVec (fun j => (x.lan.V j).getD 0) x.o.U (out.coeffs i) = a.M (w i)) ∧
      ∀ i j, a.ip (deflRitzVec (fun j => (x.lan.V j).getD 0) x.o.U (out.coeffs i)) (w j) = if i = j then 1 else 0 := by
  unfold recCgSolver at hx
  split at hx
  · cases hx
  next s hs =>
  split at hx
  · cases hx
  next o ho =>
  split at hx
  · next st hst =>
    obtain rfl := Except.ok.inj hx
    have hd := h.defl hU
    have ok := LSOK.of_defl hd hs
    obtain ⟨W, hW, hWo⟩ := h.basis hU ho
    have hp := h.spd.ls.prec
    have hi := h.spd.ls.inner
    have hMinj : ∀ x, a.M x = 0 → x = 0 := precond_inj hd
    have hMsa : ∀ x y, a.ip (a.M x) y = a.ip x (a.M y) := by
      intro x y
      have := hp.conj_symm y x
      rw [hi.conj_symm] at this
      exact this
    have hflag : s.selfAdjoint = true := by
      obtain ⟨s', hs', -, h1, -⟩ := mkLS_ok h.spd.ls
      rw [hs] at hs'
      rw [Except.ok.inj hs', h1]
      exact h.flag
    have hsa : ∀ x y, a.ip ((a.Ml ∘ₗ a.A ∘ₗ a.Mr ∘ₗ a.M) x) (a.M y) = a.ip x (a.M ((a.Ml ∘ₗ a.A ∘ₗ a.Mr ∘ₗ a.M) y)) := by
      intro x y
      rw [← hMsa x]
      exact h.spd.sa _ _
    set x : CgSol 𝕜 E := ⟨U.length, s, o, st⟩ with hxdef
    -- the relation
    have key : ∃ (n_ : ℕ) (P : ℕ → E) (C' B' : List (Fin U.length → 𝕜)), (∀ i < x.lan.n, x.lan.V i = some (a.M (P i))) ∧
        (∀ rt : EigRoutines 𝕜 (Fin x.lan.n ⊕ Fin U.length), (o.cgRitz s rt x.lan.H x.lan.V (st.s.2.map (·.2)) .ritz).map
            (fun out => (out.values, out.coeffs)) =
          (deflRitz rt (fun i j => (x.lan.H i j : 𝕜)) n_ o.Emat C' B' (gram s.ip o.AU fun j => s.M (o.AU j))
            s.selfAdjoint .ritz).map (fun out => (out.values, out.coeffs))) ∧
        DeflRitzRel (fun x y => a.ip x (a.M y)) (a.Ml ∘ₗ a.A ∘ₗ a.Mr ∘ₗ a.M) P W (fun i j => (x.lan.H i j : 𝕜))
          n_ x.lan.n o.Emat (gram s.ip o.AU fun j => s.M (o.AU j)) C' B' := by
      by_cases hb : a.Ml a.b = 0
      · obtain ⟨st', h1, -, -, h4, h5, v, h6⟩ := deflCg_zero (p := p) hd hs ho true h.tol hb
        rw [hst] at h1
        obtain rfl := Outcome.returned.inj h1
        have hn : x.lan.n = 0 := h4
        have hV : x.lan.V 0 = some v := h6
        obtain ⟨hEm, -⟩ := C38_E hd hs ho
        have hob := OblOK.of_defl hd hs ho
        have hdet : o.Emat.det ≠ 0 := by
          obtain ⟨R, hR, hUR⟩ := hob.basis
          have hBU : ∀ j, a.B (U.get j) = lincomb (fun j => a.B (o.U j)) fun i => R i j := by
            intro j; rw [hUR, map_lincomb]
          have := (coords_transform hi hBU hUR hd.nonsing).2.2.1
          rw [hob.E, show o.AU = fun j => a.B (o.U j) from funext hob.AU]
          exact this
        have hgW : ∀ i x, a.ip (W i) (a.M x) = a.ip (o.U i) x := fun i x => by rw [hW, hMsa]
        refine ⟨0, fun _ => 0, [], [], fun i hi' => by omega, fun rt => ?_, ?_⟩
        · generalize x.lan.H = H
          generalize hLV : x.lan.V = LV at hV ⊢
          generalize x.lan.n = n at hn rt
          subst hn
          rw [h5]
          unfold Obl.cgRitz
          have e : o.cgB_ s 0 LV (([] : List ((Fin U.length → 𝕜) × Option (Fin U.length → 𝕜))).map (·.2)) =
              [fun j => s.ip v (o.AU j)].map some := by
            unfold Obl.cgB_
            rw [hflag]
            simp [hV]
          rw [e, show (([] : List ((Fin U.length → 𝕜) × Option (Fin U.length → 𝕜))).map (·.2)) =
            ([] : List (Fin U.length → 𝕜)).map some from rfl, finRows_some, finRows_some]
          dsimp only
          exact deflRitz_rows rt _ _ _ _ _ _ _ (by simp) rfl rfl fun i hi' => by omega
        · refine ⟨hp, by omega, fun i hi' => by omega, fun i j => ?_, fun i j hj => by omega, by simp [hn], rfl, fun i j => ?_,
            fun j hj => by omega, fun i hi' => by omega, fun i j => ?_, hdet, fun j hj => by omega⟩
          · rw [hgW]; exact hWo i j
          · rw [hEm, hgW, hW j]; rfl
          · simp only [gram, Matrix.of_apply, ok.ip, ok.M]
            rw [hob.AU, hob.AU, hW, hW]
            rfl
      · exact C40_cg_values hd hs ho h.spd (fun j => h.Mr _) hW hWo p h.tol hb hst (L := x.lan) rfl
    obtain ⟨n_, P, C', B', hV, heq, hrel⟩ := key
    rw [hflag] at heq
    obtain ⟨out', ho', horth⟩ := hrel.out_eigh (hrt.ok _ _) (hrt.total _ _) hsa
    have h1 := heq (rt x.lan.n U.length)
    rw [ho'] at h1
    have h2 : x.ritz rt = o.cgRitz s (rt x.lan.n U.length) x.lan.H x.lan.V (st.s.2.map (·.2)) .ritz := rfl
    rw [← h2] at h1
    cases hr : x.ritz rt with
    | error e => rw [hr] at h1; cases h1
    | ok out =>
      rw [hr] at h1
      have h3 : out.coeffs = out'.coeffs := (Prod.mk.inj (Except.ok.inj h1)).2
      refine ⟨out, rfl, ?_⟩
      rw [h3]
      have h4 : ∀ i, deflRitzVec (fun j => (x.lan.V j).getD 0) x.o.U (out'.coeffs i) =
          a.M (lincomb (DeflRitzRel.wb x.lan.n P W) (out'.coeffs i)) := by
        intro i
        rw [← DeflRitzRel.vec_eq]
        unfold deflRitzVec
        rw [map_add, map_lincomb, map_lincomb]
        congr 1
        · congr 1
          funext j
          show (x.lan.V j).getD 0 = _
          rw [hV j j.2]
          rfl
        · congr 1
          funext j
          exact hW j
      refine ⟨fun i => lincomb (DeflRitzRel.wb x.lan.n P W) (out'.coeffs i), h4, fun i j => ?_⟩
      rw [h4, hMsa, ← horth i j]
      have := hp.ip_lincomb_left (DeflRitzRel.wb x.lan.n P W) (out'.coeffs i) (lincomb (DeflRitzRel.wb x.lan.n P W) (out'.coeffs j))
      rw [hp.coefs_lincomb, hrel.gram_wb, one_mulVec] at this
      exact this
  · cases hx
  · cases hx
  · cases hx

/-- Vectors with a dual family are linearly independent. -/
theorem indep_of_dual {ι : Type*} [Fintype ι] [DecidableEq ι] {ip : E → E → 𝕜} (h : IsInner ip) {f w : ι → E}
    (hfw : ∀ i j, ip (f i) (w j) = if i = j then 1 else 0) : LinearIndependent 𝕜 f := by
  refine Fintype.linearIndependent_iff.mpr fun c hc j => ?_
  have h1 : ip (w j) (∑ i, c i • f i) = c j := by
    rw [h.sum_right]
    simp only [h.smul_right]
    rw [Finset.sum_eq_single j]
    · rw [← h.conj_symm, hfw, if_pos rfl]; simp
    · intro i _ hij
      rw [← h.conj_symm, hfw, if_neg hij]; simp
    · simp
  rw [← h1, hc, h.zero_right]

/-- C60: the Ritz pairs of an admissible solver object exist, and the Ritz vectors are linearly independent. -/
theorem C60_ritz_vectors {x : CgSol 𝕜 E} (hx : GoodSol x) {rt : ∀ n m, EigRoutines 𝕜 (Fin n ⊕ Fin m)} (hrt : EigTotal rt) :
    ∃ out, x.ritz rt = .ok out ∧
      LinearIndependent 𝕜 fun i => deflRitzVec (fun j => (x.lan.V j).getD 0) x.o.U (out.coeffs i) := by
  obtain ⟨a, oa, p, U, h, hU, hx⟩ := hx
  obtain ⟨out, h1, w, -, h2⟩ := C60_ritz_orthonormal h hU hx hrt
  exact ⟨out, h1, indep_of_dual h.spd.ls.inner h2⟩

theorem mapM_ritzIdx {n m : ℕ} : ∀ idx : List ℕ, (∀ i ∈ idx, i < n + m) → ∃ l, idx.mapM (ritzIdx n m) = some l ∧
    l.map (fun i => (finSumFinEquiv i : ℕ)) = idx
  | [], _ => ⟨[], rfl, rfl⟩
  | i :: idx, h => by
    obtain ⟨l, h1, h2⟩ := mapM_ritzIdx idx fun j hj => h j (List.mem_cons_of_mem _ hj)
    have hi := h i List.mem_cons_self
    refine ⟨finSumFinEquiv.symm ⟨i, hi⟩ :: l, ?_, ?_⟩
    · rw [List.mapM_cons, h1, ritzIdx, dif_pos hi]
      rfl
    · rw [List.map_cons, h2, Equiv.apply_symm_apply]

theorem indep_list {ι : Type*} {f : ι → E} (hf : LinearIndependent 𝕜 f) {l : List ι} (hl : l.Nodup) :
    LinearIndependent 𝕜 (l.map f).get := by
  have hlen : (l.map f).length = l.length := List.length_map _
  have h : (l.map f).get = f ∘ fun j => l.get (j.cast hlen) := by
    funext j
    simp
  rw [h]
  refine hf.comp _ fun i j hij => ?_
  have := (List.nodup_iff_injective_get.mp hl) hij
  ext
  simpa [Fin.ext_iff] using this

/-- `get_vectors` with distinct valid indices. -/
theorem getVectors_indep {x : CgSol 𝕜 E} {out : DeflRitzOut 𝕜 x.lan.n x.k}
    (h : LinearIndependent 𝕜 fun i => deflRitzVec (fun j => (x.lan.V j).getD 0) x.o.U (out.coeffs i)) {idx : List ℕ}
    (hd : idx.Nodup) (hr : ∀ i ∈ idx, i < x.lan.n + x.k) :
    ∃ U, x.getVectors out idx = .ok U ∧ U.length = idx.length ∧ LinearIndependent 𝕜 U.get := by
  obtain ⟨l, h1, h2⟩ := mapM_ritzIdx idx hr
  unfold CgSol.getVectors
  rw [h1]
  refine ⟨_, rfl, ?_, indep_list h ?_⟩
  · rw [← h2]; simp
  · rw [← h2] at hd
    exact hd.of_map

/-! ## The factories -/

theorem simpleIndices_ok {argsort : List ℝ → List ℕ} (ha : IsArgsort argsort) {values : List ℂ} {resnorms : List ℝ} {N : ℕ}
    (hv : values.length = N) (hr : resnorms.length = N) (n : ℕ) {which : Which} (hw : which ≠ .invalid) :
    ∃ idx, simpleIndices argsort values resnorms n which = .ok idx ∧ idx.Nodup ∧ ∀ i ∈ idx, i < N := by
  have key : ∀ keys : List ℝ, keys.length = N → ∀ idx, List.Sublist idx (argsort keys) → idx.Nodup ∧ ∀ i ∈ idx, i < N := by
    intro keys hk idx hs
    obtain ⟨h1, -⟩ := ha keys
    refine ⟨(h1.nodup_iff.mpr List.nodup_range).sublist hs, fun i hi => ?_⟩
    have := h1.mem_iff.mp (hs.subset hi)
    rw [List.mem_range, hk] at this
    exact this
  have hs : ∀ l : List ℕ, List.Sublist (sliceLast n l) l := by
    intro l
    unfold sliceLast
    split
    · exact List.Sublist.refl _
    · exact List.drop_sublist _ _
  cases which with
  | invalid => exact absurd rfl hw
  | lm => exact ⟨_, rfl, key _ (by simp [hv]) _ (hs _)⟩
  | lr => exact ⟨_, rfl, key _ (by simp [hv]) _ (hs _)⟩
  | li => exact ⟨_, rfl, key _ (by simp [hv]) _ (hs _)⟩
  | sm => exact ⟨_, rfl, key _ (by simp [hv]) _ (List.take_sublist _ _)⟩
  | sr => exact ⟨_, rfl, key _ (by simp [hv]) _ (List.take_sublist _ _)⟩
  | si => exact ⟨_, rfl, key _ (by simp [hv]) _ (List.take_sublist _ _)⟩
  | smallestRes => exact ⟨_, rfl, key _ hr _ (List.take_sublist _ _)⟩

/-- C60: `RitzFactorySimple` with a valid criterion returns linearly independent vectors. -/
theorem C60_simple {rt : ∀ n m, EigRoutines 𝕜 (Fin n ⊕ Fin m)} (hrt : EigTotal rt) {argsort : List ℝ → List ℕ}
    (ha : IsArgsort argsort) (n : ℕ) {which : Which} (hw : which ≠ .invalid) :
    GoodFactory (simpleGet (𝕜 := 𝕜) (E := E) rt argsort n which) := by
  intro x hx
  obtain ⟨out, h1, h2⟩ := C60_ritz_vectors hx hrt
  obtain ⟨idx, h3, h4, h5⟩ := simpleIndices_ok ha (values := (sumList out.values).map fun v => toCplx (v.getD 0))
    (resnorms := (sumList out.resnorms).map fun r => r.getD 0) (N := x.lan.n + x.k) (by simp [sumList]) (by simp [sumList]) n hw
  obtain ⟨U, h6, -, h7⟩ := getVectors_indep h2 h4 h5
  refine ⟨U, ?_, h7⟩
  unfold simpleGet
  rw [h1]
  dsimp only
  rw [h3]
  exact h6

/-- C60: `RitzFactory` returns linearly independent vectors for every evaluator which raises no exception but `AssumptionError`,
every generator of nonempty sets of remaining indices, and every order of Python sets. -/
theorem C60_ritz {F : Type*} [LT F] [DecidableLT F] {rt : ∀ n m, EigRoutines 𝕜 (Fin n ⊕ Fin m)} (hrt : EigTotal rt)
    {f : RitzFactoryArgs 𝕜 E F} (hgen : ∀ x out, GenOK (f.gen x out))
    (heval : ∀ x out s e, f.eval x out s = .error e → e = .assumptionError)
    (hord : ∀ s, (f.order s).Nodup ∧ ∀ i, i ∈ f.order s ↔ i ∈ s) : GoodFactory (ritzGet rt f) := by
  intro x hx
  obtain ⟨out, h1, h2⟩ := C60_ritz_vectors hx hrt
  unfold ritzGet
  rw [h1]
  dsimp only
  rcases C41_terminates (n := x.lan.n + x.k) (eval := f.eval x out) (resSum := f.resSum x out) (hgen x out) with
    ⟨e, -, h4, s, h5⟩ | ⟨sel, st, h3, h4, -⟩
  · exact absurd (heval _ _ _ _ h5) h4
  · rw [h3]
    obtain ⟨U, h6, -, h7⟩ := getVectors_indep h2 (hord sel).1 fun i hi =>
      Finset.mem_range.mp (h4 (((hord sel).2 i).mp hi))
    exact ⟨U, h6, h7⟩

/-! ## Sequences of calls -/

/-- The arguments of one call of `solve`. -/
structure CgCall (𝕜 E : Type*) [RCLike 𝕜] [AddCommGroup E] [Module 𝕜 E] where
  a : LSArgs 𝕜 E
  oa : ∀ k, OblArgs 𝕜 E k
  p : SolverArgs E
  factory : Option (VFactory (CgSol 𝕜 E) E)

/-- The corresponding call of the model of `_RecyclingSolver`. -/
noncomputable def CgCall.call (c : CgCall 𝕜 E) : Call (CgSol 𝕜 E) E := ⟨c.factory, recCgSolver c.a c.oa c.p⟩

/-- C60: `RecyclingCg` solves every sequence of admissible systems (which may all be different), whatever factories that return
linearly independent vectors are used: every call returns an approximation whose residual is below the tolerance. -/
theorem C60_cg [FiniteDimensional 𝕜 E] (sc : Shortcuts (CgSol 𝕜 E) E) (default : Option (VFactory (CgSol 𝕜 E) E))
    (cs : List (CgCall 𝕜 E)) (hcs : ∀ c ∈ cs, GoodCall c.a c.oa c.p)
    (hdef : ∀ f, default = some f → GoodFactory (f.getFun sc))
    (hfac : ∀ c ∈ cs, ∀ f, c.factory = some f → GoodFactory (f.getFun sc)) :
    ∀ i (hi : i < cs.length), ∃ U x z, (recRun sc default RecState.init (cs.map CgCall.call)).2[i]? = some ⟨some U, .ok x⟩ ∧
      LinearIndependent 𝕜 U.get ∧ x.st.xk = some z ∧ resid cs[i].a z ≤ cs[i].p.tol * resid cs[i].a 0 := by
  suffices h : ∀ (cs : List (CgCall 𝕜 E)) (st : RecState (CgSol 𝕜 E)), (∀ c ∈ cs, GoodCall c.a c.oa c.p) →
      (∀ c ∈ cs, ∀ f, c.factory = some f → GoodFactory (f.getFun sc)) → (∀ x, st.lastSolver = some x → GoodSol x) →
      ∀ i (hi : i < cs.length), ∃ U x z, (recRun sc default st (cs.map CgCall.call)).2[i]? = some ⟨some U, .ok x⟩ ∧
        LinearIndependent 𝕜 U.get ∧ x.st.xk = some z ∧ resid cs[i].a z ≤ cs[i].p.tol * resid cs[i].a 0 from
    h cs _ hcs hfac fun x hx => by cases hx
  intro cs
  induction cs with
  | nil => intro st _ _ _ i hi; simp at hi
  | cons c cs ih =>
    intro st hcs hfac hst i hi
    have hc := hcs c List.mem_cons_self
    -- the vectors
    obtain ⟨U, hUeq, hU⟩ : ∃ U : List E, (match st.lastSolver, c.call.effFactory default with
        | some s, some f => f.getFun sc s
        | _, _ => .ok []) = .ok U ∧ LinearIndependent 𝕜 U.get := by
      have : IsEmpty (Fin ([] : List E).length) := inferInstanceAs (IsEmpty (Fin 0))
      have hnil : LinearIndependent 𝕜 ([] : List E).get := linearIndependent_empty_type
      cases hl : st.lastSolver with
      | none => exact ⟨[], rfl, hnil⟩
      | some x =>
        cases hf : c.call.effFactory default with
        | none => exact ⟨[], rfl, hnil⟩
        | some f =>
          have hg : GoodFactory (f.getFun sc) := by
            unfold Call.effFactory CgCall.call at hf
            dsimp only at hf
            cases h1 : c.factory with
            | none => rw [h1] at hf; exact hdef f hf
            | some f' =>
              rw [h1] at hf
              obtain rfl := Option.some.inj hf
              exact hfac c List.mem_cons_self _ h1
          exact hg x (hst x hl)
    obtain ⟨x, z, h1, h2, h3⟩ := C60_solve hc U hU
    have hsolve : recSolve sc default st c.call = (⟨some x, st.nFactoryTimings + 1, st.nSolveTimings + 1⟩, ⟨some U, .ok x⟩) := by
      have e : recSolve sc default st c.call = recRunSolver { st with nFactoryTimings := st.nFactoryTimings + 1 } c.call U := by
        unfold recSolve
        dsimp only
        cases hl : st.lastSolver with
        | none => rw [hl] at hUeq; obtain rfl := Except.ok.inj hUeq; rfl
        | some y =>
          rw [hl] at hUeq
          cases hf : c.call.effFactory default with
          | none => rw [hf] at hUeq; obtain rfl := Except.ok.inj hUeq; rfl
          | some f =>
            rw [hf] at hUeq
            dsimp only at hUeq ⊢
            rw [hUeq]
      rw [e]
      unfold recRunSolver
      rw [show c.call.solver U = .ok x from h1]
    simp only [List.map_cons, recRun, hsolve]
    cases i with
    | zero => exact ⟨U, x, z, rfl, hU, h2, h3⟩
    | succ i =>
      refine ih _ (fun c hc => hcs c (List.mem_cons_of_mem _ hc)) (fun c hc => hfac c (List.mem_cons_of_mem _ hc)) ?_ i
        (by simpa using hi)
      intro y hy
      obtain rfl := Option.some.inj hy
      exact ⟨c.a, c.oa, c.p, U, hc, hU, h1⟩

/-! ## Recycling everything -/

/-- The stored Lanczos vectors lie in the Krylov subspace. -/
theorem cg_V_mem {a : LSArgs 𝕜 E} {k : ℕ} {oak : OblArgs 𝕜 E k} {U : Fin k → E} (h : DeflHyp a oak U) {s : LS 𝕜 E}
    (hs : mkLS a = .ok s) {o : Obl 𝕜 E k} (ho : mkObl s oak U = .ok o) (hpd : SpdHyp a) (hMr : ∀ j, a.Mr (U j) = U j)
    {p : SolverArgs E} (htol : 0 ≤ p.tol) (hb : a.Ml a.b ≠ 0) {Q : E →ₗ[𝕜] E} (hQ : IsDeflProj a U Q)
    {st : St ℝ E (CgSt 𝕜 E × List ((Fin k → 𝕜) × Option (Fin k → 𝕜)))} (hst : deflatedCg s o true p = .returned st) {i : ℕ}
    (hi : i < st.iter) : ∃ v, st.s.1.V i = some v ∧ v ∈ deflKry a Q (p.x0.getD 0) st.iter := by
  obtain ⟨hl, -, -, hret, -⟩ := deflCg_loop h hs ho hpd hMr true p htol hb (Or.inl hst)
  obtain rfl := hQ.eq_compl h.ls.inner h.nonsing
  have hH := defl_cgHyp h hpd (a.Ml (a.b - a.A (p.x0.getD 0)))
  have inv := hl.inv
  have lan := hl.lan rfl
  change CgInv _ _ _ _ _ _ st.s.1 at inv
  change CgLan _ st.s.1 at lan
  have hk := hret hst
  rw [hk] at hi
  refine ⟨_, lan.V i hi.le (inv.rho_ne i hi), Submodule.smul_mem _ _ ?_⟩
  rw [hk, inv.res i hi.le, map_sub]
  refine krylov_mono (m := i + 1) hi (Submodule.sub_mem _ ?_ ?_)
  · exact Submodule.subset_span ⟨0, by omega, by simp⟩
  · exact krylov_map (inv.ys_mem hH i hi.le)

theorem finrank_krylov_le [FiniteDimensional 𝕜 E] (B : E →ₗ[𝕜] E) (u : E) (n : ℕ) :
    Module.finrank 𝕜 (krylov B u n) ≤ n := by
  have : krylov B u n = Submodule.span 𝕜 (Set.range fun i : Fin n => (B ^ (i : ℕ)) u) := by
    unfold krylov
    congr 1
    ext x
    constructor
    · rintro ⟨i, hi, rfl⟩
      exact ⟨⟨i, hi⟩, rfl⟩
    · rintro ⟨i, rfl⟩
      exact ⟨i, i.2, rfl⟩
  rw [this]
  exact (finrank_range_le_card _).trans (by simp)

/-- The Ritz vectors span the search space of the run. -/
theorem ritz_span [FiniteDimensional 𝕜 E] {a : LSArgs 𝕜 E} {oa : ∀ k, OblArgs 𝕜 E k} {p : SolverArgs E} (h : GoodCall a oa p)
    {U : List E} (hU : LinearIndependent 𝕜 U.get) (hb : a.Ml a.b ≠ 0) {Q : E →ₗ[𝕜] E} (hQ : IsDeflProj a U.get Q)
    {x : CgSol 𝕜 E} (hx : recCgSolver a oa p U = .ok x)
    {rt : ∀ n m, EigRoutines 𝕜 (Fin n ⊕ Fin m)} (hrt : EigTotal rt) {out : DeflRitzOut 𝕜 x.lan.n x.k} (hout : x.ritz rt = .ok out) :
    Submodule.span 𝕜 (Set.range fun i => deflRitzVec (fun j => (x.lan.V j).getD 0) x.o.U (out.coeffs i)) =
      deflKry a Q (p.x0.getD 0) x.lan.n ⊔ Submodule.span 𝕜 (Set.range U.get) := by
  obtain ⟨out', h1, h2⟩ := C60_ritz_vectors ⟨a, oa, p, U, h, hU, hx⟩ hrt
  rw [hout] at h1
  obtain rfl := Except.ok.inj h1
  unfold recCgSolver at hx
  split at hx
  · cases hx
  next s hs =>
  split at hx
  · cases hx
  next o ho =>
  split at hx
  · next st hst =>
    obtain rfl := Except.ok.inj hx
    have hd := h.defl hU
    refine Submodule.eq_of_le_of_finrank_le ?_ ?_
    · rw [Submodule.span_le]
      rintro _ ⟨i, rfl⟩
      refine Submodule.add_mem_sup ?_ ?_
      · unfold lincomb
        refine Submodule.sum_mem _ fun j _ => Submodule.smul_mem _ _ ?_
        obtain ⟨v, h3, h4⟩ := cg_V_mem hd hs ho h.spd (fun j => h.Mr _) h.tol hb hQ hst j.2
        show (st.s.1.V j).getD 0 ∈ _
        rw [h3]
        exact h4
      · rw [← (C38_E hd hs ho).2]
        exact mem_span_lincomb.mpr ⟨_, rfl⟩
    · rw [finrank_span_eq_card h2]
      refine (Submodule.finrank_add_le_finrank_add_finrank _ _).trans ?_
      have h3 := finrank_krylov_le (a.M ∘ₗ Q ∘ₗ a.Ml ∘ₗ a.A ∘ₗ a.Mr) (a.M (Q (a.Ml (a.b - a.A (p.x0.getD 0))))) st.iter
      have h4 := finrank_range_le_card (R := 𝕜) U.get
      rw [Fintype.card_fin] at h4
      rw [Fintype.card_sum, Fintype.card_fin, Fintype.card_fin]
      exact Nat.add_le_add h3 h4
  · cases hx
  · cases hx
  · cases hx

/-- C60: if all Ritz vectors of a run are recycled for the same system, initial guess and a tolerance which is not smaller, then no
iteration is carried out, and the result is the same. -/
theorem C60_repeat [FiniteDimensional 𝕜 E] {a : LSArgs 𝕜 E} {oa oa' : ∀ k, OblArgs 𝕜 E k} {p p' : SolverArgs E}
    (h : GoodCall a oa p) (h' : GoodCall a oa' p') (hx0 : p'.x0 = p.x0) (htol : p.tol ≤ p'.tol)
    {U : List E} (hU : LinearIndependent 𝕜 U.get) {x : CgSol 𝕜 E} (hx : recCgSolver a oa p U = .ok x)
    {rt : ∀ n m, EigRoutines 𝕜 (Fin n ⊕ Fin m)} (hrt : EigTotal rt) {out : DeflRitzOut 𝕜 x.lan.n x.k} (hout : x.ritz rt = .ok out)
    {idx : List ℕ} (hidx : idx.Perm (List.range (x.lan.n + x.k))) :
    ∃ U' x', x.getVectors out idx = .ok U' ∧ recCgSolver a oa' p' U' = .ok x' ∧ x'.st.iter = 0 ∧
      x'.st.resnorms.length = 1 ∧ x'.st.xk = x.st.xk := by
  obtain ⟨out', h1, h2⟩ := C60_ritz_vectors ⟨a, oa, p, U, h, hU, hx⟩ hrt
  rw [hout] at h1
  obtain rfl := Except.ok.inj h1
  have hnd : idx.Nodup := hidx.nodup_iff.mpr List.nodup_range
  have hr : ∀ i ∈ idx, i < x.lan.n + x.k := fun i hi => List.mem_range.mp (hidx.mem_iff.mp hi)
  obtain ⟨U', hU', -, hUi⟩ := getVectors_indep h2 hnd hr
  have hspan : Submodule.span 𝕜 (Set.range U'.get) =
      Submodule.span 𝕜 (Set.range fun i => deflRitzVec (fun j => (x.lan.V j).getD 0) x.o.U (out.coeffs i)) := by
    congr 1
    obtain ⟨l, e1, e2⟩ := mapM_ritzIdx idx hr
    unfold CgSol.getVectors at hU'
    rw [e1] at hU'
    obtain rfl := Except.ok.inj hU'
    ext v
    rw [Set.range_list_get]
    simp only [Set.mem_ofPred_eq, List.mem_map, Set.mem_range]
    constructor
    · rintro ⟨i, -, rfl⟩
      exact ⟨i, rfl⟩
    · rintro ⟨i, rfl⟩
      refine ⟨i, ?_, rfl⟩
      have : (finSumFinEquiv i : ℕ) ∈ idx := hidx.mem_iff.mpr (List.mem_range.mpr (finSumFinEquiv i).2)
      rw [← e2] at this
      obtain ⟨j, hj, hji⟩ := List.mem_map.mp this
      rwa [← finSumFinEquiv.injective (Fin.ext hji)]
  obtain ⟨x', z', hx', hxk', hres'⟩ := C60_solve h' U' hUi
  obtain ⟨x₂, z, hx₂, hxk, hres⟩ := C60_solve h U hU
  rw [hx] at hx₂
  obtain rfl := Except.ok.inj hx₂
  refine ⟨U', x', hU', hx', ?_⟩
  have hd := h.defl hU
  have hd' := h'.defl hUi
  obtain ⟨Q, hQ, -⟩ := C37_projection_unique hd
  obtain ⟨Q', hQ', -⟩ := C37_projection_unique hd'
  have hspan2 := fun hb => ritz_span h hU hb hQ hx hrt hout
  unfold recCgSolver at hx hx'
  split at hx
  · cases hx
  next s hs =>
  rw [hs] at hx'
  dsimp only at hx'
  split at hx
  · cases hx
  next o ho =>
  split at hx'
  · cases hx'
  next o' ho' =>
  split at hx
  · next st hst =>
    split at hx'
    · next st' hst' =>
      obtain rfl := Except.ok.inj hx
      obtain rfl := Except.ok.inj hx'
      dsimp only
      by_cases hb : a.Ml a.b = 0
      · obtain ⟨t, e1, e2, -⟩ := deflCg_zero (p := p) hd hs ho true h.tol hb
        obtain ⟨t', e1', e2', e3', e4', -⟩ := deflCg_zero (p := p') hd' hs ho' true h'.tol hb
        rw [hst] at e1
        obtain rfl := Outcome.returned.inj e1
        rw [hst'] at e1'
        obtain rfl := Outcome.returned.inj e1'
        exact ⟨e4', by rw [e3']; rfl, by rw [e2, e2']⟩
      obtain ⟨-, -, w, k1, k2⟩ := C37_cg hd hs ho h.spd (fun j => h.Mr _) true p h.tol hb hQ (Or.inl hst)
      obtain ⟨-, -, w', k1', k2'⟩ := C37_cg hd' hs ho' h.spd (fun j => h.Mr _) true p' h'.tol hb hQ' (Or.inl hst')
      obtain ⟨hl, -, -, hret, -⟩ := deflCg_loop hd hs ho h.spd (fun j => h.Mr _) true p h.tol hb (Or.inl hst)
      obtain ⟨hl', -, -, hret', -⟩ := deflCg_loop hd' hs ho' h.spd (fun j => h.Mr _) true p' h'.tol hb (Or.inl hst')
      have hlen : st.resnorms.length = st.iter + 1 := by rw [hret hst]; exact hl.len
      have hlen' : st'.resnorms.length = st'.iter + 1 := by rw [hret' hst']; exact hl'.len
      obtain ⟨m1, m2, m3, m4⟩ := k2 st.iter (by omega)
      obtain ⟨m1', m2', m3', m4'⟩ := k2' 0 (by omega)
      rw [hlen, Nat.add_sub_cancel] at k1
      -- the exact solution
      obtain ⟨ystar, hy⟩ : ∃ ystar, a.Ml (a.A (p.x0.getD 0 + a.Mr ystar)) = a.Ml a.b := by
        have hinj : Function.Injective a.B := by
          rw [← LinearMap.ker_eq_bot, LinearMap.ker_eq_bot']
          intro y hy
          by_contra hne
          have := h.spd.pos y hne
          change 0 < RCLike.re (a.ip y (a.B y)) at this
          rw [hy, h.spd.ls.inner.zero_right] at this
          simp at this
        obtain ⟨y, hy⟩ := LinearMap.injective_iff_surjective.mp hinj (a.Ml (a.b - a.A (p.x0.getD 0)))
        refine ⟨y, ?_⟩
        change a.Ml (a.A (a.Mr y)) = _ at hy
        rw [map_add, map_add, hy, ← map_add]
        congr 1
        abel
      have hS : deflKry a Q' (p'.x0.getD 0) 0 ⊔ Submodule.span 𝕜 (Set.range U'.get) =
          deflKry a Q (p.x0.getD 0) st.iter ⊔ Submodule.span 𝕜 (Set.range U.get) := by
        rw [show deflKry a Q' (p'.x0.getD 0) 0 = ⊥ from spanTo_zero _, bot_sup_eq, hspan]
        exact hspan2 hb
      rw [hx0] at m4' m2' k1'
      rw [hx0] at hS
      rw [hx0, hS] at m1'
      have n1 := (m4 ystar hy _ m1').1
      have n2 := m4' ystar hy (w st.iter) (by rw [hS]; exact m1)
      have n3 : w st.iter = w' 0 := n2.2 (le_antisymm n1 n2.1)
      rw [← n3, ← m2] at m2'
      have hpos := resid_pos h.spd.ls hb
      have n4 : st'.resnorms[0] = st.resnorms[st.iter] := mul_right_cancel₀ hpos.ne' m2'
      have n5 : st.resnorms[st.iter] ≤ p.tol := by
        rw [hxk] at k1
        rw [Option.some.inj k1, ← m2] at hres
        exact le_of_mul_le_mul_right hres hpos
      have n6 : st'.iter = 0 := by
        by_contra hne
        have := (C22_deflated_cg s o' true p').earlier st' (Or.inl hst') 0 _ (by omega) (List.getElem?_eq_getElem (by omega))
        rw [n4] at this
        exact absurd this (not_lt.mpr (n5.trans htol))
      refine ⟨n6, by omega, ?_⟩
      rw [k1', hlen', n6, k1, n3]
    · cases hx'
    · cases hx'
    · cases hx'
  · cases hx
  · cases hx
  · cases hx

/-! ## The hypotheses can be met -/

/-- The contracts of the factorisations can be met for every self-adjoint positive definite system. -/
theorem cgOblOk_exists [FiniteDimensional 𝕜 E] {a : LSArgs 𝕜 E} (h : LSHyp a.ip a.M) : ∃ oa, CgOblOk a oa := by
  classical
  have hMsa : ∀ x y, a.ip (a.M x) y = a.ip x (a.M y) := by
    intro x y
    have := h.prec.conj_symm y x
    rw [h.inner.conj_symm] at this
    exact this
  have hMinj : Function.Injective a.M := by
    rw [← LinearMap.ker_eq_bot, LinearMap.ker_eq_bot']
    intro y hy
    by_contra hne
    have := h.prec.pos y hne
    rw [hy, h.inner.zero_right] at this
    simp at this
  have hMsur := LinearMap.injective_iff_surjective.mp hMinj
  have q1 : ∀ k (U : Fin k → E), ∃ VR : (Fin k → E) × Matrix (Fin k) (Fin k) 𝕜, LinearIndependent 𝕜 U →
      (∀ j, U j = lincomb VR.1 fun i => VR.2 i j) ∧ ∃ W : Fin k → E, (∀ j, VR.1 j = a.M (W j)) ∧
        ∀ i j, a.ip (VR.1 i) (W j) = if i = j then 1 else 0 := by
    intro k U
    by_cases hU : LinearIndependent 𝕜 U
    · choose W' hW' using fun j => hMsur (U j)
      have hW : LinearIndependent 𝕜 W' := by
        refine LinearIndependent.of_comp a.M ?_
        have : a.M ∘ W' = U := funext hW'
        rwa [this]
      obtain ⟨V, R, hq⟩ := exists_isQr h.prec hW
      refine ⟨⟨fun j => a.M (V j), R⟩, fun _ => ⟨fun j => ?_, V, fun j => rfl, fun i j => ?_⟩⟩
      · rw [← hW', hq.fact, map_lincomb]
      · have := congrFun (congrFun hq.orth i) j
        rw [Matrix.one_apply] at this
        rw [← this, hMsa]
        rfl
    · exact ⟨⟨U, 1⟩, fun h => absurd h hU⟩
  have q2 : ∀ k (X : Fin k → E), ∃ VR : (Fin k → E) × Matrix (Fin k) (Fin k) 𝕜, LinearIndependent 𝕜 X → IsQr a.ip X VR.1 VR.2 := by
    intro k X
    by_cases hX : LinearIndependent 𝕜 X
    · obtain ⟨V, R, hq⟩ := exists_isQr h.inner hX
      exact ⟨⟨V, R⟩, fun _ => hq⟩
    · exact ⟨⟨X, 1⟩, fun h => absurd h hX⟩
  have q3 : ∀ k (M : Matrix (Fin k) (Fin k) 𝕜), ∃ QR : Matrix (Fin k) (Fin k) 𝕜 × Matrix (Fin k) (Fin k) 𝕜, IsMatQr M QR.1 QR.2 := by
    intro k M
    obtain ⟨Q, R, hq⟩ := exists_isMatQr M
    exact ⟨⟨Q, R⟩, hq⟩
  choose f1 h1 using q1
  choose f2 h2 using q2
  choose f3 h3 using q3
  refine ⟨fun k => ⟨fun U => .ok (f1 k U), ⟨fun X => .ok (f2 k X), f3 k⟩, false, true, 2⟩, fun k U hU => ?_, fun k _ X hX => ?_,
    fun k M => h3 k M, (fun k hk => by cases hk), (fun k => by norm_num)⟩
  · exact ⟨_, _, rfl, h1 k U hU⟩
  · exact ⟨_, _, rfl, h2 k X hX⟩

/-- The contracts of the eigenvalue routines can be met. -/
theorem eigTotal_exists : ∃ rt : ∀ n m, EigRoutines 𝕜 (Fin n ⊕ Fin m), EigTotal rt := by
  classical
  have q : ∀ n m (M : Matrix (Fin n ⊕ Fin m) (Fin n ⊕ Fin m) 𝕜), ∃ e, M.IsHermitian → IsEigh M e := by
    intro n m M
    by_cases hM : M.IsHermitian
    · obtain ⟨e, he⟩ := exists_isEigh M hM
      exact ⟨e, fun _ => he⟩
    · exact ⟨⟨0, 0⟩, fun h => absurd h hM⟩
  choose f hf using q
  refine ⟨fun n m => ⟨fun _ => .error .other, fun M => .ok (f n m M), fun _ _ => .error .other, fun _ _ => .error .other⟩,
    fun n m => ⟨(fun M e h => by cases h), fun M e hM h => ?_, (fun M N e _ h => by cases h), (fun M N e _ _ _ h => by cases h)⟩,
    fun n m M => ⟨_, rfl⟩⟩
  obtain rfl := Except.ok.inj h
  exact hf n m M hM

/-- Non-vacuity: the systems `diag(1, 2) x = b` with arbitrary right-hand sides. -/
theorem exSeq_good : ∃ oa : ∀ k, OblArgs ℝ (ℝ × ℝ) k, ∀ b, GoodCall { exSpd with b := b } oa ⟨none, 1 / 100000, 2, false, none⟩ := by
  obtain ⟨oa, h⟩ := cgOblOk_exists exSpd_hyp.ls
  exact ⟨oa, fun b => ⟨⟨exSpd_hyp.ls, exSpd_hyp.sa, exSpd_hyp.pos⟩, rfl, fun x => rfl, by norm_num, by simp,
    ⟨h.qrM, h.qr, h.matQr, h.same, h.iterations⟩⟩⟩

/-- Non-vacuity of `C60_cg`, `C60_simple` and `C60_repeat`: a sequence of three systems which recycles the vector of the Ritz value
of smallest magnitude, and a repetition which recycles everything. -/
example : ∃ (oa : ∀ k, OblArgs ℝ (ℝ × ℝ) k) (f : CgSol ℝ (ℝ × ℝ) → Except Err (List (ℝ × ℝ))) (p : SolverArgs (ℝ × ℝ)),
    let c : ℝ × ℝ → CgCall ℝ (ℝ × ℝ) := fun b => ⟨{ exSpd with b := b }, oa, p, none⟩
    let cs := [c (1, 1), c (2, 3), c (0, 0)]
    (∀ i (hi : i < cs.length), ∃ U x z, (recRun ⟨f, f, f⟩ (some (.obj f)) RecState.init (cs.map CgCall.call)).2[i]? =
      some ⟨some U, .ok x⟩ ∧ x.st.xk = some z ∧ resid cs[i].a z ≤ 1 / 100000 * resid cs[i].a 0) ∧
    ∃ x x' out idx U', recCgSolver exSpd oa p [] = .ok x ∧ x.getVectors out idx = .ok U' ∧ recCgSolver exSpd oa p U' = .ok x' ∧
      x'.st.iter = 0 ∧ x'.st.xk = x.st.xk := by
  obtain ⟨oa, h⟩ := exSeq_good
  obtain ⟨rt, hrt⟩ := eigTotal_exists (𝕜 := ℝ)
  obtain ⟨argsort, ha⟩ := argsort_exists
  have hf : GoodFactory (simpleGet (𝕜 := ℝ) (E := ℝ × ℝ) rt argsort 1 .sm) := C60_simple hrt ha 1 (by simp)
  refine ⟨oa, simpleGet rt argsort 1 .sm, ⟨none, 1 / 100000, 2, false, none⟩, ?_, ?_⟩
  · intro i hi
    obtain ⟨U, x, z, h1, -, h2, h3⟩ := C60_cg
      ⟨simpleGet rt argsort 1 .sm, simpleGet rt argsort 1 .sm, simpleGet rt argsort 1 .sm⟩ (some (.obj (simpleGet rt argsort 1 .sm)))
      [⟨{ exSpd with b := (1, 1) }, oa, ⟨none, 1 / 100000, 2, false, none⟩, none⟩,
        ⟨{ exSpd with b := (2, 3) }, oa, ⟨none, 1 / 100000, 2, false, none⟩, none⟩,
        ⟨{ exSpd with b := (0, 0) }, oa, ⟨none, 1 / 100000, 2, false, none⟩, none⟩]
      (fun c hc => by
        simp only [List.mem_cons, List.not_mem_nil, or_false] at hc
        rcases hc with rfl | rfl | rfl <;> exact h _) (fun f hf' => by obtain rfl := Option.some.inj hf'; exact hf)
      (by simp) i hi
    refine ⟨U, x, z, h1, h2, ?_⟩
    have : i = 0 ∨ i = 1 ∨ i = 2 := by simp at hi; omega
    rcases this with rfl | rfl | rfl <;> exact h3
  · have : IsEmpty (Fin ([] : List (ℝ × ℝ)).length) := inferInstanceAs (IsEmpty (Fin 0))
    have hnil : LinearIndependent ℝ ([] : List (ℝ × ℝ)).get := linearIndependent_empty_type
    have hg := h exSpd.b
    obtain ⟨x, z, h1, h2, -⟩ := C60_solve hg [] hnil
    obtain ⟨out, h3, -⟩ := C60_ritz_vectors ⟨_, _, _, _, hg, hnil, h1⟩ hrt
    obtain ⟨U', x', h4, h5, h6, -, h7⟩ := C60_repeat hg hg rfl le_rfl hnil h1 hrt h3 (List.Perm.refl _)
    exact ⟨x, x', out, _, U', h1, h4, h5, h6, h7⟩

end Krypy
