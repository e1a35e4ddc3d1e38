import Verif.Props.OwnQr
import Verif.Props.DeflRitzVal
import Verif.Props.DeflRitzEnd
import Verif.Props.DeflConv

/-!
# Examples for the properties C36-C40, C75 and C89 of the deflated solvers

All examples use the system `diag(1, 2) x = (1, 1)` and the library's own `qr`, with the counters of C89 where they matter.
-/

set_option linter.unusedSectionVars false

namespace Krypy
open Matrix

/-- The constructor arguments with the own `qr` and the default parameters. -/
noncomputable def exOwn : OblArgsT ℝ (ℝ × ℝ) 1 := ownOblArgs exSpd.ip none 0 (fun M => (1, M)) false true 2

/-- The deflation vector `(1, 1)`. -/
def exU : Fin 1 → ℝ × ℝ := fun _ => (1, 1)

theorem exOwn_hyp : DeflHyp exSpd exOwn.erase exU := exSpd_own 0 true

theorem exSpd_minres : MinresHyp exSpd := ⟨exSpd_hyp.ls, exSpd_hyp.sa⟩

theorem exSpd_inj (x : ℝ × ℝ) (hx : exSpd.Ml (exSpd.A (exSpd.Mr x)) = 0) : x = 0 := by
  by_contra hne
  have := exSpd_hyp.pos x hne
  rw [hx, exSpd_hyp.ls.inner.zero_right] at this
  simp at this

/-- The parameters `tol=0`, `maxiter=1`. -/
def exArgs : SolverArgs (ℝ × ℝ) := ⟨none, 0, 1, false, none⟩

theorem exU_apart : Apart (ipMinv exSpd.ip none) exU := by
  refine apart_one (Real.le_sqrt_of_sq_le ?_)
  simp [nsq, ipMinv, exSpd, exCfg, exU]; norm_num

/-- At least one iteration is needed. -/
theorem exU_length {Q : ℝ × ℝ →ₗ[ℝ] ℝ × ℝ} {l : List ℝ} {x : ℝ × ℝ} (h : DeflMinRes exSpd exU Q 0 l x) {r : ℝ}
    (hr : l.getLast? = some r) (hr0 : r ≤ 0) : 2 ≤ l.length := by
  by_contra hlt
  have hpos : 0 < l.length := List.length_pos_iff.mpr h.nonempty
  have h1 : l.length = 1 := by omega
  obtain ⟨y, ⟨⟨z, hz, hy⟩, -⟩, hy2⟩ := (h.minima 0 hpos).1
  have hl : l[0] = r := by
    rw [List.getLast?_eq_getElem?, h1] at hr
    exact (List.getElem?_eq_some_iff.mp hr).2
  have hz0 : z = 0 := by simpa [deflKry, krylov] using hz
  subst hz0
  have hy3 : y ∈ Submodule.span ℝ (Set.range exU) := by simpa using hy
  have h2 := exSpd_resid (w := y) hy3
  have h3 : resid exSpd y ≤ 0 := by
    rw [hy2, hl]
    exact mul_nonpos_of_nonpos_of_nonneg hr0 (nrm_nonneg _ _)
  apply h2
  rw [zero_add]
  exact le_antisymm h3 (nrm_nonneg _ _)

/-- After one iteration the residual is zero. -/
theorem exU_second {Q : ℝ × ℝ →ₗ[ℝ] ℝ × ℝ} (hQ : IsDeflProj exSpd exU Q) {l : List ℝ} {x : ℝ × ℝ}
    (h : DeflMinRes exSpd exU Q 0 l x) (hl : 1 < l.length) : l[1] ≤ 0 := by
  have hb : exSpd.Ml exSpd.b ≠ 0 := by simp [exSpd]
  have hpos := resid_pos exSpd_hyp.ls hb
  have hsol : resid exSpd ((1 : ℝ), (1 / 2 : ℝ)) = 0 := by
    unfold resid
    refine exSpd_hyp.ls.prec.nrm_eq_zero.mpr ?_
    simp [exSpd]
  have hmem : ((1 : ℝ), (1 / 2 : ℝ)) ∈ deflSpace exSpd exU Q 0 1 := by
    refine ⟨?_, fun j => ?_⟩
    · set v := exSpd.M (Q (exSpd.Ml (exSpd.b - exSpd.A 0))) with hv
      have hv1 : v = Q (1, 1) := by rw [hv]; simp [exSpd]
      have hor : v.1 + v.2 = 0 := by
        have := hQ.orth (1, 1) 0
        rw [← hv1] at this
        simpa [exSpd, exCfg, exU] using this
      have hne : v.1 ≠ 0 := by
        intro h0
        have h1 := hQ.diff (1, 1)
        rw [← hv1] at h1
        have e : (Set.range fun j => exSpd.Ml (exSpd.A (exSpd.Mr (exU j)))) = {((1 : ℝ), (2 : ℝ))} := by
          ext y; simp [exSpd, exU]
        rw [e] at h1
        obtain ⟨c, hc⟩ := Submodule.mem_span_singleton.mp h1
        have h2 := congrArg Prod.fst hc
        have h3 := congrArg Prod.snd hc
        simp at h2 h3
        have h4 : v.2 = 0 := by linarith
        rw [h0] at h2
        rw [h4] at h3
        linarith
      refine ⟨(1 / 4 / v.1) • v, ?_, ?_⟩
      · refine Submodule.smul_mem _ _ ?_
        exact Submodule.subset_span ⟨0, by simp, by simp [hv]⟩
      · have e : ((1 : ℝ), (1 / 2 : ℝ)) - (0 + exSpd.Mr ((1 / 4 / v.1) • v)) = (3 / 4 : ℝ) • exU 0 := by
          have h2 : v.2 = - v.1 := by linarith
          ext
          · simp [exSpd, exU]; field_simp; norm_num
          · simp [exSpd, exU, h2]; field_simp; norm_num
        rw [e]
        exact Submodule.smul_mem _ _ (Submodule.subset_span ⟨0, rfl⟩)
    · simp [exSpd, exCfg]
  have h1 := (h.minima 1 hl).2 ⟨_, hmem, rfl⟩
  rw [hsol] at h1
  exact nonpos_of_mul_nonpos_left h1 hpos

theorem exU_converged {Q : ℝ × ℝ →ₗ[ℝ] ℝ × ℝ} (hQ : IsDeflProj exSpd exU Q) {l : List ℝ} {x : ℝ × ℝ}
    (h : DeflMinRes exSpd exU Q 0 l x) {n : ℕ} (hl : l.length = n + 1) (hn : n ≤ 1)
    (hor : (∃ r, l.getLast? = some r ∧ r ≤ 0) ∨ 1 ≤ n) : l.length = 2 ∧ ∃ r, l.getLast? = some r ∧ r ≤ 0 := by
  have h2 : l.length = 2 := by
    rcases hor with ⟨r, hr, hr0⟩ | hn1
    · have := exU_length h hr hr0
      omega
    · omega
  refine ⟨h2, l[1], ?_, exU_second hQ h (by omega)⟩
  rw [List.getLast?_eq_getElem?, show l.length - 1 = 1 by omega]
  exact List.getElem?_eq_getElem _

/-- Non-vacuity of `C36_own_qr`, `C37_gmres`, `C89_gmres` and `C89_gmres_estimate`: deflated GMRES with the own `qr` needs one iteration. -/
example : ∃ st, (deflGmresT exSpd exOwn exU .mgs exArgs).1 = .returned st ∧ st.resnorms.length = 2 ∧
    Compared .gmres (deflGmresT exSpd exOwn exU .mgs exArgs).2 1 1 0 false := by
  have hd := exOwn_hyp
  obtain ⟨s, hs, -⟩ := mkLS_ok hd.ls
  obtain ⟨o, ho⟩ := C36_total hd hs
  obtain ⟨Q, hQ, -⟩ := C37_projection_unique hd
  have hb : exSpd.Ml exSpd.b ≠ 0 := by simp [exSpd]
  have hMr : ∀ j : Fin 1, exSpd.Mr (exU j) = exU j := fun _ => rfl
  obtain ⟨st, h1, h2⟩ := C37_gmres_terminates hd hs ho (exSpd_minres.gmres .mgs) hMr exArgs le_rfl hb exSpd_inj (by simp [exArgs])
  obtain ⟨x, hx, h3, h4, h5, h6⟩ := C37_gmres hd hs ho (exSpd_minres.gmres .mgs) hMr exArgs le_rfl hb hQ (Or.inl h1)
  obtain ⟨h7, h8⟩ := exU_converged hQ h3 h5 h6 (h2.imp id fun ⟨_, n, hn, _⟩ => by omega)
  have he : (deflGmresT exSpd exOwn exU .mgs exArgs).1 = .returned st := by
    rw [C89_gmres_erase _ hd.ls.inner, hs]
    dsimp only
    rw [ho]
    exact h1
  exact ⟨st, he, h7, C89_gmres_estimate hd.ls.inner ⟨C89_own _ _ _ _ _ _ _, rfl, rfl, rfl⟩ rfl rfl (Or.inl he) le_rfl h7 h4
    fun _ => h8⟩

/-- Non-vacuity of `C37_minres`, `C89_minres` and `C89_minres_estimate`, and of `C40_minres_values` with `C40_own_qr`. -/
example : ∃ st, (deflMinresT exSpd exOwn exU .lanczos exArgs).1 = .returned st ∧ st.resnorms.length = 2 ∧
    Compared .minres (deflMinresT exSpd exOwn exU .lanczos exArgs).2 1 1 0 false ∧
    ∃ s o, mkLS exSpd = .ok s ∧ mkObl s exOwn.erase exU = .ok o ∧ ∃ (W : Fin 1 → ℝ × ℝ) (n : ℕ) (P : ℕ → ℝ × ℝ) (B' : List (Fin 1 → ℝ)),
      DeflRitzRel (fun x y => exSpd.ip x (exSpd.M y)) (exSpd.Ml ∘ₗ exSpd.A ∘ₗ exSpd.Mr ∘ₗ exSpd.M) P W st.s.1.arn.H
        n st.s.1.arn.get.cols o.Emat (gram s.ip o.AU fun j => s.M (o.AU j)) st.s.2 B' := by
  have hd := exOwn_hyp
  obtain ⟨s, hs, -⟩ := mkLS_ok hd.ls
  obtain ⟨o, ho⟩ := C36_total hd hs
  obtain ⟨Q, hQ, -⟩ := C37_projection_unique hd
  have hb : exSpd.Ml exSpd.b ≠ 0 := by simp [exSpd]
  have hMr : ∀ j : Fin 1, exSpd.Mr (exU j) = exU j := fun _ => rfl
  obtain ⟨st, h1, h2⟩ := C37_minres_terminates hd hs ho exSpd_minres .lanczos hMr exArgs le_rfl hb exSpd_inj (by simp [exArgs])
  obtain ⟨x, hx, h3, h4, h5, h6⟩ := C37_minres hd hs ho exSpd_minres .lanczos hMr exArgs le_rfl hb hQ (Or.inl h1)
  obtain ⟨h7, h8⟩ := exU_converged hQ h3 h5 h6 (h2.imp id fun ⟨_, n, hn, _⟩ => by omega)
  have he : (deflMinresT exSpd exOwn exU .lanczos exArgs).1 = .returned st := by
    rw [C89_minres_erase _ hd.ls.inner, hs]
    dsimp only
    rw [ho]
    exact h1
  obtain ⟨W, hW, hWo⟩ := C40_own_qr (a := exSpd) (Minv := none) exSpd_hyp.ls.inner (fun _ => rfl) 0 exU_apart ho
  obtain ⟨n, P, B', -, -, hrel⟩ := C40_minres_values hd hs ho exSpd_minres .lanczos hW hWo exArgs (Or.inl h1) rfl rfl
  exact ⟨st, he, h7, C89_minres_estimate hd.ls.inner ⟨C89_own _ _ _ _ _ _ _, rfl, rfl, rfl⟩ rfl rfl (Or.inl he) le_rfl h7 h4
    (fun _ => h8), s, o, hs, ho, W, n, P, B', hrel⟩

/-- Non-vacuity of `C75_cg_bound` and `C75_minres_bound`: deflation of the eigenvector `(1, 0)` leaves the eigenvalue `2`, so that the bounds
for `evals = [2]` (the factor is zero) hold for the deflated solvers. -/
example : ∃ s o st st'' bd, mkLS exSpd = .ok s ∧ mkObl s (exObl exSpd.ip) (fun _ => ((1 : ℝ), (0 : ℝ))) = .ok o ∧
    boundCG (.array (toC [2])) = .ok bd ∧ bd.base = 0 ∧
    deflatedCg s o true ⟨none, 0, 5, false, none⟩ = .returned st ∧
    deflatedMinres s o .lanczos ⟨none, 0, 5, false, none⟩ = .returned st'' ∧
    (∃ w : ℕ → ℝ × ℝ, ∀ i < st.resnorms.length, Real.sqrt (errEnergy exSpd ((1, 1 / 2) - w i)) ≤
      bd.evalStep i * Real.sqrt (errEnergy exSpd ((1, 1 / 2) - w 0))) ∧
    ∀ i (hi : i < st''.resnorms.length), st''.resnorms[i] ≤ bd.evalStep i * st''.resnorms[0] := by
  have hd := exSpd_defl_eig
  obtain ⟨s, hs, -⟩ := mkLS_ok hd.ls
  obtain ⟨o, ho⟩ := C36_total hd hs
  obtain ⟨Q, hQ, -⟩ := C37_projection_unique hd
  have hb : exSpd.Ml exSpd.b ≠ 0 := by simp [exSpd]
  have hfin : Module.finrank ℝ (ℝ × ℝ) ≤ 5 + 1 := by simp
  have hMr : ∀ j : Fin 1, exSpd.Mr ((fun _ => ((1 : ℝ), (0 : ℝ)) : Fin 1 → ℝ × ℝ) j) = (1, 0) := fun _ => rfl
  have htol : (0 : ℝ) ≤ (⟨none, 0, 5, false, none⟩ : SolverArgs (ℝ × ℝ)).tol := le_rfl
  obtain ⟨st, h1, -⟩ := C37_cg_terminates hd hs ho exSpd_hyp hMr true ⟨none, 0, 5, false, none⟩ htol hb hfin
  obtain ⟨st'', h3, -⟩ := C37_minres_terminates hd hs ho exSpd_minres .lanczos hMr ⟨none, 0, 5, false, none⟩ htol hb exSpd_inj hfin
  have hG : IsGreatest {x : ℝ | x ∈ [(2 : ℝ)]} 2 := ⟨by simp, by intro x hx; simp at hx; exact hx.le⟩
  have hL : IsLeast {x : ℝ | x ∈ [(2 : ℝ)]} 2 := ⟨by simp, by intro x hx; simp at hx; exact hx.ge⟩
  have hbd := (C46_cg [2] hG hL (by norm_num)).1 (by unfold tiny; norm_num)
  have hbm : boundMinres (.array (toC [2])) = .ok ⟨true, cgFactor (2 / 2)⟩ := by
    rw [← hbd]
    simp [boundMinres, toC, tiny]
    intro h; norm_num at h
  have hcov : ∀ μ, IsDeflEig exSpd (fun _ : Fin 1 => ((1 : ℝ), (0 : ℝ))) Q μ → (Spectrum.array (toC [2])).Covers μ ∧ 0 < μ := by
    intro μ hμ
    rw [(exSpd_remaining hQ μ).mp hμ]
    simp [Spectrum.Covers, toC]
  obtain ⟨w, -, -, -, hw⟩ := C75_cg_bound hd hs ho hQ hMr ⟨none, 0, 5, false, none⟩ htol hb exSpd_hyp true (Or.inl h1)
    (ystar := (1, 1 / 2)) (by simp [exSpd]) (spec := .array (toC [2])) trivial (fun μ hμ => (hcov μ hμ).1) hbd
  refine ⟨s, o, st, st'', _, hs, ho, hbd, by simp [cgFactor], h1, h3, ⟨w, fun i hi => (hw i hi).2⟩, fun i hi => ?_⟩
  exact C75_minres_bound hd hs ho hQ hMr ⟨none, 0, 5, false, none⟩ htol hb exSpd_minres .lanczos (Or.inl h3) (spec := .array (toC [2]))
    trivial hcov hbm rfl hi

end Krypy
