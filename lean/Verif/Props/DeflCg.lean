import Verif.Model.DeflCg
import Verif.Props.DeflRitz

/-! # Properties C38 and C40 for `DeflatedCg` and `DeflatedMinres` -/

set_option linter.unusedSectionVars false

namespace Krypy
open scoped ComplexConjugate
open Matrix
variable {𝕜 E : Type*} [RCLike 𝕜] [AddCommGroup E] [Module 𝕜 E] {m : ℕ}

theorem length_of_mapM {T : Type*} : ∀ {l : List (Option T)} {l' : List T}, l.mapM id = some l' → l'.length = l.length
  | [], l', h => by simp at h; simp [← h]
  | x :: l, l', h => by
    cases x with
    | none => simp [List.mapM_cons] at h
    | some x =>
      cases hl : l.mapM id with
      | none => simp [List.mapM_cons, hl] at h
      | some l'' =>
        simp [List.mapM_cons, hl] at h
        simp [← h, length_of_mapM hl]

theorem mapM_some {T : Type*} : ∀ l : List T, (l.map some).mapM id = some l
  | [] => rfl
  | x :: l => by simp [List.mapM_cons, mapM_some l]

theorem eq_map_of_mapM {T : Type*} : ∀ {l : List (Option T)} {l' : List T}, l.mapM id = some l' → l = l'.map some
  | [], l', h => by simp at h; simp [← h]
  | x :: l, l', h => by
    cases x with
    | none => simp [List.mapM_cons] at h
    | some x =>
      cases hl : l.mapM id with
      | none => simp [List.mapM_cons, hl] at h
      | some l'' =>
        simp [List.mapM_cons, hl] at h
        simp [← h, eq_map_of_mapM hl]

theorem length_of_finRows {l : List (Option (Fin m → 𝕜))} {l' : List (Fin m → 𝕜)} (h : finRows l = some l') :
    l'.length = l.length := by
  unfold finRows at h
  split at h
  · obtain rfl := Option.some.inj h; simp
  · exact length_of_mapM h

theorem finRows_some (l : List (Fin m → 𝕜)) : finRows (l.map some) = some l := by
  unfold finRows
  split
  · simp
  · exact mapM_some l

/-- The values and coefficients in the mode `ritz` depend only on the first `n` rows of `H_` and `B_`. -/
theorem deflRitz_rows {n : ℕ} (rt : EigRoutines 𝕜 (Fin n ⊕ Fin m)) (H : ℕ → ℕ → 𝕜) {n_ n' : ℕ} (Em F : Matrix (Fin m) (Fin m) 𝕜)
    (C B B' : List (Fin m → 𝕜)) (sa : Bool) (hB : B.length = n_) (hB' : B'.length = n') (hC : C.length = n)
    (hr : ∀ i < n, B.getD i 0 = B'.getD i 0) :
    (deflRitz rt H n_ Em C B F sa .ritz).map (fun o => (o.values, o.coeffs)) =
      (deflRitz rt H n' Em C B' F sa .ritz).map (fun o => (o.values, o.coeffs)) := by
  have e : (rowsMat B n : Matrix (Fin n) (Fin m) 𝕜) = rowsMat B' n := by
    ext i j
    simp only [rowsMat, Matrix.of_apply, hr i i.2]
  unfold deflRitz
  by_cases h0 : n + m = 0
  · rw [if_pos h0, if_pos h0]
  · have c1 : ¬ (C.length ≠ n ∨ B.length ≠ n_) := by simp [hC, hB]
    have c2 : ¬ (C.length ≠ n ∨ B'.length ≠ n') := by simp [hC, hB']
    rw [if_neg h0, if_neg h0, if_neg c1, if_neg c2]
    cases solveE Em (colsMat C n) with
    | error e => rfl
    | ok X =>
      dsimp only
      rw [e]
      cases (if sa then rt.eigh else rt.eig) (ritzM H Em (colsMat C n) X (rowsMat B' n)) <;> rfl

section
variable {a : LSArgs 𝕜 E} {oa : OblArgs 𝕜 E m} {U : Fin m → E} (h : DeflHyp a oa U)
  {s : LS 𝕜 E} (hs : mkLS a = .ok s) {o : Obl 𝕜 E m} (ho : mkObl s oa U = .ok o)
include h hs ho

/-- C38 for deflated CG: if the run returns, `B_ = ⟨V_(n+1), Ml A Mr U⟩`, with a NaN row exactly for a NaN column of `V` (which
is possible only for the last one, C33). -/
theorem C38_B_cg (hpd : SpdHyp a) (hMr : ∀ j, a.Mr (U j) = U j) (p : SolverArgs E) (htol : 0 ≤ p.tol)
    (hb : a.Ml a.b ≠ 0) {st : St ℝ E (CgSt 𝕜 E × List ((Fin m → 𝕜) × Option (Fin m → 𝕜)))}
    (hrun : deflatedCg s o true p = .returned st) {L : CgLanczos E} (hL : L = cgLanczos (st.setS st.s.1))
    {B : List (Option (Fin m → 𝕜))} (hB : B = o.cgB_ s L.n L.V (st.s.2.map (·.2))) :
    B.length = L.n + 1 ∧ ∀ i (hi : i < B.length),
      B[i] = (L.V i).map fun v j => a.ip v (a.Ml (a.A (a.Mr (o.U j)))) := by
  have ok := LSOK.of_defl h hs
  have ob := OblOK.of_defl h hs ho
  have hAU : ∀ j, o.AU j = a.Ml (a.A (a.Mr (o.U j))) := ob.AU
  obtain ⟨hC, hret, -⟩ := C38_C_cg h hs ho hpd hMr p htol hb (Or.inl hrun)
  have hlen := hret hrun
  subst hL
  unfold Obl.cgB_ at hB
  rw [ok.ip] at hB
  cases hsf : s.selfAdjoint with
  | false =>
    rw [hsf] at hB
    simp only [Bool.false_eq_true, if_false] at hB
    subst hB
    exact ⟨by simp, fun i hi => by simp [hAU]⟩
  | true =>
    rw [hsf] at hB
    simp only [if_true] at hB
    subst hB
    refine ⟨by simpa using hlen, fun i hi => ?_⟩
    rcases Nat.lt_or_ge i st.s.2.length with h1 | h1
    · obtain ⟨v, hv, hc⟩ := hC i h1
      rw [List.getElem_append_left (by simpa using h1)]
      simp only [List.getElem_map, hc, hv, Option.map_some, Option.some.injEq]
      funext j
      rw [h.ls.inner.conj_symm, hpd.sa]
    · have hi' : i = (cgLanczos (st.setS st.s.1)).n := by
        simp only [List.length_append, List.length_map, List.length_singleton] at hi
        omega
      rw [List.getElem_append_right (by simpa using h1)]
      simp [hAU, hi']

/-- Finding (C38, C40): after a `ConvergenceError` the attributes of `DeflatedCg` do not fit together.  `C` has one column more than
`H`, for self-adjoint systems `B_` has one row more than `H`, and `Ritz` fails. -/
theorem C38_cg_convergence_counterexample (hpd : SpdHyp a) (hMr : ∀ j, a.Mr (U j) = U j) (p : SolverArgs E)
    (htol : 0 ≤ p.tol) (hb : a.Ml a.b ≠ 0) {st : St ℝ E (CgSt 𝕜 E × List ((Fin m → 𝕜) × Option (Fin m → 𝕜)))}
    (hrun : deflatedCg s o true p = .convergence st) {L : CgLanczos E} (hL : L = cgLanczos (st.setS st.s.1)) :
    st.s.2.length = L.n + 1 ∧ (s.selfAdjoint = true → (o.cgB_ s L.n L.V (st.s.2.map (·.2))).length = L.n + 2) ∧
    ∀ (rt : EigRoutines 𝕜 (Fin L.n ⊕ Fin m)) (mode : RitzMode), 0 < L.n + m →
      ¬ ∃ out, o.cgRitz s rt L.H L.V (st.s.2.map (·.2)) mode = .ok out := by
  obtain ⟨hC, -, hcon⟩ := C38_C_cg h hs ho hpd hMr p htol hb (Or.inr hrun)
  have hlen := hcon hrun
  rw [← hL] at hlen
  refine ⟨hlen, fun hsf => by simp [Obl.cgB_, hsf, hlen], fun rt mode hn => ?_⟩
  rintro ⟨out, hout⟩
  unfold Obl.cgRitz at hout
  split at hout
  · cases hout
  · next C' h1 =>
    have hl : C'.length = L.n + 1 := by
      have := length_of_finRows h1
      simp at this
      omega
    have herr : ∀ B' mode, deflRitz rt (fun i j => (L.H i j : 𝕜)) (L.n + 1) o.Emat C' B'
        (gram s.ip o.AU fun j => s.M (o.AU j)) s.selfAdjoint mode = .error .valueError :=
      fun B' mode => (C40_errors rt _ _ _ _ C' B' _ mode hn).1 (Or.inl (by omega))
    split at hout
    · rw [herr] at hout
      cases hout
    · split at hout
      · cases hout
      · split at hout
        · split at hout <;> cases hout
        · rw [herr] at hout
          cases hout

/-- C40 for deflated MINRES: as `C40_gmres`. -/
theorem C40_minres (hm : MinresHyp a) (ortho : Ortho)
    {W : Fin m → E} (hW : ∀ j, o.U j = a.M (W j)) (hWo : ∀ i j, a.ip (o.U i) (W j) = if i = j then 1 else 0)
    (p : SolverArgs E) {st : St ℝ E (MinresSt 𝕜 E × List (Fin m → 𝕜))}
    (hrun : deflatedMinres s o ortho p = .returned st ∨ deflatedMinres s o ortho p = .convergence st)
    (hex : st.s.1.arn.invariant = true → ∀ j, j + 1 = st.s.1.arn.iter → st.s.1.arn.H (j + 1) j = 0) :
    DeflRitzRel (fun x y => a.ip x (a.M y)) (a.Ml ∘ₗ a.A ∘ₗ a.Mr ∘ₗ a.M) st.s.1.arn.P W st.s.1.arn.H
      st.s.1.arn.get.rows st.s.1.arn.get.cols o.Emat (gram s.ip o.AU fun j => s.M (o.AU j)) st.s.2
      (o.B_ s st.s.1.arn.get.rows st.s.1.arn.get.cols st.s.1.arn.V st.s.2) := by
  obtain ⟨b, hb, e1, e2⟩ : ∃ b : GmresSt 𝕜 E × List (Fin m → 𝕜),
      (deflatedGmres s o ortho p = .returned (st.setS b) ∨ deflatedGmres s o ortho p = .convergence (st.setS b)) ∧
      b.1.arn = st.s.1.arn ∧ b.2 = st.s.2 := by
    rcases hrun with hrun | hrun
    · obtain ⟨b, hb, e1, e2⟩ := (C37_minres_eq_gmres h hs ho hm ortho p).1 hrun
      exact ⟨b, Or.inl hb, e1, e2⟩
    · obtain ⟨b, hb, e1, e2⟩ := (C37_minres_eq_gmres h hs ho hm ortho p).2 hrun
      exact ⟨b, Or.inr hb, e1, e2⟩
  have := C40_gmres h hs ho (hm.gmres ortho) (fun _ => hm.sa) hW hWo p hb
  change ((b.1.arn.invariant = true → ∀ j, j + 1 = b.1.arn.iter → b.1.arn.H (j + 1) j = 0) →
    DeflRitzRel (fun x y => a.ip x (a.M y)) (a.Ml ∘ₗ a.A ∘ₗ a.Mr ∘ₗ a.M) b.1.arn.P W b.1.arn.H
      b.1.arn.get.rows b.1.arn.get.cols o.Emat (gram s.ip o.AU fun j => s.M (o.AU j)) b.2
      (o.B_ s b.1.arn.get.rows b.1.arn.get.cols b.1.arn.V b.2)) at this
  rw [e1, e2] at this
  exact this hex

/-- The relation which `Ritz` relies on, with or without the last Lanczos vector. -/
theorem cg_ritz_core (hpd : SpdHyp a) (hMr : ∀ j, a.Mr (U j) = U j)
    {W : Fin m → E} (hW : ∀ j, o.U j = a.M (W j)) (hWo : ∀ i j, a.ip (o.U i) (W j) = if i = j then 1 else 0)
    (p : SolverArgs E) (htol : 0 ≤ p.tol)
    (hb : a.Ml a.b ≠ 0) {st : St ℝ E (CgSt 𝕜 E × List ((Fin m → 𝕜) × Option (Fin m → 𝕜)))}
    (hrun : deflatedCg s o true p = .returned st)
    {L : CgLanczos E} (hL : L = cgLanczos (st.setS st.s.1)) {n_ : ℕ}
    (hn_ : (n_ = L.n + 1 ∧ st.resnorms.getLast? ≠ some 0) ∨ (n_ = L.n ∧ st.resnorms.getLast? = some 0)) :
    ∃ (P : ℕ → E) (C' B' : List (Fin m → 𝕜)), (∀ i < n_, L.V i = some (a.M (P i))) ∧
      st.s.2.map (·.2) = C'.map some ∧ (o.cgB_ s L.n L.V (st.s.2.map (·.2))).take n_ = B'.map some ∧
      DeflRitzRel (fun x y => a.ip x (a.M y)) (a.Ml ∘ₗ a.A ∘ₗ a.Mr ∘ₗ a.M) P W (fun i j => (L.H i j : 𝕜))
        n_ L.n o.Emat (gram s.ip o.AU fun j => s.M (o.AU j)) C' B' := by
  have ok := LSOK.of_defl h hs
  have hob := OblOK.of_defl h hs ho
  obtain ⟨hl, -, hlog, hret, -⟩ := deflCg_loop h hs ho hpd hMr true p htol hb (Or.inl hrun)
  have hiter := hret hrun
  have inv := hl.inv
  have lan := hl.lan rfl
  have hlen := hl.len
  have hresn := hl.resn
  obtain ⟨hEm, hspan⟩ := C38_E h hs ho
  obtain ⟨hC, hClen, -⟩ := C38_C_cg h hs ho hpd hMr p htol hb (Or.inl hrun)
  have hClen := hClen hrun
  obtain ⟨hBlen, hB⟩ := C38_B_cg h hs ho hpd hMr p htol hb hrun hL rfl
  have hH := defl_cgHyp h hpd (a.Ml (a.b - a.A (p.x0.getD 0)))
  have hi := h.ls.inner
  have hp := h.ls.prec
  have hMsa : ∀ x y, a.ip (a.M x) y = a.ip x (a.M y) := by
    intro x y
    have := hp.conj_symm y x
    rw [hi.conj_symm] at this
    exact this
  have hMinj : ∀ x y, a.M x = a.M y → x = y := by
    intro x y hxy
    rw [← sub_eq_zero]
    by_contra hne
    have := hp.pos _ hne
    rw [map_sub, hxy, sub_self, hi.zero_right] at this
    simp at this
  rw [← hL] at hClen hC
  have hn : L.n = st.s.1.k := by rw [hL]; exact hiter
  have hLV : L.V = st.s.1.V := by rw [hL]; rfl
  have hLH : L.H = st.s.1.H := by rw [hL]; rfl
  change CgInv _ _ _ _ _ _ st.s.1 at inv
  change CgLan _ st.s.1 at lan
  change st.resnorms.length = st.s.1.k + 1 at hlen
  -- the last residual
  have hk : st.s.1.rho st.s.1.k = 0 ↔ st.resnorms.getLast? = some 0 := by
    have e := hresn st.s.1.k (by change _ < st.resnorms.length; omega)
    have e2 := inv.res _ le_rfl
    have hlast : st.resnorms.getLast? = some (st.resnorms[st.s.1.k]'(by omega)) := by
      rw [List.getLast?_eq_getElem?, show st.resnorms.length - 1 = st.s.1.k by omega, List.getElem?_eq_getElem (by omega)]
    have e3 : st.resnorms[st.s.1.k]'(by omega) * resid a 0 = nrm (gform a.ip a.M) (st.s.1.rs st.s.1.k) := by
      rw [e2]; exact e
    rw [hlast, Option.some.injEq, inv.rho _ le_rfl]
    refine Iff.trans ?_ (mul_eq_zero_iff_right (resid_pos h.ls hb).ne')
    rw [e3]
    exact hH.prec.nsq_eq_zero.trans hH.prec.nrm_eq_zero.symm
  have hnle : n_ ≤ st.s.1.k + 1 := by rcases hn_ with h1 | h1 <;> omega
  have hnge : st.s.1.k ≤ n_ := by rcases hn_ with h1 | h1 <;> omega
  have hrp : ∀ j < n_, 0 < st.s.1.rho j := fun j hj => by
    refine lt_of_le_of_ne ?_ (Ne.symm ?_)
    · rw [inv.rho j (by omega)]; exact hH.prec.nsq_nonneg _
    · rcases Nat.lt_or_ge j st.s.1.k with h1 | h1
      · exact inv.rho_ne j h1
      · obtain rfl : j = st.s.1.k := by omega
        rcases hn_ with h2 | h2
        · exact fun h0 => h2.2 (hk.mp h0)
        · omega
  obtain ⟨P, hPdef⟩ : ∃ P : ℕ → E, P = fun j => (((-1 : ℝ) ^ j / Real.sqrt (st.s.1.rho j) : ℝ) : 𝕜) • st.s.1.rs j := ⟨_, rfl⟩
  have hPV : ∀ j < n_, st.s.1.V j = some (a.M (P j)) := fun j hj => by
    rw [lan.V j (by omega) (hrp j hj).ne', hPdef]
    simp
  have hPorth : ∀ i < n_, ∀ j < n_, a.ip (P i) (a.M (P j)) = if i = j then 1 else 0 := by
    intro i hi' j hj
    rw [hPdef]
    simp only [map_smul, hi.smul_left, hi.smul_right, RCLike.conj_ofReal]
    split_ifs with hij
    · subst hij
      have hr := hrp i hi'
      have e : a.ip (st.s.1.rs i) (a.M (st.s.1.rs i)) = ((st.s.1.rho i : ℝ) : 𝕜) := by
        rw [inv.rho i (by omega)]
        exact hp.self_real _
      rw [e, ← RCLike.ofReal_mul, ← RCLike.ofReal_mul]
      have q := (Real.sqrt_pos.mpr hr).ne'
      have q2 := Real.mul_self_sqrt hr.le
      have sg : (-1 : ℝ) ^ i * (-1) ^ i = 1 := by rw [← mul_pow]; simp
      have : (-1 : ℝ) ^ i / Real.sqrt (st.s.1.rho i) * ((-1) ^ i / Real.sqrt (st.s.1.rho i) * st.s.1.rho i) = 1 := by
        rw [show (-1 : ℝ) ^ i / Real.sqrt (st.s.1.rho i) * ((-1) ^ i / Real.sqrt (st.s.1.rho i) * st.s.1.rho i) =
          ((-1 : ℝ) ^ i * (-1) ^ i) * st.s.1.rho i / (Real.sqrt (st.s.1.rho i) * Real.sqrt (st.s.1.rho i)) by field_simp,
          sg, q2, one_mul, div_self hr.ne']
      rw [this]; simp
    · have : a.ip (st.s.1.rs i) (a.M (st.s.1.rs j)) = 0 := inv.orth i (by omega) j (by omega) hij
      rw [this]; simp
  have hUP : ∀ j < n_, ∀ i, a.ip (o.U i) (P j) = 0 := by
    intro j hj i
    have h1 : P j ∈ perp h.ls.inner U := by
      rw [hPdef]; exact Submodule.smul_mem _ _ (inv.mem j (by omega))
    have h2 : o.U i ∈ Submodule.span 𝕜 (Set.range U) := by
      rw [← hspan]; exact Submodule.subset_span ⟨i, rfl⟩
    obtain ⟨c, hc⟩ := mem_span_lincomb.mp h2
    rw [hc]
    exact perp_lincomb h.ls.inner h1 c
  have hrel : ∀ j < st.s.1.k, complLin h.ls.inner a.B U (a.B (a.M (P j))) =
      ∑ i ∈ Finset.range n_, (st.s.1.H i j : 𝕜) • P i := by
    intro j hj
    obtain ⟨v, h1, h2, h3, -, -⟩ := lan.lanczos hH inv st.s.1.k le_rfl
    have hv : ∀ i < n_, v i = a.M (P i) := by
      intro i hi'
      have hV := hPV i hi'
      rcases Nat.lt_or_ge i st.s.1.k with h5 | h5
      · rw [h1 i h5] at hV; exact Option.some.inj hV
      · obtain rfl : i = st.s.1.k := by omega
        rcases h2 with h2 | ⟨-, -, h2, -, -⟩
        · rw [h2] at hV; exact Option.some.inj hV
        · rw [h2] at hV; cases hV
    have h4 := h3 j hj
    have h6 : ∑ i ∈ Finset.range (st.s.1.k + 1), (st.s.1.H i j : 𝕜) • v i =
        ∑ i ∈ Finset.range n_, (st.s.1.H i j : 𝕜) • v i := by
      rcases hn_ with h7 | h7
      · rw [h7.1, hn]
      · have hz := lan.Vnan (hk.mpr h7.2)
        rw [if_neg (by omega)] at hz
        have hvk : v st.s.1.k = 0 := by
          rcases h2 with h2 | ⟨-, -, -, h2, -⟩
          · rw [h2] at hz; cases hz
          · exact h2
        rw [Finset.sum_range_succ, hvk, smul_zero, add_zero, h7.1, hn]
    apply hMinj
    rw [← hv j (by omega)]
    refine (h4.trans h6).trans ?_
    rw [map_sum]
    refine Finset.sum_congr rfl fun i hi' => ?_
    rw [map_smul, hv i (Finset.mem_range.mp hi')]
  have hgW : ∀ i x, a.ip (W i) (a.M x) = a.ip (o.U i) x := fun i x => by rw [hW, hMsa]
  -- C and B_
  let C' : List (Fin m → 𝕜) := (List.range L.n).map fun j => coefs a.ip o.U (a.B (a.M (P j)))
  let B' : List (Fin m → 𝕜) := (List.range n_).map fun i j => a.ip (a.M (P i)) (a.B (o.U j))
  have hC' : st.s.2.map (·.2) = C'.map some := by
    apply List.ext_getElem
    · simp [C', hClen]
    · intro j hj hj'
      have hj2 : j < st.s.2.length := by simpa using hj
      obtain ⟨v, hv, hc⟩ := hC j hj2
      rw [hLV, hPV j (by omega)] at hv
      simp only [List.getElem_map, C', List.getElem_range]
      rw [hc, ← Option.some.inj hv]
      rfl
  have hB' : (o.cgB_ s L.n L.V (st.s.2.map (·.2))).take n_ = B'.map some := by
    apply List.ext_getElem
    · rw [List.length_take, hBlen]; simp [B']; omega
    · intro i hi' hj'
      have hi2 : i < n_ := by simpa [B'] using hj'
      rw [List.getElem_take, hB i _, hLV, hPV i hi2]
      simp only [List.getElem_map, B', List.getElem_range, Option.map_some]
      rfl
  refine ⟨P, C', B', fun i hi' => by rw [hLV]; exact hPV i hi', hC', hB', ?_⟩
  refine ⟨hp, by omega, fun i hi' j hj => hPorth i hi' j hj, fun i j => ?_, fun i j hj => ?_,
    by simp [C'], by simp [B'], fun i j => ?_, fun j hj i => ?_, fun i hi' j => ?_, fun i j => ?_, ?_, fun j hj => ?_⟩
  · rw [hgW]; exact hWo i j
  · rw [hgW]; exact hUP j hj i
  · rw [hEm, hgW, hW j]; rfl
  · simp [C', List.getD_eq_getElem?_getD, hj, hgW, coefs]; rfl
  · simp only [B', List.getD_eq_getElem?_getD]
    rw [List.getElem?_eq_getElem (by simpa using hi')]
    simp only [List.getElem_map, List.getElem_range, Option.getD_some]
    rw [hMsa, hW j]
    rfl
  · simp only [gram, Matrix.of_apply, ok.ip, ok.M]
    rw [hob.AU, hob.AU, hW, hW]
    rfl
  · obtain ⟨R, hR, hU⟩ := hob.basis
    have hBU : ∀ j, a.B (U j) = lincomb (fun j => a.B (o.U j)) fun i => R i j := by
      intro j; rw [hU, map_lincomb]
    have := (coords_transform h.ls.inner hBU hU h.nonsing).2.2.1
    rw [hob.E, show o.AU = fun j => a.B (o.U j) from funext hob.AU]
    exact this
  · have h1 := compl_stored h hs ho (a.M (P j))
    rw [hrel j (by omega)] at h1
    simp only [hW] at h1
    have hg : C'.getD j 0 = coefs a.ip o.U (a.B (a.M (P j))) := by
      simp [C', List.getD_eq_getElem?_getD, hj]
    rw [hg, hLH]
    have e : (fun l => (a.Ml ∘ₗ a.A ∘ₗ a.Mr ∘ₗ a.M) (W l)) = fun l => a.B (o.U l) := by
      funext l; rw [hW]; rfl
    rw [e]
    simp only [← hW] at h1
    exact h1

/-- C40 for deflated CG: if the run returns and the last residual norm is not exactly zero, `Ritz` works on the attributes `C'`, `B'`
(without NaN), which satisfy the hypotheses of `C40_ritz` etc. for the Lanczos vectors `V = M P`. -/
theorem C40_cg (hpd : SpdHyp a) (hMr : ∀ j, a.Mr (U j) = U j)
    {W : Fin m → E} (hW : ∀ j, o.U j = a.M (W j)) (hWo : ∀ i j, a.ip (o.U i) (W j) = if i = j then 1 else 0)
    (p : SolverArgs E) (htol : 0 ≤ p.tol)
    (hb : a.Ml a.b ≠ 0) {st : St ℝ E (CgSt 𝕜 E × List ((Fin m → 𝕜) × Option (Fin m → 𝕜)))}
    (hrun : deflatedCg s o true p = .returned st) (hlast : st.resnorms.getLast? ≠ some 0)
    {L : CgLanczos E} (hL : L = cgLanczos (st.setS st.s.1)) :
    ∃ (P : ℕ → E) (C' B' : List (Fin m → 𝕜)), (∀ i ≤ L.n, L.V i = some (a.M (P i))) ∧
      (∀ (rt : EigRoutines 𝕜 (Fin L.n ⊕ Fin m)) (mode : RitzMode), o.cgRitz s rt L.H L.V (st.s.2.map (·.2)) mode =
        deflRitz rt (fun i j => (L.H i j : 𝕜)) (L.n + 1) o.Emat C' B' (gram s.ip o.AU fun j => s.M (o.AU j))
          s.selfAdjoint mode) ∧
      DeflRitzRel (fun x y => a.ip x (a.M y)) (a.Ml ∘ₗ a.A ∘ₗ a.Mr ∘ₗ a.M) P W (fun i j => (L.H i j : 𝕜))
        (L.n + 1) L.n o.Emat (gram s.ip o.AU fun j => s.M (o.AU j)) C' B' := by
  obtain ⟨P, C', B', h1, h2, h3, h4⟩ := cg_ritz_core h hs ho hpd hMr hW hWo p htol hb hrun hL (Or.inl ⟨rfl, hlast⟩)
  have hBlen := (C38_B_cg h hs ho hpd hMr p htol hb hrun hL rfl).1
  rw [List.take_of_length_le hBlen.le] at h3
  refine ⟨P, C', B', fun i hi => h1 i (by omega), fun rt mode => ?_, h4⟩
  unfold Obl.cgRitz
  rw [h3, h2, finRows_some, finRows_some]

/-- C40 for deflated CG, whatever the last residual norm is: the values and coefficients of `Ritz` in the mode `ritz` are those of
data which satisfy the hypotheses of `C40_ritz` (without the last Lanczos vector, if the residual vanishes). -/
theorem C40_cg_values (hpd : SpdHyp a) (hMr : ∀ j, a.Mr (U j) = U j)
    {W : Fin m → E} (hW : ∀ j, o.U j = a.M (W j)) (hWo : ∀ i j, a.ip (o.U i) (W j) = if i = j then 1 else 0)
    (p : SolverArgs E) (htol : 0 ≤ p.tol)
    (hb : a.Ml a.b ≠ 0) {st : St ℝ E (CgSt 𝕜 E × List ((Fin m → 𝕜) × Option (Fin m → 𝕜)))}
    (hrun : deflatedCg s o true p = .returned st)
    {L : CgLanczos E} (hL : L = cgLanczos (st.setS st.s.1)) :
    ∃ (n_ : ℕ) (P : ℕ → E) (C' B' : List (Fin m → 𝕜)), (∀ i < L.n, L.V i = some (a.M (P i))) ∧
      (∀ rt : EigRoutines 𝕜 (Fin L.n ⊕ Fin m), (o.cgRitz s rt L.H L.V (st.s.2.map (·.2)) .ritz).map
          (fun out => (out.values, out.coeffs)) =
        (deflRitz rt (fun i j => (L.H i j : 𝕜)) n_ o.Emat C' B' (gram s.ip o.AU fun j => s.M (o.AU j))
          s.selfAdjoint .ritz).map (fun out => (out.values, out.coeffs))) ∧
      DeflRitzRel (fun x y => a.ip x (a.M y)) (a.Ml ∘ₗ a.A ∘ₗ a.Mr ∘ₗ a.M) P W (fun i j => (L.H i j : 𝕜))
        n_ L.n o.Emat (gram s.ip o.AU fun j => s.M (o.AU j)) C' B' := by
  by_cases hlast : st.resnorms.getLast? = some 0
  · obtain ⟨P, C', B', h1, h2, h3, h4⟩ := cg_ritz_core h hs ho hpd hMr hW hWo p htol hb hrun hL (Or.inr ⟨rfl, hlast⟩)
    refine ⟨L.n, P, C', B', h1, fun rt => ?_, h4⟩
    have hBlen := (C38_B_cg h hs ho hpd hMr p htol hb hrun hL rfl).1
    have hfin : finRows ((o.cgB_ s L.n L.V (st.s.2.map (·.2))).take L.n) = some B' := by rw [h3, finRows_some]
    have hrow : ∀ i < L.n, (B' ++ [0]).getD i 0 = B'.getD i 0 := by
      intro i hi
      simp only [List.getD_eq_getElem?_getD]
      rw [List.getElem?_append_left (by rw [h4.lenB]; exact hi)]
    unfold Obl.cgRitz
    generalize o.cgB_ s L.n L.V (st.s.2.map (·.2)) = Bl at hBlen hfin h3
    rw [h2, finRows_some]
    dsimp only
    cases hB : finRows Bl with
    | some B2 =>
      dsimp only
      refine deflRitz_rows rt _ _ _ _ _ _ _ ?_ h4.lenB h4.lenC fun i hi => ?_
      · rw [length_of_finRows hB, hBlen]
      · have e : Bl = B2.map some ∨ m = 0 := by
          unfold finRows at hB
          split at hB
          · exact Or.inr ‹_›
          · exact Or.inl (eq_map_of_mapM hB)
        rcases e with e | e
        · rw [e, ← List.map_take] at h3
          have h5 : B2.take L.n = B' := (List.map_injective_iff.mpr (Option.some_injective _)) h3
          rw [← h5]
          simp only [List.getD_eq_getElem?_getD, List.getElem?_take, hi, if_true]
        · subst e
          funext j
          exact j.elim0
    | none =>
      dsimp only
      rw [hfin]
      dsimp only
      rw [← deflRitz_rows rt (fun i j => (L.H i j : 𝕜)) (n_ := L.n + 1) o.Emat (gram s.ip o.AU fun j => s.M (o.AU j)) C' (B' ++ [0])
        B' s.selfAdjoint (by simp [h4.lenB]) h4.lenB h4.lenC hrow]
      cases deflRitz rt (fun i j => (L.H i j : 𝕜)) (L.n + 1) o.Emat C' (B' ++ [0]) (gram s.ip o.AU fun j => s.M (o.AU j))
        s.selfAdjoint .ritz <;> rfl
  · obtain ⟨P, C', B', h1, h2, h3⟩ := C40_cg h hs ho hpd hMr hW hWo p htol hb hrun hlast hL
    exact ⟨L.n + 1, P, C', B', fun i hi => h1 i (by omega), fun rt => by rw [h2], h3⟩

/-- Finding (C33, C40): if deflated CG (with at least one deflation vector) ends after at least one iteration with a residual that is
exactly zero, the last Lanczos vector is NaN, and so is the last row of `B_`: all residual norms of `Ritz` are NaN in the mode `ritz`,
and in the mode `harmonic` it raises `ValueError`. -/
theorem C40_cg_nan (hpd : SpdHyp a) (hMr : ∀ j, a.Mr (U j) = U j)
    {W : Fin m → E} (hW : ∀ j, o.U j = a.M (W j)) (hWo : ∀ i j, a.ip (o.U i) (W j) = if i = j then 1 else 0)
    (p : SolverArgs E) (htol : 0 ≤ p.tol) (hm : 0 < m)
    (hb : a.Ml a.b ≠ 0) {st : St ℝ E (CgSt 𝕜 E × List ((Fin m → 𝕜) × Option (Fin m → 𝕜)))}
    (hrun : deflatedCg s o true p = .returned st) (hlast : st.resnorms.getLast? = some 0) (hlen1 : 1 < st.resnorms.length)
    {L : CgLanczos E} (hL : L = cgLanczos (st.setS st.s.1)) (rt : EigRoutines 𝕜 (Fin L.n ⊕ Fin m)) :
    L.V L.n = none ∧ o.cgRitz s rt L.H L.V (st.s.2.map (·.2)) .harmonic = .error .valueError ∧
    (∀ out, o.cgRitz s rt L.H L.V (st.s.2.map (·.2)) .ritz = .ok out → ∀ i, out.resnorms i = none) ∧
    ((∃ e, ∀ M, rt.eigh M = .ok e ∧ rt.eig M = .ok e) → ∃ out, o.cgRitz s rt L.H L.V (st.s.2.map (·.2)) .ritz = .ok out) := by
  obtain ⟨hl, -, -, hret, -⟩ := deflCg_loop h hs ho hpd hMr true p htol hb (Or.inl hrun)
  have hiter := hret hrun
  have inv := hl.inv
  have lan := hl.lan rfl
  have hlen := hl.len
  have hresn := hl.resn
  have hH := defl_cgHyp h hpd (a.Ml (a.b - a.A (p.x0.getD 0)))
  have hn : L.n = st.s.1.k := by rw [hL]; exact hiter
  have hLV : L.V = st.s.1.V := by rw [hL]; rfl
  change CgInv _ _ _ _ _ _ st.s.1 at inv
  change CgLan _ st.s.1 at lan
  change st.resnorms.length = st.s.1.k + 1 at hlen
  have hk : st.s.1.rho st.s.1.k = 0 := by
    have e := hresn st.s.1.k (by change _ < st.resnorms.length; omega)
    have e2 := inv.res _ le_rfl
    have hl' : st.resnorms.getLast? = some (st.resnorms[st.s.1.k]'(by omega)) := by
      rw [List.getLast?_eq_getElem?, show st.resnorms.length - 1 = st.s.1.k by omega, List.getElem?_eq_getElem (by omega)]
    have e3 : st.resnorms[st.s.1.k]'(by omega) * resid a 0 = nrm (gform a.ip a.M) (st.s.1.rs st.s.1.k) := by
      rw [e2]; exact e
    rw [hlast, Option.some.injEq] at hl'
    rw [← hl', zero_mul] at e3
    rw [inv.rho _ le_rfl]
    exact hH.prec.nsq_eq_zero.mpr (hH.prec.nrm_eq_zero.mp e3.symm)
  have hVn : L.V L.n = none := by
    rw [hLV, hn, lan.Vnan hk, if_neg (by omega)]
  obtain ⟨P, C', B', h1, h2, h3, h4⟩ := cg_ritz_core h hs ho hpd hMr hW hWo p htol hb hrun hL (Or.inr ⟨rfl, hlast⟩)
  obtain ⟨hBlen, hB⟩ := C38_B_cg h hs ho hpd hMr p htol hb hrun hL rfl
  have hnone : finRows (o.cgB_ s L.n L.V (st.s.2.map (·.2))) = none := by
    have hlt : L.n < (o.cgB_ s L.n L.V (st.s.2.map (·.2))).length := by omega
    have hx := hB L.n hlt
    rw [hVn, Option.map_none] at hx
    cases hf : finRows (o.cgB_ s L.n L.V (st.s.2.map (·.2))) with
    | none => rfl
    | some B2 =>
      exfalso
      unfold finRows at hf
      rw [if_neg (by omega)] at hf
      have e := eq_map_of_mapM hf
      have := congrArg (fun l => l[L.n]?) e
      simp only [List.getElem?_map, List.getElem?_eq_getElem hlt, hx] at this
      cases hb2 : B2[L.n]? <;> simp [hb2] at this
  have hfin : finRows ((o.cgB_ s L.n L.V (st.s.2.map (·.2))).take L.n) = some B' := by rw [h3, finRows_some]
  have hdet : o.Emat.det ≠ 0 := h4.det
  have hsol : ∀ Cm : Matrix (Fin m) (Fin L.n) 𝕜, solveE o.Emat Cm = .ok (o.Emat⁻¹ * Cm) := fun Cm => by
    unfold solveE; rw [if_neg (by omega), if_neg hdet]
  refine ⟨hVn, ?_, ?_, ?_⟩
  · unfold Obl.cgRitz
    generalize o.cgB_ s L.n L.V (st.s.2.map (·.2)) = Bl at hnone hfin
    rw [h2, finRows_some, hnone, hfin]
    dsimp only
    rw [hsol]
  · intro out hout i
    unfold Obl.cgRitz at hout
    generalize o.cgB_ s L.n L.V (st.s.2.map (·.2)) = Bl at hnone hfin hout
    rw [h2, finRows_some, hnone, hfin] at hout
    dsimp only at hout
    split at hout
    · cases hout
    · simp only [Except.ok.injEq] at hout
      rw [← hout]
  · rintro ⟨e, he⟩
    unfold Obl.cgRitz
    generalize o.cgB_ s L.n L.V (st.s.2.map (·.2)) = Bl at hnone hfin
    rw [h2, finRows_some, hnone, hfin]
    dsimp only
    have : ∃ out, deflRitz rt (fun i j => (L.H i j : 𝕜)) (L.n + 1) o.Emat C' (B' ++ [0])
        (gram s.ip o.AU fun j => s.M (o.AU j)) s.selfAdjoint .ritz = .ok out := by
      unfold deflRitz
      rw [if_neg (by omega), if_neg (by simp [h4.lenB, h4.lenC])]
      rw [hsol]
      dsimp only
      cases s.selfAdjoint
      · simp [(he _).2]
      · simp [(he _).1]
    obtain ⟨out, hout⟩ := this
    rw [hout]
    exact ⟨_, rfl⟩

end

/-- Non-vacuity of `C40_cg_nan` (and of `C40_cg`, `C40_cg_values` with at least one iteration): deflated CG for `A = diag(1, 2)`,
`b = (1, 1)` with the deflation vector `(1, 1)` and `tol = 0` reaches the residual zero after one iteration. -/
theorem exSpd_deflCg : ∃ s o st, mkLS exSpd = .ok s ∧ mkObl s (exObl exSpd.ip) (fun _ => ((1 : ℝ), (1 : ℝ))) = .ok o ∧
    (∀ i j, exSpd.ip (o.U i) (o.U j) = if i = j then 1 else 0) ∧
    deflatedCg s o true ⟨none, 0, 1, false, none⟩ = .returned st ∧ st.resnorms.getLast? = some 0 ∧ 1 < st.resnorms.length := by
  obtain ⟨s, o, -, hs, ho, -, hU, -⟩ := exSpd_deflGmres
  have hd := exSpd_defl
  have hb : exSpd.Ml exSpd.b ≠ 0 := by simp [exSpd]
  have hfin : Module.finrank ℝ (ℝ × ℝ) ≤ 1 + 1 := by simp
  have hMr : ∀ j : Fin 1, exSpd.Mr ((fun _ => ((1 : ℝ), (1 : ℝ)) : Fin 1 → ℝ × ℝ) j) = (1, 1) := fun _ => rfl
  obtain ⟨st, h1, r, hr, hr0⟩ := C37_cg_terminates hd hs ho exSpd_hyp hMr true ⟨none, 0, 1, false, none⟩ le_rfl hb hfin
  obtain ⟨hl, -⟩ := deflCg_loop hd hs ho exSpd_hyp hMr true ⟨none, 0, 1, false, none⟩ le_rfl hb (Or.inl h1)
  have hlen := hl.len
  have hresn := hl.resn
  have inv := hl.inv
  change CgInv _ _ _ _ _ _ st.s.1 at inv
  change st.resnorms.length = st.s.1.k + 1 at hlen
  have hpos := resid_pos hd.ls hb
  change r ≤ 0 at hr0
  have hr' : r = 0 := by
    rw [List.getLast?_eq_getElem?, List.getElem?_eq_getElem (by omega), Option.some.injEq] at hr
    have e := hresn _ (show st.resnorms.length - 1 < st.resnorms.length by omega)
    change st.resnorms[st.resnorms.length - 1]'(by omega) * _ = _ at e
    rw [hr] at e
    have : 0 ≤ r * resid exSpd 0 := by rw [e]; exact nrm_nonneg _ _
    exact le_antisymm hr0 (nonneg_of_mul_nonneg_left this hpos)
  subst hr'
  refine ⟨s, o, st, hs, ho, hU, h1, hr, ?_⟩
  by_contra hcon
  have hk : st.s.1.k = 0 := by omega
  rw [List.getLast?_eq_getElem?, show st.resnorms.length - 1 = 0 by omega, List.getElem?_eq_getElem (by omega),
    Option.some.injEq] at hr
  have e := hresn 0 (by change 0 < st.resnorms.length; omega)
  change st.resnorms[0]'(by omega) * _ = _ at e
  have e1 : (st.setS st.s.1).s.ys 0 = 0 := inv.ys0
  rw [hr, zero_mul, e1, map_zero, sub_zero] at e
  have e0 := hd.ls.prec.nrm_eq_zero.mp e.symm
  obtain ⟨c, hc⟩ := complLin_diff hd.ls.inner (B := exSpd.B) (U := fun _ : Fin 1 => ((1 : ℝ), (1 : ℝ)))
    (exSpd.Ml (exSpd.b - exSpd.A ((⟨none, 0, 1, false, none⟩ : SolverArgs (ℝ × ℝ)).x0.getD 0)))
  rw [e0] at hc
  simp [exSpd, LSArgs.B, lincomb, Prod.ext_iff] at hc
  linarith [hc.1, hc.2]

example : ∃ (s : LS ℝ (ℝ × ℝ)) (o : Obl ℝ (ℝ × ℝ) 1) (L : CgLanczos (ℝ × ℝ)) (C : List (Option (Fin 1 → ℝ))),
    mkLS exSpd = .ok s ∧ mkObl s (exObl exSpd.ip) (fun _ => ((1 : ℝ), (1 : ℝ))) = .ok o ∧ L.V L.n = none ∧
    ∀ rt : EigRoutines ℝ (Fin L.n ⊕ Fin 1), o.cgRitz s rt L.H L.V C .harmonic = .error .valueError := by
  obtain ⟨s, o, st, hs, ho, hU, hrun, hlast, hlen⟩ := exSpd_deflCg
  have h := fun rt => C40_cg_nan exSpd_defl hs ho exSpd_hyp (fun _ => rfl) (W := o.U) (fun _ => rfl) hU
    ⟨none, 0, 1, false, none⟩ le_rfl one_pos (by simp [exSpd]) hrun hlast hlen rfl rt
  exact ⟨s, o, _, _, hs, ho, (h ⟨fun _ => .error .linAlgError, fun _ => .error .linAlgError, fun _ _ => .error .linAlgError,
    fun _ _ => .error .linAlgError⟩).1, fun rt => (h rt).2.1⟩

end Krypy
