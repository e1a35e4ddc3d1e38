import Verif.Proofs.Cg

/-! # Whole runs of CG -/

set_option linter.unusedSectionVars false
set_option linter.unnecessarySeqFocus false

namespace Krypy
variable {𝕜 E : Type*} [RCLike 𝕜] [AddCommGroup E] [Module 𝕜 E]
open scoped ComplexConjugate
open Finset

section
variable {ip : E → E → 𝕜} {M B Mr : E →ₗ[𝕜] E} {Q : Submodule 𝕜 E} {r0 x0 : E} {s s' : CgSt 𝕜 E} {store : Bool}

/-- What is stored in `V`, `P` and `H`. -/
structure CgLan (M : E →ₗ[𝕜] E) (s : CgSt 𝕜 E) : Prop where
  V : ∀ j ≤ s.k, s.rho j ≠ 0 →
    s.V j = some ((((-1 : ℝ) ^ j / Real.sqrt (s.rho j) : ℝ) : 𝕜) • M (s.rs j))
  P : ∀ j ≤ s.k, s.rho j ≠ 0 → s.P j = some ((((-1 : ℝ) ^ j / Real.sqrt (s.rho j) : ℝ) : 𝕜) • s.rs j)
  Vnan : s.rho s.k = 0 → s.V s.k = if s.k = 0 then some 0 else none
  sub : ∀ j < s.k, s.H (j + 1) j = Real.sqrt (s.rho (j + 1) / s.rho j) / s.al j
  diag0 : 0 < s.k → s.H 0 0 = 1 / s.al 0
  diag : ∀ j, j + 1 < s.k → s.H (j + 1) (j + 1) = 1 / s.al (j + 1) + s.rho (j + 1) / s.rho j / s.al j
  sup : ∀ j, j + 1 < s.k → s.H j (j + 1) = s.H (j + 1) j
  off : ∀ i j, (j + 1 < i ∨ i + 1 < j) → s.H i j = 0
  rest : ∀ i j, s.k ≤ j → s.H i j = 0

theorem cgInit_lan :
    CgLan M (cgInit (𝕜 := 𝕜) (M r0) r0 (nrm (gform ip M) r0) x0) := by
  have hn := nrm_nonneg (gform ip M) r0
  refine ⟨fun j hj hr => ?_, fun j hj hr => ?_, fun hr => ?_, fun j hj => ?_, fun hj => ?_, fun j hj => ?_,
    fun j hj => ?_, fun i j _ => rfl, fun i j _ => rfl⟩
  all_goals simp only [cgInit] at *
  all_goals try omega
  · simp only [Nat.le_zero.mp hj, if_true, true_and] at hr ⊢
    have hr' : nrm (gform ip M) r0 ≠ 0 := by intro h0; rw [h0] at hr; simp at hr
    rw [if_pos (lt_of_le_of_ne hn hr'.symm), pow_zero, Real.sqrt_sq hn]
  · simp only [Nat.le_zero.mp hj, if_true, true_and] at hr ⊢
    have hr' : nrm (gform ip M) r0 ≠ 0 := by intro h0; rw [h0] at hr; simp at hr
    rw [if_pos (lt_of_le_of_ne hn hr'.symm), pow_zero, Real.sqrt_sq hn]
  · simp only [if_true] at hr
    have hr' : nrm (gform ip M) r0 = 0 := by simpa using hr
    simp [hr']

theorem cgH_apply (s : CgSt 𝕜 E) (alpha rhoNew : ℝ) (i j : ℕ) :
    cgH s alpha rhoNew i j =
      if i = s.k + 1 ∧ j = s.k then Real.sqrt (rhoNew / s.rho s.k) / alpha
      else if i = s.k ∧ j = s.k then
        (if 0 < s.k then (1 + alpha * (s.rho s.k / s.rho (s.k - 1)) / s.al (s.k - 1)) / alpha else 1 / alpha)
      else if 0 < s.k ∧ i = s.k - 1 ∧ j = s.k then s.H s.k (s.k - 1)
      else s.H i j := by
  have hu : ∀ (f : ℕ → ℕ → ℝ) (a b : ℕ) (c : ℝ), Function.update f a (Function.update (f a) b c) i j =
      if i = a ∧ j = b then c else f i j := by
    intro f a b c
    by_cases h1 : i = a
    · subst h1
      by_cases h2 : j = b
      · subst h2; simp
      · simp [h2]
    · simp [h1]
  unfold cgH
  by_cases hk : 0 < s.k
  · simp only [hk, if_true, true_and]
    rw [hu, hu, hu]
  · simp only [hk, if_false, false_and]
    rw [hu, hu]

theorem cgStep_lan (h : CgHyp ip M B Q r0) (inv : CgInv ip M B Q r0 x0 s) (lan : CgLan M s)
    (hr : s.rho s.k ≠ 0) {nr : ℝ} (hs : cgStep ip M B true s = .ok (s', nr)) : CgLan M s' := by
  obtain ⟨s1, nr1, hs1, inv', hk, hnr, hold, hold2, hV, hP, hH⟩ := cgStep_spec (store := true) h inv hr
  rw [hs] at hs1
  simp only [Except.ok.injEq, Prod.mk.injEq] at hs1
  obtain ⟨rfl, rfl⟩ := hs1
  simp only [if_true] at hV hP hH
  have hnn := nrm_nonneg (gform ip M) (s'.rs s'.k)
  have hrho : s'.rho s'.k = nr ^ 2 := by
    rw [inv'.rho _ le_rfl, hnr]; exact (h.prec.nrm_sq _).symm
  rw [← hnr] at hnn
  have hsq : Real.sqrt (s'.rho s'.k) = nr := by rw [hrho, Real.sqrt_sq hnn]
  have halk := (inv'.al_pos h (j := s.k) (by omega)).ne'
  have hcol : ∀ x : E, s'.rho s'.k ≠ 0 →
      cgCol (𝕜 := 𝕜) s.k x nr = some ((((-1 : ℝ) ^ s'.k / Real.sqrt (s'.rho s'.k) : ℝ) : 𝕜) • x) := by
    intro x hne
    unfold cgCol
    rw [if_neg, hsq, hk]
    rintro rfl
    rw [hrho] at hne
    simp at hne
  refine ⟨fun j hj hne => ?_, fun j hj hne => ?_, fun h0 => ?_, fun j hj => ?_, fun _ => ?_, fun j hj => ?_,
    fun j hj => ?_, fun i j hij => ?_, fun i j hij => ?_⟩
  · rw [hV]
    rcases Nat.lt_or_ge j (s.k + 1) with h1 | h1
    · obtain ⟨e1, -, e3⟩ := hold j (by omega)
      rw [upd_lt _ _ _ _ h1, e1, e3]
      exact lan.V j (by omega) (by rwa [e3] at hne)
    · obtain rfl : j = s'.k := by omega
      rw [← hk, Function.update_self]
      exact hcol _ hne
  · rw [hP]
    rcases Nat.lt_or_ge j (s.k + 1) with h1 | h1
    · obtain ⟨e1, -, e3⟩ := hold j (by omega)
      rw [upd_lt _ _ _ _ h1, e1, e3]
      exact lan.P j (by omega) (by rwa [e3] at hne)
    · obtain rfl : j = s'.k := by omega
      rw [← hk, Function.update_self]
      exact hcol _ hne
  · have : nr = 0 := by
      rw [hrho] at h0; simpa using h0
    rw [hV, hk, Function.update_self, if_neg (by omega), cgCol, if_pos this]
  · rw [hH, cgH_apply]
    rcases Nat.lt_or_ge j s.k with h1 | h1
    · rw [if_neg (by omega), if_neg (by omega), if_neg (by omega), lan.sub j h1, (hold j h1.le).2.2,
        (hold (j + 1) (by omega)).2.2, (hold2 j h1).2]
    · obtain rfl : j = s.k := by omega
      rw [if_pos ⟨rfl, rfl⟩, ← hrho, hk, (hold s.k le_rfl).2.2]
  · rw [hH, cgH_apply]
    by_cases h0 : s.k = 0
    · rw [if_neg (by omega), if_pos (by omega), if_neg (by omega), h0]
    · rw [if_neg (by omega), if_neg (by omega), if_neg (by omega), lan.diag0 (by omega), (hold2 0 (by omega)).2]
  · rw [hH, cgH_apply]
    rcases Nat.lt_or_ge (j + 1) s.k with h1 | h1
    · rw [if_neg (by omega), if_neg (by omega), if_neg (by omega), lan.diag j h1, (hold j (by omega)).2.2,
        (hold (j + 1) (by omega)).2.2, (hold2 j (by omega)).2, (hold2 (j + 1) (by omega)).2]
    · have hjk : j + 1 = s.k := by omega
      rw [if_neg (by omega), if_pos (by omega), if_pos (by omega), ← (hold s.k le_rfl).2.2,
        ← (hold (s.k - 1) (by omega)).2.2, ← (hold2 (s.k - 1) (by omega)).2, ← hjk, Nat.add_sub_cancel]
      rw [← hjk] at halk
      field_simp
  · rw [hH, cgH_apply, cgH_apply]
    rcases Nat.lt_or_ge (j + 1) s.k with h1 | h1
    · rw [if_neg (by omega), if_neg (by omega), if_neg (by omega), if_neg (by omega), if_neg (by omega),
        if_neg (by omega)]
      exact lan.sup j h1
    · have hjk : j + 1 = s.k := by omega
      rw [if_neg (by omega), if_neg (by omega), if_pos (by omega), if_neg (by omega), if_neg (by omega),
        if_neg (by omega), ← hjk, Nat.add_sub_cancel]
  · rw [hH, cgH_apply, if_neg (by omega), if_neg (by omega), if_neg (by omega)]
    exact lan.off i j hij
  · rw [hH, cgH_apply, if_neg (by omega), if_neg (by omega), if_neg (by omega)]
    exact lan.rest i j (by omega)

/-- The relation of the Lanczos data. -/
theorem CgLan.lanczos (h : CgHyp ip M B Q r0) (inv : CgInv ip M B Q r0 x0 s) (lan : CgLan M s) (n : ℕ) (hn : n ≤ s.k) :
    ∃ v : ℕ → E, (∀ j < n, s.V j = some (v j)) ∧
      (s.V n = some (v n) ∨ (0 < n ∧ n = s.k ∧ s.V n = none ∧ v n = 0 ∧ s.H n (n - 1) = 0)) ∧
      (∀ j < n, M (B (v j)) = ∑ i ∈ range (n + 1), (s.H i j : 𝕜) • v i) ∧
      (∀ i ≤ n, ∃ w, v i = M w ∧ ∀ j < n, ip w (v j) = if i = j then 1 else 0) ∧
      (s.V n = some (v n) → v n ≠ 0 → ∃ w, v n = M w ∧ ip w (v n) = 1) := by
  set c : ℕ → ℝ := fun j => if s.rho j = 0 then 0 else (-1) ^ j / Real.sqrt (s.rho j) with hc
  have hcne : ∀ j, s.rho j ≠ 0 → c j = (-1) ^ j / Real.sqrt (s.rho j) := fun j hj => by simp [hc, hj]
  have hcz : ∀ j, s.rho j = 0 → c j = 0 := fun j hj => by simp [hc, hj]
  have hnn : ∀ j ≤ s.k, 0 ≤ s.rho j := fun j hj => by rw [inv.rho j hj]; exact h.prec.nsq_nonneg _
  have hz : ∀ j ≤ s.k, s.rho j = 0 → s.rs j = 0 := fun j hj h0 => by
    rw [inv.rho j hj] at h0; exact h.prec.nsq_eq_zero.mp h0
  have hsgn : ∀ j : ℕ, (-1 : ℝ) ^ j * (-1) ^ j = 1 := fun j => by rw [← mul_pow]; simp
  refine ⟨fun j => (c j : 𝕜) • M (s.rs j), fun j hj => ?_, ?_, fun j hj => ?_, fun i hi => ?_, fun _ hne => ?_⟩
  all_goals dsimp only
  · rw [lan.V j (by omega) (inv.rho_ne j (by omega)), hcne j (inv.rho_ne j (by omega))]
  · by_cases h0 : s.rho n = 0
    · have hnk : n = s.k := by
        by_contra hne
        exact inv.rho_ne n (by omega) h0
      have hV := lan.Vnan (by rwa [hnk] at h0)
      by_cases hk0 : s.k = 0
      · left
        rw [hnk, hV, if_pos hk0, hcz _ (by rwa [hnk] at h0)]
        simp
      · right
        rw [if_neg hk0] at hV
        refine ⟨by omega, hnk, by rw [hnk]; exact hV, by rw [hcz _ h0]; simp, ?_⟩
        obtain ⟨m, hm⟩ := Nat.exists_eq_succ_of_ne_zero hk0
        rw [hnk, hm, Nat.succ_eq_add_one, Nat.add_sub_cancel, lan.sub m (by omega), ← Nat.succ_eq_add_one, ← hm,
          ← hnk, h0]
        simp
    · left
      rw [lan.V n hn h0, hcne n h0]
  · -- the recurrence
    have hMBp : ∀ i < s.k, M (B (s.ps i)) = ((s.al i : 𝕜)⁻¹) • (M (s.rs i) - M (s.rs (i + 1))) := by
      intro i hi
      have hne : (s.al i : 𝕜) ≠ 0 := by exact_mod_cast (inv.al_pos h hi).ne'
      rw [← map_sub, ← inv.Bp hi, map_smul, smul_smul, inv_mul_cancel₀ hne, one_smul]
    have hjr := inv.rho_ne j (by omega)
    have hjp : 0 < s.rho j := lt_of_le_of_ne (hnn j (by omega)) hjr.symm
    have hal := inv.al_pos h (j := j) (by omega)
    have hsub : s.H (j + 1) j * c (j + 1) = -(c j / s.al j) ∨ (s.rs (j + 1) = 0 ∧ c (j + 1) = 0) := by
      by_cases h0 : s.rho (j + 1) = 0
      · exact Or.inr ⟨hz _ (by omega) h0, hcz _ h0⟩
      · left
        have hp1 : 0 < s.rho (j + 1) := lt_of_le_of_ne (hnn _ (by omega)) (Ne.symm h0)
        have q1 := (Real.sqrt_pos.mpr hp1).ne'
        have q2 := (Real.sqrt_pos.mpr hjp).ne'
        rw [lan.sub j (by omega), hcne _ h0, hcne _ hjr, Real.sqrt_div hp1.le, pow_succ]
        field_simp
    have hsubterm : (s.H (j + 1) j : 𝕜) • (c (j + 1) : 𝕜) • M (s.rs (j + 1)) =
        ((-(c j / s.al j) : ℝ) : 𝕜) • M (s.rs (j + 1)) := by
      rcases hsub with e | ⟨e, -⟩
      · rw [smul_smul, ← RCLike.ofReal_mul, e]
      · rw [e]; simp
    cases j with
    | zero =>
      have e0 : ∑ i ∈ range (n + 1), (s.H i 0 : 𝕜) • (c i : 𝕜) • M (s.rs i) =
          (s.H 0 0 : 𝕜) • (c 0 : 𝕜) • M (s.rs 0) + (s.H 1 0 : 𝕜) • (c 1 : 𝕜) • M (s.rs 1) := by
        rw [← Finset.sum_subset (s₁ := {0, 1})]
        · rw [Finset.sum_pair (by omega)]
        · intro i hi
          simp at hi ⊢
          omega
        · intro i _ hi
          simp at hi
          rw [lan.off i 0 (by omega)]
          simp
      rw [e0, hsubterm, lan.diag0 (by omega), inv.rs0, map_smul, map_smul, ← inv.ps0 (by omega), hMBp 0 (by omega),
        inv.rs0, smul_smul, smul_smul, smul_sub, sub_eq_add_neg, ← neg_smul, ← inv.ps0 (by omega)]
      have : (s.al 0 : 𝕜) ≠ 0 := by exact_mod_cast hal.ne'
      congr 2
      · push_cast; field_simp
      · push_cast; field_simp
    | succ j =>
      have hrj := inv.rho_ne j (by omega)
      have hrjp : 0 < s.rho j := lt_of_le_of_ne (hnn j (by omega)) hrj.symm
      have halj := inv.al_pos h (j := j) (by omega)
      have e0 : ∑ i ∈ range (n + 1), (s.H i (j + 1) : 𝕜) • (c i : 𝕜) • M (s.rs i) =
          (s.H j (j + 1) : 𝕜) • (c j : 𝕜) • M (s.rs j) +
          ((s.H (j + 1) (j + 1) : 𝕜) • (c (j + 1) : 𝕜) • M (s.rs (j + 1)) +
          (s.H (j + 1 + 1) (j + 1) : 𝕜) • (c (j + 1 + 1) : 𝕜) • M (s.rs (j + 1 + 1))) := by
        rw [← Finset.sum_subset (s₁ := {j, j + 1, j + 1 + 1})]
        · rw [Finset.sum_insert (by simp; omega), Finset.sum_pair (by omega)]
        · intro i hi
          simp at hi ⊢
          omega
        · intro i _ hi
          simp at hi
          rw [lan.off i (j + 1) (by omega)]
          simp
      have hsup : s.H j (j + 1) * c j = -(s.rho (j + 1) / s.rho j * c (j + 1) / s.al j) := by
        have q1 := (Real.sqrt_pos.mpr hrjp).ne'
        have q2 := (Real.sqrt_pos.mpr hjp).ne'
        have r1 := Real.sq_sqrt hrjp.le
        have r2 := Real.sq_sqrt hjp.le
        rw [lan.sup j (by omega), lan.sub j (by omega), hcne _ hrj, hcne _ hjr, Real.sqrt_div hjp.le, pow_succ]
        field_simp
        rw [r1, r2]
        ring
      have hMr : M (s.rs (j + 1)) = s.ps (j + 1) - ((s.rho (j + 1) / s.rho j : ℝ) : 𝕜) • s.ps j := by
        rw [inv.ps j (by omega)]; abel
      have hL : M (B ((c (j + 1) : 𝕜) • M (s.rs (j + 1)))) =
          (c (j + 1) : 𝕜) • (((s.al (j + 1) : 𝕜)⁻¹) • (M (s.rs (j + 1)) - M (s.rs (j + 1 + 1))) -
            ((s.rho (j + 1) / s.rho j : ℝ) : 𝕜) • (((s.al j : 𝕜)⁻¹) • (M (s.rs j) - M (s.rs (j + 1))))) := by
        rw [map_smul, map_smul]
        conv_lhs => rw [hMr]
        rw [map_sub, map_sub, map_smul, map_smul, hMBp _ (by omega), hMBp _ (by omega)]
      rw [hL, e0, hsubterm, smul_smul (s.H j (j + 1) : 𝕜), ← RCLike.ofReal_mul, hsup, lan.diag j (by omega)]
      have q1 : (s.al (j + 1) : 𝕜) ≠ 0 := by exact_mod_cast hal.ne'
      have q2 : (s.al j : 𝕜) ≠ 0 := by exact_mod_cast halj.ne'
      have q3 : (s.rho j : 𝕜) ≠ 0 := by exact_mod_cast hrj
      push_cast
      match_scalars <;> field_simp <;> ring
  · refine ⟨(c i : 𝕜) • s.rs i, by simp, fun j hj => ?_⟩
    have hjr := inv.rho_ne j (by omega)
    have hjp : 0 < s.rho j := lt_of_le_of_ne (hnn j (by omega)) hjr.symm
    rw [h.ls.inner.smul_left, h.ls.inner.smul_right]
    change conj (c i : 𝕜) * ((c j : 𝕜) * gform ip M (s.rs i) (s.rs j)) = _
    by_cases hij : i = j
    · subst hij
      rw [if_pos rfl, h.prec.self_real, ← inv.rho _ (by omega), RCLike.conj_ofReal]
      have : c i * (c i * s.rho i) = 1 := by
        rw [hcne _ hjr, show ∀ a q ρ : ℝ, a / q * (a / q * ρ) = (a * a) * (ρ / (q * q)) by intros; ring, hsgn,
          Real.mul_self_sqrt hjp.le, div_self hjp.ne', mul_one]
      exact_mod_cast this
    · rw [if_neg hij, inv.orth i (by omega) j (by omega) hij]
      simp
  · dsimp only at hne
    have hr : s.rho n ≠ 0 := by
      intro h0
      rw [hcz _ h0] at hne
      simp at hne
    have hp : 0 < s.rho n := lt_of_le_of_ne (hnn n hn) hr.symm
    refine ⟨(c n : 𝕜) • s.rs n, by simp, ?_⟩
    rw [h.ls.inner.smul_left, h.ls.inner.smul_right]
    change conj (c n : 𝕜) * ((c n : 𝕜) * gform ip M (s.rs n) (s.rs n)) = _
    rw [h.prec.self_real, ← inv.rho _ hn, RCLike.conj_ofReal]
    have : c n * (c n * s.rho n) = 1 := by
      rw [hcne _ hr, show ∀ a q ρ : ℝ, a / q * (a / q * ρ) = (a * a) * (ρ / (q * q)) by intros; ring, hsgn,
        Real.mul_self_sqrt hp.le, div_self hp.ne', mul_one]
    exact_mod_cast this

end

theorem cgMethod_lawful (ip : E → E → 𝕜) (M B Mr : E →ₗ[𝕜] E) (post : E → Except Err E) (store : Bool)
    (maxiter : ℕ) : LawfulMethod (cgMethod ip M B Mr post store maxiter) maxiter := by
  refine ⟨fun {s s' r} h => ?_, fun s r => ?_, fun s r => ?_, fun {s} h => ?_⟩
  · change cgStep ip M B store s = _ at h
    unfold cgStep at h
    dsimp only at h
    split at h
    · simp at h
    split at h
    · simp at h
    split at h
    · simp at h
    split at h
    · simp at h
    simp only [Except.ok.injEq, Prod.mk.injEq] at h
    obtain ⟨rfl, -⟩ := h
    rfl
  · cases r <;> rfl
  · cases r <;> rfl
  · simpa [cgMethod] using h

section run
variable {ip : E → E → 𝕜} {M B Mr : E →ₗ[𝕜] E} {Q : Submodule 𝕜 E} {r0 x0 : E} {store : Bool}
  {post : E → Except Err E} {maxiter : ℕ}
  (h : CgHyp ip M B Q r0) {cfg : Cfg ℝ E} (htol : 0 ≤ cfg.tol) (hnb : 0 < cfg.MMlbNorm)
  (hres : ∀ z x, post (x0 + Mr z) = .ok x → cfg.resNorm x = .ok (nrm (gform ip M) (r0 - B z)))

/-- Invariant of the driver loop; also what is known about a final state. -/
structure CgLoop (ip : E → E → 𝕜) (M B Mr : E →ₗ[𝕜] E) (Q : Submodule 𝕜 E) (r0 x0 : E) (store : Bool)
    (post : E → Except Err E) (nb : ℝ) (st : St ℝ E (CgSt 𝕜 E)) : Prop where
  inv : CgInv ip M B Q r0 x0 st.s
  lan : store = true → CgLan M st.s
  len : st.resnorms.length = st.s.k + 1
  resn : ∀ i (hi : i < st.resnorms.length), st.resnorms[i] * nb = nrm (gform ip M) (r0 - B (st.s.ys i))
  warn : st.warnings = 0
  xk : ∀ x, st.xk = some x → post (x0 + Mr (st.s.ys st.s.k)) = .ok x

include h htol hnb hres

theorem CgLoop.guard {st : St ℝ E (CgSt 𝕜 E)} (hl : CgLoop ip M B Mr Q r0 x0 store post cfg.MMlbNorm st)
    (hg : loopGuard cfg (cgMethod ip M B Mr post store maxiter) st = true) : st.s.rho st.s.k ≠ 0 := by
  intro h0
  have hlen := hl.len
  simp only [loopGuard, Bool.and_eq_true] at hg
  obtain ⟨r, hr, hr'⟩ : ∃ r, st.resnorms.getLast? = some r ∧ cfg.tol < r := by
    cases hlast : st.resnorms.getLast? with
    | none => simp [hlast] at hg
    | some r => exact ⟨r, rfl, by simpa [hlast] using hg.1⟩
  rw [List.getLast?_eq_getElem?, show st.resnorms.length - 1 = st.s.k by omega,
    List.getElem?_eq_getElem (by omega)] at hr
  have h1 := hl.resn st.s.k (by omega)
  rw [Option.some.inj hr, ← hl.inv.res _ le_rfl] at h1
  rw [hl.inv.rho _ le_rfl] at h0
  rw [h.prec.nrm_eq_zero.mpr (h.prec.nsq_eq_zero.mp h0)] at h1
  rcases mul_eq_zero.mp h1 with h1 | h1
  · linarith
  · linarith

theorem cgLoop_new {st : St ℝ E (CgSt 𝕜 E)} (hl : CgLoop ip M B Mr Q r0 x0 store post cfg.MMlbNorm st)
    (hr : st.s.rho st.s.k ≠ 0) :
    ∃ s' r, cgStep ip M B store st.s = .ok (s', r) ∧ CgInv ip M B Q r0 x0 s' ∧ (store = true → CgLan M s') ∧
      s'.k = st.s.k + 1 ∧ s'.rho s'.k = r ^ 2 ∧
      (∀ x, post (s'.x0 + Mr s'.yk) = .ok x →
        post (x0 + Mr (s'.ys s'.k)) = .ok x ∧ cfg.resNorm x = .ok r) ∧
      ∀ t, t = r / cfg.MMlbNorm → ∀ i (hi : i < (st.resnorms ++ [t]).length),
        (st.resnorms ++ [t])[i] * cfg.MMlbNorm = nrm (gform ip M) (r0 - B (s'.ys i)) := by
  obtain ⟨s', nr, hs, inv', hk, hnr, hold, -⟩ := cgStep_spec (store := store) h hl.inv hr
  have hlen := hl.len
  refine ⟨s', nr, hs, inv', fun hst => ?_, hk, ?_, fun x hx => ?_, fun t ht i hi => ?_⟩
  · subst hst
    exact cgStep_lan h hl.inv (hl.lan rfl) hr hs
  · rw [inv'.rho _ le_rfl, hnr]; exact (h.prec.nrm_sq _).symm
  · rw [inv'.x0, inv'.yk] at hx
    refine ⟨hx, ?_⟩
    rw [hres _ x hx, ← inv'.res _ le_rfl, hnr]
  · rcases Nat.lt_or_ge i st.resnorms.length with h1 | h1
    · rw [List.getElem_append_left h1, hl.resn i h1, (hold i (by omega)).2.1]
    · have hi' : i = s'.k := by simp at hi; omega
      rw [List.getElem_append_right h1]
      simp only [List.getElem_singleton, ht]
      rw [div_mul_cancel₀ _ hnb.ne', hi', hnr, inv'.res _ le_rfl]

theorem cgPost_same {s : CgSt 𝕜 E} {r : ℝ} (hs : s.rho s.k = r ^ 2) (rkn : Option ℝ)
    (hr : ∀ v, rkn = some v → v = r) : cgPost s rkn = s := by
  cases rkn with
  | none => rfl
  | some v =>
    obtain rfl := hr v rfl
    simp only [cgPost, ← hs, Function.update_eq_self]

theorem cgLoop_body {st st' : St ℝ E (CgSt 𝕜 E)}
    (hl : CgLoop ip M B Mr Q r0 x0 store post cfg.MMlbNorm st ∧ st.iter = st.s.k)
    (hg : loopGuard cfg (cgMethod ip M B Mr post store maxiter) st = true)
    (hb : body cfg (cgMethod ip M B Mr post store maxiter) st = .ok st') :
    CgLoop ip M B Mr Q r0 x0 store post cfg.MMlbNorm st' ∧ st'.iter = st'.s.k := by
  obtain ⟨hl, -⟩ := hl
  obtain ⟨s', r, hs, inv', hlan, hk, hrho, hx, hres'⟩ := cgLoop_new h htol hnb hres hl (hl.guard h htol hnb hres hg)
  obtain ⟨s1, r1, rkn, h1, h2, h3, h4, h5, h6, h7⟩ := body_ok hb
  change cgStep ip M B store st.s = _ at h1
  rw [hs] at h1
  simp only [Except.ok.injEq, Prod.mk.injEq] at h1
  obtain ⟨rfl, rfl⟩ := h1
  have hrkn : ∀ v, rkn = some v → v = r := by
    intro v hv
    rcases h7 with ⟨x, w, e0, e1, e2, e3, -⟩ | ⟨e0, -⟩
    · rw [e0] at hv
      obtain rfl := Option.some.inj hv
      rw [(hx x e1).2] at e3
      exact (Except.ok.inj e3).symm
    · rw [e0] at hv; simp at hv
  have h2' : st'.s = s' := by
    rw [h2]
    exact cgPost_same h htol hnb hres hrho rkn hrkn
  have hlen := hl.len
  refine ⟨⟨h2' ▸ inv', h2' ▸ hlan, ?_, ?_, ?_, fun x hx' => ?_⟩, ?_⟩
  · rw [h2', hk]
    rcases h7 with ⟨x, v, -, -, -, -, e, -⟩ | ⟨-, -, -, -, e, -⟩ <;> rw [e] <;> simp [hlen]
  · rw [h2']
    rcases h7 with ⟨x, v, e0, e1, -, e2, e, -⟩ | ⟨-, -, -, -, e, -⟩
    · obtain rfl := hrkn v e0
      simp only [e]
      exact hres' _ rfl
    · simp only [e]
      exact hres' _ rfl
  · rcases h7 with ⟨x, v, e0, e1, -, e2, e, -, e3⟩ | ⟨-, -, -, -, e, e3⟩
    · obtain rfl := hrkn v e0
      rcases e3 with e3 | ⟨e3, -, e4⟩
      · rw [e3, hl.warn]
      · exact absurd e3 (not_lt.mpr e4)
    · rw [e3, hl.warn]
  · rw [h2']
    exact (hx x (h4 x hx')).1
  · rw [h3, h2', hk]
    rfl

theorem cgLoop_init (errnorms : Option (List ℝ)) :
    CgLoop ip M B Mr Q r0 x0 store post cfg.MMlbNorm
      ⟨cgInit (M r0) r0 (nrm (gform ip M) r0) x0, 0, none, [nrm (gform ip M) r0 / cfg.MMlbNorm], errnorms, 0⟩ := by
  refine ⟨cgInit_inv h, fun _ => cgInit_lan, rfl, ?_, rfl, by simp⟩
  intro i hi
  obtain rfl : i = 0 := by simp at hi; omega
  simp only [List.getElem_cons_zero, cgInit]
  rw [div_mul_cancel₀ _ hnb.ne', map_zero, sub_zero]

/-- What a run with positive right hand side norm delivers: `iter` counts the iterations of a run which returned,
but is one less in the object attached to a `ConvergenceError`. -/
theorem cgRun_spec {st : St ℝ E (CgSt 𝕜 E)} {xk0 : E → Except Err E}
    (hrun : run cfg (cgMethod ip M B Mr post store maxiter) x0 (nrm (gform ip M) r0)
        (cgInit (M r0) r0 (nrm (gform ip M) r0)) xk0 = .returned st ∨
      run cfg (cgMethod ip M B Mr post store maxiter) x0 (nrm (gform ip M) r0)
        (cgInit (M r0) r0 (nrm (gform ip M) r0)) xk0 = .convergence st) :
    CgLoop ip M B Mr Q r0 x0 store post cfg.MMlbNorm st ∧ (∃ x, st.xk = some x) ∧
    (run cfg (cgMethod ip M B Mr post store maxiter) x0 (nrm (gform ip M) r0)
        (cgInit (M r0) r0 (nrm (gform ip M) r0)) xk0 = .returned st → st.iter = st.s.k ∧
      ((∃ r, st.resnorms.getLast? = some r ∧ r ≤ cfg.tol) ∨ maxiter ≤ st.s.k)) ∧
    (run cfg (cgMethod ip M B Mr post store maxiter) x0 (nrm (gform ip M) r0)
        (cgInit (M r0) r0 (nrm (gform ip M) r0)) xk0 = .convergence st → st.iter + 1 = st.s.k ∧
      st.s.k = cfg.maxiter ∧ ∃ r, st.resnorms.getLast? = some r ∧ cfg.tol < r) := by
  have hz : (cfg.MMlbNorm == 0) = false := by simpa using hnb.ne'
  unfold run at hrun ⊢
  simp only [hz, Bool.false_eq_true, if_false] at hrun ⊢
  cases he : initErr cfg (xk0 x0) with
  | error e => simp [he] at hrun
  | ok errnorms =>
    simp only [he] at hrun ⊢
    have hli := loop_invariant (m := cgMethod ip M B Mr post store maxiter)
      (fun st => CgLoop ip M B Mr Q r0 x0 store post cfg.MMlbNorm st ∧ st.iter = st.s.k)
      (fun st st' h1 h2 h3 => cgLoop_body h htol hnb hres h1 h2 h3) cfg.maxiter _
      ⟨cgLoop_init h htol hnb hres errnorms, rfl⟩
    have hret := hli.1 st
    have hcon := hli.2 st
    rcases hrun with hrun | hrun
    · obtain ⟨st1, ⟨hl, hit⟩, hgd, hf⟩ := hret hrun
      obtain ⟨f1, f2, f3, f4, f5, f6⟩ := finish_returned hf
      refine ⟨⟨f1 ▸ hl.inv, f1 ▸ hl.lan, by rw [f1, f3]; exact hl.len, by rw [f1]; simp only [f3]; exact hl.resn,
        by rw [f5]; exact hl.warn, ?_⟩, ?_, fun _ => ⟨by rw [f1, f2]; exact hit, ?_⟩,
        fun h2 => by rw [hrun] at h2; simp at h2⟩
      · intro x hx
        rw [f1]
        rcases f6 with ⟨x', e1, e2⟩ | ⟨x', -, e1, e2⟩
        · rw [hx] at e2
          obtain rfl := Option.some.inj e2
          exact hl.xk x e1
        · rw [hx] at e2
          obtain rfl := Option.some.inj e2
          change post (st1.s.x0 + Mr st1.s.yk) = .ok x at e1
          rwa [hl.inv.x0, hl.inv.yk] at e1
      · rcases f6 with ⟨x', e1, e2⟩ | ⟨x', -, e1, e2⟩ <;> exact ⟨x', e2⟩
      · have hlen := hl.len
        have hlast : st.resnorms.getLast? = some (st1.resnorms[st1.s.k]'(by omega)) := by
          rw [f3, List.getLast?_eq_getElem?, show st1.resnorms.length - 1 = st1.s.k by omega,
            List.getElem?_eq_getElem (by omega)]
        by_cases hle : st1.resnorms[st1.s.k]'(by omega) ≤ cfg.tol
        · exact Or.inl ⟨_, hlast, hle⟩
        · right
          rw [f1]
          by_contra hlt
          have : loopGuard cfg (cgMethod ip M B Mr post store maxiter) st1 = true := by
            rw [f3] at hlast
            simp only [loopGuard, cgMethod, hlast, Bool.and_eq_true, decide_eq_true_eq, Option.any_some]
            exact ⟨not_le.mp hle, by omega⟩
          rw [this] at hgd
          simp at hgd
    · obtain ⟨st1, ⟨hl, hit⟩, hgd, hb⟩ := hcon hrun
      obtain ⟨s', r, hs, inv', hlan, hk, hrho, hx, hres'⟩ :=
        cgLoop_new h htol hnb hres hl (hl.guard h htol hnb hres hgd)
      obtain ⟨s1, r1, x, w, b1, b2, b3, b4, b5, b6, b7, b8, b9, b10, -⟩ := body_convergence hb
      change cgStep ip M B store st1.s = _ at b1
      rw [hs] at b1
      simp only [Except.ok.injEq, Prod.mk.injEq] at b1
      obtain ⟨rfl, rfl⟩ := b1
      have hx' := hx x b4
      rw [hx'.2] at b6
      obtain rfl := Except.ok.inj b6
      refine ⟨⟨b2 ▸ inv', b2 ▸ hlan, by rw [b2, b7, hk]; simp [hl.len], ?_, by rw [b8]; exact hl.warn, ?_⟩,
        ⟨x, b5⟩, fun h2 => by rw [hrun] at h2; simp at h2, fun _ => ⟨?_, ?_, ?_⟩⟩
      · rw [b2]
        simp only [b7]
        exact hres' _ rfl
      · intro y hy
        rw [b5] at hy
        obtain rfl := Option.some.inj hy
        rw [b2]
        exact hx'.1
      · rw [b3, b2, hk]; rfl
      · rw [b2, hk]; exact b10
      · exact ⟨_, by rw [b7]; simp, b9⟩

/-- A run does not raise anything but possibly `ConvergenceError`. -/
theorem cgRun_total (hpost : ∀ x, ∃ y, post x = .ok y) (hrt : ∀ x, ∃ y, cfg.resNorm x = .ok y)
    (het : ∀ en, cfg.errNorm = some en → ∀ x, ∃ y, en x = .ok y) (e : Err) :
    run cfg (cgMethod ip M B Mr post store maxiter) x0 (nrm (gform ip M) r0)
        (cgInit (M r0) r0 (nrm (gform ip M) r0)) post ≠ .raised e := by
  have hz : (cfg.MMlbNorm == 0) = false := by simpa using hnb.ne'
  have hinit : ∃ l, initErr cfg (post x0) = .ok l := by
    unfold initErr
    cases hen : cfg.errNorm with
    | none => exact ⟨_, rfl⟩
    | some en =>
      obtain ⟨x, hx⟩ := hpost x0
      obtain ⟨y, hy⟩ := het en hen x
      simp only [hx, hy]
      exact ⟨_, rfl⟩
  obtain ⟨errnorms, he⟩ := hinit
  unfold run
  simp only [hz, Bool.false_eq_true, if_false, he]
  refine loop_total (fun st => CgLoop ip M B Mr Q r0 x0 store post cfg.MMlbNorm st ∧ st.iter = st.s.k)
    (fun st st' h1 h2 h3 => cgLoop_body h htol hnb hres h1 h2 h3) ?_ ?_ cfg.maxiter _
    ⟨cgLoop_init h htol hnb hres errnorms, rfl⟩ e
  · rintro st ⟨hl, -⟩ hg e
    obtain ⟨s', r, hs, -⟩ := cgLoop_new h htol hnb hres hl (hl.guard h htol hnb hres hg)
    obtain ⟨x, hx⟩ := hpost (s'.x0 + Mr s'.yk)
    exact body_not_raised (m := cgMethod ip M B Mr post store maxiter) hs hx hrt het e
  · intro st _ _ e
    obtain ⟨x, hx⟩ := hpost (st.s.x0 + Mr st.s.yk)
    unfold finish
    split
    · simp
    · have : (cgMethod ip M B Mr post store maxiter).getXk st.s = .ok x := hx
      rw [this]
      simp

/-- With `maxiter` at least the dimension of the space of the residuals a run returns and is converged. -/
theorem cgRun_terminates [FiniteDimensional 𝕜 E] (hpost : ∀ x, ∃ y, post x = .ok y)
    (hrt : ∀ x, ∃ y, cfg.resNorm x = .ok y) (het : ∀ en, cfg.errNorm = some en → ∀ x, ∃ y, en x = .ok y)
    (hmax : Module.finrank 𝕜 Q ≤ maxiter) (hcm : cfg.maxiter = maxiter) :
    ∃ st, run cfg (cgMethod ip M B Mr post store maxiter) x0 (nrm (gform ip M) r0)
        (cgInit (M r0) r0 (nrm (gform ip M) r0)) post = .returned st ∧
      ∃ r, st.resnorms.getLast? = some r ∧ r ≤ cfg.tol := by
  have hlaw : LawfulMethod (cgMethod ip M B Mr post store maxiter) cfg.maxiter := by
    rw [hcm]; exact cgMethod_lawful ip M B Mr post store maxiter
  have hfuel := C24_terminates hlaw x0 (nrm (gform ip M) r0) (cgInit (M r0) r0 (nrm (gform ip M) r0)) post
    (fun _ => rfl)
  have htot := cgRun_total (store := store) (maxiter := maxiter) h htol hnb hres hpost hrt het
  have hlastz : ∀ st : St ℝ E (CgSt 𝕜 E), CgLoop ip M B Mr Q r0 x0 store post cfg.MMlbNorm st →
      maxiter ≤ st.s.k → ∀ r, st.resnorms.getLast? = some r → r = 0 := by
    intro st hl hk r hr
    have hlen := hl.len
    rw [List.getLast?_eq_getElem?, show st.resnorms.length - 1 = st.s.k by omega,
      List.getElem?_eq_getElem (by omega)] at hr
    have h1 := hl.resn st.s.k (by omega)
    rw [Option.some.inj hr, ← hl.inv.res _ le_rfl] at h1
    have h0 : st.s.rho st.s.k = 0 := by
      by_contra hne
      have := hl.inv.indep h hne
      omega
    rw [hl.inv.rho _ le_rfl] at h0
    rw [h.prec.nrm_eq_zero.mpr (h.prec.nsq_eq_zero.mp h0)] at h1
    rcases mul_eq_zero.mp h1 with h1 | h1
    · exact h1
    · exact absurd h1 hnb.ne'
  cases hrun : run cfg (cgMethod ip M B Mr post store maxiter) x0 (nrm (gform ip M) r0)
        (cgInit (M r0) r0 (nrm (gform ip M) r0)) post with
  | outOfFuel => exact absurd hrun hfuel
  | raised e => exact absurd hrun (htot e)
  | convergence st =>
    exfalso
    obtain ⟨hl, -, -, hc⟩ := cgRun_spec h htol hnb hres (Or.inr hrun)
    obtain ⟨-, hk, r, hr, hr'⟩ := hc hrun
    rw [hlastz st hl (by omega) r hr] at hr'
    linarith
  | returned st =>
    refine ⟨st, rfl, ?_⟩
    obtain ⟨hl, -, hc, -⟩ := cgRun_spec h htol hnb hres (Or.inl hrun)
    rcases (hc hrun).2 with h1 | h1
    · exact h1
    · have hlen := hl.len
      refine ⟨_, List.getLast?_eq_getLast_of_ne_nil (by intro h0; simp [h0] at hlen), ?_⟩
      rw [hlastz st hl h1 _ (List.getLast?_eq_getLast_of_ne_nil (by intro h0; simp [h0] at hlen))]
      exact htol

end run
end Krypy
