import Verif.Model.Cg
import Verif.Props.LinearSystem
import Verif.Proofs.Krylov
import Verif.Props.Driver

/-! # The conjugate gradient iteration in exact arithmetic -/

set_option linter.unusedSectionVars false

namespace Krypy
variable {𝕜 E : Type*} [RCLike 𝕜] [AddCommGroup E] [Module 𝕜 E]
open scoped ComplexConjugate
open Finset

theorem upd_lt {β : Type*} (f : ℕ → β) (n : ℕ) (b : β) (j : ℕ) (hj : j < n) : Function.update f n b j = f j :=
  Function.update_of_ne (by omega) _ _

/-- Hypotheses on preconditioner `M`, operator `B` and initial residual `r0`: `B` is self-adjoint, maps into
`Q`, and is positive definite on `M Q`.  Without deflation `Q` is everything. -/
structure CgHyp (ip : E → E → 𝕜) (M B : E →ₗ[𝕜] E) (Q : Submodule 𝕜 E) (r0 : E) : Prop where
  ls : LSHyp ip M
  sa : ∀ x y, ip (B x) y = ip x (B y)
  rng : ∀ x, B x ∈ Q
  start : r0 ∈ Q
  pos : ∀ q ∈ Q, q ≠ 0 → 0 < RCLike.re (ip (M q) (B (M q)))

section
variable {ip : E → E → 𝕜} {M B : E →ₗ[𝕜] E} {Q : Submodule 𝕜 E} {r0 : E}

theorem CgHyp.real (h : CgHyp ip M B Q r0) (p : E) :
    ip p (B p) = ((RCLike.re (ip p (B p)) : ℝ) : 𝕜) := by
  have : conj (ip p (B p)) = ip p (B p) := by rw [h.ls.inner.conj_symm, h.sa]
  exact (RCLike.conj_eq_iff_re.mp this).symm

/-- `g(x, y) = ⟨x, M y⟩`. -/
def gform (ip : E → E → 𝕜) (M : E →ₗ[𝕜] E) (x y : E) : 𝕜 := ip x (M y)

theorem CgHyp.prec (h : CgHyp ip M B Q r0) : IsInner (gform ip M) := h.ls.prec

/-- Invariant of the iteration. -/
structure CgInv (ip : E → E → 𝕜) (M B : E →ₗ[𝕜] E) (Q : Submodule 𝕜 E) (r0 x0 : E) (s : CgSt 𝕜 E) : Prop where
  x0 : s.x0 = x0
  warn : s.warn = 0
  Mlrk : s.Mlrk = s.rs s.k
  MMlrk : s.MMlrk = M s.Mlrk
  yk : s.yk = s.ys s.k
  p0 : s.k = 0 → s.p = M r0
  p : ∀ j, s.k = j + 1 → s.p = s.ps j
  rs0 : s.rs 0 = r0
  ys0 : s.ys 0 = 0
  rho : ∀ j ≤ s.k, s.rho j = nsq (gform ip M) (s.rs j)
  rho_ne : ∀ j < s.k, s.rho j ≠ 0
  mem : ∀ j ≤ s.k, s.rs j ∈ Q
  pmem : ∀ j < s.k, ∃ q ∈ Q, s.ps j = M q
  ps0 : 0 < s.k → s.ps 0 = M r0
  ps : ∀ j, j + 1 < s.k → s.ps (j + 1) = M (s.rs (j + 1)) + ((s.rho (j + 1) / s.rho j : ℝ) : 𝕜) • s.ps j
  al : ∀ j < s.k, s.al j = s.rho j / RCLike.re (ip (s.ps j) (B (s.ps j)))
  dpos : ∀ j < s.k, 0 < RCLike.re (ip (s.ps j) (B (s.ps j)))
  rs : ∀ j < s.k, s.rs (j + 1) = s.rs j - (s.al j : 𝕜) • B (s.ps j)
  ys : ∀ j < s.k, s.ys (j + 1) = s.ys j + (s.al j : 𝕜) • s.ps j
  orth : ∀ i ≤ s.k, ∀ j ≤ s.k, i ≠ j → gform ip M (s.rs i) (s.rs j) = 0
  cnj : ∀ i < s.k, ∀ j < s.k, i ≠ j → ip (s.ps i) (B (s.ps j)) = 0
  porth : ∀ i ≤ s.k, ∀ j < i, ip (s.ps j) (s.rs i) = 0

variable {x0 : E} {s s' : CgSt 𝕜 E} {store : Bool}

theorem cgInit_inv (h : CgHyp ip M B Q r0) :
    CgInv ip M B Q r0 x0 (cgInit (𝕜 := 𝕜) (M r0) r0 (nrm (gform ip M) r0) x0) := by
  refine ⟨rfl, rfl, rfl, rfl, rfl, fun _ => rfl, fun j hj => ?_, rfl, rfl, fun j hj => ?_, fun j hj => ?_,
    fun j hj => h.start, fun j hj => ?_, fun hj => ?_, fun j hj => ?_, fun j hj => ?_, fun j hj => ?_,
    fun j hj => ?_, fun j hj => ?_, fun i hi j hj hij => ?_, fun i hi => ?_, fun i hi j hj => ?_⟩
  all_goals simp only [cgInit] at *
  all_goals try omega
  · simp only [Nat.le_zero.mp hj, if_true]
    exact h.prec.nrm_sq r0

theorem CgInv.al_pos (h : CgHyp ip M B Q r0) (inv : CgInv ip M B Q r0 x0 s) {j : ℕ} (hj : j < s.k) :
    0 < s.al j := by
  rw [inv.al j hj]
  refine div_pos (lt_of_le_of_ne ?_ (inv.rho_ne j hj).symm) (inv.dpos j hj)
  rw [inv.rho j hj.le]
  exact h.prec.nsq_nonneg _

/-- `α_j B p_j = r_j - r_(j+1)`. -/
theorem CgInv.Bp (inv : CgInv ip M B Q r0 x0 s) {j : ℕ} (hj : j < s.k) :
    (s.al j : 𝕜) • B (s.ps j) = s.rs j - s.rs (j + 1) := by
  rw [inv.rs j hj]; abel

/-- The next search direction. -/
theorem cgDir_spec (h : CgHyp ip M B Q r0) (inv : CgInv ip M B Q r0 x0 s) :
    ∃ p, cgDir s = .ok p ∧ (s.k = 0 → p = M r0) ∧
      (∀ j, s.k = j + 1 → p = M (s.rs (j + 1)) + ((s.rho (j + 1) / s.rho j : ℝ) : 𝕜) • s.ps j) ∧
      (∃ q ∈ Q, p = M q) ∧ ip p (s.rs s.k) = (s.rho s.k : 𝕜) ∧
      (∀ i < s.k, ip (s.ps i) (B p) = 0) ∧
      (s.rho s.k ≠ 0 → 0 < RCLike.re (ip p (B p))) := by
  have hposof : ∀ p, (∃ q ∈ Q, p = M q) → ip p (s.rs s.k) = (s.rho s.k : 𝕜) →
      s.rho s.k ≠ 0 → 0 < RCLike.re (ip p (B p)) := by
    rintro p ⟨q, hq, rfl⟩ hp hr
    refine h.pos q hq ?_
    rintro rfl
    rw [map_zero, h.ls.inner.zero_left] at hp
    exact hr (by exact_mod_cast hp.symm)
  have hself : ∀ r, ip (M r) r = (nsq (gform ip M) r : 𝕜) := by
    intro r
    rw [h.ls.symm]
    exact h.prec.self_real r
  unfold cgDir
  by_cases hk : s.k = 0
  · rw [if_neg (by omega)]
    have hp := inv.p0 hk
    have e1 : ip s.p (s.rs s.k) = (s.rho s.k : 𝕜) := by
      rw [hp, inv.rho _ le_rfl, hk, inv.rs0, hself]
    exact ⟨s.p, rfl, fun _ => hp, fun j hj => by omega, ⟨r0, h.start, hp⟩, e1, fun i hi => by omega,
      hposof _ ⟨r0, h.start, hp⟩ e1⟩
  · obtain ⟨j, hj⟩ := Nat.exists_eq_succ_of_ne_zero hk
    rw [if_pos (by omega), if_neg (inv.rho_ne _ (by omega))]
    have hjk : j < s.k := by omega
    refine ⟨_, rfl, fun h0 => by omega, fun j' hj' => ?_, ?_⟩
    · obtain rfl : j' = j := by omega
      rw [inv.MMlrk, inv.Mlrk, inv.p _ hj', hj', Nat.add_sub_cancel]
    · rw [inv.MMlrk, inv.Mlrk, inv.p _ hj]
      obtain ⟨q, hq, hpq⟩ := inv.pmem j hjk
      have hmem : ∃ q ∈ Q, M (s.rs s.k) + ((s.rho s.k / s.rho (s.k - 1) : ℝ) : 𝕜) • s.ps j = M q :=
        ⟨s.rs s.k + ((s.rho s.k / s.rho (s.k - 1) : ℝ) : 𝕜) • q,
          Q.add_mem (inv.mem _ le_rfl) (Q.smul_mem _ hq), by rw [map_add, map_smul, hpq]⟩
      have e1 : ip (M (s.rs s.k) + ((s.rho s.k / s.rho (s.k - 1) : ℝ) : 𝕜) • s.ps j) (s.rs s.k) =
          (s.rho s.k : 𝕜) := by
        rw [h.ls.inner.add_left, h.ls.inner.smul_left, inv.porth _ le_rfl j hjk, mul_zero, add_zero, hself,
          inv.rho _ le_rfl]
      refine ⟨hmem, e1, fun i hi => ?_, hposof _ hmem e1⟩
      have hal := inv.al_pos h hi
      have hal' : (s.al i : 𝕜) ≠ 0 := by exact_mod_cast hal.ne'
      have e2 : (s.al i : 𝕜) * ip (s.ps i) (B (M (s.rs s.k))) =
          gform ip M (s.rs i) (s.rs s.k) - gform ip M (s.rs (i + 1)) (s.rs s.k) := by
        rw [← h.sa, ← h.prec.sub_left, ← inv.Bp hi, h.prec.smul_left, RCLike.conj_ofReal]
        rfl
      rw [map_add, map_smul, h.ls.inner.add_right, h.ls.inner.smul_right]
      refine mul_left_cancel₀ hal' ?_
      rw [mul_add, e2, mul_zero, inv.orth i hi.le _ le_rfl (by omega), zero_sub]
      by_cases hij : i = j
      · subst hij
        have hd := (inv.dpos i hjk).ne'
        have hr := inv.rho_ne i hjk
        rw [show i + 1 = s.k by omega, h.prec.self_real, ← inv.rho _ le_rfl, h.real (s.ps i), inv.al i hi,
          show s.k - 1 = i by omega]
        push_cast
        have hd' : ((RCLike.re (ip (s.ps i) (B (s.ps i))) : ℝ) : 𝕜) ≠ 0 := by exact_mod_cast hd
        have hr' : ((s.rho i : ℝ) : 𝕜) ≠ 0 := by exact_mod_cast hr
        field_simp
        ring
      · rw [inv.orth (i + 1) (by omega) _ le_rfl (by omega), inv.cnj i hi j hjk hij]
        simp

/-- One iteration, if the residual is not zero. -/
theorem cgStep_spec (h : CgHyp ip M B Q r0) (inv : CgInv ip M B Q r0 x0 s) (hr : s.rho s.k ≠ 0) :
    ∃ s' nr, cgStep ip M B store s = .ok (s', nr) ∧ CgInv ip M B Q r0 x0 s' ∧ s'.k = s.k + 1 ∧
      nr = nrm (gform ip M) (s'.rs s'.k) ∧
      (∀ j ≤ s.k, s'.rs j = s.rs j ∧ s'.ys j = s.ys j ∧ s'.rho j = s.rho j) ∧
      (∀ j < s.k, s'.ps j = s.ps j ∧ s'.al j = s.al j) ∧
      s'.V = (if store then Function.update s.V (s.k + 1) (cgCol (𝕜 := 𝕜) s.k (M (s'.rs s'.k)) nr) else s.V) ∧
      s'.P = (if store then Function.update s.P (s.k + 1) (cgCol (𝕜 := 𝕜) s.k (s'.rs s'.k) nr) else s.P) ∧
      s'.H = (if store then cgH s (s'.al s.k) (nr ^ 2) else s.H) := by
  obtain ⟨p, hp, hp0, hp1, hpm, hpr, hpc, hpd⟩ := cgDir_spec h inv
  have hd := hpd hr
  have hdr := h.real p
  set d := RCLike.re (ip p (B p)) with hddef
  have hdne : ip p (B p) ≠ 0 := by
    rw [hdr]; exact_mod_cast hd.ne'
  have halC : (s.rho s.k : 𝕜) / ip p (B p) = ((s.rho s.k / d : ℝ) : 𝕜) := by
    rw [hdr]; push_cast; rfl
  have halpha : s.rho s.k / d ≠ 0 := div_ne_zero hr hd.ne'
  set alpha := s.rho s.k / d with hal
  have hnr := h.prec.npNorm_self (s.Mlrk - (alpha : 𝕜) • B p)
  unfold cgStep
  simp only [hp, hdne, if_false, halC, RCLike.ofReal_re, RCLike.ofReal_im, halpha, decide_false,
    Bool.and_false, Bool.false_eq_true]
  change npNorm (ip (s.Mlrk - (alpha : 𝕜) • B p) (M (s.Mlrk - (alpha : 𝕜) • B p))) = _ at hnr
  rw [hnr]
  dsimp only
  refine ⟨_, _, rfl, ?_⟩
  have hreal : alpha * d = s.rho s.k := by rw [hal]; field_simp
  have hporth : ∀ j < s.k, ip (s.ps j) (s.Mlrk - (alpha : 𝕜) • B p) = 0 := by
    intro j hj
    rw [h.ls.inner.sub_right, h.ls.inner.smul_right, hpc j hj, inv.Mlrk, inv.porth _ le_rfl j hj]
    simp
  have hporthk : ip p (s.Mlrk - (alpha : 𝕜) • B p) = 0 := by
    rw [h.ls.inner.sub_right, h.ls.inner.smul_right, inv.Mlrk, hpr, hdr, ← hreal]
    push_cast
    ring
  have hMr : ∀ i ≤ s.k, ip (M (s.rs i)) (B p) = if i = s.k then (d : 𝕜) else 0 := by
    intro i hi
    have hpc' : ∀ i < s.k, ip (s.ps i) (B p) = 0 := hpc
    rcases Nat.lt_or_ge i s.k with hik | hik
    · rw [if_neg (by omega)]
      cases i with
      | zero => rw [inv.rs0, ← inv.ps0 (by omega)]; exact hpc 0 hik
      | succ i =>
        have e := inv.ps i hik
        rw [show M (s.rs (i + 1)) = s.ps (i + 1) - ((s.rho (i + 1) / s.rho i : ℝ) : 𝕜) • s.ps i by
          rw [e]; abel, h.ls.inner.sub_left, h.ls.inner.smul_left, hpc _ hik, hpc _ (by omega)]
        simp
    · obtain rfl : i = s.k := by omega
      rw [if_pos rfl]
      by_cases hk0 : s.k = 0
      · rw [hk0, inv.rs0, ← hp0 hk0, hdr]
      · obtain ⟨j, hj⟩ := Nat.exists_eq_succ_of_ne_zero hk0
        have e := hp1 j hj
        rw [hj]
        rw [show M (s.rs (j + 1)) = p - ((s.rho (j + 1) / s.rho j : ℝ) : 𝕜) • s.ps j by
          conv_rhs => lhs; rw [e]
          abel, h.ls.inner.sub_left, h.ls.inner.smul_left, hpc j (by omega), hdr]
        simp
  have horth : ∀ i ≤ s.k, gform ip M (s.rs i) (s.Mlrk - (alpha : 𝕜) • B p) = 0 := by
    intro i hi
    rw [h.prec.sub_right, h.prec.smul_right, inv.Mlrk]
    have e : gform ip M (s.rs i) (B p) = ip (M (s.rs i)) (B p) := (h.ls.symm _ _).symm
    rw [e, hMr i hi]
    by_cases hik : i = s.k
    · rw [if_pos hik, hik, h.prec.self_real, ← inv.rho _ le_rfl, ← hreal]
      push_cast
      ring
    · rw [if_neg hik, inv.orth i hi _ le_rfl hik]
      simp
  refine ⟨?_, rfl, by simp, fun j hj => ⟨?_, ?_, ?_⟩, fun j hj => ⟨?_, ?_⟩, by simp, by simp, by simp⟩
  · refine ⟨inv.x0, ?_, by simp, by simp, by simp, fun hk => by simp at hk, fun j hj => ?_, ?_, ?_,
      fun j hj => ?_, fun j hj => ?_, fun j hj => ?_, fun j hj => ?_, fun _ => ?_, fun j hj => ?_, fun j hj => ?_,
      fun j hj => ?_, fun j hj => ?_, fun j hj => ?_, fun i hi j hj hij => ?_, fun i hi j hj hij => ?_,
      fun i hi j hj => ?_⟩
    all_goals dsimp only at *
    · simp only [abs_zero]
      rw [if_neg (by norm_num)]
      exact inv.warn
    · obtain rfl : j = s.k := by omega
      simp
    · rw [upd_lt _ _ _ _ (by omega), inv.rs0]
    · rw [upd_lt _ _ _ _ (by omega), inv.ys0]
    · rcases Nat.lt_or_ge j (s.k + 1) with hj' | hj'
      · rw [upd_lt _ _ _ _ hj', upd_lt _ _ _ _ hj']
        exact inv.rho j (by omega)
      · obtain rfl : j = s.k + 1 := by omega
        simp only [Function.update_self]
        exact h.prec.nrm_sq _
    · rw [upd_lt _ _ _ _ hj]
      rcases Nat.lt_or_ge j s.k with hj' | hj'
      · exact inv.rho_ne j hj'
      · obtain rfl : j = s.k := by omega
        exact hr
    · rcases Nat.lt_or_ge j (s.k + 1) with hj' | hj'
      · rw [upd_lt _ _ _ _ hj']
        exact inv.mem j (by omega)
      · obtain rfl : j = s.k + 1 := by omega
        simp only [Function.update_self]
        rw [inv.Mlrk]
        exact Q.sub_mem (inv.mem _ le_rfl) (Q.smul_mem _ (h.rng p))
    · rcases Nat.lt_or_ge j s.k with hj' | hj'
      · rw [upd_lt _ _ _ _ hj']
        exact inv.pmem j hj'
      · obtain rfl : j = s.k := by omega
        simp only [Function.update_self]
        exact hpm
    · by_cases hk0 : s.k = 0
      · rw [hk0, Function.update_self]
        exact hp0 hk0
      · rw [upd_lt _ _ _ _ (by omega)]
        exact inv.ps0 (by omega)
    · rw [upd_lt s.ps _ _ j (by omega), upd_lt s.rs _ _ (j + 1) (by omega), upd_lt s.rho _ _ (j + 1) (by omega),
        upd_lt s.rho _ _ j (by omega)]
      rcases Nat.lt_or_ge (j + 1) s.k with hj' | hj'
      · rw [upd_lt _ _ _ _ hj']
        exact inv.ps j hj'
      · have hjk : j + 1 = s.k := by omega
        rw [hjk, Function.update_self, ← hjk]
        exact hp1 j hjk.symm
    · rw [upd_lt s.rho _ _ j hj]
      rcases Nat.lt_or_ge j s.k with hj' | hj'
      · rw [upd_lt _ _ _ _ hj', upd_lt _ _ _ _ hj']
        exact inv.al j hj'
      · obtain rfl : j = s.k := by omega
        simp only [Function.update_self]
        exact hal
    · rcases Nat.lt_or_ge j s.k with hj' | hj'
      · rw [upd_lt _ _ _ _ hj']
        exact inv.dpos j hj'
      · obtain rfl : j = s.k := by omega
        simp only [Function.update_self]
        exact hd
    · rw [upd_lt s.rs _ _ j hj]
      rcases Nat.lt_or_ge j s.k with hj' | hj'
      · rw [upd_lt s.rs _ _ _ (by omega), upd_lt _ _ _ _ hj', upd_lt _ _ _ _ hj']
        exact inv.rs j hj'
      · obtain rfl : j = s.k := by omega
        simp only [Function.update_self, inv.Mlrk]
    · rw [upd_lt s.ys _ _ j hj]
      rcases Nat.lt_or_ge j s.k with hj' | hj'
      · rw [upd_lt s.ys _ _ _ (by omega), upd_lt _ _ _ _ hj', upd_lt _ _ _ _ hj']
        exact inv.ys j hj'
      · obtain rfl : j = s.k := by omega
        simp only [Function.update_self, inv.yk]
    · rcases Nat.lt_or_ge i (s.k + 1) with hi' | hi' <;> rcases Nat.lt_or_ge j (s.k + 1) with hj' | hj'
      · rw [upd_lt _ _ _ _ hi', upd_lt _ _ _ _ hj']
        exact inv.orth i (by omega) j (by omega) hij
      · obtain rfl : j = s.k + 1 := by omega
        rw [upd_lt _ _ _ _ hi', Function.update_self]
        exact horth i (by omega)
      · obtain rfl : i = s.k + 1 := by omega
        rw [upd_lt _ _ _ _ hj', Function.update_self]
        exact h.prec.orth_symm (horth j (by omega))
      · omega
    · rcases Nat.lt_or_ge i s.k with hi' | hi' <;> rcases Nat.lt_or_ge j s.k with hj' | hj'
      · rw [upd_lt _ _ _ _ hi', upd_lt _ _ _ _ hj']
        exact inv.cnj i hi' j hj' hij
      · obtain rfl : j = s.k := by omega
        rw [upd_lt _ _ _ _ hi', Function.update_self]
        exact hpc i hi'
      · obtain rfl : i = s.k := by omega
        rw [upd_lt _ _ _ _ hj', Function.update_self, ← h.sa]
        exact h.ls.inner.orth_symm (hpc j hj')
      · omega
    · rcases Nat.lt_or_ge i (s.k + 1) with hi' | hi'
      · rw [upd_lt _ _ _ _ hi', upd_lt _ _ _ _ (by omega)]
        exact inv.porth i (by omega) j hj
      · obtain rfl : i = s.k + 1 := by omega
        rw [Function.update_self]
        rcases Nat.lt_or_ge j s.k with hj' | hj'
        · rw [upd_lt _ _ _ _ hj']
          exact hporth j hj'
        · obtain rfl : j = s.k := by omega
          rw [Function.update_self]
          exact hporthk
  all_goals dsimp only
  · rw [upd_lt _ _ _ _ (by omega)]
  · rw [upd_lt _ _ _ _ (by omega)]
  · rw [upd_lt _ _ _ _ (by omega)]
  · rw [upd_lt _ _ _ _ (by omega)]
  · rw [upd_lt _ _ _ _ (by omega)]

/-- `r_k = r_0 - B y_k`. -/
theorem CgInv.res (inv : CgInv ip M B Q r0 x0 s) : ∀ j ≤ s.k, s.rs j = r0 - B (s.ys j) := by
  intro j
  induction j with
  | zero => intro _; rw [inv.rs0, inv.ys0, map_zero, sub_zero]
  | succ j ih =>
    intro hj
    rw [inv.rs j hj, inv.ys j hj, ih (by omega), map_add, map_smul]
    abel

/-- The search directions span the Krylov subspaces. -/
theorem CgInv.span (h : CgHyp ip M B Q r0) (inv : CgInv ip M B Q r0 x0 s) :
    ∀ j ≤ s.k, spanTo s.ps j = krylov (M ∘ₗ B) (M r0) j := by
  intro j hj
  have hMr : ∀ i < s.k, M (s.rs i) ∈ spanTo (𝕜 := 𝕜) s.ps (i + 1) := by
    intro i hi
    cases i with
    | zero => rw [inv.rs0, ← inv.ps0 hi]; exact mem_spanTo (by omega)
    | succ i =>
      rw [show M (s.rs (i + 1)) = s.ps (i + 1) - ((s.rho (i + 1) / s.rho i : ℝ) : 𝕜) • s.ps i by
        rw [inv.ps i hi]; abel]
      exact Submodule.sub_mem _ (mem_spanTo (by omega)) (Submodule.smul_mem _ _ (mem_spanTo (by omega)))
  have hMBp : ∀ i < s.k, M (B (s.ps i)) = ((s.al i : 𝕜)⁻¹) • (M (s.rs i) - M (s.rs (i + 1))) := by
    intro i hi
    have hne : (s.al i : 𝕜) ≠ 0 := by exact_mod_cast (inv.al_pos h hi).ne'
    rw [← map_sub, ← inv.Bp hi, map_smul, smul_smul, inv_mul_cancel₀ hne, one_smul]
  apply le_antisymm
  · have key : ∀ i < s.k, M (s.rs i) ∈ krylov (M ∘ₗ B) (M r0) (i + 1) ∧
        s.ps i ∈ krylov (M ∘ₗ B) (M r0) (i + 1) := by
      intro i
      induction i with
      | zero =>
        intro hi
        rw [inv.rs0, inv.ps0 hi]
        have : M r0 ∈ krylov (M ∘ₗ B) (M r0) (0 + 1) := Submodule.subset_span ⟨0, by omega, by simp⟩
        exact ⟨this, this⟩
      | succ i ih =>
        intro hi
        obtain ⟨ih1, ih2⟩ := ih (by omega)
        have h1 : M (s.rs (i + 1)) ∈ krylov (M ∘ₗ B) (M r0) (i + 1 + 1) := by
          rw [inv.rs i (by omega), map_sub, map_smul]
          exact Submodule.sub_mem _ (krylov_mono (by omega) ih1) (Submodule.smul_mem _ _ (krylov_map ih2))
        refine ⟨h1, ?_⟩
        rw [inv.ps i hi]
        exact Submodule.add_mem _ h1 (Submodule.smul_mem _ _ (krylov_mono (by omega) ih2))
    rw [spanTo_le]
    intro i hi
    exact krylov_mono (by omega) (key i (by omega)).2
  · rw [krylov_eq_spanTo, spanTo_le]
    intro i
    induction i with
    | zero =>
      intro hi
      simp only [pow_zero, Module.End.one_apply]
      rw [← inv.ps0 (by omega)]
      exact mem_spanTo hi
    | succ i _ =>
      intro hi
      have key : ∀ n < j, ((M ∘ₗ B) ^ n) (M r0) ∈ spanTo (𝕜 := 𝕜) s.ps (n + 1) := by
        intro n
        induction n with
        | zero =>
          intro hn
          simp only [pow_zero, Module.End.one_apply]
          rw [← inv.ps0 (by omega)]
          exact mem_spanTo (by omega)
        | succ n ih =>
          intro hn
          rw [pow_succ']
          change M (B (((M ∘ₗ B) ^ n) (M r0))) ∈ _
          obtain ⟨c, hc⟩ := mem_spanTo_iff.mp (ih (by omega))
          rw [hc, map_sum, map_sum]
          refine Submodule.sum_mem _ fun l hl => ?_
          have hl' := Finset.mem_range.mp hl
          rw [map_smul, map_smul, hMBp l (by omega)]
          refine Submodule.smul_mem _ _ (Submodule.smul_mem _ _ (Submodule.sub_mem _ ?_ ?_))
          · exact spanTo_mono (by omega) (hMr l (by omega))
          · exact spanTo_mono (by omega) (hMr (l + 1) (by omega))
      exact spanTo_mono (by omega) (key (i + 1) hi)

theorem CgInv.ys_mem (h : CgHyp ip M B Q r0) (inv : CgInv ip M B Q r0 x0 s) :
    ∀ j ≤ s.k, s.ys j ∈ krylov (M ∘ₗ B) (M r0) j := by
  intro j hj
  rw [← inv.span h j hj]
  induction j with
  | zero => rw [inv.ys0]; exact Submodule.zero_mem _
  | succ j ih =>
    rw [inv.ys j hj]
    exact Submodule.add_mem _ (spanTo_mono (by omega) (ih (by omega)))
      (Submodule.smul_mem _ _ (mem_spanTo (by omega)))

/-- Residuals are orthogonal to the Krylov subspaces. -/
theorem CgInv.galerkin (h : CgHyp ip M B Q r0) (inv : CgInv ip M B Q r0 x0 s) :
    ∀ j ≤ s.k, ∀ z ∈ krylov (M ∘ₗ B) (M r0) j, ip z (r0 - B (s.ys j)) = 0 := by
  intro j hj z hz
  rw [← inv.span h j hj, mem_spanTo_iff] at hz
  obtain ⟨c, rfl⟩ := hz
  rw [h.ls.inner.sum_left]
  refine Finset.sum_eq_zero fun i hi => ?_
  rw [h.ls.inner.smul_left, ← inv.res j hj, inv.porth j hj i (Finset.mem_range.mp hi), mul_zero]

theorem krylov_mem_map (h : CgHyp ip M B Q r0) {n : ℕ} {z : E} (hz : z ∈ krylov (M ∘ₗ B) (M r0) n) :
    ∃ q ∈ Q, z = M q := by
  have : krylov (M ∘ₗ B) (M r0) n ≤ Q.map M := by
    rw [krylov_eq_spanTo, spanTo_le]
    intro i _
    cases i with
    | zero => exact ⟨r0, h.start, by simp⟩
    | succ i =>
      refine ⟨B (((M ∘ₗ B) ^ i) (M r0)), h.rng _, ?_⟩
      rw [pow_succ']
      rfl
  obtain ⟨q, hq, hqz⟩ := this hz
  exact ⟨q, hq, hqz.symm⟩

theorem CgHyp.nonneg (h : CgHyp ip M B Q r0) {n : ℕ} {z : E} (hz : z ∈ krylov (M ∘ₗ B) (M r0) n) :
    0 ≤ RCLike.re (ip z (B z)) ∧ (RCLike.re (ip z (B z)) = 0 → z = 0) := by
  obtain ⟨q, hq, rfl⟩ := krylov_mem_map h hz
  by_cases h0 : q = 0
  · subst h0
    simp [h.ls.inner.zero_left]
  · exact ⟨(h.pos q hq h0).le, fun h1 => absurd h1 (h.pos q hq h0).ne'⟩

/-- Energy of the error `ystar - y`. -/
noncomputable def energy (ip : E → E → 𝕜) (B : E →ₗ[𝕜] E) (e : E) : ℝ := RCLike.re (ip e (B e))

/-- Optimality: among all elements of the Krylov subspace, `y_j` is the unique one with the least energy of the
error. -/
theorem CgInv.optimal (h : CgHyp ip M B Q r0) (inv : CgInv ip M B Q r0 x0 s) {ystar : E} (hy : B ystar = r0) :
    ∀ j ≤ s.k, ∀ z ∈ krylov (M ∘ₗ B) (M r0) j,
      energy ip B (ystar - s.ys j) ≤ energy ip B (ystar - z) ∧
      (energy ip B (ystar - z) = energy ip B (ystar - s.ys j) → z = s.ys j) := by
  intro j hj z hz
  have hd : s.ys j - z ∈ krylov (M ∘ₗ B) (M r0) j := Submodule.sub_mem _ (inv.ys_mem h j hj) hz
  have hg := inv.galerkin h j hj _ hd
  have he : ystar - z = (ystar - s.ys j) + (s.ys j - z) := by abel
  have hB : B (ystar - s.ys j) = r0 - B (s.ys j) := by rw [map_sub, hy]
  have e1 : energy ip B (ystar - z) = energy ip B (ystar - s.ys j) + energy ip B (s.ys j - z) := by
    unfold energy
    rw [he, map_add, h.ls.inner.add_left, h.ls.inner.add_right, h.ls.inner.add_right, hB, hg,
      ← h.sa (ystar - s.ys j), hB, h.ls.inner.orth_symm hg]
    simp
  obtain ⟨n1, n2⟩ := h.nonneg hd
  refine ⟨by rw [e1]; linarith [show 0 ≤ energy ip B (s.ys j - z) from n1], fun heq => ?_⟩
  have : energy ip B (s.ys j - z) = 0 := by linarith
  exact (sub_eq_zero.mp (n2 this)).symm

/-- The number of steps is bounded by the dimension. -/
theorem CgInv.indep [FiniteDimensional 𝕜 E] (h : CgHyp ip M B Q r0) (inv : CgInv ip M B Q r0 x0 s) :
    (s.rho s.k ≠ 0 → s.k + 1 ≤ Module.finrank 𝕜 Q) := by
  intro hr
  have hne : ∀ j ≤ s.k, gform ip M (s.rs j) (s.rs j) ≠ 0 := by
    intro j hj
    rw [h.prec.self_real, ← inv.rho j hj]
    rcases Nat.lt_or_ge j s.k with h1 | h1
    · exact_mod_cast inv.rho_ne j h1
    · obtain rfl : j = s.k := by omega
      exact_mod_cast hr
  have hli : LinearIndependent 𝕜 (fun i : Fin (s.k + 1) => s.rs i) := by
    rw [Fintype.linearIndependent_iff]
    intro c hc i
    have h1 : gform ip M (s.rs i) (∑ j : Fin (s.k + 1), c j • s.rs j) = c i * gform ip M (s.rs i) (s.rs i) := by
      rw [h.prec.sum_right, Finset.sum_eq_single i]
      · rw [h.prec.smul_right]
      · intro j _ hji
        rw [h.prec.smul_right, inv.orth i (by omega) j (by omega) (fun h => hji (Fin.ext h.symm)), mul_zero]
      · simp
    rw [hc, h.prec.zero_right] at h1
    exact (mul_eq_zero.mp h1.symm).resolve_right (hne i (by omega))
  have hliQ : LinearIndependent 𝕜 (fun i : Fin (s.k + 1) => (⟨s.rs i, inv.mem i (by omega)⟩ : Q)) :=
    LinearIndependent.of_comp Q.subtype hli
  simpa using hliQ.fintype_card_le_finrank

end
end Krypy
