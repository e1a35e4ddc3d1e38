import Verif.Proofs.ArnoldiHouse
import Verif.Props.Gmres
import Verif.Proofs.Sim

/-! # Property C19: the Arnoldi iteration with Householder orthogonalisation, and GMRES with it -/

set_option linter.unusedSectionVars false

namespace Krypy
variable {𝕜 : Type*} [RCLike 𝕜] {N : ℕ}
open scoped ComplexConjugate
open Finset

/-- The states of an `Arnoldi` object with `ortho="house"` and start vector `v` after any number of successful calls
of `advance()`. -/
inductive HReach (A : (Fin (N + 1) → 𝕜) →ₗ[𝕜] (Fin (N + 1) → 𝕜)) (maxiter : ℕ) (v : Fin (N + 1) → 𝕜) :
    HArn 𝕜 N → Prop
  | init {s} : houseInit true v = .ok s → HReach A maxiter v s
  | step {s s'} : HReach A maxiter v s → houseAdvance A maxiter s = .ok s' → HReach A maxiter v s'

section
variable {A : (Fin (N + 1) → 𝕜) →ₗ[𝕜] (Fin (N + 1) → 𝕜)} {maxiter : ℕ} {v : Fin (N + 1) → 𝕜}

theorem HReach.inv {s : HArn 𝕜 N} (h : HReach A maxiter v s) : HInv A maxiter v s := by
  induction h with
  | init h =>
    obtain ⟨s, hs, inv, -⟩ := houseInit_inv (A := A) (maxiter := maxiter) v
    rw [h] at hs
    obtain rfl := Except.ok.inj hs
    exact inv
  | step _ h2 ih => exact (houseAdvance_inv ih h2).1

theorem HCore.relation {k : ℕ} {s : HArn 𝕜 N} (core : HCore A v k s) :
    ArnoldiRelation A LinearMap.id edot s.arn.V s.arn.V s.arn.H (k + 1) k := by
  have hrel : ∀ j, j < k → A (s.arn.V j) = ∑ i ∈ range (k + 1), s.arn.H i j • s.arn.V i := by
    intro j hj
    rw [core.rel j hj]
    exact sum_hess core.hess s.arn.V (by omega)
  refine ⟨fun i hi j hj => core.orth (by omega) (by omega), fun i hi => rfl, core.hess, core.sub,
    fun j hj => hrel j (by omega), fun i hi j hj => ?_⟩
  rw [hrel j hj]
  exact ((edot_inner N).coeff (fun a ha b hb => core.orth (by omega) (by omega)) (fun i => s.arn.H i j) hi).symm

/-- C19: after every number of `advance()` calls of a Householder object, what `get()` returns satisfies the Arnoldi
relation with an orthonormal basis that starts with `v/‖v‖` and nonnegative real subdiagonal entries; if the space was
flagged invariant, then the defect of the last column is orthogonal to the basis and its norm, the entry below the
diagonal, is at most `1e-14 * ‖H‖`.  No assumption on `A`. -/
theorem C19_relation {s : HArn 𝕜 N} (h : HReach A maxiter v s) :
    s.arn.vnorm = euclNorm v ∧
    ArnoldiRelation A LinearMap.id edot s.arn.V s.arn.V s.arn.H s.arn.get.basis s.arn.get.cols ∧
    (v ≠ 0 → (s.arn.vnorm : 𝕜) • s.arn.V 0 = v) ∧ s.arn.get.basis ≤ N + 1 ∧
    (s.arn.invariant = false → s.arn.get.basis = s.arn.iter + 1 ∧ s.arn.get.cols = s.arn.iter) ∧
    (s.arn.invariant = true → s.arn.get.basis = s.arn.iter ∧ s.arn.get.cols = s.arn.iter ∧
      ∀ j, j + 1 = s.arn.iter → ∃ w, A (s.arn.V j) = ∑ i ∈ range s.arn.iter, s.arn.H i j • s.arn.V i + w ∧
        (∀ i < s.arn.iter, edot (s.arn.V i) w = 0) ∧ s.arn.H (j + 1) j = (euclNorm w : 𝕜) ∧
        euclNorm w ≤ 1e-14 * specNorm s.arn.H (s.arn.iter + 1) s.arn.iter) := by
  have inv := h.inv
  refine ⟨inv.vnorm, ?_⟩
  cases hi : s.arn.invariant with
  | false =>
    have core := inv.live hi
    have e : s.arn.get = ⟨s.arn.iter + 1, s.arn.iter + 1, s.arn.iter⟩ := by simp [Arn.get, hi]
    rw [e]
    exact ⟨core.relation, fun _ => core.start, by have := core.kN; dsimp only; omega, fun _ => ⟨rfl, rfl⟩, by simp⟩
  | true =>
    have e : s.arn.get = ⟨s.arn.iter, s.arn.iter, s.arn.iter⟩ := by simp [Arn.get, hi]
    rw [e]
    rcases inv.flagged hi with ⟨hv, h0⟩ | ⟨k, w, hk, core, last⟩
    · simp only [h0]
      refine ⟨⟨by simp, by simp, fun i j _ => inv.zero i j (by omega), by simp, by simp, by simp⟩,
        fun hne => absurd hv hne, by simp, by simp, fun _ => ⟨trivial, trivial, fun j hj => by omega⟩⟩
    · have hR := core.relation
      simp only [hk]
      refine ⟨⟨hR.orth, hR.VM, hR.hess, fun j hj => ?_, hR.rel, fun i hi j hj => ?_⟩,
        fun _ => core.start, by have := core.kN; omega, by simp, fun _ => ⟨trivial, trivial, fun j hj => ?_⟩⟩
      · rcases Nat.lt_or_ge j k with h1 | h1
        · exact hR.sub j h1
        · obtain rfl : j = k := by omega
          exact ⟨_, nrm_nonneg _ _, last.norm⟩
      · rcases Nat.lt_or_ge j k with h1 | h1
        · exact hR.entries i hi j h1
        · obtain rfl : j = k := by omega
          have hrel : A (s.arn.V j) = ∑ i ∈ range (j + 1), s.arn.H i j • s.arn.P i + w := last.rel
          have ho : edot (s.arn.P i) w = 0 := last.orth i (by omega)
          rw [inv.PV] at hrel ho
          rw [hrel, (edot_inner N).add_right, ho, add_zero]
          exact ((edot_inner N).coeff (fun a ha b hb => core.orth (by omega) (by omega))
            (fun i => s.arn.H i j) hi).symm
      · obtain rfl : j = k := by omega
        have hn : s.arn.H (j + 1) j = (nrm edot w : 𝕜) := last.norm
        have hs : nrm edot w ≤ 1e-14 * specNorm s.arn.H (j + 2) (j + 1) := last.small
        rw [nrm_edot] at hn hs
        refine ⟨w, by have := last.rel; rw [inv.PV] at this; exact this,
          fun i hi => by have := last.orth i (by omega); rw [inv.PV] at this; exact this, hn, hs⟩

theorem specNorm_of_first {H : ℕ → ℕ → 𝕜} {m n : ℕ} {i j : ℕ} (hi : i < m) (hj : j < n) (h : H i j ≠ 0) :
    specNorm H m n ≠ 0 := fun h0 => h (specNorm_eq_zero.mp h0 i hi j hj)

/-- If `A v ≠ 0`, then `H` has a nonzero entry after the first step. -/
theorem newH_ne_zero {c : ArnCfg 𝕜 (Fin (N + 1) → 𝕜)} (hc : ArnHyp c) {s : Arn 𝕜 (Fin (N + 1) → 𝕜)}
    (inv : ArnInv c v s) (hit : s.iter < c.maxiter) (hni : s.invariant = false) (hA : c.A (c.Mop v) ≠ 0) :
    specNorm (newH c s) (s.iter + 2) (s.iter + 1) ≠ 0 := by
  intro h0
  have he := arnAdvance_eq hc inv hit hni
  rw [if_pos h0] at he
  rcases arnAdvance_total hc inv hit hni with ⟨s', hs'⟩ | ⟨-, -, hz⟩
  · rw [he] at hs'; simp at hs'
  · apply hA
    have core := inv.live hni
    rw [← core.start, map_smul, ← core.VM 0 (by omega), map_smul, hz, smul_zero]

/-- C19: for `A v ≠ 0` the Householder variant computes exactly the states of the Gram-Schmidt variant; in
particular C17, C20 and C21 hold for it. -/
theorem C19_eq_mgs (hA : v ≠ 0 → A v ≠ 0) {s : HArn 𝕜 N} (h : HReach A maxiter v s) :
    ArnReach ⟨A, none, edot, maxiter, .mgs⟩ v s.arn := by
  induction h with
  | init h =>
    obtain ⟨s, hs, -, -, -, ha⟩ := houseInit_inv (A := A) (maxiter := maxiter) v
    rw [h] at hs
    obtain rfl := Except.ok.inj hs
    exact .init (by simp) (by simp) ha
  | @step s s' hr h2 ih =>
    obtain ⟨-, -, hit, hni⟩ := houseAdvance_inv hr.inv h2
    have inv' : ArnInv (hcfg A maxiter) v s.arn := ih.inv (hcfg_hyp A maxiter)
    have hv : v ≠ 0 := by
      have core := hr.inv.live hni
      have h1 := core.vpos
      rw [hr.inv.vnorm, ← nrm_edot] at h1
      intro hv
      exact h1.ne' ((edot_inner N).nrm_eq_zero.mpr hv)
    obtain ⟨a, ha, hh⟩ := houseAdvance_mgs hr.inv inv' hit hni
      (newH_ne_zero (hcfg_hyp A maxiter) inv' hit hni (hA hv))
    rw [h2] at hh
    obtain rfl := Except.ok.inj hh
    exact .step ih ha

/-- C19: conversely every state of the Gram-Schmidt variant is reached with Householder orthogonalisation. -/
theorem C19_mgs_eq {a : Arn 𝕜 (Fin (N + 1) → 𝕜)} (h : ArnReach ⟨A, none, edot, maxiter, .mgs⟩ v a) :
    ∃ hs, HReach A maxiter v ⟨a, hs⟩ := by
  induction h with
  | @init Mv MvNorm s h1 h2 h3 =>
    obtain ⟨s', hs, -, -, -, ha⟩ := houseInit_inv (A := A) (maxiter := maxiter) v
    have e : arnInit (hcfg A maxiter) v Mv MvNorm = arnInit (hcfg A maxiter) v none none := by
      have hn : startNorm (hcfg A maxiter) v v MvNorm = startNorm (hcfg A maxiter) v v none := by
        cases hm : MvNorm with
        | none => rfl
        | some r =>
          have hr := h2 r hm
          have := (edot_inner N).npNorm_self v
          simp only [startNorm]
          rw [hr]
          exact this.symm
      unfold arnInit
      dsimp only [startV, hcfg] at hn ⊢
      rw [hn]
    have h3' : arnInit (hcfg A maxiter) v Mv MvNorm = .ok s := h3
    rw [e, ha] at h3'
    obtain rfl := Except.ok.inj h3'
    exact ⟨s'.houses, .init hs⟩
  | @step s s' hr h2 ih =>
    obtain ⟨hs, ih⟩ := ih
    have inv' : ArnInv (hcfg A maxiter) v s := hr.inv (hcfg_hyp A maxiter)
    have h2 : arnAdvance (hcfg A maxiter) s = .ok s' := h2
    obtain ⟨-, -, hit, hni⟩ := arnAdvance_inv (hcfg_hyp A maxiter) inv' h2
    have hn : specNorm (newH (hcfg A maxiter) s) (s.iter + 2) (s.iter + 1) ≠ 0 := by
      intro h0
      rw [arnAdvance_eq (hcfg_hyp A maxiter) inv' hit hni, if_pos h0] at h2
      simp at h2
    obtain ⟨a, ha, hh⟩ := houseAdvance_mgs ih.inv inv' hit hni hn
    dsimp only at ha
    rw [h2] at ha
    obtain rfl := Except.ok.inj ha
    exact ⟨_, .step ih hh⟩

/-- C19: a further call of `advance()` succeeds unless the object is exhausted (for `A v ≠ 0`). -/
theorem C19_advance_total (hA : A v ≠ 0) {s : HArn 𝕜 N} (h : HReach A maxiter v s) (hit : s.arn.iter < maxiter)
    (hni : s.arn.invariant = false) : ∃ s', houseAdvance A maxiter s = .ok s' ∧ HReach A maxiter v s' := by
  have hm := C19_eq_mgs (fun _ => hA) h
  have inv' : ArnInv (hcfg A maxiter) v s.arn := hm.inv (hcfg_hyp A maxiter)
  obtain ⟨a, -, hh⟩ := houseAdvance_mgs h.inv inv' hit hni (newH_ne_zero (hcfg_hyp A maxiter) inv' hit hni hA)
  exact ⟨_, hh, .step h hh⟩

/-- C19: only the Euclidean inner product without preconditioner is accepted. -/
theorem C19_rejects (v : Fin (N + 1) → 𝕜) : houseInit false v = .error .argumentError := rfl

/-- Finding: if `A v = 0`, then the space `span{v}` is invariant, but the comparison `0/0 <= 1e-14` is false; the
object goes on with a second orthonormal vector outside of the Krylov subspace (dimension at least two) or
raises `IndexError` (dimension one). -/
theorem C19_zero_product_counterexample (hv : v ≠ 0) (hA : A v = 0) (hm : 0 < maxiter) :
    ∃ s, houseInit true v = .ok s ∧
      (N = 0 → houseAdvance A maxiter s = .error .valueError) ∧
      (0 < N → ∃ s', houseAdvance A maxiter s = .ok s' ∧ s'.arn.invariant = false ∧ s'.arn.get.basis = 2 ∧
        s'.arn.V 1 ∉ krylov A v 2) := by
  obtain ⟨s, hs, inv, h0, hi, -⟩ := houseInit_inv (A := A) (maxiter := maxiter) v
  refine ⟨s, hs, ?_⟩
  have hni : s.arn.invariant = false := by
    cases hx : s.arn.invariant with
    | false => rfl
    | true => exact absurd (hi.mp hx) hv
  have core := inv.live hni
  have hAV : A (s.arn.V 0) = 0 := by
    have h1 : (s.arn.vnorm : 𝕜) • A (s.arn.V 0) = 0 := by rw [← map_smul, core.start, hA]
    exact (smul_eq_zero.mp h1).resolve_left (by have := core.vpos.ne'; simpa using this)
  have hrem : remainder (hcfg A maxiter) s.arn = 0 := by
    unfold remainder
    rw [h0, inv.PV, hcfg_g]
    change A (s.arn.V 0) - ∑ i ∈ range (0 + 1), edot (s.arn.V i) (A (s.arn.V 0)) • s.arn.V i = 0
    rw [hAV]; simp [(edot_inner N).zero_right]
  have hH : specNorm (newH (hcfg A maxiter) s.arn) (s.arn.iter + 2) (s.arn.iter + 1) = 0 := by
    rw [specNorm_eq_zero]
    intro i hi j hj
    obtain rfl : j = s.arn.iter := by omega
    rcases Nat.lt_or_ge s.arn.iter i with h | h
    · obtain rfl : i = s.arn.iter + 1 := by omega
      rw [newH_sub (hcfg_hyp A maxiter), hrem, (hcfg_hyp A maxiter).inner.nrm_eq_zero.mpr rfl]; simp
    · rw [newH_col (hcfg_hyp A maxiter) h, h0]
      change edot _ (A (s.arn.V 0)) = 0
      rw [hAV, (edot_inner N).zero_right]
  have he := houseAdvance_eq inv (by omega) hni
  dsimp only at he
  rw [if_neg (by rw [hH]; simp)] at he
  refine ⟨fun hN => ?_, fun hN => ?_⟩
  · rw [he, if_pos (by omega)]
  · rw [if_neg (by omega)] at he
    refine ⟨_, he, rfl, by simp [Arn.get, h0], ?_⟩
    have hr : HReach A maxiter v _ := .step (.init hs) he
    have hrel := (C19_relation hr).2.1
    have hb := hrel.orth 0 (by simp [Arn.get]) 1 (by simp [Arn.get, h0])
    have hb1 := hrel.orth 1 (by simp [Arn.get, h0]) 1 (by simp [Arn.get, h0])
    have hst := (C19_relation hr).2.2.1 hv
    intro hmem
    have key : ∀ x ∈ krylov A v 2, ∃ c : 𝕜, x = c • v := by
      intro x hx
      induction hx using Submodule.span_induction with
      | mem y hy =>
        obtain ⟨i, hi, hy⟩ := hy
        have h2 : y = v ∨ y = A v := by
          have : i = 0 ∨ i = 1 := by omega
          rcases this with rfl | rfl
          · left; simpa using hy
          · right; simpa using hy
        rcases h2 with h2 | h2
        · exact ⟨1, by rw [h2, one_smul]⟩
        · exact ⟨0, by rw [h2, hA, zero_smul]⟩
      | zero => exact ⟨0, by rw [zero_smul]⟩
      | add x y _ _ hx hy =>
        obtain ⟨c, rfl⟩ := hx
        obtain ⟨d, rfl⟩ := hy
        exact ⟨c + d, by rw [add_smul]⟩
      | smul c x _ hx =>
        obtain ⟨d, rfl⟩ := hx
        exact ⟨c * d, by rw [mul_smul]⟩
    obtain ⟨c, hc⟩ := key _ hmem
    rw [if_neg (by omega)] at hb
    rw [if_pos rfl] at hb1
    have hb2 := (edot_inner N).orth_symm hb
    have e : ∀ z, edot z (c • v) = c * (s.arn.vnorm * edot z (s.arn.V 0)) := by
      intro z
      rw [← core.start, (edot_inner N).smul_right, (edot_inner N).smul_right]
    have hV0 : ∀ f : Fin (N + 1) → 𝕜, Function.update s.arn.V (s.arn.iter + 1) f 0 = s.arn.V 0 :=
      fun f => Function.update_of_ne (by omega) _ _
    dsimp only at hb2 hb1 hc
    rw [hV0] at hb2
    have h3 := e (Function.update s.arn.V (s.arn.iter + 1)
      (basisVec (houseList s.arn.iter (loopVec A s) s.houses) (s.arn.iter + 1)) 1)
    rw [← hc, hb1, hb2] at h3
    simp at h3

end

/-! ## GMRES with Householder orthogonalisation -/

section
variable {a : LSArgs 𝕜 (Fin (N + 1) → 𝕜)} {s : LS 𝕜 (Fin (N + 1) → 𝕜)} {p : SolverArgs (Fin (N + 1) → 𝕜)}

/-- Related states of both variants. -/
structure HRel (A : (Fin (N + 1) → 𝕜) →ₗ[𝕜] (Fin (N + 1) → 𝕜)) (maxiter : ℕ) (v : Fin (N + 1) → 𝕜)
    (x : GmresSt 𝕜 (Fin (N + 1) → 𝕜) × Houses 𝕜 N) (y : GmresSt 𝕜 (Fin (N + 1) → 𝕜)) : Prop where
  eq : x.1 = y
  inv : HInv A maxiter v ⟨x.1.arn, x.2⟩
  mgs : ArnInv (hcfg A maxiter) v x.1.arn

theorem gmresStep_const {adv : Arn 𝕜 (Fin (N + 1) → 𝕜) → Except Err (Arn 𝕜 (Fin (N + 1) → 𝕜))}
    {x : GmresSt 𝕜 (Fin (N + 1) → 𝕜)} {b : Arn 𝕜 (Fin (N + 1) → 𝕜)} (h : adv x.arn = .ok b) :
    gmresStep adv x = gmresStep (fun _ => .ok b) x := by
  unfold gmresStep
  rw [h]

theorem gmresStep_arn {b : Arn 𝕜 (Fin (N + 1) → 𝕜)} {x x' : GmresSt 𝕜 (Fin (N + 1) → 𝕜)} {r : ℝ}
    (h : gmresStep (fun _ => .ok b) x = .ok (x', r)) : x'.arn = b := by
  unfold gmresStep at h
  simp only [Except.ok.injEq, Prod.mk.injEq] at h
  rw [← h.1]

theorem house_sim {A Mr : (Fin (N + 1) → 𝕜) →ₗ[𝕜] (Fin (N + 1) → 𝕜)}
    {post : (Fin (N + 1) → 𝕜) → Except Err (Fin (N + 1) → 𝕜)} {maxiter : ℕ} {v : Fin (N + 1) → 𝕜}
    (hA : v ≠ 0 → A v ≠ 0) :
    Sim (gmresMethodHouse A Mr post maxiter) (gmresMethod (arnAdvance (hcfg A maxiter)) Mr post maxiter)
      (HRel A maxiter v) where
  more h := by rw [← h.eq]; rfl
  k h := by rw [← h.eq]; rfl
  step := by
    intro x y x' r h hx
    change gmresStepHouse A maxiter x = _ at hx
    unfold gmresStepHouse at hx
    cases hh : houseAdvance A maxiter ⟨x.1.arn, x.2⟩ with
    | error e => rw [hh] at hx; simp at hx
    | ok b =>
      rw [hh] at hx
      dsimp only at hx
      obtain ⟨hinv', hit1, hit, hni⟩ := houseAdvance_inv h.inv hh
      have hv : v ≠ 0 := by
        have core := h.inv.live hni
        have h1 := core.vpos
        rw [h.inv.vnorm, ← nrm_edot] at h1
        intro hv
        exact h1.ne' ((edot_inner N).nrm_eq_zero.mpr hv)
      obtain ⟨b', hb', hh'⟩ := houseAdvance_mgs h.inv h.mgs hit hni
        (newH_ne_zero (hcfg_hyp A maxiter) h.mgs hit hni (hA hv))
      rw [hh] at hh'
      obtain rfl := Except.ok.inj hh'
      dsimp only at hx hb'
      cases hg : gmresStep (fun _ => .ok b') x.1 with
      | error e => rw [hg] at hx; simp at hx
      | ok q =>
        obtain ⟨x1, r1⟩ := q
        rw [hg] at hx
        simp only [Except.ok.injEq, Prod.mk.injEq] at hx
        obtain ⟨rfl, rfl⟩ := hx
        refine ⟨x1, ?_, rfl, ?_, ?_⟩
        · change gmresStep _ y = _
          rw [← h.eq, gmresStep_const hb', hg]
        · dsimp only; rw [gmresStep_arn hg]; exact hinv'
        · dsimp only; rw [gmresStep_arn hg]; exact (arnAdvance_inv (hcfg_hyp A maxiter) h.mgs hb').1
  getXk := by
    intro x y z h hz
    rw [← h.eq]
    exact hz
  post h := h
  count := rfl

theorem house_sim' {A Mr : (Fin (N + 1) → 𝕜) →ₗ[𝕜] (Fin (N + 1) → 𝕜)}
    {post : (Fin (N + 1) → 𝕜) → Except Err (Fin (N + 1) → 𝕜)} {maxiter : ℕ} {v : Fin (N + 1) → 𝕜} :
    Sim (gmresMethod (arnAdvance (hcfg A maxiter)) Mr post maxiter) (gmresMethodHouse A Mr post maxiter)
      (fun y x => HRel A maxiter v x y) where
  more h := by rw [← h.eq]; rfl
  k h := by rw [← h.eq]; rfl
  step := by
    intro y x y' r h hy
    have hy : gmresStep (arnAdvance (hcfg A maxiter)) y = .ok (y', r) := hy
    rw [← h.eq] at hy
    cases hb : arnAdvance (hcfg A maxiter) x.1.arn with
    | error e => unfold gmresStep at hy; rw [hb] at hy; simp at hy
    | ok b =>
      obtain ⟨hinv', -, hit, hni⟩ := arnAdvance_inv (hcfg_hyp A maxiter) h.mgs hb
      have hn : specNorm (newH (hcfg A maxiter) x.1.arn) (x.1.arn.iter + 2) (x.1.arn.iter + 1) ≠ 0 := by
        intro h0
        rw [arnAdvance_eq (hcfg_hyp A maxiter) h.mgs hit hni, if_pos h0] at hb
        simp at hb
      obtain ⟨b', hb', hh'⟩ := houseAdvance_mgs h.inv h.mgs hit hni hn
      dsimp only at hb'
      rw [hb] at hb'
      obtain rfl := Except.ok.inj hb'
      rw [gmresStep_const hb] at hy
      refine ⟨(y', houseList x.1.arn.iter (loopVec A ⟨x.1.arn, x.2⟩) x.2), ?_, rfl, ?_, ?_⟩
      · change gmresStepHouse A maxiter x = _
        unfold gmresStepHouse
        rw [hh']
        dsimp only
        rw [hy]
      · dsimp only; rw [gmresStep_arn hy]; exact (houseAdvance_inv h.inv hh').1
      · dsimp only; rw [gmresStep_arn hy]; exact hinv'
  getXk := by
    intro y x z h hz
    rw [← h.eq] at hz
    exact hz
  post h := h
  count := rfl

/-- Both solvers as runs of the driver. -/
theorem house_setup (hM : a.M = LinearMap.id) (hip : a.ip = edot) (hs : mkLS a = .ok s)
    (p : SolverArgs (Fin (N + 1) → 𝕜)) : ∃ h : HArn 𝕜 N, ∃ β : ℝ,
      gmresHouse s s.hooks true p = run (mkCfg s p) (gmresMethodHouse s.MlAMr s.Mr .ok p.maxiter) (p.x0.getD 0) β
        (fun x => (gmresInit h.arn β x, h.houses)) .ok ∧
      gmres s s.hooks .mgs p = run (mkCfg s p) (gmresMethod (arnAdvance (hcfg s.MlAMr p.maxiter)) s.Mr
        .ok p.maxiter) (p.x0.getD 0) β (gmresInit h.arn β) .ok ∧
      HInv s.MlAMr p.maxiter (a.Ml (a.b - a.A (p.x0.getD 0))) h ∧
      ArnInv (hcfg s.MlAMr p.maxiter) (a.Ml (a.b - a.A (p.x0.getD 0))) h.arn := by
  have hls : LSHyp a.ip a.M := by rw [hM, hip]; exact ⟨edot_inner N, edot_inner N⟩
  obtain ⟨s', hs', ok, -⟩ := mkLS_ok hls
  rw [hs] at hs'
  obtain rfl := Except.ok.inj hs'
  set v := a.Ml (a.b - a.A (p.x0.getD 0)) with hv
  obtain ⟨h, hh, inv, -, -, ha⟩ := houseInit_inv (A := s.MlAMr) (maxiter := p.maxiter) v
  have hr : s.hooks.initRes p.x0 = .ok (v, v, euclNorm v) := by
    have := ok.initRes p.x0
    rw [← hv, hM, hip] at this
    rw [show s.hooks.initRes = s.getResidualNorm from rfl, this, ← nrm_edot]
    rfl
  have hc : s.arnCfg s.hooks p.maxiter .mgs = ⟨s.MlAMr, some LinearMap.id, edot, p.maxiter, .mgs⟩ := by
    simp only [LS.arnCfg, LS.hooks, ok.M, ok.ip, hM, hip]
  have harn : arnInit (⟨s.MlAMr, some LinearMap.id, edot, p.maxiter, .mgs⟩ : ArnCfg 𝕜 (Fin (N + 1) → 𝕜)) v (some v)
      (some (euclNorm v)) = .ok h.arn := by
    rw [← ha]
    have := (edot_inner N).npNorm_self v
    rw [nrm_edot] at this
    unfold arnInit
    simp only [startNorm, startV, hcfg, this, Option.getD_some]
  refine ⟨h, euclNorm v, ?_, ?_, inv, ?_⟩
  · unfold gmresHouse
    rw [hr]
    dsimp only
    rw [hh]
    rfl
  · unfold gmres gmresRun
    dsimp only
    rw [hr]
    dsimp only
    rw [hc, harn]
    rfl
  · obtain ⟨s1, hs1, inv1, -⟩ := arnInit_inv (hcfg_hyp s.MlAMr p.maxiter) v (Mv := none) (MvNorm := none)
      (by simp) (by simp)
    rw [ha] at hs1
    obtain rfl := Except.ok.inj hs1
    exact inv1

/-- C19: `Gmres` with `ortho="house"` and with `ortho="mgs"` return (or raise `ConvergenceError` with) the same iterate,
histories and Arnoldi data, unless the first product with a nonzero initial residual vanishes.  Hence C26, C27 and
C28 carry over. -/
theorem C19_gmres (hM : a.M = LinearMap.id) (hip : a.ip = edot) (hs : mkLS a = .ok s)
    (hA : a.Ml (a.b - a.A (p.x0.getD 0)) ≠ 0 → s.MlAMr (a.Ml (a.b - a.A (p.x0.getD 0))) ≠ 0) :
    (∀ st, gmresHouse s s.hooks true p = .returned st → gmres s s.hooks .mgs p = .returned (st.setS st.s.1)) ∧
    (∀ st, gmresHouse s s.hooks true p = .convergence st →
      gmres s s.hooks .mgs p = .convergence (st.setS st.s.1)) ∧
    (∀ st, gmres s s.hooks .mgs p = .returned st →
      ∃ hs, gmresHouse s s.hooks true p = .returned (st.setS (st.s, hs))) ∧
    (∀ st, gmres s s.hooks .mgs p = .convergence st →
      ∃ hs, gmresHouse s s.hooks true p = .convergence (st.setS (st.s, hs))) := by
  obtain ⟨h, β, e1, e2, inv, inv'⟩ := house_setup hM hip hs p
  have s1 := run_sim (cfg := mkCfg s p) (xk0 := .ok) (r := β) (x0 := p.x0.getD 0)
    (house_sim (A := s.MlAMr) (Mr := s.Mr) (post := .ok) (maxiter := p.maxiter) hA)
    (mk₁ := fun x => (gmresInit h.arn β x, h.houses)) (mk₂ := gmresInit h.arn β) ⟨rfl, inv, inv'⟩
  have s2 := run_sim (cfg := mkCfg s p) (xk0 := .ok) (r := β) (x0 := p.x0.getD 0)
    (house_sim' (A := s.MlAMr) (Mr := s.Mr) (post := .ok) (maxiter := p.maxiter)
      (v := a.Ml (a.b - a.A (p.x0.getD 0))))
    (mk₁ := gmresInit h.arn β) (mk₂ := fun x => (gmresInit h.arn β x, h.houses)) ⟨rfl, inv, inv'⟩
  rw [← e1, ← e2] at s1 s2
  refine ⟨fun st hst => ?_, fun st hst => ?_, fun st hst => ?_, fun st hst => ?_⟩
  · obtain ⟨b, hb, hr⟩ := s1.1 st hst
    rw [hb, hr.eq]
  · obtain ⟨b, hb, hr⟩ := s1.2 st hst
    rw [hb, hr.eq]
  · obtain ⟨b, hb, hr⟩ := s2.1 st hst
    exact ⟨b.2, by rw [hb, ← hr.eq]⟩
  · obtain ⟨b, hb, hr⟩ := s2.2 st hst
    exact ⟨b.2, by rw [hb, ← hr.eq]⟩

end

/-! ## Non-vacuity: the shift of `ℝ³` -/

/-- `A e_0 = e_1`, `A e_1 = e_2`, `A e_2 = e_0`. -/
def exShift : (Fin (2 + 1) → ℝ) →ₗ[ℝ] (Fin (2 + 1) → ℝ) where
  toFun x := ![x 2, x 0, x 1]
  map_add' x y := by funext i; fin_cases i <;> simp
  map_smul' c x := by funext i; fin_cases i <;> simp

/-- Two steps can be done; the returned basis has three orthonormal vectors. -/
example : ∃ s, HReach exShift 3 ![1, 0, 0] s ∧ s.arn.iter = 2 ∧ (s.arn.invariant = false → s.arn.get.basis = 3) := by
  have hA : exShift ![1, 0, 0] ≠ 0 := by
    intro h
    have := congrFun h 1
    simp [exShift] at this
  obtain ⟨s0, h0, inv0, i0, hinv, -⟩ := houseInit_inv (A := exShift) (maxiter := 3) ![1, 0, 0]
  have hn0 : s0.arn.invariant = false := by
    cases hx : s0.arn.invariant with
    | false => rfl
    | true =>
      have := congrFun (hinv.mp hx) 0
      simp at this
  have r0 : HReach exShift 3 ![1, 0, 0] s0 := .init h0
  obtain ⟨s1, h1, r1⟩ := C19_advance_total hA r0 (by omega) hn0
  have hi1 := (houseAdvance_inv r0.inv h1).2.1
  have hVs := (C19_relation r1).2.2.1 (by intro h; have := congrFun h 0; simp at this)
  have hn1 : s1.arn.invariant = false := by
    cases hx : s1.arn.invariant with
    | false => rfl
    | true =>
      exfalso
      obtain ⟨-, -, h⟩ := (C19_relation r1).2.2.2.2.2 hx
      obtain ⟨w, h2, h3, h4, h5⟩ := h 0 (by omega)
      have hent := (C19_relation r1).2.1.entries 0 (by simp [Arn.get, hx]; omega) 0 (by simp [Arn.get, hx]; omega)
      have hv1 : s1.arn.vnorm = 1 := by
        rw [(C19_relation r1).1]; simp [euclNorm, Fin.sum_univ_succ]
      rw [hv1] at hVs
      have hV0 : s1.arn.V 0 = ![1, 0, 0] := by simpa using hVs
      have h00 : s1.arn.H 0 0 = 0 := by
        rw [hent, hV0]; simp [edot, exShift, Fin.sum_univ_succ]
      have hw : w = ![0, 1, 0] := by
        rw [show s1.arn.iter = 1 by omega] at h2
        simp only [Finset.sum_range_one, h00, hV0, zero_smul, zero_add] at h2
        rw [← h2]; simp [exShift]
      have h10 : s1.arn.H 1 0 = 1 := by
        rw [h4, hw]; simp [euclNorm, Fin.sum_univ_succ]
      have hnorm : specNorm s1.arn.H 2 1 ≤ 1 := by
        refine (specNorm_le_frobenius _ _ _).trans ?_
        simp [Fin.sum_univ_succ, h00, h10]
      rw [show s1.arn.iter = 1 by omega, hw] at h5
      have : euclNorm (![0, 1, 0] : Fin (2 + 1) → ℝ) = 1 := by simp [euclNorm, Fin.sum_univ_succ]
      rw [this] at h5
      nlinarith
  obtain ⟨s2, h2, r2⟩ := C19_advance_total hA r1 (by omega) hn1
  have hi2 := (houseAdvance_inv r1.inv h2).2.1
  exact ⟨s2, r2, by omega, fun h => by rw [Arn.get, h]; simp; omega⟩

/-- The finding occurs for the zero operator. -/
example : ∃ s, houseInit true (![1, 0] : Fin (1 + 1) → ℝ) = .ok s ∧
    ∃ s', houseAdvance 0 2 s = .ok s' ∧ s'.arn.invariant = false := by
  obtain ⟨s, hs, -, h⟩ := C19_zero_product_counterexample (A := (0 : (Fin (1 + 1) → ℝ) →ₗ[ℝ] _)) (maxiter := 2)
    (v := ![1, 0]) (by intro h; have := congrFun h 0; simp at this) (by simp) (by omega)
  obtain ⟨s', h1, h2, -⟩ := h (by omega)
  exact ⟨s, hs, s', h1, h2⟩

end Krypy
