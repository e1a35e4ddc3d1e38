import Verif.Proofs.Inner
import Mathlib.LinearAlgebra.Span.Basic
import Mathlib.LinearAlgebra.Dimension.Finite
import Mathlib.LinearAlgebra.FiniteDimensional.Basic
import Mathlib.LinearAlgebra.Dimension.StrongRankCondition
import Mathlib.Algebra.Module.Submodule.Map

/-! # Krylov subspaces -/

namespace Krypy
variable {𝕜 E : Type*} [RCLike 𝕜] [AddCommGroup E] [Module 𝕜 E]
open Finset

/-- The Krylov subspace `K_n(B, u) = span {u, B u, ..., B^(n-1) u}`. -/
def krylov (B : E →ₗ[𝕜] E) (u : E) (n : ℕ) : Submodule 𝕜 E :=
  Submodule.span 𝕜 {x | ∃ i < n, x = (B ^ i) u}

/-- `span {V_0, ..., V_(n-1)}`. -/
def spanTo (V : ℕ → E) (n : ℕ) : Submodule 𝕜 E := Submodule.span 𝕜 {x | ∃ i < n, x = V i}

theorem mem_spanTo {V : ℕ → E} {n i : ℕ} (hi : i < n) : V i ∈ spanTo (𝕜 := 𝕜) V n :=
  Submodule.subset_span ⟨i, hi, rfl⟩

theorem spanTo_mono {V : ℕ → E} {m n : ℕ} (h : m ≤ n) : spanTo (𝕜 := 𝕜) V m ≤ spanTo V n :=
  Submodule.span_mono fun _ ⟨i, hi, hx⟩ => ⟨i, by omega, hx⟩

theorem spanTo_zero (V : ℕ → E) : spanTo (𝕜 := 𝕜) V 0 = ⊥ := by
  rw [spanTo, Submodule.span_eq_bot]
  rintro x ⟨i, hi, -⟩
  omega

theorem mem_spanTo_iff {V : ℕ → E} {n : ℕ} {x : E} :
    x ∈ spanTo (𝕜 := 𝕜) V n ↔ ∃ c : ℕ → 𝕜, x = ∑ i ∈ range n, c i • V i := by
  constructor
  · intro hx
    induction hx using Submodule.span_induction with
    | mem x hx =>
      obtain ⟨i, hi, rfl⟩ := hx
      refine ⟨Pi.single i 1, ?_⟩
      rw [Finset.sum_eq_single i]
      · simp
      · intro j _ hji
        simp [hji]
      · intro h
        exact absurd (Finset.mem_range.mpr hi) h
    | zero => exact ⟨0, by simp⟩
    | add x y _ _ hx hy =>
      obtain ⟨c, rfl⟩ := hx
      obtain ⟨d, rfl⟩ := hy
      exact ⟨c + d, by simp [add_smul, Finset.sum_add_distrib]⟩
    | smul t x _ hx =>
      obtain ⟨c, rfl⟩ := hx
      exact ⟨t • c, by simp [Finset.smul_sum, smul_smul]⟩
  · rintro ⟨c, rfl⟩
    exact Submodule.sum_mem _ fun i hi => Submodule.smul_mem _ _ (mem_spanTo (Finset.mem_range.mp hi))

theorem spanTo_le {V : ℕ → E} {n : ℕ} {S : Submodule 𝕜 E} :
    spanTo V n ≤ S ↔ ∀ i < n, V i ∈ S := by
  rw [spanTo, Submodule.span_le]
  constructor
  · intro h i hi; exact h ⟨i, hi, rfl⟩
  · rintro h x ⟨i, hi, rfl⟩; exact h i hi

theorem krylov_eq_spanTo (B : E →ₗ[𝕜] E) (u : E) (n : ℕ) :
    krylov B u n = spanTo (fun i => (B ^ i) u) n := rfl

theorem krylov_mono {B : E →ₗ[𝕜] E} {u : E} {m n : ℕ} (h : m ≤ n) : krylov B u m ≤ krylov B u n :=
  spanTo_mono h

theorem krylov_map {B : E →ₗ[𝕜] E} {u x : E} {n : ℕ} (hx : x ∈ krylov B u n) :
    B x ∈ krylov B u (n + 1) := by
  rw [krylov_eq_spanTo, mem_spanTo_iff] at hx
  obtain ⟨c, rfl⟩ := hx
  rw [map_sum]
  refine Submodule.sum_mem _ fun i hi => ?_
  rw [map_smul]
  refine Submodule.smul_mem _ _ (Submodule.subset_span ⟨i + 1, ?_, ?_⟩)
  · have := Finset.mem_range.mp hi; omega
  · rw [pow_succ']; rfl

/-- Vectors generated by a Hessenberg recurrence span the Krylov subspaces. -/
theorem spanTo_eq_krylov {B : E →ₗ[𝕜] E} {u : E} {V : ℕ → E} {h : ℕ → ℕ → 𝕜} {k : ℕ} {t : 𝕜}
    (ht : t ≠ 0) (h0 : u = t • V 0) (hrel : ∀ j < k, B (V j) = ∑ i ∈ range (j + 2), h i j • V i)
    (hsub : ∀ j < k, h (j + 1) j ≠ 0) : ∀ n ≤ k + 1, spanTo V n = krylov B u n := by
  have key : ∀ n ≤ k, spanTo V (n + 1) ≤ krylov B u (n + 1) ∧ (B ^ n) u ∈ spanTo (𝕜 := 𝕜) V (n + 1) := by
    intro n
    induction n with
    | zero =>
      intro _
      have hV0 : V 0 = t⁻¹ • u := by rw [h0, smul_smul, inv_mul_cancel₀ ht, one_smul]
      constructor
      · rw [spanTo_le]
        intro i hi
        obtain rfl : i = 0 := by omega
        rw [hV0]
        exact Submodule.smul_mem _ _ (Submodule.subset_span ⟨0, by omega, by simp⟩)
      · rw [pow_zero, Module.End.one_apply, h0]
        exact Submodule.smul_mem _ _ (mem_spanTo (by omega))
    | succ n ih =>
      intro hn
      obtain ⟨ih1, ih2⟩ := ih (by omega)
      have hBV : B (V n) = ∑ i ∈ range (n + 1), h i n • V i + h (n + 1) n • V (n + 1) := by
        rw [hrel n (by omega), Finset.sum_range_succ]
      constructor
      · rw [spanTo_le]
        intro i hi
        rcases Nat.lt_or_ge i (n + 1) with h1 | h1
        · exact krylov_mono (by omega) (spanTo_le.mp ih1 i h1)
        · obtain rfl : i = n + 1 := by omega
          have hV : V (n + 1) = (h (n + 1) n)⁻¹ • (B (V n) - ∑ i ∈ range (n + 1), h i n • V i) := by
            rw [hBV, add_sub_cancel_left, smul_smul, inv_mul_cancel₀ (hsub n (by omega)), one_smul]
          rw [hV]
          refine Submodule.smul_mem _ _ (Submodule.sub_mem _ ?_ ?_)
          · exact krylov_map (ih1 (mem_spanTo (by omega)))
          · refine krylov_mono (Nat.le_succ _) (ih1 ?_)
            exact Submodule.sum_mem _ fun i hi =>
              Submodule.smul_mem _ _ (mem_spanTo (Finset.mem_range.mp hi))
      · rw [pow_succ']
        change B ((B ^ n) u) ∈ _
        obtain ⟨c, hc⟩ := mem_spanTo_iff.mp ih2
        rw [hc, map_sum]
        refine Submodule.sum_mem _ fun i hi => ?_
        have hi' := Finset.mem_range.mp hi
        rw [map_smul, hrel i (by omega)]
        refine Submodule.smul_mem _ _ (Submodule.sum_mem _ fun j hj => Submodule.smul_mem _ _ ?_)
        have hj' := Finset.mem_range.mp hj
        exact mem_spanTo (by omega)
  intro n hn
  cases n with
  | zero => rw [krylov_eq_spanTo, spanTo_zero, spanTo_zero]
  | succ n =>
    refine le_antisymm (key n (by omega)).1 ?_
    rw [krylov_eq_spanTo, spanTo_le]
    intro i hi
    exact spanTo_mono (by omega) (key i (by omega)).2

/-- Orthonormal vectors are linearly independent, hence at most `dim E` many. -/
theorem orthonormal_card_le [FiniteDimensional 𝕜 E] {g : E → E → 𝕜} (hg : IsInner g) {P : ℕ → E} {n : ℕ}
    (horth : ∀ i < n, ∀ j < n, g (P i) (P j) = if i = j then 1 else 0) : n ≤ Module.finrank 𝕜 E := by
  have hli : LinearIndependent 𝕜 (fun i : Fin n => P i) := by
    rw [Fintype.linearIndependent_iff]
    intro c hc i
    have h1 : g (P i) (∑ j, c j • P j) = 0 := by rw [hc, hg.zero_right]
    rw [hg.sum_right, Finset.sum_eq_single i] at h1
    · rw [hg.smul_right, horth i i.2 i i.2, if_pos rfl, mul_one] at h1
      exact h1
    · intro j _ hji
      rw [hg.smul_right, horth i i.2 j j.2, if_neg (fun h => hji (Fin.ext h.symm)), mul_zero]
    · simp
  have := hli.fintype_card_le_finrank
  simpa using this

/-- A vector orthogonal to `dim E` orthonormal vectors is zero. -/
theorem eq_zero_of_orth_full [FiniteDimensional 𝕜 E] {g : E → E → 𝕜} (hg : IsInner g) {P : ℕ → E} {n : ℕ}
    (horth : ∀ i < n, ∀ j < n, g (P i) (P j) = if i = j then 1 else 0) (hn : n = Module.finrank 𝕜 E) {w : E}
    (hw : ∀ i < n, g (P i) w = 0) : w = 0 := by
  by_contra hne
  have hr : nrm g w ≠ 0 := fun h => hne (hg.nrm_eq_zero.mp h)
  have hr' : ((nrm g w : ℝ) : 𝕜) ≠ 0 := by simpa using hr
  have := orthonormal_card_le hg (P := Function.update P n (((nrm g w : 𝕜)⁻¹) • w)) (n := n + 1) ?_
  · omega
  · have hself : g (((nrm g w : 𝕜)⁻¹) • w) (((nrm g w : 𝕜)⁻¹) • w) = 1 := by
      rw [hg.smul_left, hg.smul_right, hg.self_real, ← hg.nrm_sq, map_inv₀, RCLike.conj_ofReal]
      push_cast
      field_simp
    intro i hi j hj
    simp only [Function.update_apply]
    rcases Nat.lt_or_ge i n with h1 | h1 <;> rcases Nat.lt_or_ge j n with h2 | h2
    · rw [if_neg (by omega), if_neg (by omega)]; exact horth i h1 j h2
    · rw [if_neg (by omega), if_pos (by omega), if_neg (by omega), hg.smul_right, hw i h1, mul_zero]
    · rw [if_pos (by omega), if_neg (by omega), if_neg (by omega), hg.smul_left,
        hg.orth_symm (hw j h2), mul_zero]
    · rw [if_pos (by omega), if_pos (by omega), if_pos (by omega)]; exact hself

end Krypy
