import Verif.Model.RootsPoly
import Mathlib.Algebra.BigOperators.Group.List.Basic
import Mathlib.Tactic.Linarith
import Mathlib.Tactic.Positivity
import Mathlib.Tactic.NormNum
import Mathlib.Tactic.FieldSimp
import Mathlib.Tactic.Ring
import Mathlib.Data.List.Range

/-! # Properties C47 (roots polynomial) and C52 (Strakos matrix) -/

namespace Krypy
variable {𝕜 : Type*} [RCLike 𝕜]

theorem interlace_perm {α : Type*} : ∀ xs ys : List α, (interlace xs ys).Perm (xs ++ ys)
  | [], ys => by simp [interlace]
  | x :: xs, [] => by simp [interlace]
  | x :: xs, y :: ys => by
    simp only [interlace, List.cons_append]
    refine List.Perm.cons x ?_
    refine ((interlace_perm xs ys).cons y).trans ?_
    exact (List.perm_middle (a := y) (l₁ := xs) (l₂ := ys)).symm

theorem interlacedOrder_perm {argsort : List ℝ → List ℕ} (h : IsArgsort argsort) (keys : List ℝ) :
    (interlacedOrder argsort keys).Perm (List.range keys.length) := by
  unfold interlacedOrder
  refine (interlace_perm _ _).trans ?_
  refine (List.Perm.append_left _ (List.reverse_perm _)).trans ?_
  rw [List.take_append_drop]
  exact (h keys).1

theorem takeIdx_range {α : Type*} (l : List α) : takeIdx l (List.range l.length) = l := by
  unfold takeIdx
  induction l with
  | nil => simp
  | cons a l ih =>
    rw [List.length_cons, List.range_succ_eq_map]
    simp [List.filterMap_map]
    exact ih

theorem takeIdx_perm {α : Type*} {l : List α} {is : List ℕ} (h : is.Perm (List.range l.length)) :
    (takeIdx l is).Perm l := by
  have := h.filterMap (fun i => l[i]?)
  conv_rhs => rw [← takeIdx_range l]
  exact this

/-- C47: for every list of non-zero roots, every point and every (not necessarily stable) sorting
routine, the value is the documented product `∏ (1 - x/θᵢ)`. -/
theorem C47_product {argsort : List ℝ → List ℕ} (h : IsArgsort argsort) (roots : List 𝕜)
    (h0 : ∀ θ ∈ roots, θ ≠ 0) (x : 𝕜) :
    rootsPolyEval argsort roots x = .ok (roots.map fun θ => 1 - x / θ).prod := by
  unfold rootsPolyEval
  rw [if_neg (by push Not; exact h0)]
  dsimp only
  rw [← List.prod_eq_foldl]
  congr 1
  apply List.Perm.prod_eq
  apply takeIdx_perm
  refine (interlacedOrder_perm h _).trans ?_
  simp

/-- C47: arrays of points are evaluated entrywise. -/
theorem C47_array {argsort : List ℝ → List ℕ} (h : IsArgsort argsort) (roots : List 𝕜)
    (h0 : ∀ θ ∈ roots, θ ≠ 0) (xs : List 𝕜) :
    rootsPolyCall argsort roots xs =
      .ok (xs.map fun x => (roots.map fun θ => 1 - x / θ).prod) := by
  induction xs with
  | nil => rfl
  | cons x xs ih => simp [rootsPolyCall, C47_product h roots h0, ih]

/-- C47: `p(0) = 1` and `p(θᵢ) = 0`. -/
theorem C47_values {argsort : List ℝ → List ℕ} (h : IsArgsort argsort) (roots : List 𝕜)
    (h0 : ∀ θ ∈ roots, θ ≠ 0) :
    rootsPolyEval argsort roots 0 = .ok 1 ∧
    ∀ θ ∈ roots, rootsPolyEval argsort roots θ = .ok 0 := by
  constructor
  · rw [C47_product h roots h0]
    congr 1
    simp
  · intro θ hθ
    rw [C47_product h roots h0]
    congr 1
    rw [List.prod_eq_zero_iff]
    exact List.mem_map.mpr ⟨θ, hθ, by rw [div_self (h0 θ hθ), sub_self]⟩

/-- C47: nothing else is a root. -/
theorem C47_only_roots {argsort : List ℝ → List ℕ} (h : IsArgsort argsort) (roots : List 𝕜)
    (h0 : ∀ θ ∈ roots, θ ≠ 0) (x : 𝕜) (hx : rootsPolyEval argsort roots x = .ok 0) : x ∈ roots := by
  rw [C47_product h roots h0] at hx
  simp only [Except.ok.injEq] at hx
  rw [List.prod_eq_zero_iff] at hx
  obtain ⟨θ, hθ, h1⟩ := List.mem_map.mp hx
  have h2 : x / θ = 1 := (sub_eq_zero.mp h1).symm
  rw [div_eq_one_iff_eq (h0 θ hθ)] at h2
  rwa [h2]

/-- A zero root (for which `p(0) = 1` is impossible) is not rejected but divides by zero. -/
theorem C47_zero_root {argsort : List ℝ → List ℕ} (roots : List 𝕜) (h0 : (0 : 𝕜) ∈ roots) (x : 𝕜) :
    rootsPolyEval argsort roots x = .error .nonFinite := by
  unfold rootsPolyEval
  rw [if_pos ⟨0, h0, rfl⟩]

/-- C52: for `n ≥ 2`, `0 < l_min < l_max`, `0 < rho ≤ 1` the diagonal of the Strakos matrix has `n`
non-decreasing entries, starts with `l_min`, ends with `l_max`; in particular it is positive. -/
theorem C52_strakos (n : ℕ) (hn : 2 ≤ n) (lmin lmax rho : ℝ) (h0 : 0 < lmin) (h1 : lmin < lmax)
    (hr0 : 0 < rho) (hr1 : rho ≤ 1) :
    ∃ d, strakosDiag n lmin lmax rho = .ok d ∧ d.length = n ∧ d.head? = some lmin ∧
      d.getLast? = some lmax ∧ d.Pairwise (· ≤ ·) ∧ ∀ x ∈ d, lmin ≤ x ∧ x ≤ lmax ∧ 0 < x := by
  set f : ℕ → ℝ := fun j =>
    lmin + (((j + 1 : ℕ) : ℝ) - 1) * 1 / ((n : ℝ) - 1) * (lmax - lmin) * rho ^ (n - (j + 1)) with hf
  have hn1 : (0 : ℝ) < n - 1 := by
    have : (2 : ℝ) ≤ n := by exact_mod_cast hn
    linarith
  have hf0 : f 0 = lmin := by simp [hf]
  have hfl : f (n - 1) = lmax := by
    have : n - (n - 1 + 1) = 0 := by omega
    have h2 : ((n - 1 + 1 : ℕ) : ℝ) = n := by congr 1; omega
    simp only [hf, this, pow_zero, h2]
    field_simp
    ring
  have hstep : ∀ j, j + 1 < n → f j ≤ f (j + 1) := by
    intro j hj
    have hp : rho ^ (n - (j + 1)) ≤ rho ^ (n - (j + 1 + 1)) :=
      pow_le_pow_of_le_one hr0.le hr1 (by omega)
    have hp0 : 0 ≤ rho ^ (n - (j + 1)) := by positivity
    simp only [hf]
    have e1 : (((j + 1 : ℕ) : ℝ) - 1) * 1 / ((n : ℝ) - 1) ≤
        (((j + 1 + 1 : ℕ) : ℝ) - 1) * 1 / ((n : ℝ) - 1) := by
      apply div_le_div_of_nonneg_right _ hn1.le
      push_cast; linarith
    have e0 : 0 ≤ (((j + 1 : ℕ) : ℝ) - 1) * 1 / ((n : ℝ) - 1) := by
      apply div_nonneg _ hn1.le; push_cast; simp
    have e2 := mul_le_mul_of_nonneg_right e1 (by linarith : 0 ≤ lmax - lmin)
    have e3 := mul_le_mul e2 hp hp0 (mul_nonneg (e0.trans e1) (by linarith))
    linarith
  have hmono : ∀ i j, i ≤ j → j < n → f i ≤ f j := by
    intro i j hij hj
    induction j, hij using Nat.le_induction with
    | base => exact le_rfl
    | succ j _ ih => exact (ih (by omega)).trans (hstep j hj)
  refine ⟨(List.range n).map f, ?_, by simp, ?_, ?_, ?_, ?_⟩
  · unfold strakosDiag
    rw [if_neg (by omega)]
  · rw [List.head?_map, List.head?_range]
    simp [show n ≠ 0 by omega, hf0]
  · rw [List.getLast?_map, List.getLast?_range]
    simp [show n ≠ 0 by omega, hfl]
  · rw [List.pairwise_map]
    have := List.pairwise_lt_range (n := n)
    refine List.Pairwise.imp_of_mem ?_ this
    intro a b ha hb hab
    exact hmono a b hab.le (List.mem_range.mp hb)
  · intro x hx
    obtain ⟨j, hj, rfl⟩ := List.mem_map.mp hx
    have hj := List.mem_range.mp hj
    have a1 := hmono 0 j (by omega) hj
    have a2 := hmono j (n - 1) (by omega) (by omega)
    rw [hf0] at a1; rw [hfl] at a2
    exact ⟨a1, a2, by linarith⟩

/-- Finding (C52): a 1×1 Strakos matrix cannot be built (division by zero). -/
theorem C52_one_counterexample (lmin lmax rho : ℝ) :
    strakosDiag 1 lmin lmax rho = .error .other := by simp [strakosDiag]

/-- Non-vacuity of C52 and C47. -/
example : strakosDiag 3 1 5 (1 / 2) = .ok [1, 2, 5] := by
  simp [strakosDiag, List.range_succ]
  norm_num

example : ∀ θ ∈ [(1 : ℝ), 2, -3], θ ≠ 0 := by simp

end Krypy
