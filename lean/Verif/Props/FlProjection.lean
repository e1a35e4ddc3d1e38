import Verif.Model.FlProjection
import Verif.Props.Projection
import Verif.Props.FlOrtho
import Verif.Props.FlHouse

/-!
# Property C87: `Projection` with rounding errors

`flMkProj`, `flProjApply`, … are the methods of `utils.Projection` over arbitrary operations; with exact operations they are the exact model (`C87_refines`).
The exact projection `P = V ⟨W,V⟩⁻¹ ⟨W,·⟩` belongs to the bases which the object stores.
-/

set_option linter.unusedSectionVars false

namespace Krypy
open Matrix

/-! ## Refinement -/

section
variable {𝕜 E : Type*} [RCLike 𝕜] [AddCommGroup E] [Module 𝕜 E] {k : ℕ}

/-- Exact operations. -/
noncomputable def exactProj (ip : E → E → 𝕜) (rt : QrRoutines 𝕜 E k) : FlProjOps 𝕜 E k where
  zeros := 0
  zeroK := 0
  add := (· + ·)
  sub := (· - ·)
  ip := ip
  dot := lincomb
  adj := Matrix.conjTranspose
  mul := Matrix.mulVec
  solveU := solveUpper
  solveL := solveLower
  qr := rt.qr
  matQr M := .ok (rt.matQr M)

theorem flRefine_exact (ip : E → E → 𝕜) (rt : QrRoutines 𝕜 E k) (f : E → Except Err E) (a x : E) (n : ℕ) : flRefine (exactProj ip rt) f a n x = refine f a n x := by
  induction n with
  | zero => rfl
  | succ n ih =>
    unfold flRefine refine
    rw [ih]
    rfl

theorem flRefineCompl_exact (ip : E → E → 𝕜) (rt : QrRoutines 𝕜 E k) (f : E → Except Err E) (z : E) (n : ℕ) :
    flRefineCompl (exactProj ip rt) f n z = refineCompl f n z := by
  induction n with
  | zero => rfl
  | succ n ih =>
    unfold flRefineCompl refineCompl
    rw [ih]
    rfl

theorem flProjApply1_exact (ip : E → E → 𝕜) (rt : QrRoutines 𝕜 E k) (p : Proj 𝕜 E k) (a : E) : flProjApply1 (exactProj ip rt) p a = p.apply1 ip a := by
  unfold flProjApply1 Proj.apply1
  split
  · rfl
  · unfold flProjSolve flProjYa
    rcases p with ⟨V, W, VR, WR, QR, it⟩
    rcases QR with _ | ⟨Q, R⟩
    · rfl
    · dsimp only [exactProj]
      rfl

theorem flProjApply1x_exact (ip : E → E → 𝕜) (rt : QrRoutines 𝕜 E k) (p : Proj 𝕜 E k) : flProjApply1x (exactProj ip rt) p = p.apply1x ip := by
  funext a
  unfold flProjApply1x Proj.apply1x
  rw [flProjApply1_exact]
  rcases p.apply1 ip a with e | ⟨x, y⟩ <;> rfl

theorem flProjApplyAdj1_exact (ip : E → E → 𝕜) (rt : QrRoutines 𝕜 E k) (p : Proj 𝕜 E k) : flProjApplyAdj1 (exactProj ip rt) p = p.applyAdj1 ip := by
  funext a
  unfold flProjApplyAdj1 Proj.applyAdj1
  split
  · rfl
  · unfold flProjSolveAdj
    rcases p with ⟨V, W, VR, WR, QR, it⟩
    rcases QR with _ | ⟨Q, R⟩
    · rfl
    · dsimp only [exactProj]
      rw [show (fun i => ip (V i) a) = coefs ip V a from rfl]
      cases solveLower Rᴴ (coefs ip V a) <;> rfl

/-- C87: with exact operations the constructor and the four methods are the exact model. -/
theorem C87_refines (ip : E → E → 𝕜) (rt : QrRoutines 𝕜 E k) :
    (∀ (A : Fin k → E) (Y : Option (Fin k → E)) (orth : Bool) (it : ℤ), flMkProj (exactProj ip rt) A Y orth it = mkProj ip rt A Y orth it) ∧
      ∀ (p : Proj 𝕜 E k) (a : E), flProjApply (exactProj ip rt) p a = p.apply ip a ∧ flProjApplyAdj (exactProj ip rt) p a = p.applyAdj ip a ∧
        flProjCompl (exactProj ip rt) p a = p.applyCompl ip a ∧ flProjComplAdj (exactProj ip rt) p a = p.applyComplAdj ip a := by
  refine ⟨fun A Y orth it => ?_, fun p a => ⟨?_, ?_, ?_, ?_⟩⟩
  · unfold flMkProj mkProj
    rcases Y with _ | Y <;> simp only [flOblique] <;> rfl
  · unfold flProjApply Proj.apply
    rw [flProjApply1_exact, flProjApply1x_exact]
    simp only [flRefine_exact]
    rcases p.apply1 ip a with e | ⟨x, y⟩ <;> rfl
  · unfold flProjApplyAdj Proj.applyAdj
    rw [flProjApplyAdj1_exact]
    simp only [flRefine_exact]
    rfl
  · unfold flProjCompl Proj.applyCompl
    rw [flProjApply1_exact, flProjApply1x_exact]
    simp only [flRefineCompl_exact]
    rcases p.apply1 ip a with e | ⟨x, y⟩ <;> rfl
  · unfold flProjComplAdj Proj.applyComplAdj
    rw [flProjApplyAdj1_exact]
    simp only [flRefineCompl_exact]
    rfl

end

/-! ## The loops -/

section
variable {K X : Type*} {k : ℕ}

/-- `z` is the result of `apply_complement(a)` (`f` is `_apply`) or of `apply_complement_adj(a)` (`f` is `_apply_adj`). -/
def FlComplement (o : FlProjOps K X k) (p : Proj K X k) (f : X → Except Err X) (a z : X) : Prop :=
  (f = flProjApply1x o p ∧ ∃ Ya, flProjCompl o p a = .ok (z, Ya)) ∨ (f = flProjApplyAdj1 o p ∧ flProjComplAdj o p a = .ok z)

/-- `x` is the result of `apply(a)` (`f` is `_apply`) or of `apply_adj(a)` (`f` is `_apply_adj`). -/
def FlApplied (o : FlProjOps K X k) (p : Proj K X k) (f : X → Except Err X) (a x : X) : Prop :=
  (f = flProjApply1x o p ∧ ∃ Ya, flProjApply o p a = .ok (x, Ya)) ∨ (f = flProjApplyAdj1 o p ∧ flProjApplyAdj o p a = .ok x)

theorem flRefineCompl_shift (o : FlProjOps K X k) {f : X → Except Err X} {a x : X} (hx : f a = .ok x) (n : ℕ) :
    flRefineCompl o f (n + 1) a = flRefineCompl o f n (o.sub a x) := by
  induction n with
  | zero => simp [flRefineCompl, hx]
  | succ n ih =>
    conv_lhs => unfold flRefineCompl
    conv_rhs => unfold flRefineCompl
    rw [ih]

theorem FlComplement.loop {o : FlProjOps K X k} {p : Proj K X k} {f : X → Except Err X} {a z : X} (h : FlComplement o p f a z) (hk : k ≠ 0)
    (hit : 1 ≤ p.iterations) : flRefineCompl o f p.iterations a = .ok z := by
  obtain ⟨m, hm⟩ : ∃ m, p.iterations = m + 1 := ⟨p.iterations - 1, by omega⟩
  rcases h with ⟨rfl, Ya, h⟩ | ⟨rfl, h⟩
  · unfold flProjCompl at h
    rw [if_neg hk, hm, Nat.add_sub_cancel] at h
    split at h
    · cases h
    rename_i r hr
    split at h
    · cases h
    rename_i z' hz'
    obtain ⟨rfl, -⟩ := Prod.mk.inj (Except.ok.inj h)
    rw [hm, flRefineCompl_shift o (x := r.1) (by unfold flProjApply1x; rw [hr]), hz']
  · unfold flProjComplAdj at h
    rw [if_neg hk, hm, Nat.add_sub_cancel] at h
    split at h
    · cases h
    rename_i x hx
    rw [hm, flRefineCompl_shift o hx, h]

theorem FlApplied.loop {o : FlProjOps K X k} {p : Proj K X k} {f : X → Except Err X} {a x : X} (h : FlApplied o p f a x) (hk : k ≠ 0) :
    ∃ x₁, f a = .ok x₁ ∧ flRefine o f a (p.iterations - 1) x₁ = .ok x := by
  rcases h with ⟨rfl, Ya, h⟩ | ⟨rfl, h⟩
  · unfold flProjApply at h
    rw [if_neg hk] at h
    split at h
    · cases h
    rename_i r hr
    split at h
    · cases h
    rename_i z' hz'
    obtain ⟨rfl, -⟩ := Prod.mk.inj (Except.ok.inj h)
    exact ⟨r.1, by unfold flProjApply1x; rw [hr], hz'⟩
  · unfold flProjApplyAdj at h
    rw [if_neg hk] at h
    split at h
    · cases h
    rename_i x₁ hx
    exact ⟨x₁, hx, h⟩

end

section
variable {𝕜 E : Type*} [RCLike 𝕜] [NormedAddCommGroup E] [NormedSpace 𝕜 E] {K X : Type*} {k : ℕ}

/-- Sums and differences with relative errors of at most `u`. -/
structure FlProjVec (o : FlProjOps K X k) (vec : X → E) (fin : X → Prop) (u : ℝ) : Prop where
  sub : ∀ {x y}, fin (o.sub x y) → fin x ∧ fin y ∧ ‖vec (o.sub x y) - (vec x - vec y)‖ ≤ u * ‖vec x - vec y‖
  add : ∀ {x y}, fin (o.add x y) → fin x ∧ fin y ∧ ‖vec (o.add x y) - (vec x + vec y)‖ ≤ u * ‖vec x + vec y‖

/-- `f` computes `P` up to errors of at most `δ` relative to the argument; the results are in the range of `P` up to `ρ`. -/
structure FlMap (vec : X → E) (fin : X → Prop) (f : X → Except Err X) (P : E →ₗ[𝕜] E) (δ ρ : ℝ) : Prop where
  arg : ∀ {a x}, f a = .ok x → fin x → fin a
  err : ∀ {a x}, f a = .ok x → fin x → ‖vec x - P (vec a)‖ ≤ δ * ‖vec a‖
  range : ∀ {a x}, f a = .ok x → fin x → ‖vec x - P (vec x)‖ ≤ ρ * ‖vec a‖

/-- A projection with bounds for its norm and the norm of its complement. -/
structure BddProj (P : E →ₗ[𝕜] E) (π π' : ℝ) : Prop where
  idem : ∀ a, P (P a) = P a
  norm : ∀ a, ‖P a‖ ≤ π * ‖a‖
  compl : ∀ a, ‖a - P a‖ ≤ π' * ‖a‖
  nonneg : 0 ≤ π
  nonneg' : 0 ≤ π'

/-- The error of one step `z - _apply(z)` relative to `z`. -/
def projEta (u δ π' : ℝ) : ℝ := δ + u * (π' + δ)

variable {o : FlProjOps K X k} {p : Proj K X k} {vec : X → E} {fin : X → Prop} {f : X → Except Err X} {P : E →ₗ[𝕜] E} {u δ ρ π π' : ℝ}

/-- One step `z - w` with `w = f(z)`. -/
theorem flCompl_step (hv : FlProjVec o vec fin u) (hf : FlMap vec fin f P δ ρ) (hP : BddProj P π π') (hu0 : 0 ≤ u) {z w : X} (hw : f z = .ok w)
    (hfin : fin (o.sub z w)) : fin z ∧ ‖vec (o.sub z w) - (vec z - P (vec z))‖ ≤ projEta u δ π' * ‖vec z‖ ∧ ‖P (vec (o.sub z w))‖ ≤ π * projEta u δ π' * ‖vec z‖ ∧
      ‖vec (o.sub z w) - P (vec (o.sub z w)) - (vec z - P (vec z))‖ ≤ π' * projEta u δ π' * ‖vec z‖ := by
  obtain ⟨h1, h2, h3⟩ := hv.sub hfin
  have h4 := hf.err hw h2
  have h5 : ‖vec z - vec w‖ ≤ (π' + δ) * ‖vec z‖ := by
    have e : vec z - vec w = (vec z - P (vec z)) - (vec w - P (vec z)) := by abel
    rw [e]
    have := norm_sub_le (vec z - P (vec z)) (vec w - P (vec z))
    have := hP.compl (vec z)
    linarith
  have h6 : ‖vec (o.sub z w) - (vec z - P (vec z))‖ ≤ projEta u δ π' * ‖vec z‖ := by
    have e : vec (o.sub z w) - (vec z - P (vec z)) = (vec (o.sub z w) - (vec z - vec w)) - (vec w - P (vec z)) := by abel
    rw [e]
    have h7 := norm_sub_le (vec (o.sub z w) - (vec z - vec w)) (vec w - P (vec z))
    have h8 := mul_le_mul_of_nonneg_left h5 hu0
    unfold projEta
    linarith
  have h9 : P (vec (o.sub z w) - (vec z - P (vec z))) = P (vec (o.sub z w)) := by rw [map_sub, map_sub, hP.idem, sub_self, sub_zero]
  refine ⟨h1, h6, ?_, ?_⟩
  · rw [← h9, mul_assoc]
    exact (hP.norm _).trans (mul_le_mul_of_nonneg_left h6 hP.nonneg)
  · have e : vec (o.sub z w) - P (vec (o.sub z w)) - (vec z - P (vec z)) =
        (vec (o.sub z w) - (vec z - P (vec z))) - P (vec (o.sub z w) - (vec z - P (vec z))) := by rw [h9]; abel
    rw [e, mul_assoc]
    exact (hP.compl _).trans (mul_le_mul_of_nonneg_left h6 hP.nonneg')

/-- The iterates of the loop. -/
theorem flRefineCompl_seq {n : ℕ} {a z : X} (h : flRefineCompl o f n a = .ok z) :
    ∃ zs : ℕ → X, zs 0 = a ∧ zs n = z ∧ (∀ j ≤ n, flRefineCompl o f j a = .ok (zs j)) ∧ ∀ j < n, ∃ w, f (zs j) = .ok w ∧ zs (j + 1) = o.sub (zs j) w := by
  induction n generalizing z with
  | zero =>
    obtain rfl := Except.ok.inj h
    refine ⟨fun _ => a, rfl, rfl, fun j hj => ?_, fun j hj => absurd hj (Nat.not_lt_zero j)⟩
    obtain rfl := Nat.le_zero.mp hj
    rfl
  | succ n ih =>
    have h' := h
    unfold flRefineCompl at h
    split at h
    · cases h
    rename_i z' hz'
    split at h
    · cases h
    rename_i w hw
    obtain rfl := Except.ok.inj h
    obtain ⟨zs, h0, hn, hr, hs⟩ := ih hz'
    refine ⟨Function.update zs (n + 1) (o.sub z' w), (Function.update_of_ne (Nat.succ_ne_zero n).symm _ _).trans h0, Function.update_self .., fun j hj => ?_, fun j hj => ?_⟩
    · rcases Nat.lt_or_ge j (n + 1) with h1 | h1
      · rw [Function.update_of_ne (by omega)]
        exact hr j (by omega)
      · obtain rfl : j = n + 1 := by omega
        rw [Function.update_self]
        exact h'
    · rcases Nat.lt_or_ge j n with h1 | h1
      · obtain ⟨w', h2, h3⟩ := hs j h1
        refine ⟨w', ?_, ?_⟩
        · rw [Function.update_of_ne (by omega)]
          exact h2
        · rw [Function.update_of_ne (by omega), Function.update_of_ne (by omega)]
          exact h3
      · obtain rfl : j = n := by omega
        refine ⟨w, ?_, ?_⟩
        · rw [Function.update_of_ne (by omega), hn]
          exact hw
        · rw [Function.update_self, Function.update_of_ne (by omega), hn]

theorem seq_fin (hv : FlProjVec o vec fin u) {n : ℕ} {zs : ℕ → X} (hs : ∀ j < n, ∃ w, f (zs j) = .ok w ∧ zs (j + 1) = o.sub (zs j) w) (hn : fin (zs n)) :
    ∀ j ≤ n, fin (zs j) := by
  intro j hj
  induction hj using Nat.decreasingInduction with
  | self => exact hn
  | of_succ j hj ih =>
    obtain ⟨w, -, h2⟩ := hs j hj
    rw [h2] at ih
    exact (hv.sub ih).1

/-- C87: with `n` iterations, `apply_complement` and `apply_complement_adj` return `a - P a` up to an error proportional to the norm of `a`; the constant grows at most
linearly with `n`. -/
theorem C87_complement (hv : FlProjVec o vec fin u) (hf : FlMap vec fin f P δ ρ) (hP : BddProj P π π') (hu0 : 0 ≤ u) (hδ : 0 ≤ δ) (hk : k ≠ 0)
    (hit : 1 ≤ p.iterations) {a z : X} (hz : FlComplement o p f a z) (hfin : fin z) (hsmall : (π' * p.iterations + π) * projEta u δ π' ≤ 1 / 2) :
    ‖vec z - (vec a - P (vec a))‖ ≤ (π' * p.iterations + π) * projEta u δ π' * (1 + 2 * π') * ‖vec a‖ := by
  have hl := hz.loop hk hit
  obtain ⟨zs, h0, hn, -, hs⟩ := flRefineCompl_seq hl
  rw [← hn] at hfin
  have hfins := seq_fin hv hs hfin
  generalize p.iterations = n at *
  set η := projEta u δ π' with hη
  have hη0 : 0 ≤ η := by
    rw [hη]
    unfold projEta
    have := hP.nonneg'
    positivity
  have hπ := hP.nonneg
  have hπ' := hP.nonneg'
  set B := (1 + 2 * π') * ‖vec a‖ with hB
  have hB0 : 0 ≤ B := by positivity
  have key : ∀ j ≤ n, ‖vec (zs j) - P (vec (zs j)) - (vec a - P (vec a))‖ ≤ π' * j * η * B ∧ ‖vec (zs j)‖ ≤ B ∧ (0 < j → ‖P (vec (zs j))‖ ≤ π * η * B) := by
    intro j
    induction j with
    | zero =>
      intro _
      rw [h0]
      refine ⟨by simp, ?_, fun h => absurd h (lt_irrefl 0)⟩
      rw [hB]
      have := norm_nonneg (vec a)
      nlinarith
    | succ j ih =>
      intro hj
      obtain ⟨i1, i2, -⟩ := ih (by omega)
      obtain ⟨w, hw, he⟩ := hs j (by omega)
      have hfj := hfins (j + 1) hj
      rw [he] at hfj
      obtain ⟨-, s2, s3, s4⟩ := flCompl_step hv hf hP hu0 hw hfj
      rw [← he] at s2 s3 s4
      have t1 : ‖P (vec (zs (j + 1)))‖ ≤ π * η * B := s3.trans (mul_le_mul_of_nonneg_left i2 (by positivity))
      have t2 : ‖vec (zs (j + 1)) - P (vec (zs (j + 1))) - (vec a - P (vec a))‖ ≤ π' * (j + 1 : ℕ) * η * B := by
        have e : vec (zs (j + 1)) - P (vec (zs (j + 1))) - (vec a - P (vec a)) = (vec (zs (j + 1)) - P (vec (zs (j + 1))) - (vec (zs j) - P (vec (zs j)))) +
          (vec (zs j) - P (vec (zs j)) - (vec a - P (vec a))) := by abel
        rw [e]
        refine (norm_add_le _ _).trans ?_
        have := s4.trans (mul_le_mul_of_nonneg_left i2 (by positivity))
        push_cast
        linarith
      refine ⟨t2, ?_, fun _ => t1⟩
      have e : vec (zs (j + 1)) = (vec (zs (j + 1)) - P (vec (zs (j + 1))) - (vec a - P (vec a))) + (vec a - P (vec a)) + P (vec (zs (j + 1))) := by abel
      have t3 : ‖vec (zs (j + 1))‖ ≤ π' * (j + 1 : ℕ) * η * B + π' * ‖vec a‖ + π * η * B := by
        rw [e]
        refine (norm_add_le _ _).trans (add_le_add ((norm_add_le _ _).trans (add_le_add t2 (hP.compl _))) t1)
      have t4 : (π' * (j + 1 : ℕ) + π) * η ≤ 1 / 2 := by
        refine le_trans (mul_le_mul_of_nonneg_right ?_ hη0) hsmall
        have : ((j + 1 : ℕ) : ℝ) ≤ n := by exact_mod_cast hj
        have := mul_le_mul_of_nonneg_left this hπ'
        linarith
      have t5 := mul_le_mul_of_nonneg_right t4 hB0
      have t6 := norm_nonneg (vec a)
      have t7 : π' * ‖vec a‖ + B / 2 ≤ B := by
        rw [hB]
        nlinarith
      linarith
  obtain ⟨k1, -, k3⟩ := key n le_rfl
  rw [← hn]
  have e : vec (zs n) - (vec a - P (vec a)) = (vec (zs n) - P (vec (zs n)) - (vec a - P (vec a))) + P (vec (zs n)) := by abel
  rw [e]
  refine (norm_add_le _ _).trans ?_
  have := k3 (by omega)
  rw [mul_assoc _ (1 + 2 * π') ‖vec a‖, ← hB]
  linarith

/-- C87: the part of the result in the range of `P` is small relative to the *last* vector to which the projection was applied: to `a` for one iteration, and to the result
with one iteration less otherwise. -/
theorem C87_last (hv : FlProjVec o vec fin u) (hf : FlMap vec fin f P δ ρ) (hP : BddProj P π π') (hu0 : 0 ≤ u) (hk : k ≠ 0) (hit : 1 ≤ p.iterations)
    {a z : X} (hz : FlComplement o p f a z) (hfin : fin z) :
    ∃ z₀, fin z₀ ∧ (p.iterations = 1 ∧ z₀ = a ∨ 2 ≤ p.iterations ∧ flRefineCompl o f (p.iterations - 1) a = .ok z₀) ∧
      ‖P (vec z)‖ ≤ π * projEta u δ π' * ‖vec z₀‖ ∧ ‖vec z - (vec z₀ - P (vec z₀))‖ ≤ projEta u δ π' * ‖vec z₀‖ := by
  have hl := hz.loop hk hit
  obtain ⟨zs, h0, hn, hr, hs⟩ := flRefineCompl_seq hl
  obtain ⟨w, hw, he⟩ := hs (p.iterations - 1) (by omega)
  rw [Nat.sub_add_cancel hit, hn] at he
  subst he
  obtain ⟨s1, s2, s3, -⟩ := flCompl_step hv hf hP hu0 hw hfin
  refine ⟨zs (p.iterations - 1), s1, ?_, s3, s2⟩
  rcases Nat.lt_or_ge p.iterations 2 with h2 | h2
  · left
    have : p.iterations = 1 := by omega
    exact ⟨this, by rw [this]; exact h0⟩
  · exact .inr ⟨h2, hr _ (by omega)⟩

/-- C87, twice is enough: with at least two iterations the part of the result in the range of `P` is small relative to the result itself, if `‖a‖ ≤ κ ‖a - P a‖` and the
errors are small compared with `1 / κ`. -/
theorem C87_twice (hv : FlProjVec o vec fin u) (hf : FlMap vec fin f P δ ρ) (hP : BddProj P π π') (hu0 : 0 ≤ u) (hδ : 0 ≤ δ) (hk : k ≠ 0)
    (hit : 2 ≤ p.iterations) {a z : X} (hz : FlComplement o p f a z) (hfin : fin z) {κ : ℝ} (hκ : ‖vec a‖ ≤ κ * ‖vec a - P (vec a)‖)
    (h1 : projEta u δ π' ≤ 1 / 8) (h2 : π * projEta u δ π' ≤ 1 / 8) (h3 : κ * projEta u δ π' ≤ 1 / 8) (h4 : π * (κ * projEta u δ π') ≤ 1 / 8) :
    ‖P (vec z)‖ ≤ 2 * π * projEta u δ π' * ‖vec z‖ := by
  have hl := hz.loop hk (by omega)
  obtain ⟨zs, h0, hn, -, hs⟩ := flRefineCompl_seq hl
  rw [← hn] at hfin
  have hfins := seq_fin hv hs hfin
  generalize p.iterations = n at *
  set η := projEta u δ π' with hη
  have hη0 : 0 ≤ η := by
    rw [hη]
    unfold projEta
    have := hP.nonneg'
    positivity
  have hπ := hP.nonneg
  have step : ∀ j < n, ‖vec (zs (j + 1)) - (vec (zs j) - P (vec (zs j)))‖ ≤ η * ‖vec (zs j)‖ ∧ ‖P (vec (zs (j + 1)))‖ ≤ π * η * ‖vec (zs j)‖ := by
    intro j hj
    obtain ⟨w, hw, he⟩ := hs j hj
    have hfj := hfins (j + 1) hj
    rw [he] at hfj
    obtain ⟨-, s2, s3, -⟩ := flCompl_step hv hf hP hu0 hw hfj
    rw [← he] at s2 s3
    exact ⟨s2, s3⟩
  have lower : ∀ j < n, (1 - η) * ‖vec (zs j)‖ - ‖P (vec (zs j))‖ ≤ ‖vec (zs (j + 1))‖ := by
    intro j hj
    have e : vec (zs j) = vec (zs (j + 1)) - (vec (zs (j + 1)) - (vec (zs j) - P (vec (zs j)))) + P (vec (zs j)) := by abel
    have t : ‖vec (zs j)‖ ≤ ‖vec (zs (j + 1))‖ + η * ‖vec (zs j)‖ + ‖P (vec (zs j))‖ := by
      conv_lhs => rw [e]
      refine (norm_add_le _ _).trans (add_le_add_left ?_ _)
      exact (norm_sub_le _ _).trans (add_le_add_right (step j hj).1 _)
    linarith
  have key : ∀ j, j + 1 ≤ n → ‖P (vec (zs (j + 1)))‖ ≤ 1 / 4 * ‖vec (zs (j + 1))‖ ∧ (0 < j → ‖P (vec (zs (j + 1)))‖ ≤ 2 * π * η * ‖vec (zs (j + 1))‖) := by
    intro j
    induction j with
    | zero =>
      intro hj
      refine ⟨?_, fun h => absurd h (lt_irrefl 0)⟩
      obtain ⟨s1, s2⟩ := step 0 hj
      rw [h0] at s1 s2
      have t1 : ‖vec a - P (vec a)‖ ≤ ‖vec (zs (0 + 1))‖ + η * ‖vec a‖ := by
        have e : vec a - P (vec a) = vec (zs (0 + 1)) - (vec (zs (0 + 1)) - (vec a - P (vec a))) := by abel
        conv_lhs => rw [e]
        exact (norm_sub_le _ _).trans (add_le_add_right s1 _)
      have t2 : η * ‖vec a‖ ≤ 1 / 8 * ‖vec a - P (vec a)‖ := by
        have := mul_le_mul_of_nonneg_left hκ hη0
        have := mul_le_mul_of_nonneg_right h3 (norm_nonneg (vec a - P (vec a)))
        nlinarith
      have t3 : π * η * ‖vec a‖ ≤ 1 / 8 * ‖vec a - P (vec a)‖ := by
        have := mul_le_mul_of_nonneg_left hκ (mul_nonneg hπ hη0)
        have := mul_le_mul_of_nonneg_right h4 (norm_nonneg (vec a - P (vec a)))
        nlinarith
      have t4 := norm_nonneg (vec a - P (vec a))
      linarith
    | succ j ih =>
      intro hj
      obtain ⟨i1, -⟩ := ih (by omega)
      have l := lower (j + 1) (by omega)
      have s := (step (j + 1) (by omega)).2
      have n0 := norm_nonneg (vec (zs (j + 1)))
      have t1 : 1 / 2 * ‖vec (zs (j + 1))‖ ≤ ‖vec (zs (j + 1 + 1))‖ := by
        have := mul_le_mul_of_nonneg_right h1 n0
        linarith
      have t2 : ‖P (vec (zs (j + 1 + 1)))‖ ≤ 2 * π * η * ‖vec (zs (j + 1 + 1))‖ := by
        have := mul_le_mul_of_nonneg_left t1 (mul_nonneg hπ hη0)
        linarith
      refine ⟨?_, fun _ => t2⟩
      have := mul_le_mul_of_nonneg_right h2 (norm_nonneg (vec (zs (j + 1 + 1))))
      linarith
  obtain ⟨m, rfl⟩ : ∃ m, n = m + 1 := ⟨n - 1, by omega⟩
  rw [← hn]
  exact (key m le_rfl).2 (by omega)

/-- C87: one iteration of `apply` has the error `δ` relative to `a`. -/
theorem C87_apply_one (hf : FlMap vec fin f P δ ρ) (hk : k ≠ 0) (hit : p.iterations = 1) {a x : X} (hx : FlApplied o p f a x) (hfin : fin x) :
    ‖vec x - P (vec a)‖ ≤ δ * ‖vec a‖ ∧ ‖vec x - P (vec x)‖ ≤ ρ * ‖vec a‖ := by
  obtain ⟨x₁, h1, h2⟩ := hx.loop hk
  rw [hit] at h2
  obtain rfl := Except.ok.inj h2
  exact ⟨hf.err h1 hfin, hf.range h1 hfin⟩

/-- C87: a further iteration of `apply` replaces the error `δ ‖a‖` by `δ ‖a - x₁‖`, apart from errors which do not depend on `δ`; `x₁` is the result with one iteration less. -/
theorem C87_apply (hv : FlProjVec o vec fin u) (hf : FlMap vec fin f P δ ρ) (hP : BddProj P π π') (hu0 : 0 ≤ u) (hu : u < 1) (hδ : 0 ≤ δ) (hρ : 0 ≤ ρ) (hk : k ≠ 0)
    (hit : 2 ≤ p.iterations) {a x : X} (hx : FlApplied o p f a x) (hfin : fin x) :
    ∃ x₁, FlApplied o { p with iterations := p.iterations - 1 } f a x₁ ∧ fin x₁ ∧
      ‖vec x - P (vec a)‖ ≤ ‖vec x₁ - P (vec x₁)‖ + (π * u + δ * (1 + u)) * ‖vec a - vec x₁‖ + u / (1 - u) * ‖vec x‖ ∧
      ‖vec x - P (vec x)‖ ≤ ‖vec x₁ - P (vec x₁)‖ + ρ * (1 + u) * ‖vec a - vec x₁‖ + π' * (u / (1 - u)) * ‖vec x‖ := by
  have hx' := hx
  obtain ⟨x₀, h1, h2⟩ := hx.loop hk
  obtain ⟨m, hm⟩ : ∃ m, p.iterations = m + 2 := ⟨p.iterations - 2, by omega⟩
  rw [hm, show m + 2 - 1 = m + 1 by omega] at h2
  unfold flRefine at h2
  split at h2
  · cases h2
  rename_i x₁ hx₁
  split at h2
  · cases h2
  rename_i w hw
  obtain rfl := Except.ok.inj h2
  refine ⟨x₁, ?_, ?_⟩
  · rcases hx' with ⟨rfl, Ya, h⟩ | ⟨rfl, h⟩
    · left
      refine ⟨rfl, Ya, ?_⟩
      unfold flProjApply at h ⊢
      rw [if_neg hk] at h ⊢
      have e : flProjApply1 o { p with iterations := p.iterations - 1 } a = flProjApply1 o p a := rfl
      rw [e]
      cases hr : flProjApply1 o p a with
      | error e => rw [hr] at h; cases h
      | ok r =>
        rw [hr] at h
        dsimp only at h ⊢
        have e1 : x₀ = r.1 := by
          unfold flProjApply1x at h1
          rw [hr] at h1
          exact (Except.ok.inj h1).symm
        subst e1
        rw [show p.iterations - 1 - 1 = m by omega, show flProjApply1x o { p with iterations := p.iterations - 1 } = flProjApply1x o p from rfl, hx₁]
        dsimp only
        split at h
        · cases h
        · rw [(Prod.mk.inj (Except.ok.inj h)).2]
    · right
      refine ⟨rfl, ?_⟩
      unfold flProjApplyAdj
      rw [if_neg hk, show flProjApplyAdj1 o { p with iterations := p.iterations - 1 } = flProjApplyAdj1 o p from rfl, h1]
      dsimp only
      rw [show p.iterations - 1 - 1 = m by omega]
      exact hx₁
  obtain ⟨fx, fw, ea⟩ := hv.add hfin
  have fz := hf.arg hw fw
  obtain ⟨-, -, es⟩ := hv.sub fz
  have ew := hf.err hw fw
  have er := hf.range hw fw
  set z := o.sub a x₁ with hz
  have hz1 : ‖vec z‖ ≤ (1 + u) * ‖vec a - vec x₁‖ := by
    have e : vec z = (vec z - (vec a - vec x₁)) + (vec a - vec x₁) := by abel
    rw [e]
    have := norm_add_le (vec z - (vec a - vec x₁)) (vec a - vec x₁)
    linarith
  have hs1 : u * ‖vec x₁ + vec w‖ ≤ u / (1 - u) * ‖vec (o.add x₁ w)‖ := by
    have e : vec x₁ + vec w = vec (o.add x₁ w) - (vec (o.add x₁ w) - (vec x₁ + vec w)) := by abel
    have t : ‖vec x₁ + vec w‖ ≤ ‖vec (o.add x₁ w)‖ + u * ‖vec x₁ + vec w‖ := by
      conv_lhs => rw [e]
      exact (norm_sub_le _ _).trans (add_le_add_right ea _)
    have h1u : 0 < 1 - u := by linarith
    rw [div_mul_eq_mul_div, le_div_iff₀ h1u, mul_assoc]
    exact mul_le_mul_of_nonneg_left (by linarith) hu0
  refine ⟨fx, ?_, ?_⟩
  · have e : vec (o.add x₁ w) - P (vec a) = (vec x₁ - P (vec x₁)) + P (vec z - (vec a - vec x₁)) + (vec w - P (vec z)) + (vec (o.add x₁ w) - (vec x₁ + vec w)) := by
      rw [map_sub, map_sub]
      abel
    rw [e]
    have t1 : ‖P (vec z - (vec a - vec x₁))‖ ≤ π * (u * ‖vec a - vec x₁‖) := (hP.norm _).trans (mul_le_mul_of_nonneg_left es hP.nonneg)
    have t2 : ‖vec w - P (vec z)‖ ≤ δ * ((1 + u) * ‖vec a - vec x₁‖) := ew.trans (mul_le_mul_of_nonneg_left hz1 hδ)
    refine (norm_add_le _ _).trans ((add_le_add ((norm_add_le _ _).trans (add_le_add ((norm_add_le _ _).trans (add_le_add_right t1 _)) t2)) (ea.trans hs1)).trans (le_of_eq ?_))
    ring
  · set s := vec (o.add x₁ w) - (vec x₁ + vec w) with hs
    have e : vec (o.add x₁ w) - P (vec (o.add x₁ w)) = (vec x₁ - P (vec x₁)) + (vec w - P (vec w)) + (s - P s) := by
      have : vec (o.add x₁ w) = s + (vec x₁ + vec w) := by rw [hs]; abel
      rw [this, map_add, map_add]
      abel
    rw [e]
    have t1 : ‖vec w - P (vec w)‖ ≤ ρ * ((1 + u) * ‖vec a - vec x₁‖) := er.trans (mul_le_mul_of_nonneg_left hz1 hρ)
    have t2 : ‖s - P s‖ ≤ π' * (u / (1 - u) * ‖vec (o.add x₁ w)‖) := (hP.compl _).trans (mul_le_mul_of_nonneg_left (ea.trans hs1) hP.nonneg')
    refine (norm_add_le _ _).trans ((add_le_add ((norm_add_le _ _).trans (add_le_add_right t1 _)) t2).trans (le_of_eq ?_))
    ring

end

/-! ## One application -/

section
variable {𝕜 E : Type*} [RCLike 𝕜] [NormedAddCommGroup E] [InnerProductSpace 𝕜 E] {K X : Type*} {k : ℕ}

theorem isInner_inner : IsInner (fun x y : E => inner 𝕜 x y) where
  add_right x y z := inner_add_right x y z
  smul_right x c y := inner_smul_right x y c
  conj_symm x y := inner_conj_symm y x
  pos x hx := by
    rw [inner_self_eq_norm_sq (𝕜 := 𝕜)]
    have := norm_pos_iff.mpr hx
    positivity

/-- The exact projection `V ⟨W,V⟩⁻¹ ⟨W,·⟩` for the bases `V` and `W` (the formula of the documentation, see C12). -/
noncomputable def projP (V W : Fin k → E) : E →ₗ[𝕜] E := obliqueLin (isInner_inner (𝕜 := 𝕜) (E := E)) V W

/-- The Frobenius norm of an array with columns `V`. -/
noncomputable def colNorm (V : Fin k → E) : ℝ := Real.sqrt (∑ i, ‖V i‖ ^ 2)

theorem colNorm_nonneg (V : Fin k → E) : 0 ≤ colNorm V := Real.sqrt_nonneg _

/-- The exact matrix `⟨W,V⟩`. -/
def gramE (𝕜 : Type*) [RCLike 𝕜] [InnerProductSpace 𝕜 E] (W V : Fin k → E) : Matrix (Fin k) (Fin k) 𝕜 := gram (fun x y : E => inner 𝕜 x y) W V

theorem coefs_norm_le (W : Fin k → E) (a : E) : vecNorm (coefs (fun x y : E => inner 𝕜 x y) W a) ≤ colNorm W * ‖a‖ := by
  unfold vecNorm colNorm
  rw [← Real.sqrt_sq (norm_nonneg a), ← Real.sqrt_mul (Finset.sum_nonneg fun i _ => sq_nonneg _), Finset.sum_mul]
  refine Real.sqrt_le_sqrt (Finset.sum_le_sum fun i _ => ?_)
  rw [← mul_pow]
  exact pow_le_pow_left₀ (norm_nonneg _) (norm_inner_le_norm _ _) 2

theorem weighted_le (V : Fin k → E) (y : Fin k → 𝕜) : ∑ i, ‖y i‖ * ‖V i‖ ≤ colNorm V * vecNorm y := by
  rw [mul_comm]
  exact Real.sum_mul_le_sqrt_mul_sqrt Finset.univ (fun i => ‖y i‖) fun i => ‖V i‖

theorem lincomb_norm_le (V : Fin k → E) (y : Fin k → 𝕜) : ‖lincomb V y‖ ≤ colNorm V * vecNorm y := by
  refine le_trans ?_ (weighted_le V y)
  unfold lincomb
  refine (norm_sum_le _ _).trans (le_of_eq (Finset.sum_congr rfl fun i _ => norm_smul _ _))

theorem gram_det_ne {V W : Fin k → E} {μ : ℝ} (hμ : ∀ y, vecNorm y ≤ μ * vecNorm (gramE 𝕜 W V *ᵥ y)) : (gramE 𝕜 W V).det ≠ 0 := by
  rw [← isUnit_iff_ne_zero, ← Matrix.isUnit_iff_isUnit_det, ← Matrix.mulVec_injective_iff_isUnit]
  intro x y hxy
  have h1 : gramE 𝕜 W V *ᵥ (x - y) = 0 := by rw [Matrix.mulVec_sub]; exact sub_eq_zero.mpr hxy
  have h2 := hμ (x - y)
  rw [h1, vecNorm_eq_zero.mpr rfl, mul_zero] at h2
  exact sub_eq_zero.mp (vecNorm_eq_zero.mp (le_antisymm h2 (vecNorm_nonneg _)))

theorem projP_apply {V W : Fin k → E} (a : E) :
    projP (𝕜 := 𝕜) V W a = lincomb V ((gramE 𝕜 W V)⁻¹ *ᵥ coefs (fun x y : E => inner 𝕜 x y) W a) := rfl

/-- C87: bounds for an oblique projection; `μ` is a bound for the inverse of `⟨W,V⟩`. -/
theorem C87_bdd {V W : Fin k → E} {μ : ℝ} (hμ0 : 0 ≤ μ) (hμ : ∀ y, vecNorm y ≤ μ * vecNorm (gramE 𝕜 W V *ᵥ y)) :
    BddProj (projP (𝕜 := 𝕜) V W) (colNorm V * (μ * colNorm W)) (1 + colNorm V * (μ * colNorm W)) := by
  have hd := gram_det_ne hμ
  have hn : ∀ a, ‖projP (𝕜 := 𝕜) V W a‖ ≤ colNorm V * (μ * colNorm W) * ‖a‖ := by
    intro a
    rw [projP_apply, mul_assoc, mul_assoc]
    refine (lincomb_norm_le _ _).trans (mul_le_mul_of_nonneg_left ((hμ _).trans ?_) (colNorm_nonneg _))
    rw [Matrix.mulVec_mulVec, Matrix.mul_nonsing_inv _ (isUnit_iff_ne_zero.mpr hd), Matrix.one_mulVec]
    exact mul_le_mul_of_nonneg_left (coefs_norm_le _ _) hμ0
  have hp : 0 ≤ colNorm V * (μ * colNorm W) := mul_nonneg (colNorm_nonneg _) (mul_nonneg hμ0 (colNorm_nonneg _))
  refine ⟨fun a => oblique_idem isInner_inner hd a, hn, fun a => ?_, hp, by linarith⟩
  have := norm_sub_le a (projP (𝕜 := 𝕜) V W a)
  have := hn a
  linarith

/-- C87: an orthogonal projection and its complement have norm one. -/
theorem C87_bdd_orthogonal {V : Fin k → E} (hd : (gramE 𝕜 V V).det ≠ 0) : BddProj (projP (𝕜 := 𝕜) V V) 1 1 := by
  have hpy : ∀ a, ‖a‖ ^ 2 = ‖projP (𝕜 := 𝕜) V V a‖ ^ 2 + ‖a - projP (𝕜 := 𝕜) V V a‖ ^ 2 := by
    intro a
    set b := projP (𝕜 := 𝕜) V V a with hb
    have h1 : inner 𝕜 b (a - b) = 0 := by
      have h2 : ∀ j, inner 𝕜 (V j) (a - b) = 0 := (oblique_eq_zero isInner_inner hd _).mp (oblique_sub_self isInner_inner hd a)
      rw [hb, projP_apply]
      unfold lincomb
      rw [sum_inner]
      refine Finset.sum_eq_zero fun i _ => ?_
      rw [inner_smul_left]
      rw [hb, projP_apply] at h2
      unfold lincomb at h2
      rw [h2 i, mul_zero]
    have h3 := norm_add_sq_eq_norm_sq_add_norm_sq_of_inner_eq_zero b (a - b) h1
    rw [add_sub_cancel] at h3
    nlinarith
  refine ⟨fun a => oblique_idem isInner_inner hd a, fun a => ?_, fun a => ?_, zero_le_one, zero_le_one⟩
  · rw [one_mul]
    exact abs_le_of_sq_le_sq' (by rw [hpy a]; nlinarith [sq_nonneg ‖a - projP (𝕜 := 𝕜) V V a‖]) (norm_nonneg _) |>.2
  · rw [one_mul]
    exact abs_le_of_sq_le_sq' (by rw [hpy a]; nlinarith [sq_nonneg ‖projP (𝕜 := 𝕜) V V a‖]) (norm_nonneg _) |>.2

/-- Operations with errors: inner products with an error of at most `d` relative to the norms of the arguments, linear combinations with an error of at most `g` relative to
the sum of the norms of the terms. -/
structure FlProjAcc (o : FlProjOps K X k) (vec : X → E) (fin : X → Prop) (num : K → 𝕜) (finK : K → Prop) (u d g : ℝ) : Prop extends FlProjVec o vec fin u where
  ip : ∀ {x y}, finK (o.ip x y) → fin x ∧ fin y ∧ ‖num (o.ip x y) - inner 𝕜 (vec x) (vec y)‖ ≤ d * (‖vec x‖ * ‖vec y‖)
  dot : ∀ {V c}, fin (o.dot V c) → (∀ i, finK (c i)) ∧
    ‖vec (o.dot V c) - lincomb (fun i => vec (V i)) fun i => num (c i)‖ ≤ g * ∑ i, ‖num (c i)‖ * ‖vec (V i)‖

/-- `s` computes solutions of systems with the matrix `M`, with a residual of at most `r` relative to the solution plus `t` relative to the right hand side. -/
def FlCoef (num : K → 𝕜) (finK : K → Prop) (s : (Fin k → K) → Except Err (Fin k → K)) (M : Matrix (Fin k) (Fin k) 𝕜) (r t : ℝ) : Prop :=
  ∀ {c y}, s c = .ok y → (∀ i, finK (y i)) → (∀ i, finK (c i)) ∧
    vecNorm (M *ᵥ (fun i => num (y i)) - fun i => num (c i)) ≤ r * vecNorm (fun i => num (y i)) + t * vecNorm fun i => num (c i)

/-- Bound for the computed coefficients relative to `a`. -/
noncomputable def projY (μ r t d ω : ℝ) : ℝ := μ * ((1 + t) * ((1 + d) * ω)) / (1 - μ * r)

/-- Bound for the error of one application relative to `a`. -/
noncomputable def projDelta (μ r t d g ω ϑ : ℝ) : ℝ := g * (ϑ * projY μ r t d ω) + ϑ * (μ * (r * projY μ r t d ω + t * ((1 + d) * ω) + d * ω))

variable {o : FlProjOps K X k} {p : Proj K X k} {vec : X → E} {fin : X → Prop} {num : K → 𝕜} {finK : K → Prop} {u d g μ r t : ℝ}

theorem flMap_of {f : X → Except Err X} {V W : Fin k → X} {s : (Fin k → K) → Except Err (Fin k → K)}
    (hf : ∀ {a x}, f a = .ok x → ∃ y, s (fun i => o.ip (W i) a) = .ok y ∧ x = o.dot V y) (hk : k ≠ 0)
    (h : FlProjAcc o vec fin num finK u d g) (hd0 : 0 ≤ d) (hg0 : 0 ≤ g)
    (hs : FlCoef num finK s (gramE 𝕜 (fun i => vec (W i)) fun i => vec (V i)) r t) (hr0 : 0 ≤ r) (ht0 : 0 ≤ t) (hμ0 : 0 ≤ μ)
    (hμ : ∀ y, vecNorm y ≤ μ * vecNorm (gramE 𝕜 (fun i => vec (W i)) (fun i => vec (V i)) *ᵥ y)) (hμr : μ * r < 1) {π π' : ℝ}
    (hP : BddProj (projP (𝕜 := 𝕜) (fun i => vec (V i)) fun i => vec (W i)) π π') :
    FlMap vec fin f (projP (𝕜 := 𝕜) (fun i => vec (V i)) fun i => vec (W i)) (projDelta μ r t d g (colNorm fun i => vec (W i)) (colNorm fun i => vec (V i)))
      (π' * (g * ((colNorm fun i => vec (V i)) * projY μ r t d (colNorm fun i => vec (W i))))) := by
  set V' : Fin k → E := fun i => vec (V i) with hV'
  set W' : Fin k → E := fun i => vec (W i) with hW'
  set M := gramE 𝕜 W' V' with hM
  set ω := colNorm W' with hω
  set ϑ := colNorm V' with hϑ
  have hω0 : 0 ≤ ω := colNorm_nonneg _
  have hϑ0 : 0 ≤ ϑ := colNorm_nonneg _
  have hdet := gram_det_ne hμ
  have h1r : 0 < 1 - μ * r := by linarith
  -- the computed coefficients
  have key : ∀ {a x}, f a = .ok x → fin x → fin a ∧ ∃ y : Fin k → 𝕜, ‖vec x - lincomb V' y‖ ≤ g * (ϑ * vecNorm y) ∧ vecNorm y ≤ projY μ r t d ω * ‖vec a‖ ∧
      vecNorm (y - M⁻¹ *ᵥ coefs (fun x y : E => inner 𝕜 x y) W' (vec a)) ≤
        μ * (r * (projY μ r t d ω * ‖vec a‖) + t * ((1 + d) * ω * ‖vec a‖) + d * ω * ‖vec a‖) := by
    intro a x hx hfin
    obtain ⟨y, hy, rfl⟩ := hf hx
    obtain ⟨hfy, hdot⟩ := h.dot hfin
    obtain ⟨hfc, hres⟩ := hs hy hfy
    set yn : Fin k → 𝕜 := fun i => num (y i) with hyn
    set cn : Fin k → 𝕜 := fun i => num (o.ip (W i) a) with hcn
    set ce := coefs (fun x y : E => inner 𝕜 x y) W' (vec a) with hce
    obtain ⟨i0⟩ : Nonempty (Fin k) := ⟨⟨0, Nat.pos_of_ne_zero hk⟩⟩
    have hfa : fin a := (h.ip (hfc i0)).2.1
    have hc1 : vecNorm (cn - ce) ≤ d * ω * ‖vec a‖ := by
      have h1 : vecNorm (cn - ce) ≤ (d * ‖vec a‖) * vecNorm (fun i => (‖W' i‖ : 𝕜)) := by
        refine vecNorm_le_of (mul_nonneg hd0 (norm_nonneg _)) fun i => ?_
        have := (h.ip (hfc i)).2.2
        rw [Pi.sub_apply, RCLike.norm_ofReal, abs_norm]
        refine this.trans (le_of_eq ?_)
        rw [hW']
        ring
      refine h1.trans (le_of_eq ?_)
      have : vecNorm (fun i => (‖W' i‖ : 𝕜)) = ω := by
        unfold vecNorm
        simp only [RCLike.norm_ofReal, abs_norm]
        rfl
      rw [this]
      ring
    have hc2 : vecNorm ce ≤ ω * ‖vec a‖ := coefs_norm_le _ _
    have hc3 : vecNorm cn ≤ (1 + d) * ω * ‖vec a‖ := by
      have e : cn = (cn - ce) + ce := by abel
      rw [e]
      refine (vecNorm_add_le' _ _).trans ?_
      linarith
    have hMy : vecNorm yn ≤ μ * (r * vecNorm yn + (1 + t) * vecNorm cn) := by
      refine (hμ yn).trans (mul_le_mul_of_nonneg_left ?_ hμ0)
      have e : M *ᵥ yn = (M *ᵥ yn - cn) + cn := by abel
      rw [e]
      refine (vecNorm_add_le' _ _).trans ?_
      linarith
    have hy1 : vecNorm yn ≤ projY μ r t d ω * ‖vec a‖ := by
      unfold projY
      rw [div_mul_eq_mul_div, le_div_iff₀ h1r]
      have := mul_le_mul_of_nonneg_left hc3 (mul_nonneg hμ0 (by linarith : (0 : ℝ) ≤ 1 + t))
      nlinarith
    refine ⟨hfa, yn, ?_, hy1, ?_⟩
    · exact hdot.trans (mul_le_mul_of_nonneg_left (weighted_le V' yn) hg0)
    · refine (hμ _).trans (mul_le_mul_of_nonneg_left ?_ hμ0)
      have e : M *ᵥ (yn - M⁻¹ *ᵥ ce) = (M *ᵥ yn - cn) + (cn - ce) := by
        rw [Matrix.mulVec_sub, Matrix.mulVec_mulVec, Matrix.mul_nonsing_inv _ (isUnit_iff_ne_zero.mpr hdet), Matrix.one_mulVec]
        abel
      rw [e]
      refine (vecNorm_add_le' _ _).trans (add_le_add (hres.trans ?_) hc1)
      exact add_le_add (mul_le_mul_of_nonneg_left hy1 hr0) (mul_le_mul_of_nonneg_left hc3 ht0)
  refine ⟨fun hx hfin => (key hx hfin).1, fun {a x} hx hfin => ?_, fun {a x} hx hfin => ?_⟩
  · obtain ⟨-, y, h1, h2, h3⟩ := key hx hfin
    rw [projP_apply]
    have e : vec x - lincomb V' (M⁻¹ *ᵥ coefs (fun x y : E => inner 𝕜 x y) W' (vec a)) = (vec x - lincomb V' y) +
        lincomb V' (y - M⁻¹ *ᵥ coefs (fun x y : E => inner 𝕜 x y) W' (vec a)) := by
      unfold lincomb
      simp only [Pi.sub_apply, sub_smul, Finset.sum_sub_distrib]
      abel
    rw [e]
    refine (norm_add_le _ _).trans ((add_le_add (h1.trans (mul_le_mul_of_nonneg_left (mul_le_mul_of_nonneg_left h2 hϑ0) hg0))
      ((lincomb_norm_le _ _).trans (mul_le_mul_of_nonneg_left h3 hϑ0))).trans (le_of_eq ?_))
    unfold projDelta
    ring
  · obtain ⟨-, y, h1, h2, -⟩ := key hx hfin
    have e : vec x - projP (𝕜 := 𝕜) V' W' (vec x) = (vec x - lincomb V' y) - projP (𝕜 := 𝕜) V' W' (vec x - lincomb V' y) := by
      have : projP (𝕜 := 𝕜) V' W' (lincomb V' y) = lincomb V' y := oblique_lincomb isInner_inner hdet y
      rw [map_sub, this]
      abel
    rw [e]
    refine (hP.compl _).trans ?_
    rw [mul_assoc π', mul_assoc g, mul_assoc ϑ]
    exact mul_le_mul_of_nonneg_left (h1.trans (mul_le_mul_of_nonneg_left (mul_le_mul_of_nonneg_left h2 hϑ0) hg0)) hP.nonneg'

/-- C87: one application of the projection (`_apply`); only the error in the direction of the range of the projection depends on the errors of the solver. -/
theorem C87_single (hk : k ≠ 0) (h : FlProjAcc o vec fin num finK u d g) (hd0 : 0 ≤ d) (hg0 : 0 ≤ g)
    (hs : FlCoef num finK (flProjSolve o p) (gramE 𝕜 (fun i => vec (p.W i)) fun i => vec (p.V i)) r t) (hr0 : 0 ≤ r) (ht0 : 0 ≤ t) (hμ0 : 0 ≤ μ)
    (hμ : ∀ y, vecNorm y ≤ μ * vecNorm (gramE 𝕜 (fun i => vec (p.W i)) (fun i => vec (p.V i)) *ᵥ y)) (hμr : μ * r < 1) {π π' : ℝ}
    (hP : BddProj (projP (𝕜 := 𝕜) (fun i => vec (p.V i)) fun i => vec (p.W i)) π π') :
    FlMap vec fin (flProjApply1x o p) (projP (𝕜 := 𝕜) (fun i => vec (p.V i)) fun i => vec (p.W i))
      (projDelta μ r t d g (colNorm fun i => vec (p.W i)) (colNorm fun i => vec (p.V i)))
      (π' * (g * ((colNorm fun i => vec (p.V i)) * projY μ r t d (colNorm fun i => vec (p.W i))))) := by
  refine flMap_of (s := flProjSolve o p) (fun {a x} hx => ?_) hk h hd0 hg0 hs hr0 ht0 hμ0 hμ hμr hP
  unfold flProjApply1x at hx
  split at hx
  · cases hx
  rename_i res hres
  obtain rfl := Except.ok.inj hx
  unfold flProjApply1 at hres
  rw [if_neg hk] at hres
  dsimp only at hres
  split at hres
  · cases hres
  rename_i y hy
  obtain rfl := Except.ok.inj hres
  exact ⟨y, hy, rfl⟩

/-- C87: one application of the adjoint projection (`_apply_adj`). -/
theorem C87_single_adj (hk : k ≠ 0) (h : FlProjAcc o vec fin num finK u d g) (hd0 : 0 ≤ d) (hg0 : 0 ≤ g)
    (hs : FlCoef num finK (flProjSolveAdj o p) (gramE 𝕜 (fun i => vec (p.V i)) fun i => vec (p.W i)) r t) (hr0 : 0 ≤ r) (ht0 : 0 ≤ t) (hμ0 : 0 ≤ μ)
    (hμ : ∀ y, vecNorm y ≤ μ * vecNorm (gramE 𝕜 (fun i => vec (p.V i)) (fun i => vec (p.W i)) *ᵥ y)) (hμr : μ * r < 1) {π π' : ℝ}
    (hP : BddProj (projP (𝕜 := 𝕜) (fun i => vec (p.W i)) fun i => vec (p.V i)) π π') :
    FlMap vec fin (flProjApplyAdj1 o p) (projP (𝕜 := 𝕜) (fun i => vec (p.W i)) fun i => vec (p.V i))
      (projDelta μ r t d g (colNorm fun i => vec (p.V i)) (colNorm fun i => vec (p.W i)))
      (π' * (g * ((colNorm fun i => vec (p.W i)) * projY μ r t d (colNorm fun i => vec (p.V i))))) := by
  refine flMap_of (s := flProjSolveAdj o p) (fun {a x} hx => ?_) hk h hd0 hg0 hs hr0 ht0 hμ0 hμ hμr hP
  unfold flProjApplyAdj1 at hx
  rw [if_neg hk] at hx
  split at hx
  · cases hx
  rename_i y hy
  obtain rfl := Except.ok.inj hx
  exact ⟨y, hy, rfl⟩

/-- C87: the inner products of the result with the columns of `W` are small if its part in the range of `P` is small. -/
theorem C87_inner {V W : Fin k → E} (hd : (gramE 𝕜 W V).det ≠ 0) (z : E) (j : Fin k) : ‖inner 𝕜 (W j) z‖ ≤ ‖W j‖ * ‖projP (𝕜 := 𝕜) V W z‖ := by
  have h1 := congrFun (oblique_coefs (isInner_inner (𝕜 := 𝕜) (E := E)) hd z) j
  have h2 : inner 𝕜 (W j) (projP (𝕜 := 𝕜) V W z) = inner 𝕜 (W j) z := h1
  rw [← h2]
  exact norm_inner_le_norm _ _

/-- C87: the inner products with the columns `Y = W R + e` from which the basis was computed (for `qr` see C81). -/
theorem C87_columns {V W Y : Fin k → E} (hd : (gramE 𝕜 W V).det ≠ 0) {R : Matrix (Fin k) (Fin k) 𝕜} {ε : ℝ} {j : Fin k}
    (hY : ‖Y j - lincomb W fun i => R i j‖ ≤ ε) (z : E) :
    ‖inner 𝕜 (Y j) z‖ ≤ (∑ i, ‖R i j‖ * ‖W i‖) * ‖projP (𝕜 := 𝕜) V W z‖ + ε * ‖z‖ := by
  have e : Y j = (Y j - lincomb W fun i => R i j) + lincomb W fun i => R i j := by abel
  rw [e, inner_add_left, add_comm]
  refine (norm_add_le _ _).trans (add_le_add ?_ ((norm_inner_le_norm _ _).trans (mul_le_mul_of_nonneg_right hY (norm_nonneg _))))
  unfold lincomb
  rw [sum_inner, Finset.sum_mul]
  refine (norm_sum_le _ _).trans (Finset.sum_le_sum fun i _ => ?_)
  rw [inner_smul_left, norm_mul, RCLike.norm_conj, mul_assoc]
  exact mul_le_mul_of_nonneg_left (C87_inner hd z i) (norm_nonneg _)

/-! ## The factorisations -/

theorem frob_nonneg' (A : Matrix (Fin k) (Fin k) 𝕜) : 0 ≤ frob A := Real.sqrt_nonneg _

theorem frob_conjTranspose (A : Matrix (Fin k) (Fin k) 𝕜) : frob Aᴴ = frob A := by
  unfold frob
  rw [Finset.sum_comm]
  simp only [Matrix.conjTranspose_apply, norm_star]

theorem frob_entries {A : Matrix (Fin k) (Fin k) 𝕜} {c : ℝ} (hc : 0 ≤ c) (h : ∀ i j, ‖A i j‖ ≤ c) : frob A ≤ k * c := by
  unfold frob
  rw [← Real.sqrt_sq (by positivity : (0 : ℝ) ≤ k * c)]
  refine Real.sqrt_le_sqrt ((Finset.sum_le_sum fun i _ => Finset.sum_le_sum fun j _ => pow_le_pow_left₀ (norm_nonneg _) (h i j) 2).trans (le_of_eq ?_))
  simp
  ring

theorem gramE_adj (W V : Fin k → E) : (gramE 𝕜 W V)ᴴ = gramE 𝕜 V W := by
  ext i j
  simp [gramE, gram, Matrix.conjTranspose_apply]

theorem gram_inverse {M : Matrix (Fin k) (Fin k) 𝕜} (hd : M.det ≠ 0) (y : Fin k → 𝕜) : vecNorm y ≤ frob M⁻¹ * vecNorm (M *ᵥ y) := by
  have h1 : M⁻¹ *ᵥ (M *ᵥ y) = y := by rw [Matrix.mulVec_mulVec, Matrix.nonsing_inv_mul _ (isUnit_iff_ne_zero.mpr hd), Matrix.one_mulVec]
  conv_lhs => rw [← h1]
  exact vecNorm_mulVec_le_qr _ _

/-- C87, orthogonal projection (`Y is None`, `orthogonalize=True`): the object stores one basis `V` and no factorisation.  If `V` is orthonormal up to `σ`, then `_apply` and
`_apply_adj` compute the orthogonal projection onto the span of `V` up to an error of the order of `σ` and the rounding errors. -/
theorem C87_orthogonal (hk : k ≠ 0) (h : FlProjAcc o vec fin num finK u d g) (hd0 : 0 ≤ d) (hg0 : 0 ≤ g) (hQR : p.QR = none) (hW : p.W = p.V) {σ : ℝ}
    (hσ : frob (gramE 𝕜 (fun i => vec (p.V i)) (fun i => vec (p.V i)) - 1) ≤ σ) (hσ1 : σ < 1) :
    let P := projP (𝕜 := 𝕜) (fun i => vec (p.V i)) fun i => vec (p.V i)
    let ϑ := colNorm fun i => vec (p.V i)
    BddProj P 1 1 ∧ FlMap vec fin (flProjApply1x o p) P (projDelta (1 / (1 - σ)) 0 σ d g ϑ ϑ) (g * (ϑ * projY (1 / (1 - σ)) 0 σ d ϑ)) ∧
      FlMap vec fin (flProjApplyAdj1 o p) P (projDelta (1 / (1 - σ)) 0 σ d g ϑ ϑ) (g * (ϑ * projY (1 / (1 - σ)) 0 σ d ϑ)) ∧ ϑ ^ 2 ≤ k * (1 + σ) := by
  intro P ϑ
  have hσ0 : 0 ≤ σ := (frob_nonneg' _).trans hσ
  have h1σ : 0 < 1 - σ := by linarith
  set M := gramE 𝕜 (fun i => vec (p.V i)) fun i => vec (p.V i) with hM
  have hM1 : ∀ y : Fin k → 𝕜, vecNorm (M *ᵥ y - y) ≤ σ * vecNorm y := by
    intro y
    have e : M *ᵥ y - y = (M - 1) *ᵥ y := by rw [Matrix.sub_mulVec, Matrix.one_mulVec]
    rw [e]
    exact (vecNorm_mulVec_le_qr _ _).trans (mul_le_mul_of_nonneg_right hσ (vecNorm_nonneg _))
  have hμ : ∀ y : Fin k → 𝕜, vecNorm y ≤ 1 / (1 - σ) * vecNorm (M *ᵥ y) := by
    intro y
    rw [div_mul_eq_mul_div, one_mul, le_div_iff₀ h1σ]
    have e : y = M *ᵥ y - (M *ᵥ y - y) := by abel
    have h1 : vecNorm y ≤ vecNorm (M *ᵥ y) + vecNorm (M *ᵥ y - y) := by
      conv_lhs => rw [e]
      exact vecNorm_sub_le' _ _
    have := hM1 y
    linarith
  have hP : BddProj P 1 1 := C87_bdd_orthogonal (gram_det_ne hμ)
  have hco : FlCoef num finK (fun c => .ok c) M 0 σ := by
    intro c y hy hfy
    obtain rfl := Except.ok.inj hy
    exact ⟨hfy, by rw [zero_mul, zero_add]; exact hM1 _⟩
  have hμ0 : (0 : ℝ) ≤ 1 / (1 - σ) := by positivity
  have e1 : flProjSolve o p = fun c => .ok c := by
    funext c
    unfold flProjSolve
    rw [hQR]
  have e2 : flProjSolveAdj o p = fun c => .ok c := by
    funext c
    unfold flProjSolveAdj
    rw [hQR]
  refine ⟨hP, ?_, ?_, ?_⟩
  · have := C87_single (p := p) (r := 0) (t := σ) (μ := 1 / (1 - σ)) (π := 1) (π' := 1) hk h hd0 hg0 (by rw [hW, e1]; exact hco) le_rfl hσ0 hμ0 (by rw [hW]; exact hμ)
      (by rw [mul_zero]; exact one_pos) (by rw [hW]; exact hP)
    rw [hW, one_mul] at this
    exact this
  · have := C87_single_adj (p := p) (r := 0) (t := σ) (μ := 1 / (1 - σ)) (π := 1) (π' := 1) hk h hd0 hg0 (by rw [hW, e2]; exact hco) le_rfl hσ0 hμ0 (by rw [hW]; exact hμ)
      (by rw [mul_zero]; exact one_pos) (by rw [hW]; exact hP)
    rw [hW, one_mul] at this
    exact this
  · have h2 : ϑ ^ 2 = ∑ i, ‖vec (p.V i)‖ ^ 2 := Real.sq_sqrt (Finset.sum_nonneg fun i _ => sq_nonneg _)
    rw [h2]
    have h3 : ∀ i ∈ Finset.univ, ‖vec (p.V i)‖ ^ 2 ≤ 1 + σ := by
      intro i _
      have h4 : ‖(M - 1) i i‖ ≤ σ := by
        refine le_trans ?_ hσ
        unfold frob
        refine Real.le_sqrt_of_sq_le ?_
        refine le_trans ?_ (Finset.single_le_sum (f := fun i => ∑ j, ‖(M - 1) i j‖ ^ 2) (fun i _ => Finset.sum_nonneg fun j _ => sq_nonneg _) (Finset.mem_univ i))
        exact Finset.single_le_sum (f := fun j => ‖(M - 1) i j‖ ^ 2) (fun j _ => sq_nonneg _) (Finset.mem_univ i)
      have h5 : (M - 1) i i = ((‖vec (p.V i)‖ ^ 2 - 1 : ℝ) : 𝕜) := by
        rw [Matrix.sub_apply, Matrix.one_apply_eq]
        simp only [hM, gramE, gram, Matrix.of_apply]
        rw [inner_self_eq_norm_sq_to_K]
        push_cast
        rfl
      rw [h5, RCLike.norm_ofReal] at h4
      have := (abs_le.mp h4).2
      linarith
    refine (Finset.sum_le_sum h3).trans (le_of_eq ?_)
    simp
    ring

/-- The routines for the small matrices: `Q` and `R` are a factorisation of `M` up to `q₁`, `Q` is unitary up to `q₂`, products with `Q` and its adjoint have errors of at most `q₃` relative to the
argument, the triangular solvers have backward errors of at most `q₄`. -/
structure FlSolveAcc (o : FlProjOps K X k) (num : K → 𝕜) (finK : K → Prop) (Q R : Matrix (Fin k) (Fin k) K) (M : Matrix (Fin k) (Fin k) 𝕜) (q₁ q₂ q₃ q₄ : ℝ) : Prop where
  fact : frob (Q.map num * R.map num - M) ≤ q₁
  unit : frob ((Q.map num)ᴴ * Q.map num - 1) ≤ q₂
  unit' : frob (Q.map num * (Q.map num)ᴴ - 1) ≤ q₂
  mul : ∀ {c}, (∀ i, finK (o.mul Q c i)) → (∀ i, finK (c i)) ∧ vecNorm ((fun i => num (o.mul Q c i)) - Q.map num *ᵥ fun i => num (c i)) ≤ q₃ * vecNorm fun i => num (c i)
  mulAdj : ∀ {c}, (∀ i, finK (o.mul (o.adj Q) c i)) → (∀ i, finK (c i)) ∧
    vecNorm ((fun i => num (o.mul (o.adj Q) c i)) - (Q.map num)ᴴ *ᵥ fun i => num (c i)) ≤ q₃ * vecNorm fun i => num (c i)
  solveU : ∀ {c y}, o.solveU R c = .ok y → (∀ i, finK (y i)) → (∀ i, finK (c i)) ∧
    ∃ D : Matrix (Fin k) (Fin k) 𝕜, frob D ≤ q₄ ∧ (R.map num + D) *ᵥ (fun i => num (y i)) = fun i => num (c i)
  solveL : ∀ {c y}, o.solveL (o.adj R) c = .ok y → (∀ i, finK (y i)) → (∀ i, finK (c i)) ∧
    ∃ D : Matrix (Fin k) (Fin k) 𝕜, frob D ≤ q₄ ∧ ((R.map num)ᴴ + D) *ᵥ (fun i => num (y i)) = fun i => num (c i)

/-- An almost unitary matrix almost preserves norms. -/
theorem near_unitary {Q : Matrix (Fin k) (Fin k) 𝕜} {q : ℝ} (hq : frob (Qᴴ * Q - 1) ≤ q) (x : Fin k → 𝕜) :
    vecNorm (Q *ᵥ x) ≤ (1 + q) * vecNorm x ∧ (1 - q) * vecNorm x ≤ vecNorm (Q *ᵥ x) := by
  have hq0 : 0 ≤ q := (frob_nonneg' _).trans hq
  have h1 : |vecNorm (Q *ᵥ x) ^ 2 - vecNorm x ^ 2| ≤ q * vecNorm x ^ 2 := by
    have e : ((vecNorm (Q *ᵥ x) ^ 2 - vecNorm x ^ 2 : ℝ) : 𝕜) = star x ⬝ᵥ ((Qᴴ * Q - 1) *ᵥ x) := by
      have hs : ∀ v : Fin k → 𝕜, ((vecNorm v ^ 2 : ℝ) : 𝕜) = star v ⬝ᵥ v := by
        intro v
        rw [vecNorm_sq]
        push_cast
        simp only [dotProduct, Pi.star_apply, RCLike.star_def, RCLike.conj_mul]
      rw [RCLike.ofReal_sub, hs, hs, Matrix.sub_mulVec, Matrix.one_mulVec, dotProduct_sub, ← Matrix.mulVec_mulVec, Matrix.star_mulVec, ← Matrix.dotProduct_mulVec]
    have h2 : |vecNorm (Q *ᵥ x) ^ 2 - vecNorm x ^ 2| = ‖((vecNorm (Q *ᵥ x) ^ 2 - vecNorm x ^ 2 : ℝ) : 𝕜)‖ := by rw [RCLike.norm_ofReal]
    rw [h2, e]
    refine (norm_dot_le _ _).trans ?_
    have := (vecNorm_mulVec_le_qr (Qᴴ * Q - 1) x).trans (mul_le_mul_of_nonneg_right hq (vecNorm_nonneg _))
    have := mul_le_mul_of_nonneg_left this (vecNorm_nonneg x)
    nlinarith
  obtain ⟨h2, h3⟩ := abs_le.mp h1
  have hx := vecNorm_nonneg x
  have hQ := vecNorm_nonneg (Q *ᵥ x)
  constructor
  · refine abs_le_of_sq_le_sq' ?_ (by positivity) |>.2
    nlinarith [mul_nonneg hq0 (sq_nonneg (vecNorm x)), mul_nonneg (mul_nonneg hq0 hq0) (sq_nonneg (vecNorm x))]
  · rcases le_or_gt 1 q with h4 | h4
    · exact le_trans (mul_nonpos_of_nonpos_of_nonneg (by linarith) hx) hQ
    · refine abs_le_of_sq_le_sq' ?_ hQ |>.2
      have h5 : ((1 - q) * vecNorm x) ^ 2 ≤ (1 - q) * vecNorm x ^ 2 := by
        rw [mul_pow]
        refine mul_le_mul_of_nonneg_right ?_ (sq_nonneg _)
        nlinarith
      linarith

variable {Q R : Matrix (Fin k) (Fin k) K} {M : Matrix (Fin k) (Fin k) 𝕜} {q₁ q₂ q₃ q₄ : ℝ}

/-- C87: the coefficients computed with the factorisation `Q R` solve the system with the matrix `M` up to small residuals. -/
theorem C87_solve (hQR : p.QR = some (Q, R)) (hs : FlSolveAcc o num finK Q R M q₁ q₂ q₃ q₄) :
    FlCoef num finK (flProjSolve o p) M (q₁ + (1 + q₂) * q₄) ((1 + q₂) * q₃ + q₂) := by
  intro c y hy hfy
  unfold flProjSolve at hy
  rw [hQR] at hy
  dsimp only at hy
  obtain ⟨hfc1, D, hD, hsol⟩ := hs.solveU hy hfy
  obtain ⟨hfc, hmul⟩ := hs.mulAdj hfc1
  refine ⟨hfc, ?_⟩
  set yn : Fin k → 𝕜 := fun i => num (y i)
  set cn : Fin k → 𝕜 := fun i => num (c i)
  set c1 : Fin k → 𝕜 := fun i => num (o.mul (o.adj Q) c i)
  set Qn := Q.map num
  set Rn := R.map num
  have hq₂ : 0 ≤ q₂ := (frob_nonneg' _).trans hs.unit
  have e : M *ᵥ yn - cn = (Qn *ᵥ (c1 - Qnᴴ *ᵥ cn) + (Qn * Qnᴴ - 1) *ᵥ cn) - ((Qn * Rn - M) *ᵥ yn + Qn *ᵥ (D *ᵥ yn)) := by
    rw [← hsol]
    simp only [Matrix.sub_mulVec, Matrix.mulVec_sub, Matrix.add_mulVec, Matrix.mulVec_add, Matrix.mulVec_mulVec, Matrix.one_mulVec]
    abel
  have t1 : vecNorm (Qn *ᵥ (c1 - Qnᴴ *ᵥ cn)) ≤ (1 + q₂) * (q₃ * vecNorm cn) := (near_unitary hs.unit _).1.trans (mul_le_mul_of_nonneg_left hmul (by linarith))
  have t2 : vecNorm ((Qn * Qnᴴ - 1) *ᵥ cn) ≤ q₂ * vecNorm cn := (vecNorm_mulVec_le_qr _ _).trans (mul_le_mul_of_nonneg_right hs.unit' (vecNorm_nonneg _))
  have t3 : vecNorm ((Qn * Rn - M) *ᵥ yn) ≤ q₁ * vecNorm yn := (vecNorm_mulVec_le_qr _ _).trans (mul_le_mul_of_nonneg_right hs.fact (vecNorm_nonneg _))
  have t4 : vecNorm (Qn *ᵥ (D *ᵥ yn)) ≤ (1 + q₂) * (q₄ * vecNorm yn) :=
    (near_unitary hs.unit _).1.trans (mul_le_mul_of_nonneg_left ((vecNorm_mulVec_le_qr _ _).trans (mul_le_mul_of_nonneg_right hD (vecNorm_nonneg _))) (by linarith))
  rw [e]
  refine (vecNorm_sub_le' _ _).trans ((add_le_add ((vecNorm_add_le' _ _).trans (add_le_add t1 t2)) ((vecNorm_add_le' _ _).trans (add_le_add t3 t4))).trans (le_of_eq ?_))
  ring

/-- C87: the same for the coefficients of the adjoint. -/
theorem C87_solve_adj (hQR : p.QR = some (Q, R)) (hs : FlSolveAcc o num finK Q R M q₁ q₂ q₃ q₄) (hq₃ : 0 ≤ q₃) (hq : q₂ + q₃ ≤ 1 / 2) :
    FlCoef num finK (flProjSolveAdj o p) Mᴴ (q₁ + 2 * (frob (R.map num) * (q₂ + (1 + q₂) * q₃) + q₄)) 0 := by
  intro c y hy hfy
  unfold flProjSolveAdj at hy
  rw [hQR] at hy
  dsimp only at hy
  split at hy
  · cases hy
  rename_i v hv
  obtain rfl := Except.ok.inj hy
  obtain ⟨hfv, hmul⟩ := hs.mul hfy
  obtain ⟨hfc, D, hD, hsol⟩ := hs.solveL hv hfv
  refine ⟨hfc, ?_⟩
  set yn : Fin k → 𝕜 := fun i => num (o.mul Q v i)
  set cn : Fin k → 𝕜 := fun i => num (c i)
  set vn : Fin k → 𝕜 := fun i => num (v i)
  set Qn := Q.map num
  set Rn := R.map num
  have hq₂ : 0 ≤ q₂ := (frob_nonneg' _).trans hs.unit
  have hq₄ : 0 ≤ q₄ := (frob_nonneg' _).trans hD
  have e : Mᴴ *ᵥ yn - cn = (Rnᴴ *ᵥ ((Qnᴴ * Qn - 1) *ᵥ vn + Qnᴴ *ᵥ (yn - Qn *ᵥ vn))) - ((Qn * Rn - M)ᴴ *ᵥ yn + D *ᵥ vn) := by
    rw [← hsol]
    simp only [Matrix.sub_mulVec, Matrix.mulVec_sub, Matrix.add_mulVec, Matrix.mulVec_add, Matrix.mulVec_mulVec, Matrix.one_mulVec, Matrix.conjTranspose_sub,
      Matrix.conjTranspose_mul]
    abel
  have hvy : vecNorm vn ≤ 2 * vecNorm yn := by
    have h1 := (near_unitary hs.unit vn).2
    have h2 : vecNorm (Qn *ᵥ vn) ≤ vecNorm yn + q₃ * vecNorm vn := by
      have e : Qn *ᵥ vn = yn - (yn - Qn *ᵥ vn) := by abel
      rw [e]
      exact (vecNorm_sub_le' _ _).trans (add_le_add_right hmul _)
    have h3 := mul_le_mul_of_nonneg_right hq (vecNorm_nonneg vn)
    linarith
  have hu : ∀ x : Fin k → 𝕜, vecNorm (Qnᴴ *ᵥ x) ≤ (1 + q₂) * vecNorm x := fun x => (near_unitary (Q := Qnᴴ) (by rw [Matrix.conjTranspose_conjTranspose]; exact hs.unit') x).1
  have t1 : vecNorm ((Qnᴴ * Qn - 1) *ᵥ vn + Qnᴴ *ᵥ (yn - Qn *ᵥ vn)) ≤ (q₂ + (1 + q₂) * q₃) * vecNorm vn := by
    refine (vecNorm_add_le' _ _).trans ?_
    have h1 := (vecNorm_mulVec_le_qr (Qnᴴ * Qn - 1) vn).trans (mul_le_mul_of_nonneg_right hs.unit (vecNorm_nonneg _))
    have h2 := (hu (yn - Qn *ᵥ vn)).trans (mul_le_mul_of_nonneg_left hmul (by linarith))
    linarith
  have t2 := (vecNorm_mulVec_le_qr Rnᴴ ((Qnᴴ * Qn - 1) *ᵥ vn + Qnᴴ *ᵥ (yn - Qn *ᵥ vn))).trans
    (mul_le_mul_of_nonneg_left (t1.trans (mul_le_mul_of_nonneg_left hvy (by positivity))) (frob_nonneg' _))
  have t3 := (vecNorm_mulVec_le_qr (Qn * Rn - M)ᴴ yn)
  have t4 := (vecNorm_mulVec_le_qr D vn).trans ((mul_le_mul_of_nonneg_right hD (vecNorm_nonneg _)).trans (mul_le_mul_of_nonneg_left hvy hq₄))
  rw [frob_conjTranspose] at t2 t3
  have t5 := t3.trans (mul_le_mul_of_nonneg_right hs.fact (vecNorm_nonneg _))
  rw [e]
  refine (vecNorm_sub_le' _ _).trans ((add_le_add t2 ((vecNorm_add_le' _ _).trans (add_le_add t5 t4))).trans (le_of_eq ?_))
  ring

/-- C87: the errors of the matrix `⟨W,V⟩` from which the constructor computes `Q` and `R`. -/
theorem C87_gram (h : FlProjAcc o vec fin num finK u d g) (hd0 : 0 ≤ d) {V W : Fin k → X} (hf : ∀ i j, finK (flGram o W V i j)) :
    frob ((flGram o W V).map num - gramE 𝕜 (fun i => vec (W i)) fun i => vec (V i)) ≤ d * ((colNorm fun i => vec (W i)) * colNorm fun i => vec (V i)) := by
  have h0 : 0 ≤ d * ((colNorm fun i => vec (W i)) * colNorm fun i => vec (V i)) := mul_nonneg hd0 (mul_nonneg (colNorm_nonneg _) (colNorm_nonneg _))
  unfold frob
  rw [← Real.sqrt_sq h0]
  refine Real.sqrt_le_sqrt ?_
  have h1 : ∀ i ∈ Finset.univ, ∑ j, ‖((flGram o W V).map num - gramE 𝕜 (fun i => vec (W i)) fun i => vec (V i)) i j‖ ^ 2 ≤ ∑ j, d ^ 2 * (‖vec (W i)‖ ^ 2 * ‖vec (V j)‖ ^ 2) := by
    intro i _
    refine Finset.sum_le_sum fun j _ => ?_
    rw [← mul_pow, ← mul_pow]
    exact pow_le_pow_left₀ (norm_nonneg _) (h.ip (hf i j)).2.2 2
  refine (Finset.sum_le_sum h1).trans (le_of_eq ?_)
  unfold colNorm
  rw [mul_pow, mul_pow, Real.sq_sqrt (Finset.sum_nonneg fun i _ => sq_nonneg _), Real.sq_sqrt (Finset.sum_nonneg fun i _ => sq_nonneg _), Finset.sum_mul_sum, Finset.mul_sum]
  refine Finset.sum_congr rfl fun i _ => ?_
  rw [Finset.mul_sum]

/-- C87, general case: `Q` and `R` are computed from `⟨W,V⟩`; one application has a small error if the errors of the routines are small compared with the inverse of `⟨W,V⟩`. -/
theorem C87_oblique (hk : k ≠ 0) (h : FlProjAcc o vec fin num finK u d g) (hd0 : 0 ≤ d) (hg0 : 0 ≤ g) (hQR : p.QR = some (Q, R))
    (hs : FlSolveAcc o num finK Q R (gramE 𝕜 (fun i => vec (p.W i)) fun i => vec (p.V i)) q₁ q₂ q₃ q₄) (hq₃ : 0 ≤ q₃) (hq₄ : 0 ≤ q₄) (hq : q₂ + q₃ ≤ 1 / 2)
    (hdet : (gramE 𝕜 (fun i => vec (p.W i)) fun i => vec (p.V i)).det ≠ 0) (hμ : μ = frob (gramE 𝕜 (fun i => vec (p.W i)) fun i => vec (p.V i))⁻¹)
    (h1 : μ * (q₁ + (1 + q₂) * q₄) < 1) (h2 : μ * (q₁ + 2 * (frob (R.map num) * (q₂ + (1 + q₂) * q₃) + q₄)) < 1) :
    let P := projP (𝕜 := 𝕜) (fun i => vec (p.V i)) fun i => vec (p.W i)
    let P' := projP (𝕜 := 𝕜) (fun i => vec (p.W i)) fun i => vec (p.V i)
    let ϑ := colNorm fun i => vec (p.V i)
    let ω := colNorm fun i => vec (p.W i)
    (BddProj P (ϑ * (μ * ω)) (1 + ϑ * (μ * ω)) ∧
      FlMap vec fin (flProjApply1x o p) P (projDelta μ (q₁ + (1 + q₂) * q₄) ((1 + q₂) * q₃ + q₂) d g ω ϑ)
        ((1 + ϑ * (μ * ω)) * (g * (ϑ * projY μ (q₁ + (1 + q₂) * q₄) ((1 + q₂) * q₃ + q₂) d ω)))) ∧
    (BddProj P' (ω * (μ * ϑ)) (1 + ω * (μ * ϑ)) ∧
      FlMap vec fin (flProjApplyAdj1 o p) P' (projDelta μ (q₁ + 2 * (frob (R.map num) * (q₂ + (1 + q₂) * q₃) + q₄)) 0 d g ϑ ω)
        ((1 + ω * (μ * ϑ)) * (g * (ω * projY μ (q₁ + 2 * (frob (R.map num) * (q₂ + (1 + q₂) * q₃) + q₄)) 0 d ϑ)))) := by
  intro P P' ϑ ω
  have hμ0 : 0 ≤ μ := by rw [hμ]; exact frob_nonneg' _
  have hq₁ : 0 ≤ q₁ := (frob_nonneg' _).trans hs.fact
  have hq₂ : 0 ≤ q₂ := (frob_nonneg' _).trans hs.unit
  have hm : ∀ y : Fin k → 𝕜, vecNorm y ≤ μ * vecNorm (gramE 𝕜 (fun i => vec (p.W i)) (fun i => vec (p.V i)) *ᵥ y) := by
    rw [hμ]
    exact gram_inverse hdet
  have hm' : ∀ y : Fin k → 𝕜, vecNorm y ≤ μ * vecNorm (gramE 𝕜 (fun i => vec (p.V i)) (fun i => vec (p.W i)) *ᵥ y) := by
    intro y
    have hd : (gramE 𝕜 (fun i => vec (p.V i)) fun i => vec (p.W i)).det ≠ 0 := by
      rw [← gramE_adj, Matrix.det_conjTranspose]
      exact star_ne_zero.mpr hdet
    have := gram_inverse hd y
    rwa [← gramE_adj (𝕜 := 𝕜) (fun i => vec (p.W i)) (fun i => vec (p.V i)), ← Matrix.conjTranspose_nonsing_inv, frob_conjTranspose, gramE_adj, ← hμ] at this
  have hF := frob_nonneg' (R.map num)
  refine ⟨⟨C87_bdd hμ0 hm, C87_single hk h hd0 hg0 (C87_solve hQR hs) (by positivity) (by positivity) hμ0 hm h1 (C87_bdd hμ0 hm)⟩,
    ⟨C87_bdd hμ0 hm', C87_single_adj hk h hd0 hg0 ?_ (by positivity) le_rfl hμ0 hm' h2 (C87_bdd hμ0 hm')⟩⟩
  rw [← gramE_adj]
  exact C87_solve_adj hQR hs hq₃ hq

end

/-! ## The constructor -/

section
variable {K X : Type*} {k : ℕ}

/-- C87: what the constructor stores, in any arithmetic. -/
theorem C87_constructor (o : FlProjOps K X k) (A : Fin k → X) (Y : Option (Fin k → X)) (orth : Bool) (it : ℤ) (hk : k ≠ 0) :
    (it < 1 → flMkProj o A Y orth it = .error .argumentError) ∧ ∀ p, flMkProj o A Y orth it = .ok p → 1 ≤ p.iterations ∧ (p.iterations : ℤ) = it ∧
      (orth = true → ∃ VR, o.qr A = .ok (p.V, VR)) ∧ (orth = false → p.V = A ∧ p.W = Y.getD A) ∧
      ((orth = true ∧ Y = none ∧ p.W = p.V ∧ p.QR = none) ∨
        ((orth = true → ∃ B WR, Y = some B ∧ o.qr B = .ok (p.W, WR) ∧ p.WR = some WR) ∧ ∃ QR, p.QR = some QR ∧ o.matQr (flGram o p.W p.V) = .ok QR)) := by
  unfold flMkProj
  refine ⟨fun h => by rw [if_pos h], fun p hp => ?_⟩
  split at hp
  · cases hp
  rename_i hit
  have hit1 : 1 ≤ it.toNat ∧ (it.toNat : ℤ) = it := by omega
  have hob : ∀ {V W : Fin k → X} {VR WR : Option (Matrix (Fin k) (Fin k) K)} {q : Proj K X k}, flOblique o V W VR WR it.toNat = .ok q →
      q.V = V ∧ q.W = W ∧ q.WR = WR ∧ q.iterations = it.toNat ∧ ∃ QR, q.QR = some QR ∧ o.matQr (flGram o q.W q.V) = .ok QR := by
    intro V W VR WR q hq
    unfold flOblique at hq
    split at hq
    · cases hq
    rename_i QR hQR
    obtain rfl := Except.ok.inj hq
    exact ⟨rfl, rfl, rfl, rfl, QR, rfl, hQR⟩
  cases orth with
  | true =>
    rw [if_pos rfl] at hp
    split at hp
    · cases hp
    rename_i V VR hV
    cases Y with
    | none =>
      obtain rfl := Except.ok.inj hp
      exact ⟨hit1.1, hit1.2, fun _ => ⟨VR, hV⟩, by simp, .inl ⟨rfl, rfl, rfl, rfl⟩⟩
    | some B =>
      dsimp only at hp
      split at hp
      · cases hp
      rename_i W WR hW
      obtain ⟨h1, h2, h3, h4, h5⟩ := hob hp
      refine ⟨by rw [h4]; exact hit1.1, by rw [h4]; exact hit1.2, fun _ => ⟨VR, by rw [h1]; exact hV⟩, by simp, .inr ⟨fun _ => ⟨B, WR, rfl, by rw [h2]; exact hW, h3⟩, h5⟩⟩
  | false =>
    rw [if_neg (by simp)] at hp
    obtain ⟨h1, h2, h3, h4, h5⟩ := hob hp
    exact ⟨by rw [h4]; exact hit1.1, by rw [h4]; exact hit1.2, by simp, fun _ => ⟨h1, h2⟩, .inr ⟨by simp, h5⟩⟩

end

/-! ## One iteration is not enough; the hypotheses can be met -/

/-- Example for the operations of `Projection` (utils.py 482-677): `ℂ` as a real vector space of dimension two, one column; linear combinations have the relative error `t`. -/
noncomputable def errProj (t : ℝ) : FlProjOps ℝ ℂ 1 where
  zeros := 0
  zeroK := 0
  add := (· + ·)
  sub := (· - ·)
  ip x y := inner ℝ x y
  dot V c := (1 - t) • lincomb V c
  adj := Matrix.conjTranspose
  mul := Matrix.mulVec
  solveU := solveUpper
  solveL := solveLower
  qr V := .ok (fun i => (‖V i‖⁻¹ : ℝ) • V i, Matrix.diagonal fun i => ‖V i‖)
  matQr M := .ok (1, M)

theorem errProj_acc {t : ℝ} (ht : 0 ≤ t) : FlProjAcc (𝕜 := ℝ) (errProj t) (fun z : ℂ => z) (fun _ => True) id (fun _ => True) 0 0 t where
  sub _ := ⟨trivial, trivial, by simp [errProj]⟩
  add _ := ⟨trivial, trivial, by simp [errProj]⟩
  ip _ := ⟨trivial, trivial, by simp [errProj]⟩
  dot {V c} _ := by
    refine ⟨fun _ => trivial, ?_⟩
    have e : (errProj t).dot V c - lincomb V c = (-t) • lincomb V c := by
      change (1 - t) • lincomb V c - lincomb V c = _
      rw [sub_smul, one_smul, neg_smul]
      abel
    change ‖(errProj t).dot V c - lincomb V c‖ ≤ _
    rw [e, norm_smul, norm_neg, Real.norm_of_nonneg ht]
    refine mul_le_mul_of_nonneg_left ?_ ht
    unfold lincomb
    exact (norm_sum_le _ _).trans (le_of_eq (Finset.sum_congr rfl fun i _ => norm_smul _ _))

/-- The object for the column `1` (utils.py 482-520). -/
noncomputable def errProjObj (it : ℕ) : Proj ℝ ℂ 1 := ⟨fun _ => 1, fun _ => 1, some (Matrix.diagonal fun _ => 1), some (Matrix.diagonal fun _ => 1), none, it⟩

theorem errProj_mk (t : ℝ) (n : ℕ) : flMkProj (errProj t) (fun _ => 1) none true (n + 1 : ℕ) = .ok (errProjObj (n + 1)) := by
  unfold flMkProj
  rw [if_neg (by omega), if_neg (by omega), if_pos rfl]
  simp only [errProj, errProjObj, norm_one, inv_one, one_smul, Int.toNat_natCast]

theorem errProj_apply1 (t : ℝ) (n : ℕ) (a : ℂ) : flProjApply1x (errProj t) (errProjObj n) a = .ok (((1 - t) * a.re : ℝ) : ℂ) := by
  unfold flProjApply1x flProjApply1 flProjSolve
  rw [if_neg (by omega)]
  simp only [errProj, errProjObj, lincomb, Finset.univ_unique, Finset.sum_singleton, Complex.inner, map_one]
  congr 1
  simp

theorem errProj_compl (t : ℝ) (a : ℂ) (n : ℕ) : ∃ Ya, flProjCompl (errProj t) (errProjObj (n + 1)) a = .ok (⟨t ^ (n + 1) * a.re, a.im⟩, Ya) := by
  have h1 := errProj_apply1 t (n + 1) a
  have hl : ∀ m (z : ℂ), flRefineCompl (errProj t) (flProjApply1x (errProj t) (errProjObj (n + 1))) m z = .ok ⟨t ^ m * z.re, z.im⟩ := by
    intro m z
    induction m with
    | zero => simp [flRefineCompl]
    | succ m ih =>
      unfold flRefineCompl
      rw [ih]
      dsimp only
      rw [errProj_apply1]
      dsimp only [errProj]
      congr 1
      apply Complex.ext
      · simp only [Complex.sub_re, Complex.ofReal_re]
        ring
      · simp only [Complex.sub_im, Complex.ofReal_im, sub_zero]
  unfold flProjApply1x at h1
  split at h1
  · cases h1
  rename_i r hr
  have h2 := Except.ok.inj h1
  refine ⟨r.2, ?_⟩
  unfold flProjCompl
  rw [if_neg (by omega), hr]
  dsimp only
  rw [hl]
  dsimp only
  congr 2
  rw [h2]
  have e : (errProjObj (n + 1)).iterations - 1 = n := by simp [errProjObj]
  rw [e]
  apply Complex.ext
  · simp [errProj]
    ring
  · simp [errProj]

/-- C87: one iteration is not enough.  For every accuracy `t` there are operations with errors of at most `t`, a projection and a vector, for which the result of
`apply_complement` with one iteration has an inner product with the basis vector of the projection of a fixed fraction of its norm, however small `t` is; with two iterations
(the default) it is at most `t` times the norm. -/
theorem C87_needed {t : ℝ} (ht : 0 < t) : ∃ (o : FlProjOps ℝ ℂ 1) (a : ℂ), FlProjAcc (𝕜 := ℝ) o (fun z : ℂ => z) (fun _ => True) id (fun _ => True) 0 0 t ∧
    (∃ p z Ya, flMkProj o (fun _ => 1) none true 1 = .ok p ∧ flProjCompl o p a = .ok (z, Ya) ∧ z ≠ 0 ∧ 1 / 17 * ‖z‖ ≤ |inner ℝ (1 : ℂ) z|) ∧
    ∃ p z Ya, flMkProj o (fun _ => 1) none true 2 = .ok p ∧ flProjCompl o p a = .ok (z, Ya) ∧ z ≠ 0 ∧ |inner ℝ (1 : ℂ) z| ≤ t * ‖z‖ := by
  have hin : ∀ z : ℂ, inner ℝ (1 : ℂ) z = z.re := fun z => by simp [Complex.inner]
  have h0 : 0 < 16 * t := by linarith
  obtain ⟨Y1, h1⟩ := errProj_compl t ⟨1, 16 * t⟩ 0
  obtain ⟨Y2, h2⟩ := errProj_compl t ⟨1, 16 * t⟩ 1
  refine ⟨errProj t, ⟨1, 16 * t⟩, errProj_acc ht.le, ⟨_, _, Y1, errProj_mk t 0, h1, ?_, ?_⟩, ⟨_, _, Y2, errProj_mk t 1, h2, ?_, ?_⟩⟩
  · intro h
    have := congrArg Complex.im h
    simp at this
    linarith
  · rw [hin]
    simp only [zero_add, pow_one, mul_one]
    refine le_trans (mul_le_mul_of_nonneg_left (Complex.norm_le_abs_re_add_abs_im _) (by norm_num)) ?_
    simp only [abs_of_pos ht, abs_of_pos h0]
    linarith
  · intro h
    have := congrArg Complex.im h
    simp at this
    linarith
  · rw [hin]
    have := Complex.abs_im_le_norm (⟨t ^ (1 + 1) * 1, 16 * t⟩ : ℂ)
    simp only [mul_one, abs_of_pos h0] at this ⊢
    rw [abs_of_pos (by positivity)]
    have := mul_le_mul_of_nonneg_left this ht.le
    have e : t ^ (1 + 1) = t * t := by ring
    have := mul_pos ht ht
    linarith

/-- The hypotheses of `C87_orthogonal` and `C87_twice` can be met: the arithmetic, object and vector of `C87_needed` for `t = 1/1000`. -/
example : ∃ z Ya, flProjCompl (errProj (1 / 1000)) (errProjObj 2) ⟨1, 16 / 1000⟩ = .ok (z, Ya) ∧
    ‖projP (𝕜 := ℝ) (fun _ : Fin 1 => (1 : ℂ)) (fun _ => 1) z‖ ≤ 2 * (1 / 1000) * ‖z‖ := by
  obtain ⟨Ya, h⟩ := errProj_compl (1 / 1000) ⟨1, 16 / 1000⟩ 1
  refine ⟨_, Ya, h, ?_⟩
  have hg : gramE ℝ (fun _ : Fin 1 => (1 : ℂ)) (fun _ => 1) = 1 := by
    ext i j
    obtain rfl := Subsingleton.elim i j
    simp [gramE, gram]
  have hc : colNorm (fun _ : Fin 1 => (1 : ℂ)) = 1 := by simp [colNorm]
  obtain ⟨hP, hm, -, -⟩ := C87_orthogonal (p := errProjObj 2) (σ := 0) one_ne_zero (errProj_acc (by norm_num : (0 : ℝ) ≤ 1 / 1000)) le_rfl (by norm_num) rfl rfl
    (by change frob (gramE ℝ (fun _ : Fin 1 => (1 : ℂ)) (fun _ => 1) - 1) ≤ 0
        rw [hg, sub_self]
        simp [frob]) zero_lt_one
  change FlMap _ _ _ _ (projDelta (1 / (1 - 0)) 0 0 0 (1 / 1000) (colNorm fun _ : Fin 1 => (1 : ℂ)) (colNorm fun _ : Fin 1 => (1 : ℂ))) _ at hm
  have hδ : projDelta (1 / (1 - 0)) 0 0 0 (1 / 1000) (colNorm fun _ : Fin 1 => (1 : ℂ)) (colNorm fun _ : Fin 1 => (1 : ℂ)) = 1 / 1000 := by
    rw [hc]
    norm_num [projDelta, projY]
  rw [hδ] at hm
  have hη : projEta 0 (1 / 1000) 1 = 1 / 1000 := by norm_num [projEta]
  have hpa : ∀ a : ℂ, projP (𝕜 := ℝ) (fun _ : Fin 1 => (1 : ℂ)) (fun _ => 1) a = ((a.re : ℝ) : ℂ) := by
    intro a
    rw [projP_apply, hg]
    simp [lincomb, coefs, Complex.inner]
  have := C87_twice (p := errProjObj 2) (κ := 200 / 3) (errProj_acc (by norm_num : (0 : ℝ) ≤ 1 / 1000)).toFlProjVec hm hP le_rfl (by norm_num) one_ne_zero le_rfl (.inl ⟨rfl, Ya, h⟩) trivial ?_
    (by rw [hη]; norm_num) (by rw [hη]; norm_num) (by rw [hη]; norm_num) (by rw [hη]; norm_num)
  · have e : (2 : ℝ) * 1 * (1 / 1000) = 2 * (1 / 1000) := by norm_num
    rw [hη, e] at this
    exact this
  · change ‖(⟨1, 16 / 1000⟩ : ℂ)‖ ≤ 200 / 3 * ‖(⟨1, 16 / 1000⟩ : ℂ) - projP (𝕜 := ℝ) (fun _ : Fin 1 => (1 : ℂ)) (fun _ => 1) ⟨1, 16 / 1000⟩‖
    rw [hpa]
    have h1 := Complex.norm_le_abs_re_add_abs_im (⟨1, 16 / 1000⟩ : ℂ)
    have h2 := Complex.abs_im_le_norm ((⟨1, 16 / 1000⟩ : ℂ) - ((1 : ℝ) : ℂ))
    simp only [Complex.sub_im, Complex.ofReal_im, sub_zero] at h2
    norm_num [abs_of_pos] at h1 h2 ⊢
    linarith

/-- The hypotheses of `C87_oblique` can be met: the oblique projection onto the span of `1` along the orthogonal complement of `1 + i`. -/
example : ∃ p, flMkProj (errProj (1 / 1000)) (fun _ => 1) (some fun _ => 1 + Complex.I) false 2 = .ok p ∧
    ∃ π π' δ ρ, BddProj (projP (𝕜 := ℝ) (fun i => p.V i) fun i => p.W i) π π' ∧
      FlMap (fun z : ℂ => z) (fun _ => True) (flProjApply1x (errProj (1 / 1000)) p) (projP (𝕜 := ℝ) (fun i => p.V i) fun i => p.W i) δ ρ ∧ δ = 1 / 500 * Real.sqrt 2 / 2 := by
  have hg : gramE ℝ (fun _ : Fin 1 => 1 + Complex.I) (fun _ => (1 : ℂ)) = 1 := by
    ext i j
    obtain rfl := Subsingleton.elim i j
    simp [gramE, gram, Complex.inner]
  have hg' : flGram (errProj (1 / 1000)) (fun _ => 1 + Complex.I) (fun _ => (1 : ℂ)) = 1 := hg
  have hup : ∀ i j : Fin 1, j < i → (1 : Matrix (Fin 1) (Fin 1) ℝ) i j = 0 := fun i j h => by omega
  have hf0 : frob (0 : Matrix (Fin 1) (Fin 1) ℝ) = 0 := by simp [frob]
  have hm : ((1 : Matrix (Fin 1) (Fin 1) ℝ).map id) = 1 := Matrix.map_id _
  refine ⟨⟨fun _ => 1, fun _ => 1 + Complex.I, none, none, some (1, 1), 2⟩, ?_, ?_⟩
  · unfold flMkProj flOblique
    rw [if_neg (by omega), if_neg (by omega), if_neg (by simp)]
    simp only [Option.getD_some]
    rw [hg']
    rfl
  · have hs : FlSolveAcc (errProj (1 / 1000)) (id : ℝ → ℝ) (fun _ => True) 1 1 (gramE ℝ (fun _ : Fin 1 => 1 + Complex.I) fun _ => (1 : ℂ)) 0 0 0 0 := by
      refine ⟨?_, ?_, ?_, fun _ => ⟨fun _ => trivial, ?_⟩, fun _ => ⟨fun _ => trivial, ?_⟩, fun {c y} h _ => ⟨fun _ => trivial, 0, ?_, ?_⟩, fun {c y} h _ => ⟨fun _ => trivial, 0, ?_, ?_⟩⟩
      · rw [hm, hg, mul_one, sub_self, hf0]
      · rw [hm, Matrix.conjTranspose_one, mul_one, sub_self, hf0]
      · rw [hm, Matrix.conjTranspose_one, mul_one, sub_self, hf0]
      · simp [errProj, vecNorm]
      · simp [errProj, vecNorm]
      · rw [hf0]
      · rw [hm, add_zero, Matrix.one_mulVec]
        change solveUpper 1 c = .ok y at h
        rw [solveUpper_ok hup (by simp)] at h
        obtain rfl := Except.ok.inj h
        simp
      · rw [hf0]
      · rw [hm, add_zero, Matrix.conjTranspose_one, Matrix.one_mulVec]
        change solveLower (1 : Matrix (Fin 1) (Fin 1) ℝ)ᴴ c = .ok y at h
        rw [solveLower_ok hup (by simp)] at h
        obtain rfl := Except.ok.inj h
        simp
    have hinv : frob (gramE ℝ (fun _ : Fin 1 => 1 + Complex.I) fun _ => (1 : ℂ))⁻¹ = 1 := by
      rw [hg, inv_one]
      simp [frob]
    obtain ⟨⟨h1, h2⟩, -⟩ := C87_oblique (𝕜 := ℝ) (μ := 1) (q₁ := 0) (q₂ := 0) (q₃ := 0) (q₄ := 0) (Q := 1) (R := 1)
      (p := ⟨fun _ => (1 : ℂ), fun _ => 1 + Complex.I, none, none, some (1, 1), 2⟩) one_ne_zero (errProj_acc (by norm_num : (0 : ℝ) ≤ 1 / 1000)) le_rfl (by norm_num) rfl hs le_rfl le_rfl
      (by norm_num) (by change Matrix.det (gramE ℝ (fun _ : Fin 1 => 1 + Complex.I) fun _ => (1 : ℂ)) ≠ 0; rw [hg]; simp) hinv.symm (by norm_num) (by norm_num)
    refine ⟨_, _, _, _, h1, h2, ?_⟩
    have c1 : colNorm (fun _ : Fin 1 => (1 : ℂ)) = 1 := by simp [colNorm]
    have c2 : colNorm (fun _ : Fin 1 => 1 + Complex.I) = Real.sqrt 2 := by
      have : ‖1 + Complex.I‖ ^ 2 = 2 := by
        rw [← Complex.normSq_eq_norm_sq]
        norm_num [Complex.normSq_apply]
      simp [colNorm, this]
    change projDelta 1 (0 + (1 + 0) * 0) ((1 + 0) * 0 + 0) 0 (1 / 1000) (colNorm fun _ : Fin 1 => 1 + Complex.I) (colNorm fun _ : Fin 1 => (1 : ℂ)) = _
    rw [c1, c2]
    norm_num [projDelta, projY]
    ring

end Krypy
