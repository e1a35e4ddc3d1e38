import Verif.Props.FlQr
import Verif.Props.FlLanczos
import Verif.Proofs.Reortho

/-!
# Property C83: orthogonality with rounding errors

If the vectors are orthogonalised at least twice (`qr` with `reorthos ≥ 1`, which is the default; `Arnoldi` with `ortho='dmgs'`), then the computed
vectors are orthonormal up to rounding errors, as long as no column is almost in the span of the earlier ones: with `R[i,i] ≥ ‖x_i‖/K` the
inner products of different vectors are at most `3 n η`, where `η` is the error of one step and `n` the number of vectors; this bound does not depend on `K`,
only on `n³ η K ≤ 1/1000`.  Without reorthogonalisation this is false in every inexact arithmetic (`C83_needed`).
-/

set_option linter.unusedSectionVars false

namespace Krypy

open Reortho

section
variable {𝕜 E : Type*} [RCLike 𝕜] [NormedAddCommGroup E] [InnerProductSpace 𝕜 E] {F K X : Type*}
variable {o : FlArnOps F K X} {vec : X → E} {fin : X → Prop} {num : K → 𝕜} {finK : K → Prop} {val : F → ℝ} {finF : F → Prop} {B : E →L[𝕜] E} {u e d : ℝ}

/-- Error of one step of the inner loop (utils.py 701-703, 1015-1029), relative to the norm of the vector. -/
def orthoErr (u d : ℝ) : ℝ := orthoGrow u d - 1

theorem orthoErr_ge (hu0 : 0 ≤ u) (hd0 : 0 ≤ d) : 3 * u + 2 * d ≤ orthoErr u d := by
  unfold orthoErr orthoGrow
  nlinarith [mul_nonneg hu0 hd0, mul_nonneg hu0 hu0, mul_nonneg hu0 (mul_nonneg hu0 hd0)]

theorem flOrthoStep_proj (hv : FlArnVec o vec fin num finK val finF B u e) (hi : FlArnIp o vec fin num finK val finF d) (hu0 : 0 ≤ u) (hd0 : 0 ≤ d)
    {ortho : Ortho} (ho : ortho ≠ .lanczos) {V : ℕ → X} {st : X × (ℕ → K)} {j : ℕ} (hf : fin (flOrthoStep o ortho V V st j).1) (hn : ‖vec (V j)‖ ^ 2 ≤ 2) :
    ‖vec (flOrthoStep o ortho V V st j).1 - (vec st.1 - inner 𝕜 (vec (V j)) (vec st.1) • vec (V j))‖ ≤ orthoErr u d * ‖vec st.1‖ := by
  have hs : (flOrthoStep o ortho V V st j).1 = o.sub st.1 (o.scale (o.ip (V j) st.1) (V j)) := by
    unfold flOrthoStep
    simp [ho]
  rw [hs] at hf ⊢
  obtain ⟨-, f2, b1⟩ := hv.sub hf
  obtain ⟨f3, -, b2⟩ := hv.scale f2
  have ha := alpha_bound hi f3 hn hd0
  have hip := hi.ip f3
  have hp := norm_sub_proj_le (𝕜 := 𝕜) (w := vec st.1) hn
  set w := vec st.1
  set v := vec (V j)
  set a := num (o.ip (V j) st.1)
  set t := vec (o.scale (o.ip (V j) st.1) (V j))
  have e1 : ‖(a - inner 𝕜 v w) • v‖ ≤ 2 * d * ‖w‖ := by
    rw [norm_smul]
    have h1 := mul_le_mul_of_nonneg_right hip (norm_nonneg v)
    have h2 : d * (‖v‖ * ‖w‖) * ‖v‖ = d * ‖w‖ * ‖v‖ ^ 2 := by ring
    rw [h2] at h1
    have h3 := mul_le_mul_of_nonneg_left hn (show 0 ≤ d * ‖w‖ by positivity)
    linarith
  have e2 : ‖t - a • v‖ ≤ 2 * u * (1 + d) * ‖w‖ := by
    refine b2.trans ?_
    rw [norm_smul]
    have := mul_le_mul_of_nonneg_left ha hu0
    linarith
  have e3 : ‖w - t‖ ≤ (1 + 2 * d + 2 * u * (1 + d)) * ‖w‖ := by
    have key : w - t = (w - inner 𝕜 v w • v) - (a - inner 𝕜 v w) • v - (t - a • v) := by module
    rw [key]
    have h1 := norm_sub_le ((w - inner 𝕜 v w • v) - (a - inner 𝕜 v w) • v) (t - a • v)
    have h2 := norm_sub_le (w - inner 𝕜 v w • v) ((a - inner 𝕜 v w) • v)
    linarith
  have key : vec (o.sub st.1 (o.scale (o.ip (V j) st.1) (V j))) - (w - inner 𝕜 v w • v) =
      (vec (o.sub st.1 (o.scale (o.ip (V j) st.1) (V j))) - (w - t)) - (t - a • v) - (a - inner 𝕜 v w) • v := by module
  rw [key]
  refine (norm_sub_le _ _).trans ?_
  have h0 := norm_sub_le (vec (o.sub st.1 (o.scale (o.ip (V j) st.1) (V j))) - (w - t)) (t - a • v)
  have h2 : u * ‖w - t‖ ≤ u * ((1 + 2 * d + 2 * u * (1 + d)) * ‖w‖) := mul_le_mul_of_nonneg_left e3 hu0
  unfold orthoErr orthoGrow
  linarith

theorem flOrtho_pass (hv : FlArnVec o vec fin num finK val finF B u e) (hi : FlArnIp o vec fin num finK val finF d) (hu0 : 0 ≤ u) (hd0 : 0 ≤ d)
    {ortho : Ortho} (ho : ortho ≠ .lanczos) {V : ℕ → X} {m : ℕ} (st : X × (ℕ → K)) (hn : ∀ j < m, ‖vec (V j)‖ ^ 2 ≤ 2)
    (hf : fin ((List.range m).foldl (flOrthoStep o ortho V V) st).1) :
    Pass 𝕜 (orthoErr u d) (fun j => vec (V j)) m (fun j => vec ((List.range j).foldl (flOrthoStep o ortho V V) st).1) := by
  intro j hj
  have h1 := fin_take hv (List.range m) st hf (j + 1)
  rw [List.take_range, Nat.min_eq_left hj, List.range_succ, List.foldl_append, List.foldl_cons, List.foldl_nil] at h1
  dsimp only
  rw [List.range_succ, List.foldl_append, List.foldl_cons, List.foldl_nil]
  exact flOrthoStep_proj hv hi hu0 hd0 ho h1 (hn j hj)

theorem norm_fold_le (hv : FlArnVec o vec fin num finK val finF B u e) (hi : FlArnIp o vec fin num finK val finF d) (hu0 : 0 ≤ u) (hd0 : 0 ≤ d)
    {ortho : Ortho} (ho : ortho ≠ .lanczos) {V : ℕ → X} (l : List ℕ) (hn : ∀ j ∈ l, ‖vec (V j)‖ ^ 2 ≤ 2) (st : X × (ℕ → K))
    (hf : fin (l.foldl (flOrthoStep o ortho V V) st).1) :
    ‖vec (l.foldl (flOrthoStep o ortho V V) st).1‖ ≤ orthoGrow u d ^ l.length * ‖vec st.1‖ := by
  induction l using List.reverseRecOn with
  | nil => simp
  | append_singleton l j ih =>
    rw [List.foldl_append, List.foldl_cons, List.foldl_nil] at hf ⊢
    have h1 := flOrthoStep_grow hv hi hu0 hd0 ho hf (hn j (by simp))
    have h2 := ih (fun j hj => hn j (by simp [hj])) (hv.sub hf).1
    have g1 := one_le_orthoGrow hu0 hd0
    rw [List.length_append, List.length_singleton, pow_succ', mul_assoc]
    exact h1.trans (mul_le_mul_of_nonneg_left h2 (by linarith))

/-- Consequences of a small error. -/
theorem orthoErr_small {n : ℕ} (hn : 1 ≤ n) (hu0 : 0 ≤ u) (hd0 : 0 ≤ d) {κ : ℝ} (hκ : 1 ≤ κ) (hT : (n : ℝ) ^ 3 * orthoErr u d * κ ≤ 1 / 1000) :
    0 ≤ orthoErr u d ∧ (n : ℝ) * orthoErr u d ≤ 1 / 1000 ∧ orthoErr u d ≤ n * orthoErr u d ∧ orthoErr u d ≤ 1 / 1000 ∧ u ≤ orthoErr u d / 3 ∧ d ≤ orthoErr u d / 2 ∧
      u < 1 ∧ d < 1 ∧ (1 + u) ^ 2 ≤ 2 * (1 - d) ^ 2 := by
  have h0 := orthoErr_ge hu0 hd0
  set η := orthoErr u d
  have hη : 0 ≤ η := by linarith
  have n1 : (1 : ℝ) ≤ n := by exact_mod_cast hn
  have h1 : (n : ℝ) * η ≤ (n : ℝ) ^ 3 * η * κ := by
    have h2 : (n : ℝ) ≤ (n : ℝ) ^ 3 := le_self_pow₀ n1 (by norm_num)
    have h3 : (n : ℝ) * η ≤ (n : ℝ) ^ 3 * η := mul_le_mul_of_nonneg_right h2 hη
    have h4 : 0 ≤ (n : ℝ) ^ 3 * η := by positivity
    nlinarith
  have h2 : η ≤ n * η := by nlinarith
  have h3 : u ≤ η / 3 := by linarith
  have h4 : d ≤ η / 2 := by linarith
  have h5 : u ≤ 1 / 3000 := by linarith
  have h6 : d ≤ 1 / 2000 := by linarith
  refine ⟨hη, h1.trans hT, h2, by linarith, h3, h4, by linarith, by linarith, ?_⟩
  have h7 : (1 + u) ^ 2 ≤ (1 + 1 / 3000) ^ 2 := pow_le_pow_left₀ (by linarith) (by linarith) 2
  have h8 : (1 - 1 / 2000 : ℝ) ^ 2 ≤ (1 - d) ^ 2 := pow_le_pow_left₀ (by norm_num) (by linarith) 2
  have h9 : (1 + 1 / 3000 : ℝ) ^ 2 ≤ 2 * (1 - 1 / 2000) ^ 2 := by norm_num
  linarith

theorem NearUnit.level {x : E} (h : NearUnit u d x) (hu0 : 0 ≤ u) (hd0 : 0 ≤ d) {η : ℝ} (hη : η ≤ 1 / 1000) (hu : u ≤ η / 3) (hd : d ≤ η / 2) :
    |‖x‖ ^ 2 - 1| ≤ 2 * η := by
  have h1 : ‖x‖ ≤ 1 + 0.9 * η := by
    refine h.2.trans ?_
    rw [div_le_iff₀ (by linarith)]
    nlinarith
  have h2 : 1 - 0.9 * η ≤ ‖x‖ := by
    refine le_trans ?_ h.1
    rw [le_div_iff₀ (by linarith)]
    nlinarith
  have hη0 : 0 ≤ η := by linarith
  rw [abs_le]
  constructor
  · nlinarith [norm_nonneg x]
  · nlinarith [norm_nonneg x]

theorem Reortho.Level.succ {q : ℕ → E} {m : ℕ} {ε ν : ℝ} (h : Level 𝕜 q m ε ν) (h1 : ∀ i < m, ‖inner 𝕜 (q i) (q m)‖ ≤ ε) (h2 : |‖q m‖ ^ 2 - 1| ≤ ν) :
    Level 𝕜 q (m + 1) ε ν := by
  refine ⟨fun i hi j hj hij => ?_, fun i hi => ?_⟩
  · rcases Nat.lt_succ_iff_lt_or_eq.mp hi with hi | rfl
    · rcases Nat.lt_succ_iff_lt_or_eq.mp hj with hj | rfl
      · exact h.off i hi j hj hij
      · exact h1 i hi
    · rw [norm_inner_symm]
      exact h1 j (by omega)
  · rcases Nat.lt_succ_iff_lt_or_eq.mp hi with hi | rfl
    · exact h.unit i hi
    · exact h2

/-- The vector after at least two passes, divided by its norm, is orthogonal to the earlier vectors. -/
theorem flOrtho_twice (hv : FlArnVec o vec fin num finK val finF B u e) (hi : FlArnIp o vec fin num finK val finF d) (hu0 : 0 ≤ u) (hd0 : 0 ≤ d)
    {ortho : Ortho} (ho : ortho ≠ .lanczos) {V : ℕ → X} {m n p : ℕ} (hmn : m ≤ n) (hn1 : 1 ≤ n) {κ : ℝ} (hκ : 1 ≤ κ)
    (hT : (n : ℝ) ^ 3 * orthoErr u d * κ ≤ 1 / 1000) (hp : ((p * n : ℕ) : ℝ) * orthoErr u d ≤ 1 / 1000)
    (hl : Level 𝕜 (fun j => vec (V j)) m (3 * n * orthoErr u d) (2 * orthoErr u d)) (st : X × (ℕ → K)) {w : X}
    (hw : (((List.replicate (p + 2) (List.range m)).flatten).foldl (flOrthoStep o ortho V V) st).1 = w) {r : F}
    (hrf : finF r) (hr : |val r - ‖vec w‖| ≤ d * ‖vec w‖) (hx : ‖vec st.1‖ ≤ κ * val r) (hf : fin (o.sdiv w r)) :
    ∀ i < m, ‖inner 𝕜 (vec (V i)) (vec (o.sdiv w r))‖ ≤ 3 * n * orthoErr u d := by
  obtain ⟨hη, hnη, hηn, hη1, hu, hd, hu1, hd1, -⟩ := orthoErr_small hn1 hu0 hd0 hκ hT
  obtain ⟨hwf, hr0, hdiv⟩ := hv.sdiv hf hrf
  have hV : ∀ j < m, ‖vec (V j)‖ ^ 2 ≤ 2 := fun j hj => by
    have := (abs_le.mp (hl.unit j hj)).2
    linarith
  have hsplit : (List.replicate (p + 2) (List.range m)).flatten = (List.replicate p (List.range m)).flatten ++ (List.range m ++ List.range m) := by
    rw [List.replicate_add, List.flatten_append]
    simp [List.replicate]
  rw [hsplit, List.foldl_append, List.foldl_append] at hw
  set st1 := ((List.replicate p (List.range m)).flatten).foldl (flOrthoStep o ortho V V) st with hst1
  set st2 := (List.range m).foldl (flOrthoStep o ortho V V) st1 with hst2
  have hf3 : fin ((List.range m).foldl (flOrthoStep o ortho V V) st2).1 := by rw [hw]; exact hwf
  have hf2 : fin st2.1 := by simpa using fin_take hv (List.range m) st2 hf3 0
  have hf1 : fin st1.1 := by simpa using fin_take hv (List.range m) st1 hf2 0
  have p1 := flOrtho_pass hv hi hu0 hd0 ho st1 hV hf2
  have p2 := flOrtho_pass hv hi hu0 hd0 ho st2 hV hf3
  have g0 := norm_fold_le hv hi hu0 hd0 ho ((List.replicate p (List.range m)).flatten) (fun j hj => by
    simp only [List.mem_flatten, List.mem_replicate] at hj
    obtain ⟨l, ⟨-, rfl⟩, hl⟩ := hj
    exact hV j (List.mem_range.mp hl)) st hf1
  rw [← hst1] at g0
  have hlen : ((List.replicate p (List.range m)).flatten).length = p * m := by simp
  rw [hlen] at g0
  have hgrow : orthoGrow u d ^ (p * m) ≤ 1.01 := by
    have := growth_le (η := orthoErr u d) (m := p * m) (n := p * n) hη (Nat.mul_le_mul_left p hmn) hp
    rwa [show 1 + orthoErr u d = orthoGrow u d by unfold orthoErr; ring] at this
  have hr' := abs_le.mp hr
  have hW0 := norm_nonneg (vec w)
  have hX : ‖vec st1.1‖ ≤ 1.05 * κ * ‖vec w‖ := by
    have h1 : ‖vec st1.1‖ ≤ 1.01 * ‖vec st.1‖ := g0.trans (mul_le_mul_of_nonneg_right hgrow (norm_nonneg _))
    have h2 : val r ≤ 1.01 * ‖vec w‖ := by nlinarith
    have h3 : κ * val r ≤ κ * (1.01 * ‖vec w‖) := mul_le_mul_of_nonneg_left h2 (by linarith)
    have h4 : 0 ≤ κ * ‖vec w‖ := by positivity
    nlinarith
  have main := two_pass hmn hn1 hη hκ hT hl p1 p2 (by rfl)
    (by rw [hw]; exact hX)
  rw [hw] at main
  intro i him
  have h1 := main i him
  have hrpos : 0 < val r := by
    rcases lt_or_ge 0 (val r) with h | h
    · exact h
    · exfalso
      apply hr0
      have h2 : ‖vec w‖ ≤ 0 := by nlinarith
      have h3 : ‖vec w‖ = 0 := le_antisymm h2 hW0
      rw [h3] at hr'
      linarith
  have h2 : val r * ‖inner 𝕜 (vec (V i)) (vec (o.sdiv w r))‖ = ‖inner 𝕜 (vec (V i)) ((val r : 𝕜) • vec (o.sdiv w r))‖ := by
    rw [inner_smul_right, norm_mul, RCLike.norm_ofReal, abs_of_pos hrpos]
  have h3 : ‖inner 𝕜 (vec (V i)) ((val r : 𝕜) • vec (o.sdiv w r))‖ ≤ ‖inner 𝕜 (vec (V i)) (vec w)‖ + ‖vec (V i)‖ * (u * ‖vec w‖) := by
    have e1 : (val r : 𝕜) • vec (o.sdiv w r) = vec w + ((val r : 𝕜) • vec (o.sdiv w r) - vec w) := by abel
    conv_lhs => rw [e1, inner_add_right]
    refine (norm_add_le _ _).trans (add_le_add le_rfl ((norm_inner_le_norm _ _).trans ?_))
    exact mul_le_mul_of_nonneg_left hdiv (norm_nonneg _)
  have h4 : ‖vec (V i)‖ ≤ 1.415 := by
    have := hV i him
    nlinarith [norm_nonneg (vec (V i))]
  have h5 : ‖vec (V i)‖ * (u * ‖vec w‖) ≤ 1.415 * (u * ‖vec w‖) := mul_le_mul_of_nonneg_right h4 (by positivity)
  have h6 : u * ‖vec w‖ ≤ n * orthoErr u d / 3 * ‖vec w‖ := mul_le_mul_of_nonneg_right (by linarith) hW0
  have h7 : 0.999 * ‖vec w‖ ≤ val r := by nlinarith
  set S := (n : ℝ) * orthoErr u d with hS
  have hS0 : 0 ≤ S := by positivity
  have h8 : S * (0.999 * ‖vec w‖) ≤ S * val r := mul_le_mul_of_nonneg_left h7 hS0
  have h9 : 1.6 * (n : ℝ) * orthoErr u d * ‖vec w‖ = 1.6 * (S * ‖vec w‖) := by rw [hS]; ring
  rw [h9] at h1
  have h10 : 0 ≤ S * ‖vec w‖ := by positivity
  have h11 : val r * ‖inner 𝕜 (vec (V i)) (vec (o.sdiv w r))‖ ≤ val r * (3 * S) := by
    rw [h2]
    linarith
  have := le_of_mul_le_mul_left h11 hrpos
  rw [mul_assoc]
  exact this

/-! ## `qr` -/

/-- Column `i` of `qr` in any arithmetic: it depends on the columns of `Q` before it. -/
theorem flQrLoop_col {o : FlQrOps F K X} {reorthos k : ℕ} {x Q : ℕ → X} {R : ℕ → ℕ → K} (hl : flQrLoop o reorthos x k = .ok (Q, R)) :
    ∀ i < k, ∃ r, o.norm ((flQrList reorthos i).foldl (flQrStep o Q) (x i, fun _ => o.zero)).1 = .ok r ∧ R i i = o.ofReal r ∧
      Q i = if o.ge r then o.sdiv ((flQrList reorthos i).foldl (flQrStep o Q) (x i, fun _ => o.zero)).1 r
        else ((flQrList reorthos i).foldl (flQrStep o Q) (x i, fun _ => o.zero)).1 := by
  suffices H : (∀ i < k, ∃ r, o.norm ((flQrList reorthos i).foldl (flQrStep o Q) (x i, fun _ => o.zero)).1 = .ok r ∧ R i i = o.ofReal r ∧
      Q i = if o.ge r then o.sdiv ((flQrList reorthos i).foldl (flQrStep o Q) (x i, fun _ => o.zero)).1 r
        else ((flQrList reorthos i).foldl (flQrStep o Q) (x i, fun _ => o.zero)).1) ∧ (∀ a b, k ≤ b → R a b = o.zero) ∧ ∀ j, k ≤ j → Q j = x j from H.1
  have hcongr : ∀ (i : ℕ) (Q Q' : ℕ → X) (s : X × (ℕ → K)), (∀ j < i, Q' j = Q j) →
      (flQrList reorthos i).foldl (flQrStep o Q') s = (flQrList reorthos i).foldl (flQrStep o Q) s := by
    intro i Q Q' s h
    have : ∀ (l : List ℕ), (∀ j ∈ l, j < i) → ∀ s, l.foldl (flQrStep o Q') s = l.foldl (flQrStep o Q) s := by
      intro l
      induction l with
      | nil => exact fun _ _ => rfl
      | cons j l ih =>
        intro hl s
        rw [List.foldl_cons, List.foldl_cons, ih (fun a ha => hl a (by simp [ha]))]
        congr 1
        unfold flQrStep
        rw [h j (hl j (by simp))]
    exact this _ (fun j hj => flQrList_mem.mp hj) s
  induction k generalizing Q R with
  | zero =>
    obtain ⟨rfl, rfl⟩ := Prod.mk.inj (Except.ok.inj hl)
    exact ⟨fun i hi => absurd hi (by omega), fun _ _ _ => rfl, fun _ _ => rfl⟩
  | succ k ih =>
    rw [flQrLoop] at hl
    cases hp : flQrLoop o reorthos x k with
    | error e => rw [hp] at hl; cases hl
    | ok p =>
      obtain ⟨Q0, R0⟩ := p
      rw [hp] at hl
      dsimp only at hl
      obtain ⟨ih1, ih2, ih3⟩ := ih hp
      unfold flQrCol at hl
      dsimp only at hl
      have e0 : (Q0 k, fun j => R0 j k) = (x k, fun _ => o.zero) := by
        rw [ih3 k le_rfl]
        congr 1
        funext j
        exact ih2 j k le_rfl
      rw [e0] at hl
      cases hr : o.norm ((flQrList reorthos k).foldl (flQrStep o Q0) (x k, fun _ => o.zero)).1 with
      | error e => rw [hr] at hl; cases hl
      | ok r =>
        rw [hr] at hl
        obtain ⟨hQ, hR⟩ := Prod.mk.inj (Except.ok.inj hl)
        have hQj : ∀ j, j ≠ k → Q j = Q0 j := fun j hj => by rw [← hQ, Function.update_of_ne hj]
        have hRj : ∀ a b, b ≠ k → R a b = R0 a b := fun a b hb => by rw [← hR]; simp [hb]
        refine ⟨fun i hi => ?_, fun a b hb => ?_, fun j hj => ?_⟩
        · rcases Nat.lt_succ_iff_lt_or_eq.mp hi with hi | rfl
          · obtain ⟨r', h1, h2, h3⟩ := ih1 i hi
            refine ⟨r', ?_, ?_, ?_⟩
            · rw [hcongr i Q0 Q _ fun j hj => hQj j (by omega)]
              exact h1
            · rw [hRj i i (by omega)]
              exact h2
            · rw [hcongr i Q0 Q _ fun j hj => hQj j (by omega), hQj i (by omega)]
              exact h3
          · refine ⟨r, ?_, ?_, ?_⟩
            · rw [hcongr i Q0 Q _ fun j hj => hQj j (by omega)]
              exact hr
            · rw [← hR]
              simp
            · rw [hcongr i Q0 Q _ fun j hj => hQj j (by omega), ← hQ, Function.update_self]
        · rw [hRj a b (by omega)]
          exact ih2 a b (by omega)
        · rw [hQj j (by omega)]
          exact ih3 j (by omega)

/-- C83: `Q, R = qr(X, ip_B, reorthos)` with at least one reorthogonalisation and errors.  If the results are finite, `R[i,i] ≥ 1e-15` and
`‖x_i‖ ≤ κ R[i,i]` for all columns and `k³ η κ ≤ 1/1000`, then the columns of `Q` are orthonormal up to `3 k η`, where `η = orthoErr u d` is about `3 u + 2 d`. -/
theorem C83_qr {o : FlQrOps F K X} {τ : ℝ} (h : FlQrAcc o vec fin num finK val finF u d τ) (hu0 : 0 ≤ u) (hd0 : 0 ≤ d) (hτ : τ ≤ 1 - d) {reorthos k : ℕ}
    (hre : 1 ≤ reorthos) {κ : ℝ} (hκ : 1 ≤ κ) (hT : (k : ℝ) ^ 3 * orthoErr u d * κ ≤ 1 / 1000)
    (hp : (((reorthos - 1) * k : ℕ) : ℝ) * orthoErr u d ≤ 1 / 1000) {x Q : ℕ → X} {R : ℕ → ℕ → K}
    (hl : flQrLoop o reorthos x k = .ok (Q, R)) (hf : FlQrFin fin finK k Q R)
    (hR : ∀ i < k, τ ≤ RCLike.re (num (R i i)) ∧ ‖vec (x i)‖ ≤ κ * RCLike.re (num (R i i))) :
    (∀ i < k, ∀ j < k, i ≠ j → ‖inner 𝕜 (vec (Q i)) (vec (Q j))‖ ≤ 3 * k * orthoErr u d) ∧ ∀ i < k, |‖vec (Q i)‖ ^ 2 - 1| ≤ 2 * orthoErr u d := by
  rcases Nat.eq_zero_or_pos k with rfl | hk
  · exact ⟨fun i hi => absurd hi (by omega), fun i hi => absurd hi (by omega)⟩
  obtain ⟨hη, hnη, hηn, hη1, hu, hd, hu1, hd1, hud⟩ := orthoErr_small hk hu0 hd0 hκ hT
  obtain ⟨h1, -⟩ := C81_factorisation h hu0 hu1 hd0 hd1 hud hτ hl hf
  have hunit : ∀ i < k, |‖vec (Q i)‖ ^ 2 - 1| ≤ 2 * orthoErr u d := fun i hi => (((h1 i hi).large (hR i hi).1).1).level hu0 hd0 hη1 hu hd
  have hlev : ∀ m ≤ k, Level 𝕜 (fun j => vec (Q j)) m (3 * k * orthoErr u d) (2 * orthoErr u d) := by
    intro m
    induction m with
    | zero => exact fun _ => ⟨fun i hi => absurd hi (by omega), fun i hi => absurd hi (by omega)⟩
    | succ m ih =>
      intro hm
      refine (ih (by omega)).succ ?_ (hunit m (by omega))
      obtain ⟨r, hr1, hr2, hr3⟩ := flQrLoop_col hl m (by omega)
      obtain ⟨hrf, hrn⟩ := h.ofReal (hr2 ▸ hf.R m (by omega) m le_rfl)
      obtain ⟨-, hrv⟩ := h.norm hr1 hrf
      obtain ⟨hR1, hR2⟩ := hR m (by omega)
      rw [hr2, hrn, RCLike.ofReal_re] at hR1 hR2
      rw [if_pos ((h.ge hrf).mpr hR1)] at hr3
      have hqf := hf.Q m (by omega)
      rw [hr3] at hqf
      rw [hr3]
      refine flOrtho_twice h.toVec h.toIp hu0 hd0 (ortho := .mgs) (by decide) (V := Q) (p := reorthos - 1) (by omega : m ≤ k) hk hκ hT hp (ih (by omega)) (x m, fun _ => o.zero) ?_ hrf hrv
        hR2 hqf
      rw [← flQrStep_eq]
      unfold flQrList
      rw [show reorthos - 1 + 2 = reorthos + 1 by omega]
  exact ⟨(hlev k le_rfl).off, hunit⟩

/-! ## `Arnoldi` with `ortho='dmgs'` -/

/-- Number of basis vectors. -/
def flArnCnt (s : FlArn F K X) : ℕ := if s.invariant = true then s.iter else s.iter + 1

theorem lt_flArnCnt (s : FlArn F K X) (j : ℕ) : (j < s.iter ∨ (j = s.iter ∧ s.invariant = false)) ↔ j < flArnCnt s := by
  unfold flArnCnt
  cases s.invariant <;> simp <;> omega

/-- The invariant of the iteration with `ortho='dmgs'`. -/
def DmgsInv (vec : X → E) (fin : X → Prop) (num : K → 𝕜) (finK : K → Prop) (finF : F → Prop) (o : FlArnOps F K X) (B : E →L[𝕜] E) (u e d κ : ℝ) (m : ℕ) (v : X)
    (s : FlArn F K X) : Prop :=
  FlArnInv vec fin num finK finF o B u e d .dmgs v s ∧ (flArnCnt s ≤ m → FlArnFin fin finK finF s →
    (∀ n, n + 1 < flArnCnt s → ‖vec (o.A (s.V n))‖ ≤ κ * RCLike.re (num (s.H (n + 1) n))) →
    Level 𝕜 (fun j => vec (s.V j)) (flArnCnt s) (3 * m * orthoErr u d) (2 * orthoErr u d))

theorem DmgsInv.init [Zero X] (hv : FlArnVec o vec fin num finK val finF B u e) (hi : FlArnIp o vec fin num finK val finF d) (hu0 : 0 ≤ u)
    (hd0 : 0 ≤ d) (he0 : 0 ≤ e) (hM : o.M = none) {κ : ℝ} (hκ : 1 ≤ κ) {m : ℕ} (hm : 1 ≤ m) (hT : (m : ℝ) ^ 3 * orthoErr u d * κ ≤ 1 / 1000)
    {v : X} {Mv : Option X} {MvNorm : Option F} (hMv : ∀ r, MvNorm = some r → finF r → |val r - ‖vec v‖| ≤ d * ‖vec v‖) {s : FlArn F K X}
    (hs : flArnInit o v Mv MvNorm = .ok s) : DmgsInv vec fin num finK finF o B u e d κ m v s := by
  obtain ⟨hη, hnη, hηn, hη1, hu, hd, hu1, hd1, hud⟩ := orthoErr_small hm hu0 hd0 hκ hT
  have inv : FlArnInv vec fin num finK finF o B u e d .dmgs v s := FlArnInv.init hv hi hu0 hu1 hd0 hd1 hM hMv hs
  refine ⟨inv, fun _ hf _ => ?_⟩
  have h0 : s.iter = 0 := by
    unfold flArnInit at hs
    dsimp only at hs
    split at hs
    · cases hs
    · split at hs <;> · obtain rfl := Except.ok.inj hs; rfl
  have hc1 : flArnCnt s ≤ 1 := by
    unfold flArnCnt
    split <;> omega
  refine ⟨fun i hi j hj hij => absurd hij (by omega), fun i hi => ?_⟩
  exact (inv.unit hf i ((lt_flArnCnt s i).mpr hi)).level hu0 hd0 hη1 hu hd

theorem DmgsInv.step (hv : FlArnVec o vec fin num finK val finF B u e) (hi : FlArnIp o vec fin num finK val finF d) (hu0 : 0 ≤ u)
    (hd0 : 0 ≤ d) (he0 : 0 ≤ e) (hM : o.M = none) {κ : ℝ} (hκ : 1 ≤ κ) {m : ℕ} (hm : 1 ≤ m) (hT : (m : ℝ) ^ 3 * orthoErr u d * κ ≤ 1 / 1000)
    {maxiter : ℕ} {v : X} {s s' : FlArn F K X} (hs : DmgsInv vec fin num finK finF o B u e d κ m v s) (hstep : flArnAdvance o .dmgs maxiter s = .ok s') :
    DmgsInv vec fin num finK finF o B u e d κ m v s' := by
  obtain ⟨hη, hnη, hηn, hη1, hu, hd, hu1, hd1, hud⟩ := orthoErr_small hm hu0 hd0 hκ hT
  obtain ⟨inv, ih⟩ := hs
  have inv' := inv.step hv hi hu0 hu1 hd0 hd1 he0 hud hM (by decide) hstep
  refine ⟨inv', fun hcm hf' hH' => ?_⟩
  obtain ⟨hinv, hiter, hvn, w, hh, r, hfold, hnorm, hHe, hVP⟩ := flArnAdvance_cases hstep
  rw [hM, Option.map_none, Option.getD_none] at hVP
  rw [hM, Option.map_none] at hnorm
  have hc : flArnCnt s = s.iter + 1 := by simp [flArnCnt, hinv]
  have hVlt : ∀ j < s.iter + 1, s'.V j = s.V j := by
    intro j hj
    rcases hVP with ⟨-, h1, -⟩ | ⟨-, h1, -⟩
    · rw [h1]
    · rw [h1, Function.update_of_ne (by omega)]
  have hHlt : ∀ n, n ≠ s.iter → ∀ j, s'.H j n = s.H j n := by
    intro n hn j
    rw [hHe]
    simp [hn]
  have hlast : s'.H (s.iter + 1) s.iter = o.ofReal r := by
    rw [hHe]
    simp
  have hcle : s.iter + 1 ≤ flArnCnt s' := by
    unfold flArnCnt
    split <;> omega
  have hfs : FlArnFin fin finK finF s := by
    refine ⟨hvn ▸ hf'.vnorm, fun j hj => ?_, fun n hn j hj => ?_⟩
    · rw [← hVlt j (by omega)]
      exact hf'.V j (.inl (by omega))
    · rw [← hHlt n (by omega)]
      exact hf'.H n (by omega) j hj
  have lev := ih (by omega) hfs (fun n hn => by
    have := hH' n (by omega)
    rwa [hVlt n (by omega), hHlt n (by omega)] at this)
  rw [hc] at lev
  have lev' : Level 𝕜 (fun j => vec (s'.V j)) (s.iter + 1) (3 * m * orthoErr u d) (2 * orthoErr u d) := by
    refine ⟨fun i hi j hj hij => ?_, fun i hi => ?_⟩
    · rw [hVlt i hi, hVlt j hj]
      exact lev.off i hi j hj hij
    · rw [hVlt i hi]
      exact lev.unit i hi
  rcases hVP with ⟨ht, -, -⟩ | ⟨hfa, hV', -⟩
  · have : flArnCnt s' = s.iter + 1 := by simp [flArnCnt, ht, hiter]
    rw [this]
    exact lev'
  · have hc' : flArnCnt s' = s.iter + 2 := by simp [flArnCnt, hfa, hiter]
    rw [hc']
    have hu' := inv'.unit hf' (s.iter + 1) (.inr ⟨hiter.symm, hfa⟩)
    refine lev'.succ ?_ (hu'.level hu0 hd0 hη1 hu hd)
    have hVn : s'.V (s.iter + 1) = o.sdiv w r := by rw [hV', Function.update_self]
    obtain ⟨hrf, hrn⟩ := hv.ofReal (hlast ▸ hf'.H s.iter (by omega) (s.iter + 1) le_rfl)
    have hrv := (hi.norm hnorm hrf).2 rfl
    have hqf := hf'.V (s.iter + 1) (.inr ⟨hiter.symm, hfa⟩)
    rw [hVn] at hqf
    have hHk := hH' s.iter (by omega)
    rw [hlast, hrn, RCLike.ofReal_re, hVlt s.iter (by omega)] at hHk
    intro i hi'
    rw [hVn, hVlt i hi']
    refine flOrtho_twice hv hi hu0 hd0 (ortho := .dmgs) (by decide) (V := s.V) (p := 0) (m := s.iter + 1) (n := m) (by omega) hm hκ hT (by simp) lev (flOrthoStart o .dmgs s) (w := w) ?_ hrf hrv ?_ hqf i hi'
    · have e1 : flOrthoList .dmgs s.iter = (List.replicate (0 + 2) (List.range (s.iter + 1))).flatten := by
        unfold flOrthoList
        rw [List.range_eq_range']
        rfl
      rw [← e1]
      rw [inv.P] at hfold
      rw [hfold]
    · have e2 : (flOrthoStart o .dmgs s).1 = o.A (s.V s.iter) := by
        unfold flOrthoStart
        simp
      rw [e2]
      exact hHk

/-- The basis which belongs to a state which satisfies the invariant. -/
theorem DmgsInv.level {κ : ℝ} {m : ℕ} {v : X} {s : FlArn F K X} (key : DmgsInv vec fin num finK finF o B u e d κ m v s)
    (hsm : s.iter + 1 ≤ m ∨ (s.invariant = true ∧ s.iter ≤ m)) (hf : FlArnFin fin finK finF s)
    (hH : ∀ n, n + 1 < s.iter ∨ (n + 1 = s.iter ∧ s.invariant = false) → ‖vec (o.A (s.V n))‖ ≤ κ * RCLike.re (num (s.H (n + 1) n))) :
    Level 𝕜 (fun j => vec (s.V j)) (flArnCnt s) (3 * m * orthoErr u d) (2 * orthoErr u d) := by
  have hc : flArnCnt s ≤ m := by
    unfold flArnCnt
    rcases hsm with h1 | ⟨h1, h2⟩
    · split <;> omega
    · rw [if_pos h1]
      exact h2
  exact key.2 hc hf (fun n hn => hH n (by have := (lt_flArnCnt s (n + 1)).mpr hn; omega))

/-- C83: `utils.arnoldi` with `ortho='dmgs'`, `M=None` and errors.  If the results are finite, `‖A v_n‖ ≤ κ H[n+1,n]` for all columns which give a new basis vector and
`m³ η κ ≤ 1/1000`, where `m` is at least the number of basis vectors, then the basis is orthonormal up to `3 m η`. -/
theorem C83_dmgs [Zero X] (hv : FlArnVec o vec fin num finK val finF B u e) (hi : FlArnIp o vec fin num finK val finF d) (hu0 : 0 ≤ u)
    (hd0 : 0 ≤ d) (he0 : 0 ≤ e) (hM : o.M = none) {κ : ℝ} (hκ : 1 ≤ κ) {m : ℕ} (hm : 1 ≤ m) (hT : (m : ℝ) ^ 3 * orthoErr u d * κ ≤ 1 / 1000)
    {maxiter : ℕ} {v : X} {Mv : Option X} {MvNorm : Option F} (hMv : ∀ r, MvNorm = some r → |val r - ‖vec v‖| ≤ d * ‖vec v‖) {s : FlArn F K X}
    (h : flArnoldi o .dmgs maxiter v Mv MvNorm = .ok s) (hsm : s.iter + 1 ≤ m ∨ (s.invariant = true ∧ s.iter ≤ m)) (hf : FlArnFin fin finK finF s)
    (hH : ∀ n, n + 1 < s.iter ∨ (n + 1 = s.iter ∧ s.invariant = false) → ‖vec (o.A (s.V n))‖ ≤ κ * RCLike.re (num (s.H (n + 1) n))) :
    (∀ i j, i ≠ j → (i < s.iter ∨ (i = s.iter ∧ s.invariant = false)) → (j < s.iter ∨ (j = s.iter ∧ s.invariant = false)) →
      ‖inner 𝕜 (vec (s.V i)) (vec (s.V j))‖ ≤ 3 * m * orthoErr u d) ∧
    ∀ i, (i < s.iter ∨ (i = s.iter ∧ s.invariant = false)) → |‖vec (s.V i)‖ ^ 2 - 1| ≤ 2 * orthoErr u d := by
  have key : DmgsInv vec fin num finK finF o B u e d κ m v s := flArnoldi_induct (DmgsInv vec fin num finK finF o B u e d κ m v)
    (fun s hs => DmgsInv.init hv hi hu0 hd0 he0 hM hκ hm hT (fun r hr _ => hMv r hr) hs) (fun s s' hs hstep => hs.step hv hi hu0 hd0 he0 hM hκ hm hT hstep) h
  have lev := key.level hsm hf hH
  refine ⟨fun i j hij hi' hj' => lev.off i ((lt_flArnCnt s i).mp hi') j ((lt_flArnCnt s j).mp hj') hij, fun i hi' => lev.unit i ((lt_flArnCnt s i).mp hi')⟩

/-- C83: vectors which are orthonormal up to `ε` and `ν` almost preserve the norm of the coefficients. -/
theorem C83_isometry {q : ℕ → E} {k : ℕ} {ε ν : ℝ} (hoff : ∀ i < k, ∀ j < k, i ≠ j → ‖inner 𝕜 (q i) (q j)‖ ≤ ε) (hunit : ∀ i < k, |‖q i‖ ^ 2 - 1| ≤ ν)
    (hε : 0 ≤ ε) (y : ℕ → 𝕜) :
    |‖∑ j ∈ Finset.range k, y j • q j‖ ^ 2 - ∑ j ∈ Finset.range k, ‖y j‖ ^ 2| ≤ (ν + k * ε) * ∑ j ∈ Finset.range k, ‖y j‖ ^ 2 := by
  set S := ∑ j ∈ Finset.range k, ‖y j‖ ^ 2 with hS
  have h1 : ((‖∑ j ∈ Finset.range k, y j • q j‖ ^ 2 - S : ℝ) : 𝕜) = ∑ i ∈ Finset.range k, ∑ j ∈ Finset.range k,
      (starRingEnd 𝕜 (y i) * y j) * (inner 𝕜 (q i) (q j) - if i = j then 1 else 0) := by
    push_cast
    rw [← inner_self_eq_norm_sq_to_K, sum_inner]
    simp_rw [inner_sum, inner_smul_left, inner_smul_right, mul_sub, Finset.sum_sub_distrib]
    congr 1
    · refine Finset.sum_congr rfl fun i _ => Finset.sum_congr rfl fun j _ => by ring
    · rw [hS]
      push_cast
      refine Finset.sum_congr rfl fun i hi => ?_
      simp only [mul_ite, mul_one, mul_zero, Finset.sum_ite_eq, hi, if_true]
      rw [RCLike.conj_mul]
  have h2 : |‖∑ j ∈ Finset.range k, y j • q j‖ ^ 2 - S| = ‖((‖∑ j ∈ Finset.range k, y j • q j‖ ^ 2 - S : ℝ) : 𝕜)‖ := by rw [RCLike.norm_ofReal]
  rw [h2, h1]
  have h3 : ∀ i ∈ Finset.range k, ∀ j ∈ Finset.range k, ‖(starRingEnd 𝕜 (y i) * y j) * (inner 𝕜 (q i) (q j) - if i = j then 1 else 0)‖ ≤
      (if i = j then ν * ‖y i‖ ^ 2 else 0) + ε * (‖y i‖ ^ 2 + ‖y j‖ ^ 2) / 2 := by
    intro i hi j hj
    rw [Finset.mem_range] at hi hj
    rw [norm_mul, norm_mul, RCLike.norm_conj]
    by_cases hij : i = j
    · subst hij
      rw [if_pos rfl, if_pos rfl, inner_self_eq_norm_sq_to_K]
      have e1 : ((‖q i‖ : 𝕜) ^ 2 - 1) = ((‖q i‖ ^ 2 - 1 : ℝ) : 𝕜) := by push_cast; rfl
      rw [e1, RCLike.norm_ofReal]
      have := mul_le_mul_of_nonneg_left (hunit i hi) (sq_nonneg ‖y i‖)
      have := mul_nonneg hε (sq_nonneg ‖y i‖)
      linarith
    · rw [if_neg hij, if_neg hij, sub_zero]
      have h4 := hoff i hi j hj hij
      have h5 : ‖y i‖ * ‖y j‖ * ‖inner 𝕜 (q i) (q j)‖ ≤ ‖y i‖ * ‖y j‖ * ε := mul_le_mul_of_nonneg_left h4 (by positivity)
      have h6 : 0 ≤ ε * (‖y i‖ - ‖y j‖) ^ 2 := by positivity
      linarith
  refine (norm_sum_le _ _).trans ((Finset.sum_le_sum fun i hi => (norm_sum_le _ _).trans (Finset.sum_le_sum (h3 i hi))).trans (le_of_eq ?_))
  have h7 : ∀ i ∈ Finset.range k, ∑ j ∈ Finset.range k, ((if i = j then ν * ‖y i‖ ^ 2 else 0) + ε * (‖y i‖ ^ 2 + ‖y j‖ ^ 2) / 2) =
      ν * ‖y i‖ ^ 2 + k * (ε / 2 * ‖y i‖ ^ 2) + ε / 2 * S := by
    intro i hi
    rw [Finset.sum_add_distrib, Finset.sum_ite_eq, if_pos hi]
    have : ∀ j, ε * (‖y i‖ ^ 2 + ‖y j‖ ^ 2) / 2 = ε / 2 * ‖y i‖ ^ 2 + ε / 2 * ‖y j‖ ^ 2 := fun j => by ring
    simp_rw [this]
    rw [Finset.sum_add_distrib, Finset.sum_const, Finset.card_range, nsmul_eq_mul, ← Finset.mul_sum, ← hS, add_assoc]
  rw [Finset.sum_congr rfl h7, Finset.sum_add_distrib, Finset.sum_add_distrib, ← Finset.mul_sum, ← Finset.mul_sum, ← Finset.mul_sum, Finset.sum_const, Finset.card_range,
    nsmul_eq_mul, ← hS]
  ring

end

/-! ## Double precision -/

open Matrix in
/-- C83 in real double precision without underflow, for a matrix with at most a million rows and `ortho='dmgs'`: if `‖A v_n‖ ≤ κ H[n+1,n]` in all columns and `m³ κ ≤ 4·10^6`,
then the inner products of different basis vectors (at most `m`) are at most `7.5e-10 m`. -/
theorem C83_double {N : ℕ} (h1 : 1 ≤ N) (hN : N ≤ 1000000) {F K X : Type*} [Zero X] {o : FlArnOps F K X} {vec : X → Fin N → ℝ} {fin : X → Prop} {num : K → ℝ}
    {finK : K → Prop} {val : F → ℝ} {finF : F → Prop} {A : Matrix (Fin N) (Fin N) ℝ} (hc : FlArnComp flDouble o vec fin num finK val finF A) (hM : o.M = none)
    {κ : ℝ} (hκ : 1 ≤ κ) {m : ℕ} (hm : 1 ≤ m) (hmκ : (m : ℝ) ^ 3 * κ ≤ 4 * 10 ^ 6) {maxiter : ℕ} {v : X} {Mv : Option X} {s : FlArn F K X}
    (h : flArnoldi o .dmgs maxiter v Mv none = .ok s) (hsm : s.iter + 1 ≤ m) (hf : FlArnFin fin finK finF s)
    (hH : ∀ n, n + 1 < s.iter ∨ (n + 1 = s.iter ∧ s.invariant = false) → vecNorm (vec (o.A (s.V n))) ≤ κ * num (s.H (n + 1) n))
    {i j : ℕ} (hij : i ≠ j) (hi : i < s.iter ∨ (i = s.iter ∧ s.invariant = false)) (hj : j < s.iter ∨ (j = s.iter ∧ s.invariant = false)) :
    |vec (s.V i) ⬝ᵥ vec (s.V j)| ≤ 7.5 / 10 ^ 10 * m := by
  obtain ⟨hv, hip⟩ := C79_componentwise flDouble_nonneg rfl hc
  have hg := flDouble_gam h1 hN
  have g0 := flDouble_nonneg.gam_nonneg N
  have hu : max flDouble.u flDouble.v = 2⁻¹ ^ 53 := by simp [flDouble]
  have hw : flDouble.w = 2⁻¹ ^ 50 := rfl
  set d := flDouble.gam N + flDouble.w * (1 + flDouble.gam N) with hd
  have hd0 : 0 ≤ d := by
    rw [hd, hw]
    positivity
  have hd1 : d ≤ 1.2 / 10 ^ 10 := by
    rw [hd, hw]
    calc flDouble.gam N + 2⁻¹ ^ 50 * (1 + flDouble.gam N) ≤ 1.1103 / 10 ^ 10 + 2⁻¹ ^ 50 * (1 + 1.1103 / 10 ^ 10) := by gcongr
      _ ≤ 1.2 / 10 ^ 10 := by norm_num
  have he0 : 0 ≤ flDouble.gam N * frob A := mul_nonneg g0 (Real.sqrt_nonneg _)
  rw [hu] at hv
  have hη : orthoErr (2⁻¹ ^ 53) d ≤ 2.5 / 10 ^ 10 := by
    unfold orthoErr orthoGrow
    have h2 : (1 + (2⁻¹ : ℝ) ^ 53) * (1 + 2 * d + 2 * 2⁻¹ ^ 53 * (1 + d)) ≤ (1 + (2⁻¹ : ℝ) ^ 53) * (1 + 2 * (1.2 / 10 ^ 10) + 2 * 2⁻¹ ^ 53 * (1 + 1.2 / 10 ^ 10)) := by gcongr
    have h3 : (1 + (2⁻¹ : ℝ) ^ 53) * (1 + 2 * (1.2 / 10 ^ 10) + 2 * 2⁻¹ ^ 53 * (1 + 1.2 / 10 ^ 10)) - 1 ≤ 2.5 / 10 ^ 10 := by norm_num
    linarith
  have hT : (m : ℝ) ^ 3 * orthoErr (2⁻¹ ^ 53) d * κ ≤ 1 / 1000 := by
    have h2 : (m : ℝ) ^ 3 * orthoErr (2⁻¹ ^ 53) d * κ = (m : ℝ) ^ 3 * κ * orthoErr (2⁻¹ ^ 53) d := by ring
    rw [h2]
    have h3 : 0 ≤ (m : ℝ) ^ 3 * κ := by positivity
    calc (m : ℝ) ^ 3 * κ * orthoErr (2⁻¹ ^ 53) d ≤ (m : ℝ) ^ 3 * κ * (2.5 / 10 ^ 10) := mul_le_mul_of_nonneg_left hη h3
      _ ≤ 4 * 10 ^ 6 * (2.5 / 10 ^ 10) := mul_le_mul_of_nonneg_right hmκ (by norm_num)
      _ ≤ 1 / 1000 := by norm_num
  have main := (C83_dmgs hv hip (by positivity) hd0 he0 hM hκ hm hT (fun r hr => by cases hr) h (.inl hsm) hf (fun n hn => by
    have := hH n hn
    rw [vecNorm_toLp] at this
    exact this)).1 i j hij hi hj
  rw [EuclideanSpace.inner_toLp_toLp, Real.norm_eq_abs, dotProduct_comm] at main
  refine (le_of_eq (by rfl)).trans (main.trans ?_)
  have m0 : (0 : ℝ) ≤ m := Nat.cast_nonneg m
  calc 3 * (m : ℝ) * orthoErr (2⁻¹ ^ 53) d ≤ 3 * (m : ℝ) * (2.5 / 10 ^ 10) := mul_le_mul_of_nonneg_left hη (by positivity)
    _ = 7.5 / 10 ^ 10 * m := by ring

/-! ## Without reorthogonalisation; the hypotheses can be met -/

/-- Example for the operations of `Arnoldi` (utils.py 927-1045): an arithmetic on `ℂ`, as a real vector space of dimension two, whose multiplications with numbers have a relative
error of `t`; `none` is NaN. -/
noncomputable def errArn (t : ℝ) : FlArnOps ℝ ℝ (Option ℂ) where
  A x := x.map fun a => (1 + Complex.I) * a
  M := none
  sub x y := x.bind fun a => y.map fun b => a - b
  scale c x := x.map fun a => ((1 + t) * c : ℝ) • a
  sdiv x r := if r = 0 then none else x.map fun a => (r⁻¹ : ℝ) • a
  ip x y := inner ℝ (x.getD 0) (y.getD 0)
  re := id
  acc := (· + ·)
  zero := 0
  ofReal := id
  norm x _ := match x with
    | none => .error .nonFinite
    | some a => .ok ‖a‖
  tiny _ _ _ _ := false
  pos r := decide (0 < r)

theorem errArn_vec {t : ℝ} (ht : 0 ≤ t) : FlArnVec (𝕜 := ℝ) (errArn t) (fun x => x.getD 0) (fun x => x.isSome = true) id (fun _ => True) id (fun _ => True)
    (ContinuousLinearMap.mul ℝ ℂ (1 + Complex.I)) t 0 where
  sub {x y} h := by
    cases x <;> cases y <;> simp [errArn] at h ⊢
    positivity
  scale {c x} h := by
    cases x with
    | none => simp [errArn] at h
    | some a =>
      refine ⟨trivial, rfl, ?_⟩
      simp only [errArn, Option.map_some, Option.getD_some, id]
      rw [← sub_smul, norm_smul, norm_smul, ← mul_assoc]
      refine mul_le_mul_of_nonneg_right ?_ (norm_nonneg _)
      rw [Real.norm_eq_abs, Real.norm_eq_abs, show ((1 + t) * c - c : ℝ) = t * c by ring, abs_mul, abs_of_nonneg ht]
  sdiv {x r} h _ := by
    by_cases hr : r = 0
    · simp [errArn, hr] at h
    · cases x with
      | none => simp [errArn, hr] at h
      | some a =>
        refine ⟨rfl, hr, ?_⟩
        simp [errArn, hr]
        positivity
  A {x} h := by
    cases x with
    | none => simp [errArn] at h
    | some a =>
      refine ⟨rfl, ?_⟩
      simp [errArn]
      ring
  acc _ := ⟨trivial, trivial, by simp [errArn]; positivity⟩
  ofReal _ := ⟨trivial, rfl⟩
  zero := rfl

theorem errArn_ip (t : ℝ) : FlArnIp (𝕜 := ℝ) (errArn t) (fun x => x.getD 0) (fun x => x.isSome = true) id (fun _ => True) id (fun _ => True) 0 where
  ip _ := by simp [errArn]
  norm {x y r} h _ := by
    cases x with
    | none => cases h
    | some a =>
      obtain rfl := Except.ok.inj h
      exact ⟨rfl, fun _ => by simp⟩

/-- The same arithmetic for `qr` (utils.py 697-706). -/
noncomputable def errQr (t : ℝ) : FlQrOps ℝ ℝ (Option ℂ) where
  sub := (errArn t).sub
  scale := (errArn t).scale
  sdiv := (errArn t).sdiv
  ip := (errArn t).ip
  acc := (errArn t).acc
  zero := 0
  ofReal := id
  norm x := (errArn t).norm x none
  ge r := decide ((1e-15 : ℝ) ≤ r)

theorem errQr_acc {t : ℝ} (ht : 0 ≤ t) :
    FlQrAcc (𝕜 := ℝ) (errQr t) (fun x => x.getD 0) (fun x => x.isSome = true) id (fun _ => True) id (fun _ => True) t 0 1e-15 where
  sub := (errArn_vec ht).sub
  scale := (errArn_vec ht).scale
  sdiv := (errArn_vec ht).sdiv
  acc := (errArn_vec ht).acc
  ofReal := (errArn_vec ht).ofReal
  zero := rfl
  ip := (errArn_ip t).ip
  norm h hf := ⟨((errArn_ip t).norm (y := none) h hf).1, ((errArn_ip t).norm (y := none) h hf).2 rfl⟩
  ge _ := by simp [errQr]

/-- Example for `X` (utils.py 680): the columns `1` and `z`. -/
def twoCols (z : ℂ) : ℕ → Option ℂ := fun j => if j = 0 then some 1 else some z

/-- `qr` of these two columns. -/
theorem errQr_two (t : ℝ) (re : ℕ) {z w : ℂ} {h : ℕ → ℝ}
    (hs : (flQrList re 1).foldl (flQrStep (errQr t) (twoCols z)) (some z, fun _ => 0) = (some w, h)) (hw : (1e-15 : ℝ) ≤ ‖w‖) :
    ∃ (Q : ℕ → Option ℂ) (R : ℕ → ℕ → ℝ), flQrLoop (errQr t) re (twoCols z) 2 = .ok (Q, R) ∧ FlQrFin (fun x => x.isSome = true) (fun _ : ℝ => True) 2 Q R ∧
      Q 0 = some 1 ∧ Q 1 = some ((‖w‖⁻¹ : ℝ) • w) ∧ R 0 0 = 1 ∧ R 1 1 = ‖w‖ := by
  have hw0 : ‖w‖ ≠ 0 := by
    intro h0
    rw [h0] at hw
    norm_num at hw
  have h0 : flQrCol (errQr t) re 0 (twoCols z) (fun _ _ => 0) = .ok (twoCols z, fun a b => if b = 0 then Function.update (fun _ => (0 : ℝ)) 0 1 a else 0) := by
    unfold flQrCol
    have hl : flQrList re 0 = [] := by unfold flQrList; simp
    rw [hl, List.foldl_nil]
    have hx : twoCols z 0 = some 1 := rfl
    have hge : (errQr t).ge 1 = true := by
      simp only [errQr, decide_eq_true_eq]
      norm_num
    have hn : (errQr t).norm (some 1) = .ok 1 := by simp [errQr, errArn]
    have hd : (errQr t).sdiv (some 1) 1 = some 1 := by simp [errQr, errArn]
    dsimp only
    rw [hx, hn]
    dsimp only
    rw [hge, if_pos rfl, hd]
    have hu : Function.update (twoCols z) 0 (some 1) = twoCols z := by
      rw [← hx, Function.update_eq_self]
    rw [hu]
    rfl
  have h1 : flQrCol (errQr t) re 1 (twoCols z) (fun a b => if b = 0 then Function.update (fun _ => (0 : ℝ)) 0 1 a else 0) =
      .ok (Function.update (twoCols z) 1 (some ((‖w‖⁻¹ : ℝ) • w)), fun a b => if b = 1 then Function.update h 1 ‖w‖ a
        else if b = 0 then Function.update (fun _ => (0 : ℝ)) 0 1 a else 0) := by
    unfold flQrCol
    have hx : (twoCols z 1, fun j => if (1 : ℕ) = 0 then Function.update (fun _ => (0 : ℝ)) 0 1 j else 0) = (some z, fun _ => 0) := rfl
    rw [hx, hs]
    have hge : (errQr t).ge ‖w‖ = true := by
      simp only [errQr, decide_eq_true_eq]
      exact hw
    have hn : (errQr t).norm (some w) = .ok ‖w‖ := rfl
    have hd : (errQr t).sdiv (some w) ‖w‖ = some ((‖w‖⁻¹ : ℝ) • w) := by simp [errQr, errArn, hw0]
    dsimp only
    rw [hn]
    dsimp only
    rw [hge, if_pos rfl, hd]
    rfl
  refine ⟨Function.update (twoCols z) 1 (some ((‖w‖⁻¹ : ℝ) • w)), fun a b => if b = 1 then Function.update h 1 ‖w‖ a
    else if b = 0 then Function.update (fun _ => (0 : ℝ)) 0 1 a else 0, ?_, ⟨fun j hj => ?_, fun _ _ _ _ => trivial⟩, ?_, Function.update_self .., ?_, ?_⟩
  · rw [flQrLoop, flQrLoop, flQrLoop]
    dsimp only
    have hz : (fun _ _ => (errQr t).zero : ℕ → ℕ → ℝ) = fun _ _ => 0 := rfl
    rw [hz, h0]
    exact h1
  · have : j = 0 ∨ j = 1 := by omega
    rcases this with rfl | rfl <;> simp [twoCols]
  · rfl
  · simp
  · simp

theorem errQr_step (t : ℝ) (z w : ℂ) (h : ℕ → ℝ) : flQrStep (errQr t) (twoCols z) (some w, h) 0 =
    (some (w - (((1 + t) * w.re : ℝ) : ℂ)), Function.update h 0 (h 0 + w.re)) := by
  have hip : (errQr t).ip (some 1) (some w) = w.re := by simp [errQr, errArn, Complex.inner]
  unfold flQrStep
  have hx : twoCols z 0 = some 1 := rfl
  dsimp only
  rw [hx, hip]
  simp [errQr, errArn]

/-- C83: without reorthogonalisation this is false: for every `t > 0`, however small, there is an arithmetic whose operations have relative errors of at most `t`, and two
columns for which `qr(X, reorthos=0)` gives finite results with `R[i,i] ≥ 1e-15` and `⟨q_0, q_1⟩ < -0.99`. -/
theorem C83_needed {t : ℝ} (ht : 0 < t) : ∃ (o : FlQrOps ℝ ℝ (Option ℂ)) (x Q : ℕ → Option ℂ) (R : ℕ → ℕ → ℝ),
    FlQrAcc (𝕜 := ℝ) (E := ℂ) o (fun x => x.getD 0) (fun x => x.isSome = true) id (fun _ => True) id (fun _ => True) t 0 1e-15 ∧
    flQrLoop o 0 x 2 = .ok (Q, R) ∧ FlQrFin (fun x => x.isSome = true) (fun _ : ℝ => True) 2 Q R ∧ (∀ i < 2, 1e-15 ≤ R i i) ∧
    inner ℝ ((Q 0).getD 0) ((Q 1).getD 0) < -0.99 := by
  set z : ℂ := ((t⁻¹ : ℝ) : ℂ) + ((0.1 : ℝ) : ℂ) * Complex.I with hz
  set w : ℂ := -1 + ((0.1 : ℝ) : ℂ) * Complex.I with hw
  have hzre : z.re = t⁻¹ := by simp [hz]
  have hstep : (flQrList 0 1).foldl (flQrStep (errQr t) (twoCols z)) (some z, fun _ => 0) = (some w, Function.update (fun _ => 0) 0 (0 + z.re)) := by
    have hl : flQrList 0 1 = [0] := by decide
    rw [hl, List.foldl_cons, List.foldl_nil, errQr_step]
    congr 2
    rw [hzre, hz, hw, show (1 + t) * t⁻¹ = t⁻¹ + 1 by field_simp]
    push_cast
    ring
  have hwre : w.re = -1 := by simp [hw]
  have hwim : w.im = 0.1 := by simp [hw]
  have hn2 : ‖w‖ ^ 2 = 1.01 := by
    rw [← Complex.normSq_eq_norm_sq, Complex.normSq_apply, hwre, hwim]
    norm_num
  have hn0 := norm_nonneg w
  have hn1 : 1 ≤ ‖w‖ := by nlinarith
  have hn3 : ‖w‖ ≤ 1.006 := by nlinarith
  obtain ⟨Q, R, e1, e2, q0, q1, r0, r1⟩ := errQr_two t 0 hstep (le_trans (by norm_num) hn1)
  refine ⟨errQr t, twoCols z, Q, R, errQr_acc ht.le, e1, e2, fun i hi => ?_, ?_⟩
  · have : i = 0 ∨ i = 1 := by omega
    rcases this with rfl | rfl
    · rw [r0]; norm_num
    · rw [r1]; exact le_trans (by norm_num) hn1
  · rw [q0, q1, Option.getD_some, Option.getD_some, inner_smul_right]
    have : inner ℝ (1 : ℂ) w = -1 := by simp [Complex.inner, hwre]
    rw [this]
    have h1 : 0.99 < ‖w‖⁻¹ := by
      rw [lt_inv_comm₀ (by norm_num) (by linarith)]
      refine hn3.trans_lt (by norm_num)
    linarith

/-- The hypotheses of `C83_qr` can be met: relative errors of `1e-6`, the columns `1` and `1 + i`; the computed columns are not exactly orthogonal. -/
example : ∃ (Q : ℕ → Option ℂ) (R : ℕ → ℕ → ℝ), (1e-15 : ℝ) ≤ 1 - 0 ∧ ((2 : ℕ) : ℝ) ^ 3 * orthoErr (1 / 10 ^ 6) 0 * 2 ≤ 1 / 1000 ∧
    flQrLoop (errQr (1 / 10 ^ 6)) 1 (twoCols (1 + Complex.I)) 2 = .ok (Q, R) ∧ FlQrFin (fun x => x.isSome = true) (fun _ : ℝ => True) 2 Q R ∧
    (∀ i < 2, 1e-15 ≤ R i i ∧ ‖(twoCols (1 + Complex.I) i).getD 0‖ ≤ 2 * R i i) ∧ inner ℝ ((Q 0).getD 0) ((Q 1).getD 0) ≠ 0 := by
  set t : ℝ := 1 / 10 ^ 6 with ht
  set w : ℂ := ((t * t : ℝ) : ℂ) + Complex.I with hw
  have hstep : ∃ h, (flQrList 1 1).foldl (flQrStep (errQr t) (twoCols (1 + Complex.I))) (some (1 + Complex.I), fun _ => 0) = (some w, h) := by
    have hl : flQrList 1 1 = [0, 0] := by decide
    rw [hl, List.foldl_cons, List.foldl_cons, List.foldl_nil, errQr_step, errQr_step]
    refine ⟨_, Prod.ext ?_ rfl⟩
    dsimp only
    congr 1
    rw [hw]
    apply Complex.ext
    · simp
      ring
    · simp
  obtain ⟨h, hstep⟩ := hstep
  have hwre : w.re = t * t := by
    rw [hw, Complex.add_re, Complex.ofReal_re, Complex.I_re, add_zero]
  have hwim : w.im = 1 := by
    rw [hw, Complex.add_im, Complex.ofReal_im, Complex.I_im, zero_add]
  have hn1 : 1 ≤ ‖w‖ := by
    have := Complex.abs_im_le_norm w
    rwa [hwim, abs_one] at this
  obtain ⟨Q, R, e1, e2, q0, q1, r0, r1⟩ := errQr_two t 1 hstep (le_trans (by norm_num) hn1)
  refine ⟨Q, R, by norm_num, ?_, e1, e2, fun i hi => ?_, ?_⟩
  · unfold orthoErr orthoGrow
    rw [ht]
    norm_num
  · have : i = 0 ∨ i = 1 := by omega
    rcases this with rfl | rfl
    · rw [r0]
      simp [twoCols]
      norm_num
    · rw [r1]
      refine ⟨le_trans (by norm_num) hn1, ?_⟩
      have : ‖(1 + Complex.I : ℂ)‖ ≤ 2 := (norm_add_le _ _).trans (by simp; norm_num)
      exact this.trans (by linarith)
  · rw [q0, q1, Option.getD_some, Option.getD_some, inner_smul_right]
    have : inner ℝ (1 : ℂ) w = t * t := by simp [Complex.inner, hwre]
    rw [this, ht]
    have : ‖w‖ ≠ 0 := by linarith
    positivity

attribute [local instance] zeroOptC

/-- The state at the beginning for the vector `1`. -/
noncomputable def errArn0 : FlArn ℝ ℝ (Option ℂ) := ⟨0, Function.update 0 0 (some 1), Function.update 0 0 (some 1), fun _ _ => 0, false, 1⟩

theorem errArn_init (t : ℝ) (Mv : Option (Option ℂ)) : flArnInit (errArn t) (some 1) Mv none = .ok errArn0 ∧ flArnInit (errArn t) (some 1) Mv (some 1) = .ok errArn0 := by
  unfold flArnInit flStartV flStartNorm
  simp [errArn, errArn0]

/-- One step with `ortho='dmgs'` and `A = 1 + i`. -/
theorem errArn_advance (t : ℝ) : ∃ (w : ℂ) (h : ℕ → ℝ), 1 ≤ ‖w‖ ∧ h 0 = 1 + t * -1 ∧ flArnAdvance (errArn t) .dmgs 1 errArn0 =
    .ok ⟨1, Function.update errArn0.V 1 (some ((‖w‖⁻¹ : ℝ) • w)), Function.update errArn0.P 1 (some ((‖w‖⁻¹ : ℝ) • w)),
      fun i j => if j = 0 then Function.update h 1 ‖w‖ i else 0, false, 1⟩ := by
  set w : ℂ := ((t * t : ℝ) : ℂ) + Complex.I with hw
  have hwim : w.im = 1 := by
    rw [hw, Complex.add_im, Complex.ofReal_im, Complex.I_im, zero_add]
  have hn1 : 1 ≤ ‖w‖ := by
    have := Complex.abs_im_le_norm w
    rwa [hwim, abs_one] at this
  have hn0 : ‖w‖ ≠ 0 := by linarith
  have hst : ∀ (a : ℂ) (h : ℕ → ℝ), flOrthoStep (errArn t) .dmgs (Function.update 0 0 (some 1)) (Function.update 0 0 (some 1)) (some a, h) 0 =
      (some (a - (((1 + t) * a.re : ℝ) : ℂ)), Function.update h 0 (h 0 + a.re)) := by
    intro a h
    have hip : (errArn t).ip (some 1) (some a) = a.re := by simp [errArn, Complex.inner]
    unfold flOrthoStep
    simp only [Function.update_self, hip, reduceCtorEq, if_false]
    simp [errArn]
  have hfold : ∃ h, h 0 = 1 + t * -1 ∧ (flOrthoList .dmgs 0).foldl (flOrthoStep (errArn t) .dmgs errArn0.V errArn0.P) (flOrthoStart (errArn t) .dmgs errArn0) = (some w, h) := by
    have hl : flOrthoList .dmgs 0 = [0, 0] := by decide
    have hs : flOrthoStart (errArn t) .dmgs errArn0 = (some (1 + Complex.I), fun _ => 0) := by
      unfold flOrthoStart
      simp [errArn, errArn0]
    rw [hl, List.foldl_cons, List.foldl_cons, List.foldl_nil, hs, errArn0, hst, hst]
    refine ⟨_, ?_, Prod.ext ?_ rfl⟩
    · simp
    dsimp only
    congr 1
    rw [hw]
    apply Complex.ext
    · simp
      ring
    · simp
  obtain ⟨h, hh0, hfold⟩ := hfold
  refine ⟨w, h, hn1, hh0, ?_⟩
  unfold flArnAdvance
  have h1 : errArn0.iter = 0 := rfl
  have h2 : errArn0.invariant = false := rfl
  simp only [h1, h2, hfold]
  simp [errArn, hn0, errArn0]

/-- The hypotheses of `C83_dmgs` can be met: relative errors of `1e-6`, one step with `A = 1 + i`. -/
example : ∃ s : FlArn ℝ ℝ (Option ℂ), ((2 : ℕ) : ℝ) ^ 3 * orthoErr (1 / 10 ^ 6) 0 * 2 ≤ 1 / 1000 ∧ flArnoldi (errArn (1 / 10 ^ 6)) .dmgs 1 (some 1) none none = .ok s ∧
    s.iter + 1 ≤ 2 ∧ s.invariant = false ∧ FlArnFin (fun x => x.isSome = true) (fun _ : ℝ => True) (fun _ : ℝ => True) s ∧
    (∀ n, n + 1 < s.iter ∨ (n + 1 = s.iter ∧ s.invariant = false) → ‖((errArn (1 / 10 ^ 6)).A (s.V n)).getD 0‖ ≤ 2 * s.H (n + 1) n) := by
  set t : ℝ := 1 / 10 ^ 6 with ht
  obtain ⟨w, h, hn1, -, hadv⟩ := errArn_advance t
  have hinit := (errArn_init t none).1
  have hrun : flArnoldi (errArn t) .dmgs 1 (some 1) none none = .ok ⟨1, Function.update errArn0.V 1 (some ((‖w‖⁻¹ : ℝ) • w)), Function.update errArn0.P 1 (some ((‖w‖⁻¹ : ℝ) • w)),
      fun i j => if j = 0 then Function.update h 1 ‖w‖ i else 0, false, 1⟩ := by
    unfold flArnoldi
    rw [hinit]
    dsimp only
    unfold flArnLoop
    rw [if_pos (by simp [errArn0])]
    dsimp only
    rw [hadv]
    dsimp only
    unfold flArnLoop
    rw [if_neg (by simp)]
  refine ⟨_, ?_, hrun, le_rfl, rfl, ⟨trivial, fun j hj => ?_, fun _ _ _ _ => trivial⟩, fun n hn => ?_⟩
  · unfold orthoErr orthoGrow
    rw [ht]
    norm_num
  · have : j = 0 ∨ j = 1 := by dsimp only at hj; omega
    rcases this with rfl | rfl <;> simp [errArn0]
  · have : n = 0 := by dsimp only at hn; omega
    subst this
    have h3 : ‖(1 + Complex.I : ℂ)‖ ≤ 2 := (norm_add_le _ _).trans (by simp; norm_num)
    simp [errArn0, errArn]
    linarith

end Krypy
