import Verif.Model.ArnoldiHouse
import Verif.Props.House
import Verif.Props.Arnoldi

/-! # Algebra of the Householder transformations in the Arnoldi iteration -/

set_option linter.unusedSectionVars false

namespace Krypy
variable {𝕜 : Type*} [RCLike 𝕜] {N : ℕ}
open scoped ComplexConjugate
open Finset

theorem edot_inner (n : ℕ) : IsInner (edot : (Fin (n + 1) → 𝕜) → (Fin (n + 1) → 𝕜) → 𝕜) where
  add_right x y z := by simp [edot, mul_add, Finset.sum_add_distrib]
  smul_right x c y := by
    simp only [edot, Pi.smul_apply, smul_eq_mul, Finset.mul_sum]
    exact Finset.sum_congr rfl fun i _ => by ring
  conj_symm x y := edot_conj x y
  pos x hx := by
    rw [edot_self, RCLike.ofReal_re]
    obtain ⟨i, hi⟩ := Function.ne_iff.mp hx
    exact lt_of_lt_of_le (by have := norm_pos_iff.mpr hi; positivity)
      (Finset.single_le_sum (f := fun i => ‖x i‖ ^ 2) (fun i _ => by positivity) (Finset.mem_univ i))

theorem nsq_edot (x : Fin (N + 1) → 𝕜) : nsq edot x = ∑ i, ‖x i‖ ^ 2 := by
  rw [nsq, edot_self, RCLike.ofReal_re]; rfl

theorem nrm_edot (x : Fin (N + 1) → 𝕜) : nrm edot x = euclNorm x := by
  rw [nrm, nsq_edot]; rfl

theorem ev_fin (x : Fin (N + 1) → 𝕜) (i : Fin (N + 1)) : ev x i = x i := by
  rw [ev, dif_pos i.2]

theorem edot_unit (x : Fin (N + 1) → 𝕜) (n : ℕ) : edot (unitVec n) x = ev x n := by
  unfold edot unitVec ev
  by_cases h : n < N + 1
  · rw [Finset.sum_eq_single ⟨n, h⟩]
    · simp [h]
    · intro b _ hb
      rw [if_neg (fun h => hb (Fin.ext h))]; simp
    · simp
  · rw [dif_neg h]
    refine Finset.sum_eq_zero fun i _ => ?_
    rw [if_neg (by omega)]; simp

/-- The vector of a transformation of the tail, extended by zeros. -/
def pad (j : ℕ) (v : Fin (N - j + 1) → 𝕜) : Fin (N + 1) → 𝕜 := setSlice 0 j v

theorem pad_low {j : ℕ} (v : Fin (N - j + 1) → 𝕜) {i : Fin (N + 1)} (hi : (i : ℕ) < j) : pad j v i = 0 := by
  rw [pad, setSlice, dif_neg (by omega)]; rfl

theorem edot_pad {j : ℕ} (hj : j ≤ N) (v : Fin (N - j + 1) → 𝕜) (x : Fin (N + 1) → 𝕜) :
    edot (pad j v) x = edot v (slice x j) := by
  unfold edot
  have h1 : ∑ i : Fin (N - j + 1), conj (v i) * slice x j i =
      ∑ i ∈ range (N + 1 - j), (fun n => if h : n - j < N - j + 1 then conj (v ⟨n - j, h⟩) * ev x n else 0) (j + i) := by
    rw [show N + 1 - j = N - j + 1 by omega, ← Fin.sum_univ_eq_sum_range]
    refine Finset.sum_congr rfl fun i _ => ?_
    have : j + (i : ℕ) - j = i := by omega
    simp only [this, i.2, dif_pos, slice]
  rw [h1, ← Finset.sum_Ico_eq_sum_range (fun n => if h : n - j < N - j + 1 then
    conj (v ⟨n - j, h⟩) * ev x n else 0)]
  have h2 : ∑ i : Fin (N + 1), conj (pad j v i) * x i =
      ∑ n ∈ range (N + 1), if j ≤ n then
        (if h : n - j < N - j + 1 then conj (v ⟨n - j, h⟩) * ev x n else 0) else 0 := by
    rw [← Fin.sum_univ_eq_sum_range (fun n => if j ≤ n then
        (if h : n - j < N - j + 1 then conj (v ⟨n - j, h⟩) * ev x n else 0) else 0)]
    refine Finset.sum_congr rfl fun i _ => ?_
    by_cases h : j ≤ (i : ℕ)
    · rw [pad, setSlice, dif_pos h, if_pos h, dif_pos (by omega), ev_fin]
    · rw [pad_low v (by omega), if_neg h]; simp
  rw [h2, ← Finset.sum_filter]
  refine Finset.sum_congr ?_ fun _ _ => rfl
  ext n
  simp only [Finset.mem_filter, Finset.mem_range, Finset.mem_Ico]
  omega

theorem enormSq_pad {j : ℕ} (hj : j ≤ N) (v : Fin (N - j + 1) → 𝕜) : enormSq (pad j v) = enormSq v := by
  have h := edot_pad hj v (pad j v)
  have hs : slice (pad j v) j = v := by
    funext i
    rw [slice, ev, dif_pos (by omega), pad, setSlice, dif_pos (by simp)]
    congr 1
    exact Fin.ext (by simp)
  rw [hs, edot_self, edot_self] at h
  exact_mod_cast h

/-- A transformation as constructed by `House`. -/
def Good {n : ℕ} (h : House 𝕜 n) : Prop := (h.beta = 0 ∨ h.beta = 2) ∧ enormSq h.v = 1 ∧ ‖h.alpha‖ = 1

theorem good_mk {n : ℕ} (x : Fin (n + 1) → 𝕜) : Good (mkHouse x) :=
  ⟨(mkHouse_ok x).beta, (mkHouse_ok x).unit, (mkHouse_ok x).alpha⟩

/-- Application to the tail is a reflection of the whole vector. -/
theorem applyAt_eq {j : ℕ} (hj : j ≤ N) {h : House 𝕜 (N - j)} (hg : Good h) (x : Fin (N + 1) → 𝕜) :
    applyAt j h x = if h.beta = 0 then x else reflect (pad j h.v) x := by
  funext i
  unfold applyAt setSlice
  by_cases hb : h.beta = 0
  · rw [if_pos hb]
    split
    · next hji =>
      rw [House.apply, if_pos hb, slice]
      dsimp only
      rw [show j + ((i : ℕ) - j) = i by omega, ev_fin]
    · rfl
  · rw [if_neg hb, reflect]
    split
    · next hji =>
      rw [apply_beta_two h (hg.1.resolve_left hb), reflect, slice]
      dsimp only
      rw [show j + ((i : ℕ) - j) = i by omega, ev_fin, edot_pad hj, pad, setSlice, dif_pos hji]
    · next hji => rw [pad_low _ (by omega)]; ring

section
variable {j : ℕ} (hj : j ≤ N) {h : House 𝕜 (N - j)} (hg : Good h)
include hj hg

theorem applyAt_invol (x : Fin (N + 1) → 𝕜) : applyAt j h (applyAt j h x) = x := by
  rw [applyAt_eq hj hg, applyAt_eq hj hg]
  split
  · rfl
  · exact reflect_reflect (by rw [enormSq_pad hj]; exact hg.2.1) x

theorem applyAt_isom (x y : Fin (N + 1) → 𝕜) : edot (applyAt j h x) (applyAt j h y) = edot x y := by
  rw [applyAt_eq hj hg, applyAt_eq hj hg]
  split
  · rfl
  · exact reflect_isometry (by rw [enormSq_pad hj]; exact hg.2.1) x y

theorem applyAt_symm (x y : Fin (N + 1) → 𝕜) : edot x (applyAt j h y) = edot (applyAt j h x) y := by
  rw [← applyAt_isom hj hg x, applyAt_invol hj hg]

theorem applyAt_add (x y : Fin (N + 1) → 𝕜) : applyAt j h (x + y) = applyAt j h x + applyAt j h y := by
  rw [applyAt_eq hj hg, applyAt_eq hj hg, applyAt_eq hj hg]
  split
  · rfl
  · funext i
    simp only [reflect, Pi.add_apply, (edot_inner N).add_right]; ring

theorem applyAt_smul (c : 𝕜) (x : Fin (N + 1) → 𝕜) : applyAt j h (c • x) = c • applyAt j h x := by
  rw [applyAt_eq hj hg, applyAt_eq hj hg]
  split
  · rfl
  · funext i
    simp only [reflect, Pi.smul_apply, (edot_inner N).smul_right, smul_eq_mul]; ring

end

theorem applyAt_low {j : ℕ} (h : House 𝕜 (N - j)) (x : Fin (N + 1) → 𝕜) {i : Fin (N + 1)}
    (hi : (i : ℕ) < j) : applyAt j h x i = x i := by
  rw [applyAt, setSlice, dif_neg (by omega)]

/-- Entries below `n` replaced by zero. -/
def tail (n : ℕ) (x : Fin (N + 1) → 𝕜) : Fin (N + 1) → 𝕜 := fun i => if (i : ℕ) < n then 0 else x i

theorem slice_tail (n : ℕ) (x : Fin (N + 1) → 𝕜) : slice (tail n x) n = slice x n := by
  funext i
  unfold slice ev tail
  split
  · rw [if_neg (by simp)]
  · rfl

/-- The transformation commutes with cutting off the head. -/
theorem applyAt_tail {n : ℕ} (h : House 𝕜 (N - n)) (x : Fin (N + 1) → 𝕜) :
    applyAt n h (tail n x) = tail n (applyAt n h x) := by
  funext i
  unfold applyAt
  rw [slice_tail]
  unfold setSlice tail
  by_cases hi : n ≤ (i : ℕ)
  · rw [dif_pos hi, if_neg (by omega)]
    dsimp only
    rw [dif_pos hi]
  · rw [dif_neg hi, if_pos (by omega), if_pos (by omega)]

theorem tail_zero (x : Fin (N + 1) → 𝕜) : tail 0 x = x := by
  funext i; simp [tail]

theorem tail_succ (n : ℕ) (x : Fin (N + 1) → 𝕜) : tail n x = ev x n • unitVec n + tail (n + 1) x := by
  funext i
  simp only [tail, Pi.add_apply, Pi.smul_apply, unitVec, smul_eq_mul]
  by_cases h1 : (i : ℕ) < n
  · rw [if_pos h1, if_neg (by omega), if_pos (by omega)]; simp
  · rw [if_neg h1]
    by_cases h2 : (i : ℕ) = n
    · rw [if_pos h2, if_pos (by omega), ← h2, ev_fin]; simp
    · rw [if_neg h2, if_neg (by omega)]; simp

theorem tail_mulAt (n : ℕ) (x : Fin (N + 1) → 𝕜) (a : 𝕜) : tail (n + 1) (mulAt x n a) = tail (n + 1) x := by
  funext i
  unfold tail mulAt
  split
  · rfl
  · rw [if_neg (by omega)]

theorem tail_full (x : Fin (N + 1) → 𝕜) : tail (N + 1) x = 0 := by
  funext i; rw [tail, if_pos i.2]; rfl

/-- `y` vanishes below `n`. -/
def Supp (n : ℕ) (y : Fin (N + 1) → 𝕜) : Prop := ∀ i : Fin (N + 1), (i : ℕ) < n → y i = 0

theorem Supp.applyAt {n : ℕ} {y : Fin (N + 1) → 𝕜} (hy : Supp n y) {m : ℕ} (hm : n ≤ m)
    (h : House 𝕜 (N - m)) : Supp n (applyAt m h y) := by
  intro i hi
  rw [applyAt_low h y (by omega), hy i hi]

theorem supp_unit (n : ℕ) : Supp n (unitVec n : Fin (N + 1) → 𝕜) := by
  intro i hi
  rw [unitVec, if_neg (by omega)]

/-- The first `n` transformations are as constructed. -/
def GoodTo (hs : Houses 𝕜 N) (n : ℕ) : Prop := ∀ j < n, Good (hs j)

section
variable {hs : Houses 𝕜 N}

theorem houseBack_congr {hs' : Houses 𝕜 N} {n : ℕ} (h : ∀ j < n, hs j = hs' j) (x : Fin (N + 1) → 𝕜) :
    houseBack hs n x = houseBack hs' n x := by
  induction n generalizing x with
  | zero => rfl
  | succ n ih => rw [houseBack, houseBack, h n (by omega), ih fun j hj => h j (by omega)]

theorem houseBack_add {n : ℕ} (hn : n ≤ N + 1) (hg : GoodTo hs n) (x y : Fin (N + 1) → 𝕜) :
    houseBack hs n (x + y) = houseBack hs n x + houseBack hs n y := by
  induction n generalizing x y with
  | zero => rfl
  | succ n ih =>
    simp only [houseBack]
    rw [applyAt_add (by omega) (hg n (by omega)), ih (by omega) fun j hj => hg j (by omega)]

theorem houseBack_smul {n : ℕ} (hn : n ≤ N + 1) (hg : GoodTo hs n) (c : 𝕜) (x : Fin (N + 1) → 𝕜) :
    houseBack hs n (c • x) = c • houseBack hs n x := by
  induction n generalizing x with
  | zero => rfl
  | succ n ih =>
    simp only [houseBack]
    rw [applyAt_smul (by omega) (hg n (by omega)), ih (by omega) fun j hj => hg j (by omega)]

theorem houseBack_isom {n : ℕ} (hn : n ≤ N + 1) (hg : GoodTo hs n) (x y : Fin (N + 1) → 𝕜) :
    edot (houseBack hs n x) (houseBack hs n y) = edot x y := by
  induction n generalizing x y with
  | zero => rfl
  | succ n ih =>
    simp only [houseBack]
    rw [ih (by omega) fun j hj => hg j (by omega), applyAt_isom (by omega) (hg n (by omega))]

/-- Splitting off the first transformations. -/
theorem houseBack_split {m n : ℕ} (hmn : m ≤ n) {y : Fin (N + 1) → 𝕜} (hy : Supp m y) :
    ∃ z, Supp m z ∧ houseBack hs n y = houseBack hs m z := by
  induction n generalizing y with
  | zero => obtain rfl : m = 0 := by omega
            exact ⟨y, hy, rfl⟩
  | succ n ih =>
    rcases Nat.lt_or_ge n m with h | h
    · obtain rfl : m = n + 1 := by omega
      exact ⟨y, hy, rfl⟩
    · rw [houseBack]
      exact ih h (hy.applyAt h _)

/-- The loop over the transformations is adjoint to the backward loop on vectors vanishing on the head. -/
theorem edot_houseLoop {n : ℕ} (hn : n ≤ N + 1) (hg : GoodTo hs n) {y : Fin (N + 1) → 𝕜} (hy : Supp n y)
    (x : Fin (N + 1) → 𝕜) : edot y (houseLoop hs n x) = edot (houseBack hs n y) x := by
  induction n generalizing y with
  | zero => rfl
  | succ n ih =>
    rw [houseLoop, houseBack]
    have hy' : Supp n y := fun i hi => hy i (by omega)
    rw [← ih (by omega) (fun j hj => hg j (by omega)) (hy'.applyAt le_rfl _),
      ← applyAt_symm (by omega) (hg n (by omega))]
    unfold edot
    refine Finset.sum_congr rfl fun i _ => ?_
    unfold mulAt
    split
    · next hi => rw [hy i (by omega)]; simp
    · rfl

/-- The basis vector belonging to transformation `i`. -/
noncomputable def basisVec (hs : Houses 𝕜 N) (i : ℕ) : Fin (N + 1) → 𝕜 :=
  (hs i).alpha • houseBack hs (i + 1) (unitVec i)

theorem ev_houseLoop_succ (n : ℕ) (x : Fin (N + 1) → 𝕜) {i : ℕ} (hi : i < n) :
    ev (houseLoop hs (n + 1) x) i = ev (houseLoop hs n x) i := by
  unfold ev
  split
  · next h => rw [houseLoop, mulAt, if_neg (by dsimp only; omega), applyAt_low _ _ (by dsimp only; omega)]
  · rfl

theorem ev_houseLoop_le {m n : ℕ} (hmn : m ≤ n) (x : Fin (N + 1) → 𝕜) {i : ℕ} (hi : i < m) :
    ev (houseLoop hs n x) i = ev (houseLoop hs m x) i := by
  induction n, hmn using Nat.le_induction with
  | base => rfl
  | succ n hn ih => rw [ev_houseLoop_succ n x (by omega), ih]

/-- The entries after the loop are the coefficients with respect to the basis. -/
theorem ev_houseLoop {n : ℕ} (hn : n ≤ N + 1) (hg : GoodTo hs n) (x : Fin (N + 1) → 𝕜) {i : ℕ}
    (hi : i < n) : ev (houseLoop hs n x) i = edot (basisVec hs i) x := by
  rw [ev_houseLoop_le (show i + 1 ≤ n by omega) x (by omega), basisVec, (edot_inner N).smul_left, houseBack,
    ← edot_houseLoop (by omega) (fun j hj => hg j (by omega)) ((supp_unit i).applyAt le_rfl _),
    ← applyAt_symm (by omega) (hg i hi), edot_unit]
  unfold ev
  rw [dif_pos (by omega), dif_pos (by omega), houseLoop, mulAt, if_pos rfl, mul_comm]

theorem basis_orth {n : ℕ} (hn : n ≤ N + 1) (hg : GoodTo hs n) {i j : ℕ} (hi : i < n) (hj : j < n) :
    edot (basisVec hs i) (basisVec hs j) = if i = j then 1 else 0 := by
  have key : ∀ i j, i < j → j < n → edot (basisVec hs i) (basisVec hs j) = 0 := by
    intro i j hij hj
    unfold basisVec
    rw [(edot_inner N).smul_left, (edot_inner N).smul_right]
    obtain ⟨z, hz, e⟩ := houseBack_split (hs := hs) (m := i + 1) (n := j + 1) (by omega)
      (y := unitVec j) (fun a ha => supp_unit j a (by omega))
    rw [e, houseBack_isom (by omega) fun a ha => hg a (by omega), edot_unit, ev, dif_pos (by omega),
      hz _ (by dsimp only; omega)]
    simp
  rcases Nat.lt_trichotomy i j with h | h | h
  · rw [key i j h hj, if_neg (by omega)]
  · subst h
    rw [if_pos rfl]
    unfold basisVec
    rw [(edot_inner N).smul_left, (edot_inner N).smul_right,
      houseBack_isom (by omega) fun a ha => hg a (by omega), edot_unit, ev, dif_pos (by omega), unitVec,
      if_pos rfl, mul_one, RCLike.conj_mul, (hg i hi).2.2]
    simp
  · rw [if_neg (by omega)]
    exact (edot_inner N).orth_symm (key j i h hi)

/-- Every vector is the combination of the basis vectors plus what is left in the tail. -/
theorem house_expansion {n : ℕ} (hn : n ≤ N + 1) (hg : GoodTo hs n) (x : Fin (N + 1) → 𝕜) :
    x = ∑ i ∈ range n, edot (basisVec hs i) x • basisVec hs i +
      houseBack hs n (tail n (houseLoop hs n x)) := by
  induction n with
  | zero => simp [houseBack, houseLoop, tail_zero]
  | succ n ih =>
    have hgn := hg n (by omega)
    have hg' : GoodTo hs n := fun j hj => hg j (by omega)
    rw [Finset.sum_range_succ, add_assoc]
    conv_lhs => rw [ih (by omega) hg']
    congr 1
    have e : tail n (houseLoop hs n x) =
        applyAt n (hs n) (tail n (applyAt n (hs n) (houseLoop hs n x))) := by
      rw [applyAt_tail, applyAt_invol (by omega) hgn]
    rw [e, tail_succ, applyAt_add (by omega) hgn, houseBack_add (by omega) hg', houseLoop, tail_mulAt]
    congr 1
    rw [applyAt_smul (by omega) hgn, houseBack_smul (by omega) hg', ← ev_houseLoop hn hg x (by omega),
      basisVec, houseBack, smul_smul]
    congr 1
    unfold ev
    rw [dif_pos (by omega), dif_pos (by omega), houseLoop, mulAt, if_pos rfl, mul_assoc, RCLike.conj_mul,
      hgn.2.2]
    simp

end

/-- The new transformation maps the tail to a multiple of the unit vector. -/
theorem tail_newHouse {k : ℕ} (w : Fin (N + 1) → 𝕜) :
    applyAt (k + 1) (newHouse k w) (tail (k + 1) w) =
      ((newHouse k w).alpha * ((newHouse k w).xnorm : 𝕜)) • unitVec (k + 1) := by
  have hm := (mkHouse_ok (slice w (k + 1))).maps
  funext i
  rw [applyAt, slice_tail]
  have hm' : (newHouse k w).apply (slice w (k + 1)) = _ := hm
  rw [hm']
  unfold setSlice tail unitVec
  simp only [Pi.smul_apply, smul_eq_mul]
  by_cases h1 : k + 1 ≤ (i : ℕ)
  · rw [dif_pos h1]
    by_cases h2 : (i : ℕ) = k + 1
    · rw [if_pos (Fin.ext (by simp; omega)), if_pos h2, mul_one]; rfl
    · rw [if_neg (fun h => h2 (by have := congrArg Fin.val h; simp at this; omega)), if_neg h2, mul_zero]
  · rw [dif_neg h1, if_pos (by omega), if_neg (by omega), mul_zero]

theorem newHouse_xnorm_nonneg (k : ℕ) (w : Fin (N + 1) → 𝕜) : 0 ≤ (newHouse k w).xnorm := by
  rw [newHouse, (mkHouse_ok _).xnorm]; exact Real.sqrt_nonneg _

theorem ev_reduceTail {k : ℕ} (hk : k < N) (w : Fin (N + 1) → 𝕜) {i : ℕ} (hi : i < k + 2) :
    ev (reduceTail k w) i = if i = k + 1 then ((newHouse k w).xnorm : 𝕜) else ev w i := by
  have hm := (mkHouse_ok (slice w (k + 1))).maps
  have hm' : (newHouse k w).apply (slice w (k + 1)) = _ := hm
  unfold ev reduceTail setSlice
  rw [dif_pos (by omega)]
  by_cases h : i = k + 1
  · rw [if_pos h, dif_pos (by dsimp only; omega), hm']
    dsimp only
    rw [if_pos (Fin.ext (by simp; omega))]
    have ha : ‖(newHouse k w).alpha‖ = 1 := (good_mk _).2.2
    change (newHouse k w).alpha * ((newHouse k w).xnorm : 𝕜) * conj (newHouse k w).alpha = _
    rw [mul_right_comm, RCLike.mul_conj, ha]; simp
  · rw [if_neg h, dif_neg (by dsimp only; omega), dif_pos (by omega)]

/-- The `mgs` object for the same data. -/
def hcfg (A : (Fin (N + 1) → 𝕜) →ₗ[𝕜] (Fin (N + 1) → 𝕜)) (maxiter : ℕ) : ArnCfg 𝕜 (Fin (N + 1) → 𝕜) :=
  ⟨A, none, edot, maxiter, .mgs⟩

theorem hcfg_hyp (A : (Fin (N + 1) → 𝕜) →ₗ[𝕜] (Fin (N + 1) → 𝕜)) (maxiter : ℕ) : ArnHyp (hcfg A maxiter) :=
  ⟨⟨edot_inner N, edot_inner N⟩, fun h => by simp [hcfg] at h⟩

theorem hcfg_g (A : (Fin (N + 1) → 𝕜) →ₗ[𝕜] (Fin (N + 1) → 𝕜)) (maxiter : ℕ) : (hcfg A maxiter).g = edot := rfl

/-- Facts about the basis vectors `V_0, ..., V_k` and columns `0, ..., k-1` of `H`. -/
structure HCore (A : (Fin (N + 1) → 𝕜) →ₗ[𝕜] (Fin (N + 1) → 𝕜)) (v : Fin (N + 1) → 𝕜) (k : ℕ)
    (s : HArn 𝕜 N) : Prop where
  vpos : 0 < s.arn.vnorm
  kN : k ≤ N
  start : (s.arn.vnorm : 𝕜) • s.arn.V 0 = v
  good : GoodTo s.houses (k + 1)
  basis : ∀ i ≤ k, s.arn.V i = basisVec s.houses i
  rel : ∀ j < k, A (s.arn.V j) = ∑ i ∈ range (j + 2), s.arn.H i j • s.arn.V i
  sub : ∀ j < k, ∃ r : ℝ, 0 ≤ r ∧ s.arn.H (j + 1) j = (r : 𝕜)
  hess : ∀ i j, j + 1 < i → s.arn.H i j = 0

/-- The invariant of the object. -/
structure HInv (A : (Fin (N + 1) → 𝕜) →ₗ[𝕜] (Fin (N + 1) → 𝕜)) (maxiter : ℕ) (v : Fin (N + 1) → 𝕜)
    (s : HArn 𝕜 N) : Prop where
  le : s.arn.iter ≤ maxiter
  vnorm : s.arn.vnorm = euclNorm v
  PV : s.arn.P = s.arn.V
  zero : ∀ i j, s.arn.iter ≤ j → s.arn.H i j = 0
  live : s.arn.invariant = false → HCore A v s.arn.iter s
  flagged : s.arn.invariant = true → (v = 0 ∧ s.arn.iter = 0) ∨
    ∃ k w, s.arn.iter = k + 1 ∧ HCore A v k s ∧ ArnLast (hcfg A maxiter) k s.arn w

section
variable {A : (Fin (N + 1) → 𝕜) →ₗ[𝕜] (Fin (N + 1) → 𝕜)} {maxiter : ℕ} {v : Fin (N + 1) → 𝕜} {s : HArn 𝕜 N}

/-- The vector after the loop over the transformations. -/
noncomputable def loopVec (A : (Fin (N + 1) → 𝕜) →ₗ[𝕜] (Fin (N + 1) → 𝕜)) (s : HArn 𝕜 N) : Fin (N + 1) → 𝕜 :=
  houseLoop s.houses (s.arn.iter + 1) (A (s.arn.V s.arn.iter))

theorem remainder_house (core : HCore A v s.arn.iter s) (hPV : s.arn.P = s.arn.V) :
    remainder (hcfg A maxiter) s.arn =
      houseBack s.houses (s.arn.iter + 1) (tail (s.arn.iter + 1) (loopVec A s)) := by
  have h := house_expansion (by have := core.kN; omega) core.good (A (s.arn.V s.arn.iter))
  unfold remainder
  rw [hPV, hcfg_g]
  have e : ∑ i ∈ range (s.arn.iter + 1), edot (s.arn.V i) ((hcfg A maxiter).A (s.arn.V s.arn.iter)) • s.arn.V i =
      ∑ i ∈ range (s.arn.iter + 1),
        edot (basisVec s.houses i) (A (s.arn.V s.arn.iter)) • basisVec s.houses i :=
    Finset.sum_congr rfl fun i hi => by rw [core.basis i (by have := Finset.mem_range.mp hi; omega)]; rfl
  rw [e]
  exact sub_eq_iff_eq_add'.mpr h

theorem houseList_lt {k : ℕ} (w : Fin (N + 1) → 𝕜) (hs : Houses 𝕜 N) {j : ℕ} (hj : j < k + 1) :
    houseList k w hs j = hs j := by
  unfold houseList
  split
  · exact Function.update_of_ne (by omega) _ _
  · rfl

theorem houseList_new {k : ℕ} (hk : k < N) (w : Fin (N + 1) → 𝕜) (hs : Houses 𝕜 N) :
    houseList k w hs (k + 1) = newHouse k w := by
  rw [houseList, if_pos hk, Function.update_self]

theorem houseList_good {k : ℕ} (hk : k < N) (w : Fin (N + 1) → 𝕜) {hs : Houses 𝕜 N}
    (hg : GoodTo hs (k + 1)) : GoodTo (houseList k w hs) (k + 2) := by
  intro j hj
  rcases Nat.lt_or_ge j (k + 1) with h | h
  · rw [houseList_lt w hs h]; exact hg j h
  · obtain rfl : j = k + 1 := by omega
    rw [houseList_new hk]; exact good_mk _

theorem houseList_basis {k : ℕ} (w : Fin (N + 1) → 𝕜) (hs : Houses 𝕜 N) {i : ℕ} (hi : i ≤ k) :
    basisVec (houseList k w hs) i = basisVec hs i := by
  unfold basisVec
  rw [houseList_lt w hs (by omega), houseBack_congr fun j hj => houseList_lt w hs (by omega)]

/-- The remainder is a multiple of the next basis vector. -/
theorem remainder_house_lt (core : HCore A v s.arn.iter s) (hPV : s.arn.P = s.arn.V) (hk : s.arn.iter < N) :
    remainder (hcfg A maxiter) s.arn = ((newHouse s.arn.iter (loopVec A s)).xnorm : 𝕜) •
      basisVec (houseList s.arn.iter (loopVec A s) s.houses) (s.arn.iter + 1) := by
  rw [remainder_house core hPV]
  set w := loopVec A s
  have hg := houseList_good hk w core.good
  set k := s.arn.iter
  have hg1 : Good (newHouse k w) := good_mk _
  rw [← applyAt_invol (by omega) hg1 (tail (k + 1) w), tail_newHouse,
    houseBack_congr (hs' := houseList k w s.houses) (fun j hj => (houseList_lt w s.houses hj).symm),
    ← houseList_new hk w s.houses]
  have e : ∀ x, houseBack (houseList k w s.houses) (k + 1)
      (applyAt (k + 1) (houseList k w s.houses (k + 1)) x) = houseBack (houseList k w s.houses) (k + 2) x :=
    fun x => rfl
  rw [e, houseBack_smul (by omega) hg, basisVec, smul_smul, mul_comm]

theorem remainder_house_full (core : HCore A v s.arn.iter s) (hPV : s.arn.P = s.arn.V) (hk : s.arn.iter = N) :
    remainder (hcfg A maxiter) s.arn = 0 := by
  rw [remainder_house core hPV, hk, tail_full]
  have := houseBack_smul (hs := s.houses) (n := N + 1) le_rfl
    (by have := core.good; rwa [hk] at this) (0 : 𝕜) 0
  simpa using this

theorem nrm_remainder_lt (core : HCore A v s.arn.iter s) (hPV : s.arn.P = s.arn.V) (hk : s.arn.iter < N) :
    nrm edot (remainder (hcfg A maxiter) s.arn) = (newHouse s.arn.iter (loopVec A s)).xnorm := by
  rw [remainder_house_lt core hPV hk, (edot_inner N).nrm_smul, RCLike.norm_ofReal,
    abs_of_nonneg (newHouse_xnorm_nonneg _ _), nrm, nsq,
    basis_orth (by omega) (houseList_good hk _ core.good) (by omega) (by omega)]
  simp

/-- The new column of `H` is the one of modified Gram-Schmidt. -/
theorem houseCol_eq (core : HCore A v s.arn.iter s) (hPV : s.arn.P = s.arn.V)
    (hz : ∀ i, s.arn.H i s.arn.iter = 0) :
    setCol s.arn.H s.arn.iter (houseCol s.arn.iter (loopVec A s) fun i => s.arn.H i s.arn.iter) =
      newH (hcfg A maxiter) s.arn := by
  unfold newH
  congr 1
  have hent : ∀ i < s.arn.iter + 1, ev (loopVec A s) i =
      (hcfg A maxiter).g (s.arn.P i) ((hcfg A maxiter).A (s.arn.V s.arn.iter)) := by
    intro i hi
    rw [loopVec, ev_houseLoop (by have := core.kN; omega) core.good _ hi, hPV, core.basis i (by omega)]
    rfl
  rw [hcfg_g]
  unfold houseCol
  by_cases hk : s.arn.iter < N
  · simp only [hk, if_true]
    rw [nrm_remainder_lt core hPV hk]
    funext i
    simp only [Function.update_apply]
    by_cases hi : i = s.arn.iter + 1
    · rw [if_pos hi, if_pos hi, if_pos (by omega), ev_reduceTail hk _ (by omega), if_pos rfl,
        RCLike.norm_ofReal, abs_of_nonneg (newHouse_xnorm_nonneg _ _)]
    · rw [if_neg hi, if_neg hi]
      by_cases h2 : i < s.arn.iter + 1
      · rw [if_pos (by omega), if_pos h2, ev_reduceTail hk _ (by omega), if_neg hi, hent i h2]; rfl
      · rw [if_neg (by omega), if_neg h2, hz]
  · simp only [hk, if_false]
    rw [remainder_house_full core hPV (by have := core.kN; omega)]
    funext i
    simp only [Function.update_apply]
    by_cases hi : i = s.arn.iter + 1
    · rw [if_pos hi, if_pos hi, if_neg (by omega), hz]
      simp [nrm, nsq, (edot_inner N).zero_right]
    · rw [if_neg hi, if_neg hi]
      by_cases h2 : i < s.arn.iter + 1
      · rw [if_pos h2, if_pos h2, hent i h2]; rfl
      · rw [if_neg h2, if_neg h2, hz]

theorem houseCol_sub (core : HCore A v s.arn.iter s) (hPV : s.arn.P = s.arn.V)
    (hz : ∀ i, s.arn.H i s.arn.iter = 0) :
    ‖houseCol s.arn.iter (loopVec A s) (fun i => s.arn.H i s.arn.iter) (s.arn.iter + 1)‖ =
      nrm edot (remainder (hcfg A maxiter) s.arn) := by
  have h := congrFun (congrFun (houseCol_eq (maxiter := maxiter) core hPV hz) (s.arn.iter + 1)) s.arn.iter
  rw [newH_sub (hcfg_hyp A maxiter), setCol, if_pos rfl] at h
  rw [h, hcfg_g, RCLike.norm_ofReal, abs_of_nonneg (nrm_nonneg _ _)]

/-- `advance()` in closed form. -/
theorem houseAdvance_eq (inv : HInv A maxiter v s) (hit : s.arn.iter < maxiter)
    (hni : s.arn.invariant = false) :
    houseAdvance A maxiter s =
      let nH := specNorm (newH (hcfg A maxiter) s.arn) (s.arn.iter + 2) (s.arn.iter + 1)
      let hs := houseList s.arn.iter (loopVec A s) s.houses
      if nH ≠ 0 ∧ nrm edot (remainder (hcfg A maxiter) s.arn) / nH ≤ 1e-14 then
        .ok ⟨⟨s.arn.iter + 1, s.arn.V, s.arn.V, newH (hcfg A maxiter) s.arn, true, s.arn.vnorm⟩, hs⟩
      else if N ≤ s.arn.iter then .error .valueError
      else
        let V := Function.update s.arn.V (s.arn.iter + 1) (basisVec hs (s.arn.iter + 1))
        .ok ⟨⟨s.arn.iter + 1, V, V, newH (hcfg A maxiter) s.arn, false, s.arn.vnorm⟩, hs⟩ := by
  have core := inv.live hni
  have hz := fun i => inv.zero i _ le_rfl
  have h1 := houseCol_eq (maxiter := maxiter) core inv.PV hz
  have h2 := houseCol_sub (maxiter := maxiter) core inv.PV hz
  unfold loopVec at h1 h2
  unfold houseAdvance
  rw [if_neg (by omega), if_neg (by simp [hni])]
  dsimp only
  rw [h1, h2, inv.PV]
  rfl

theorem HInv.hess (inv : HInv A maxiter v s) : ∀ i j, j + 1 < i → s.arn.H i j = 0 := by
  intro i j hij
  cases hi : s.arn.invariant with
  | false => exact (inv.live hi).hess i j hij
  | true =>
    rcases inv.flagged hi with ⟨-, h0⟩ | ⟨k, w, -, core, -⟩
    · exact inv.zero i j (by omega)
    · exact core.hess i j hij

theorem HCore.orth {k : ℕ} (core : HCore A v k s) {i j : ℕ} (hi : i ≤ k) (hj : j ≤ k) :
    edot (s.arn.V i) (s.arn.V j) = if i = j then 1 else 0 := by
  rw [core.basis i hi, core.basis j hj]
  exact basis_orth (by have := core.kN; omega) core.good (by omega) (by omega)

theorem remainder_orth (inv : HInv A maxiter v s) (hni : s.arn.invariant = false) {i : ℕ}
    (hi : i ≤ s.arn.iter) : (hcfg A maxiter).g (s.arn.P i) (remainder (hcfg A maxiter) s.arn) = 0 := by
  have core := inv.live hni
  have := g_remainder (hcfg_hyp A maxiter) (k := s.arn.iter) (P := s.arn.P) (V := s.arn.V)
    (by rw [inv.PV]; exact fun i hi j hj => core.orth hi hj) (by rw [inv.PV]; exact fun i _ => rfl)
    (A (s.arn.V s.arn.iter)) hi
  exact this

/-- `advance()` keeps the invariant. -/
theorem houseAdvance_inv (inv : HInv A maxiter v s) {s' : HArn 𝕜 N} (hs : houseAdvance A maxiter s = .ok s') :
    HInv A maxiter v s' ∧ s'.arn.iter = s.arn.iter + 1 ∧ s.arn.iter < maxiter ∧ s.arn.invariant = false := by
  have hit : s.arn.iter < maxiter := by
    by_contra h
    rw [houseAdvance, if_pos (by omega)] at hs
    simp at hs
  have hni : s.arn.invariant = false := by
    by_contra h
    rw [houseAdvance, if_neg (by omega), if_pos (by simpa using h)] at hs
    simp at hs
  have core := inv.live hni
  have hc := hcfg_hyp A maxiter
  rw [houseAdvance_eq inv hit hni] at hs
  dsimp only at hs
  have hHhess : ∀ i j, j + 1 < i → newH (hcfg A maxiter) s.arn i j = 0 := by
    intro i j hij
    by_cases hj : j = s.arn.iter
    · subst hj; exact newH_below hc hij
    · rw [newH_old hc hj]; exact core.hess i j hij
  have hHzero : ∀ i j, s.arn.iter + 1 ≤ j → newH (hcfg A maxiter) s.arn i j = 0 := by
    intro i j hj
    rw [newH_old hc (by omega)]; exact inv.zero i j (by omega)
  have hrel := remainder_rel (s := s.arn) hc
  set w := loopVec A s
  have hgoodlt : ∀ j < s.arn.iter + 1, Good (houseList s.arn.iter w s.houses j) := by
    intro j hj
    rw [houseList_lt w s.houses hj]
    exact core.good j hj
  split at hs
  · next hsm =>
    have hnpos := lt_of_le_of_ne (specNorm_nonneg (newH (hcfg A maxiter) s.arn) (s.arn.iter + 2) (s.arn.iter + 1))
      (Ne.symm hsm.1)
    obtain rfl := Except.ok.inj hs
    refine ⟨⟨hit, inv.vnorm, rfl, hHzero, by simp, fun _ => Or.inr
      ⟨s.arn.iter, remainder (hcfg A maxiter) s.arn, rfl, ?_, ?_⟩⟩, rfl, hit, hni⟩
    · exact ⟨core.vpos, core.kN, core.start, hgoodlt,
        fun i hi => by rw [houseList_basis w s.houses hi]; exact core.basis i hi,
        fun j hj => by simp only [newH_old hc (show j ≠ s.arn.iter by omega)]; exact core.rel j hj,
        fun j hj => by simp only [newH_old hc (show j ≠ s.arn.iter by omega)]; exact core.sub j hj, hHhess⟩
    · refine ⟨?_, ?_, newH_sub hc, (div_le_iff₀ hnpos).mp hsm.2, hsm.1⟩
      · rw [inv.PV] at hrel; exact hrel
      · have := fun i (hi : i ≤ s.arn.iter) => remainder_orth inv hni hi
        rw [inv.PV] at this; exact this
  · split at hs
    · simp at hs
    · next hkN =>
      have hkN : s.arn.iter < N := by omega
      obtain rfl := Except.ok.inj hs
      refine ⟨⟨hit, inv.vnorm, rfl, hHzero, fun _ => ?_, by simp⟩, rfl, hit, hni⟩
      have hVold : ∀ i ≤ s.arn.iter, Function.update s.arn.V (s.arn.iter + 1)
          (basisVec (houseList s.arn.iter w s.houses) (s.arn.iter + 1)) i = s.arn.V i :=
        fun i hi => Function.update_of_ne (by omega) _ _
      refine ⟨core.vpos, hkN, ?_, houseList_good hkN w core.good, ?_, ?_, ?_, hHhess⟩
      · dsimp only; rw [hVold 0 (by omega)]; exact core.start
      · intro i hi
        dsimp only at hi ⊢
        rcases Nat.lt_or_ge s.arn.iter i with h1 | h1
        · obtain rfl : i = s.arn.iter + 1 := by omega
          rw [Function.update_self]
        · rw [hVold i h1, houseList_basis w s.houses h1]; exact core.basis i h1
      · intro j hj
        dsimp only at hj ⊢
        rw [hVold j (by omega)]
        rcases Nat.lt_or_ge j s.arn.iter with h1 | h1
        · rw [core.rel j h1]
          refine Finset.sum_congr rfl fun i hi => ?_
          have := Finset.mem_range.mp hi
          rw [newH_old hc (by omega), hVold i (by omega)]
        · obtain rfl : j = s.arn.iter := by omega
          rw [Finset.sum_range_succ, Function.update_self, newH_sub hc, hcfg_g,
            nrm_remainder_lt core inv.PV hkN, ← remainder_house_lt (maxiter := maxiter) core inv.PV hkN]
          rw [inv.PV] at hrel
          refine hrel.trans ?_
          congr 1
          refine Finset.sum_congr rfl fun i hi => ?_
          have := Finset.mem_range.mp hi
          rw [hVold i (by omega)]
      · intro j hj
        dsimp only at hj ⊢
        rcases Nat.lt_or_ge j s.arn.iter with h1 | h1
        · rw [newH_old hc (by omega)]; exact core.sub j h1
        · obtain rfl : j = s.arn.iter := by omega
          exact ⟨_, nrm_nonneg _ _, newH_sub hc⟩

/-- Unless `H` vanishes, `advance()` does the same as modified Gram-Schmidt. -/
theorem houseAdvance_mgs (inv : HInv A maxiter v s) (inv' : ArnInv (hcfg A maxiter) v s.arn)
    (hit : s.arn.iter < maxiter) (hni : s.arn.invariant = false)
    (hn : specNorm (newH (hcfg A maxiter) s.arn) (s.arn.iter + 2) (s.arn.iter + 1) ≠ 0) :
    ∃ a, arnAdvance (hcfg A maxiter) s.arn = .ok a ∧
      houseAdvance A maxiter s = .ok ⟨a, houseList s.arn.iter (loopVec A s) s.houses⟩ := by
  have core := inv.live hni
  rw [houseAdvance_eq inv hit hni, arnAdvance_eq (hcfg_hyp A maxiter) inv' hit hni]
  dsimp only
  rw [if_neg hn]
  by_cases hsm : nrm (hcfg A maxiter).g (remainder (hcfg A maxiter) s.arn) /
      specNorm (newH (hcfg A maxiter) s.arn) (s.arn.iter + 2) (s.arn.iter + 1) ≤ 1e-14
  · rw [if_pos hsm, if_pos ⟨hn, hsm⟩, inv.PV]
    exact ⟨_, rfl, rfl⟩
  · have hkN : ¬ N ≤ s.arn.iter := by
      intro h
      apply hsm
      rw [remainder_house_full core inv.PV (by have := core.kN; omega), (hcfg_hyp A maxiter).inner.nrm_eq_zero.mpr rfl]
      norm_num
    have hr0 : nrm (hcfg A maxiter).g (remainder (hcfg A maxiter) s.arn) ≠ 0 := by
      intro h
      apply hsm
      rw [h]; norm_num
    rw [if_neg hsm, if_neg fun h => hsm h.2, if_neg hkN]
    refine ⟨_, rfl, ?_⟩
    have hr := remainder_house_lt (maxiter := maxiter) core inv.PV (by omega)
    have e : ((nrm (hcfg A maxiter).g (remainder (hcfg A maxiter) s.arn) : 𝕜)⁻¹) • remainder (hcfg A maxiter) s.arn =
        basisVec (houseList s.arn.iter (loopVec A s) s.houses) (s.arn.iter + 1) := by
      rw [hcfg_g] at hr0 ⊢
      rw [nrm_remainder_lt core inv.PV (by omega)] at hr0 ⊢
      rw [hr, smul_smul, inv_mul_cancel₀ (by simpa using hr0), one_smul]
    rw [show (hcfg A maxiter).Mop (remainder (hcfg A maxiter) s.arn) = remainder (hcfg A maxiter) s.arn from rfl,
      e, inv.PV]

theorem houseInit_inv (v : Fin (N + 1) → 𝕜) : ∃ s, houseInit true v = .ok s ∧ HInv A maxiter v s ∧
    s.arn.iter = 0 ∧ (s.arn.invariant = true ↔ v = 0) ∧
    arnInit (hcfg A maxiter) v none none = .ok s.arn := by
  have hnv : npNorm (edot v v) = .ok (euclNorm v) := by
    rw [(edot_inner N).npNorm_self, nrm_edot]
  have ha : arnInit (hcfg A maxiter) v none none = if 0 < euclNorm v then
      .ok ⟨0, Function.update 0 0 (((euclNorm v : 𝕜)⁻¹) • v), Function.update 0 0 (((euclNorm v : 𝕜)⁻¹) • v),
        fun _ _ => 0, false, euclNorm v⟩
    else .ok ⟨0, 0, 0, fun _ _ => 0, true, euclNorm v⟩ := by
    unfold arnInit
    simp only [startNorm, startV, hcfg, hnv]
  rw [ha]
  unfold houseInit
  simp only [if_true]
  have h0 : euclNorm v = 0 ↔ v = 0 := by rw [← nrm_edot, (edot_inner N).nrm_eq_zero]
  split
  · next hp =>
    refine ⟨_, rfl, ⟨by simp, rfl, rfl, by simp, fun _ => ?_, by simp⟩, rfl, ?_, rfl⟩
    · have hpk : (euclNorm v : 𝕜) ≠ 0 := by exact_mod_cast hp.ne'
      refine ⟨hp, by simp, ?_, ?_, ?_, by simp, by simp, by simp⟩
      · simp only [Function.update_self, smul_smul, mul_inv_cancel₀ hpk, one_smul]
      · intro j hj
        dsimp only at hj ⊢
        obtain rfl : j = 0 := by omega
        rw [Function.update_self]
        exact good_mk v
      · intro i hi
        obtain rfl : i = 0 := by simpa using hi
        have hm := (mkHouse_ok v).maps
        have hg : Good (mkHouse v) := good_mk v
        simp only [basisVec, houseBack, Function.update_self]
        have hx : (mkHouse v).xnorm = euclNorm v := (mkHouse_ok v).xnorm
        have e : applyAt 0 (mkHouse v) v = ((mkHouse v).alpha * (euclNorm v : 𝕜)) • unitVec 0 := by
          funext i
          unfold applyAt setSlice
          rw [dif_pos (by omega)]
          have hsl : slice v 0 = v := by
            funext i; rw [slice]; simp only [Nat.zero_add]; exact ev_fin v i
          rw [hsl, hm, hx]
          simp only [Pi.smul_apply, unitVec, smul_eq_mul]
          by_cases hi : (i : ℕ) = 0
          · rw [if_pos (Fin.ext (by simpa using hi)), if_pos hi, mul_one]
          · rw [if_neg (fun h => hi (by simpa using congrArg Fin.val h)), if_neg hi, mul_zero]
        have e2 := applyAt_invol (Nat.zero_le N) hg v
        rw [e, applyAt_smul (Nat.zero_le N) hg] at e2
        have e3 : ((euclNorm v : 𝕜)⁻¹) • v =
            ((euclNorm v : 𝕜)⁻¹) • ((mkHouse v).alpha * (euclNorm v : 𝕜)) • applyAt 0 (mkHouse v) (unitVec 0) := by
          rw [e2]
        rw [e3, smul_smul, mul_comm ((mkHouse v).alpha), inv_mul_cancel_left₀ hpk]
    · simp only [Bool.false_eq_true, false_iff]
      intro h
      exact hp.ne' (h0.mpr h)
  · next hp =>
    have : v = 0 := h0.mp (le_antisymm (not_lt.mp hp) (Real.sqrt_nonneg _))
    exact ⟨_, rfl, ⟨by simp, rfl, rfl, by simp, by simp, fun _ => Or.inl ⟨this, rfl⟩⟩, rfl, by simp [this], rfl⟩

end

end Krypy
