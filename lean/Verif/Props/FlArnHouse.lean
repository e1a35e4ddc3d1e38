import Verif.Props.FlHouse

/-!
# Property C85: Householder transformations and `Arnoldi(ortho="house")` with rounding errors

`FlHouse` is the code of `House` and of the Householder branch of `Arnoldi` over arbitrary operations on floats; with exact operations it is the exact
model (`C85_refines_init`, `C85_refines_advance`).  If the operations have small relative errors, then a computed transformation acts like an exactly
unitary matrix up to small errors (`C85_house`), the basis vectors are orthonormal up to an error which depends on the number of vectors only, i.e. not on the
matrix or on the start vector (`C85_orthonormal`), and the Arnoldi relation holds up to small errors (`C85_relation`, `C85_invariant`).
-/

set_option linter.unusedSectionVars false

namespace Krypy
open scoped ComplexConjugate
open RCLike Finset

section
variable {𝕜 : Type*} [RCLike 𝕜] {F K : Type*} {n N : ℕ}
variable {o : FlHouseOps F K} {num : K → 𝕜} {fin : K → Prop} {val : F → ℝ} {finF : F → Prop} {u : ℝ}

/-! ## Exact preparations -/

/-- The inverse of `houseLoop`. -/
noncomputable def unloop (hs : Houses 𝕜 N) : ℕ → (Fin (N + 1) → 𝕜) → (Fin (N + 1) → 𝕜)
  | 0, y => y
  | m + 1, y => unloop hs m (applyAt m (hs m) (mulAt y m (hs m).alpha))

theorem houseLoop_unloop {hs : Houses 𝕜 N} {m : ℕ} (hm : m ≤ N + 1) (hg : GoodTo hs m) (y : Fin (N + 1) → 𝕜) : houseLoop hs m (unloop hs m y) = y := by
  induction m generalizing y with
  | zero => rfl
  | succ m ih =>
    rw [houseLoop, unloop, ih (by omega) fun j hj => hg j (by omega), applyAt_invol (by omega) (hg m (by omega))]
    funext i
    unfold mulAt
    by_cases h : (i : ℕ) = m
    · rw [if_pos h, if_pos h, mul_assoc, RCLike.mul_conj, (hg m (by omega)).2.2]; simp
    · rw [if_neg h, if_neg h]

/-- The error of an inaccurately transformed vector is the error of its expansion. -/
theorem house_expansion_err {hs : Houses 𝕜 N} {m : ℕ} (hm : m ≤ N + 1) (hg : GoodTo hs m) (x Y : Fin (N + 1) → 𝕜) :
    vecNorm (x - (∑ i ∈ range m, ev Y i • basisVec hs i + houseBack hs m (tail m Y))) = vecNorm (Y - houseLoop hs m x) := by
  have h1 := house_expansion hm hg (unloop hs m Y)
  have h2 : ∑ i ∈ range m, edot (basisVec hs i) (unloop hs m Y) • basisVec hs i = ∑ i ∈ range m, ev Y i • basisVec hs i :=
    Finset.sum_congr rfl fun i hi => by
      rw [← ev_houseLoop hm hg _ (Finset.mem_range.mp hi), houseLoop_unloop hm hg]
  rw [h2, houseLoop_unloop hm hg] at h1
  rw [← h1, ← vecNorm_houseLoop hm hg, houseLoop_sub hm hg, houseLoop_unloop hm hg, vecNorm_sub_rev']

theorem basisVec_congr {hs hs' : Houses 𝕜 N} {i : ℕ} (h : ∀ j ≤ i, hs j = hs' j) : basisVec hs i = basisVec hs' i := by
  unfold basisVec
  rw [houseBack_congr (fun j hj => h j (by omega)), h i le_rfl]

/-- The tail after the loop is a multiple of the next basis vector. -/
theorem houseBack_tail {hs : Houses 𝕜 N} {k : ℕ} (hk : k < N) {Y : Fin (N + 1) → 𝕜} (hg : GoodTo hs (k + 1)) (hn : hs (k + 1) = newHouse k Y) :
    houseBack hs (k + 1) (tail (k + 1) Y) = ((newHouse k Y).xnorm : 𝕜) • basisVec hs (k + 1) := by
  have hgn : Good (hs (k + 1)) := by rw [hn]; exact good_mk _
  have h1 := tail_newHouse (k := k) Y
  rw [← hn] at h1
  have h2 : tail (k + 1) Y = applyAt (k + 1) (hs (k + 1)) (applyAt (k + 1) (hs (k + 1)) (tail (k + 1) Y)) :=
    (applyAt_invol (by omega) hgn _).symm
  rw [h2, h1, applyAt_smul (by omega) hgn, houseBack_smul (by omega) hg, basisVec, smul_smul, ← hn, mul_comm]
  rfl

/-! ## Finite states -/

/-- `V[:, i]` has been computed. -/
def FlHArn.Has (s : FlHArn F K N) (i : ℕ) : Prop := i < s.iter ∨ i = s.iter ∧ s.invariant = false

/-- All results stored so far are finite. -/
structure FlHArn.Finite (fin : K → Prop) (finF : F → Prop) (s : FlHArn F K N) : Prop where
  vnorm : finF s.vnorm
  houses : ∀ j ≤ s.iter, j ≤ N → (s.houses j).Finite fin finF
  V : ∀ i, s.Has i → ∀ l, fin (s.V i l)
  H : ∀ j < s.iter, ∀ i < j + 2, fin (s.H i j)

/-- A vector with finite transformation is finite. -/
theorem flHouse_finite (ho : FlHouseAcc o num fin val finF u) {x : Fin (n + 1) → K} (hf : (flHouse o x).Finite fin finF) (i : Fin (n + 1)) : fin (x i) := by
  have tailF : finF (flSigma o x) → ∀ i : Fin (n + 1), i ≠ 0 → fin (x i) := by
    intro hs i hi
    obtain ⟨j, rfl⟩ := Fin.exists_succ_eq_of_ne_zero hi
    exact (ho.norm hs).1 j
  unfold flHouse at hf
  by_cases hn : n = 0
  · rw [if_pos hn] at hf
    subst hn
    have : i = 0 := Fin.ext (by omega)
    rw [this]
    exact (ho.abs hf.xnorm).1
  · rw [if_neg hn] at hf
    by_cases hz : o.isZeroF (flSigma o x) = true
    · rw [if_pos hz] at hf
      by_cases hi : i = 0
      · rw [hi]; exact (ho.abs hf.xnorm).1
      · exact tailF (ho.hyp hf.den).2.1 i hi
    · rw [if_neg hz] at hf
      have hx : finF (flXnorm o x) := by
        have := hf.xnorm
        unfold flReflector at this
        dsimp only at this
        split at this <;> exact this
      by_cases hi : i = 0
      · rw [hi]; exact (ho.abs (ho.hyp hx).1).1
      · exact tailF (ho.hyp hx).2.1 i hi

/-! ## The invariant -/

/-- The exact transformations `hs` belong to the computed state. -/
structure FlHInv (num : K → 𝕜) (fin : K → Prop) (val : F → ℝ) (u : ℝ) (zero : K) (A : (Fin (N + 1) → K) → (Fin (N + 1) → K)) (s : FlHArn F K N) (hs : Houses 𝕜 N) : Prop where
  kN : s.iter ≤ N + 1
  live : s.invariant = false → s.iter ≤ N
  good : ∀ j ≤ s.iter, j ≤ N → Good (hs j)
  near : ∀ j ≤ s.iter, j ≤ N → HouseNear num val u (s.houses j) (hs j)
  basis : ∀ i, s.Has i → vecNorm (numv num (s.V i) - basisVec hs i) ≤ (1 + 80 * u) ^ (i + 2) - 1
  rel : ∀ j < s.iter, vecNorm (numv num (A (s.V j)) - ∑ i ∈ range (j + 2), num (s.H i j) • basisVec hs i) ≤
    ((1 + 80 * u) ^ (2 * j + 5) - 1) * vecNorm (numv num (A (s.V j)))
  bound : ∀ j < s.iter, ∀ i < j + 2, ‖num (s.H i j)‖ ≤ (1 + 80 * u) ^ (2 * j + 5) * vecNorm (numv num (A (s.V j)))
  zero : ∀ i j, s.iter ≤ j → s.H i j = zero
  finA : ∀ j < s.iter, ∀ l, fin (A (s.V j) l)
  subn : ∀ j < s.iter, vecNorm (num (s.H (j + 1) j) • basisVec hs (j + 1)) ≤ ‖num (s.H (j + 1) j)‖

theorem one_le_pow_c (hu : 0 ≤ u) (m : ℕ) : 1 ≤ (1 + 80 * u) ^ m := one_le_pow₀ (by linarith)

theorem flHouseInit_inv (ho : FlHouseAcc o num fin val finF u) (hu : 0 ≤ u) (hu1 : u ≤ 1 / 1000) (A : (Fin (N + 1) → K) → (Fin (N + 1) → K)) {v : Fin (N + 1) → K}
    (hf : (flHouseInit o v).Finite fin finF) : ∃ hs : Houses 𝕜 N, FlHInv num fin val u o.zero A (flHouseInit o v) hs := by
  refine ⟨Function.update dummyHouses 0 (mkHouse (numv num v)), ?_⟩
  have h0 : (flHouseInit o v).houses 0 = flHouse o v := by
    unfold flHouseInit
    dsimp only
    split <;> simp
  have hi : (flHouseInit o v).iter = 0 := by
    unfold flHouseInit
    dsimp only
    split <;> rfl
  refine ⟨by omega, fun _ => by omega, ?_, ?_, ?_, fun j hj => by omega, fun j hj => by omega, ?_, fun j hj => by omega, fun j hj => by omega⟩
  · intro j hj _
    obtain rfl : j = 0 := by omega
    rw [Function.update_self]
    exact good_mk _
  · intro j hj _
    obtain rfl : j = 0 := by omega
    have h1 := hf.houses 0 (by omega) (by omega)
    rw [h0] at h1
    rw [h0, Function.update_self]
    exact flHouse_near ho hu hu1 h1
  · intro i hh
    have hfin := hf.V i hh
    have hvn := hf.vnorm
    rcases hh with h | ⟨h, hinv⟩
    · omega
    obtain rfl : i = 0 := by omega
    unfold flHouseInit at hfin hvn hinv ⊢
    dsimp only at hfin hvn hinv ⊢
    by_cases hp : o.pos (o.norm (N + 1) v) = true
    swap
    · rw [if_neg hp] at hinv; exact absurd hinv (by simp)
    rw [if_pos hp] at hfin hvn ⊢
    dsimp only at hfin hvn ⊢
    simp only [Function.update_self] at hfin ⊢
    have hr := (ho.norm hvn).2
    have hpos := (ho.pos hvn).mp hp
    have hv0 : 0 < vecNorm (numv num v) := by
      refine lt_of_le_of_ne (vecNorm_nonneg _) fun h => ?_
      have h' : (vecNorm fun i => num (v i)) = 0 := h.symm
      rw [h', mul_zero, sub_zero] at hr
      have := abs_nonneg (val (o.norm (N + 1) v))
      rw [abs_of_pos hpos] at hr
      linarith
    have hb : basisVec (Function.update dummyHouses 0 (mkHouse (numv num v))) 0 = ((vecNorm (numv num v) : 𝕜)⁻¹) • numv num v := by
      obtain ⟨s, hs, inv, -, -, -⟩ := houseInit_inv (A := (0 : (Fin (N + 1) → 𝕜) →ₗ[𝕜] (Fin (N + 1) → 𝕜))) (maxiter := 1) (numv num v)
      unfold houseInit at hs
      have hp' : 0 < euclNorm (numv num v) := hv0
      simp only [if_true, hp'] at hs
      cases hs
      have := (inv.live rfl).basis 0 le_rfl
      simp only [Function.update_self] at this
      exact this.symm
    rw [hb]
    have h1 : ∀ i, ‖(numv num (fun i => o.div (v i) (o.norm (N + 1) v)) - ((vecNorm (numv num v) : 𝕜)⁻¹) • numv num v) i‖ ≤
        2.1 * u * ‖(((vecNorm (numv num v) : 𝕜)⁻¹) • numv num v) i‖ := by
      intro i
      have h := Rel.div (g := 2.1 * u) hu (by linarith) hv0 hr (ho.div (hfin i) hvn).2.2 (by nlinarith)
      unfold Rel at h
      rw [Pi.sub_apply, Pi.smul_apply, smul_eq_mul, mul_comm, ← div_eq_mul_inv]
      exact h
    refine (vecNorm_le_of (by positivity) h1).trans ?_
    rw [vecNorm_smul, norm_inv, norm_ofReal, abs_of_pos hv0, inv_mul_cancel₀ hv0.ne', mul_one]
    have : (1 + 80 * u) ^ (0 + 2) = 1 + 160 * u + 6400 * u ^ 2 := by ring
    rw [this]
    nlinarith
  · intro i j _
    unfold flHouseInit
    dsimp only
    split <;> rfl

/-- What a successful call of `advance` does. -/
theorem flHouseAdvance_cases {A : (Fin (N + 1) → K) → (Fin (N + 1) → K)} {maxiter : ℕ} {s s' : FlHArn F K N} (h : flHouseAdvance o A maxiter s = .ok s') :
    s.iter < maxiter ∧ s.invariant = false ∧ s'.iter = s.iter + 1 ∧ s'.vnorm = s.vnorm ∧ s'.houses = flHouseList o s.iter (flHouseAv o A s) s.houses ∧
      (∀ i j, s'.H i j = if j = s.iter then flHouseCol o s.iter (flHouseAv o A s) (fun i => s.H i s.iter) i else s.H i j) ∧ (∀ i ≤ s.iter, s'.V i = s.V i) ∧
      (s'.invariant = false → s.iter < N ∧ s'.V (s.iter + 1) = flHouseVec o s'.houses s.iter) := by
  unfold flHouseAdvance at h
  split at h
  · cases h
  next hm =>
  split at h
  · cases h
  next hi =>
  dsimp only at h
  split at h
  · cases h
    exact ⟨by omega, by simpa using hi, rfl, rfl, rfl, fun _ _ => rfl, fun _ _ => rfl, by simp⟩
  split at h
  · cases h
  next hN =>
  cases h
  refine ⟨by omega, by simpa using hi, rfl, rfl, rfl, fun _ _ => rfl, fun i hle => ?_, fun _ => ⟨by omega, ?_⟩⟩
  · dsimp only
    rw [Function.update_of_ne (by omega)]
  · dsimp only
    rw [Function.update_self]

theorem flHouseList_old {k : ℕ} {y : Fin (N + 1) → K} {fs : FlHouses F K N} {j : ℕ} (hj : j ≤ k) : flHouseList o k y fs j = fs j := by
  unfold flHouseList
  split
  · exact Function.update_of_ne (by omega) _ _
  · rfl

theorem flHouseList_new {k : ℕ} (hk : k < N) {y : Fin (N + 1) → K} {fs : FlHouses F K N} : flHouseList o k y fs (k + 1) = flNewHouse o k y := by
  rw [flHouseList, if_pos hk, Function.update_self]

/-- If the state after a call of `advance` is finite, then so is the one before. -/
theorem flHouseAdvance_finite {A : (Fin (N + 1) → K) → (Fin (N + 1) → K)} {maxiter : ℕ} {s s' : FlHArn F K N} (h : flHouseAdvance o A maxiter s = .ok s')
    (hf : s'.Finite fin finF) : s.Finite fin finF := by
  obtain ⟨-, -, c3, c4, c5, c6, c7, -⟩ := flHouseAdvance_cases h
  refine ⟨by rw [← c4]; exact hf.vnorm, fun j hj hN => ?_, fun i hi => ?_, fun j hj i hi => ?_⟩
  · have := hf.houses j (by omega) hN
    rwa [c5, flHouseList_old hj] at this
  · have hle : i ≤ s.iter := by rcases hi with h | ⟨h, -⟩ <;> omega
    rw [← c7 i hle]
    exact hf.V i (.inl (by omega))
  · have := hf.H j (by omega) i hi
    rwa [c6, if_neg (by omega)] at this

theorem norm_le_vecNorm' {m : ℕ} (x : Fin m → 𝕜) (i : Fin m) : ‖x i‖ ≤ vecNorm x := by
  unfold vecNorm
  apply Real.le_sqrt_of_sq_le
  exact Finset.single_le_sum (f := fun i => ‖x i‖ ^ 2) (fun i _ => by positivity) (Finset.mem_univ i)

theorem ev_le_vecNorm (x : Fin (N + 1) → 𝕜) (i : ℕ) : ‖ev x i‖ ≤ vecNorm x := by
  unfold ev
  split
  · exact norm_le_vecNorm' x _
  · rw [norm_zero]; exact vecNorm_nonneg x

/-- The subdiagonal entry of `H`. -/
theorem subdiag_near (ho : FlHouseAcc o num fin val finF u) (hu : 0 ≤ u) (hu1 : u ≤ 1 / 1000) {k : ℕ} (hk : k < N) {y : Fin (N + 1) → K}
    (hfh : (flNewHouse o k y).Finite fin finF) (hf : fin (o.ofReal (o.abs (flEv o (flReduceTail o k y) (k + 1))))) :
    ‖num (o.ofReal (o.abs (flEv o (flReduceTail o k y) (k + 1)))) - ((newHouse k (numv num y)).xnorm : 𝕜)‖ ≤ ((1 + 80 * u) ^ 3 - 1) * vecNorm (numv num y) := by
  have hn : HouseNear num val u (flNewHouse o k y) (newHouse k (numv num y)) := by
    have := flHouse_near ho hu hu1 hfh
    have e : (fun i => num (flSlice o y (k + 1) i)) = slice (numv num y) (k + 1) := num_slice ho.zero y (k + 1)
    rw [e] at this
    exact this
  set e := newHouse k (numv num y) with he
  have hge : Good e := good_mk _
  have hft := (ho.abs (ho.ofReal hf).1).1
  have hx0 : 0 ≤ e.xnorm := newHouse_xnorm_nonneg k _
  have hR0 := vecNorm_nonneg (numv num y)
  have hsl := vecNorm_slice_le (show k + 1 ≤ N by omega) (numv num y)
  have hxn : e.xnorm ≤ vecNorm (numv num y) := by
    have : e.xnorm = √(enormSq (slice (numv num y) (k + 1))) := (mkHouse_ok _).xnorm
    rw [this]; exact hsl
  set a := (flNewHouse o k y).apply o (flSlice o y (k + 1)) 0 with ha
  have e1 : flEv o (flReduceTail o k y) (k + 1) = o.mul a (o.cj (flNewHouse o k y).alpha) := by
    unfold flEv flReduceTail flSetSlice
    rw [dif_pos (by omega), dif_pos (by simp)]
    have e0 : (⟨k + 1 - (k + 1), by omega⟩ : Fin (N - (k + 1) + 1)) = 0 := Fin.ext (by simp)
    simp only [e0, ha]
  rw [e1] at hf hft ⊢
  have h2 : ‖num a - e.alpha * (e.xnorm : 𝕜)‖ ≤ 80 * u * vecNorm (numv num y) := by
    have h3 := (flApply_entry ho hu hu1 hn hge.2.1 (i := 0) (ho.mul hft).1).2
    rw [num_slice ho.zero] at h3
    have hm : e.apply (slice (numv num y) (k + 1)) 0 = e.alpha * (e.xnorm : 𝕜) := by
      have hm' := congrFun (mkHouse_ok (slice (numv num y) (k + 1))).maps 0
      rw [if_pos rfl] at hm'
      exact hm'
    rw [hm] at h3
    refine h3.trans ?_
    have h4 : ‖e.v 0‖ ≤ 1 := by have := norm_le_vecNorm' e.v 0; rwa [vecNorm_unit_of hge.2.1] at this
    have h5 : ‖num (flSlice o y (k + 1) 0)‖ ≤ vecNorm (numv num y) := by
      have := norm_le_vecNorm' (numv num (flSlice o y (k + 1))) 0
      rw [num_slice ho.zero] at this
      have e5 : numv num (flSlice o y (k + 1)) 0 = slice (numv num y) (k + 1) 0 := by rw [num_slice ho.zero]
      change ‖numv num (flSlice o y (k + 1)) 0‖ ≤ _
      rw [e5]
      exact (norm_le_vecNorm' _ 0).trans hsl
    calc u * ‖num (flSlice o y (k + 1) 0)‖ + 77.6 * u * vecNorm (slice (numv num y) (k + 1)) * ‖e.v 0‖
        ≤ u * vecNorm (numv num y) + 77.6 * u * vecNorm (numv num y) * 1 := by gcongr
      _ = 78.6 * u * vecNorm (numv num y) := by ring
      _ ≤ _ := by gcongr; norm_num
  have hcj := ho.cj (ho.mul hft).2.1
  have hal1 : ‖conj e.alpha‖ = 1 := by rw [RCLike.norm_conj]; exact hge.2.2
  have r1 := mul_phase ho hu hu1 (b := conj e.alpha) hal1 (by rw [hcj.2, ← map_sub, RCLike.norm_conj]; exact hn.alpha) hft
  unfold Rel at r1
  rw [norm_mul, hal1, mul_one] at r1
  have h4 : ‖num a * conj e.alpha - (e.xnorm : 𝕜)‖ ≤ 80 * u * vecNorm (numv num y) := by
    have e2 : num a * conj e.alpha - (e.xnorm : 𝕜) = (num a - e.alpha * (e.xnorm : 𝕜)) * conj e.alpha := by
      rw [sub_mul, mul_right_comm, RCLike.mul_conj, hge.2.2]; simp
    rw [e2, norm_mul, hal1, mul_one]
    exact h2
  have h5 : ‖num a‖ ≤ (1 + 80 * u) * vecNorm (numv num y) := by
    have h6 := norm_sub_norm_le (num a) (e.alpha * (e.xnorm : 𝕜))
    rw [norm_mul, hge.2.2, one_mul, norm_ofReal, abs_of_nonneg hx0] at h6
    linarith
  set p := num (o.mul a (o.cj (flNewHouse o k y).alpha)) with hp
  have h7 : ‖p - (e.xnorm : 𝕜)‖ ≤ (4.1 * u * (1 + 80 * u) + 80 * u) * vecNorm (numv num y) := by
    calc ‖p - (e.xnorm : 𝕜)‖ = ‖(p - num a * conj e.alpha) + (num a * conj e.alpha - (e.xnorm : 𝕜))‖ := by ring_nf
      _ ≤ 4.1 * u * ((1 + 80 * u) * vecNorm (numv num y)) + 80 * u * vecNorm (numv num y) :=
        (norm_add_le _ _).trans (add_le_add (r1.trans (by gcongr)) h4)
      _ = _ := by ring
  obtain ⟨h8, h9⟩ := ho.ofReal hf
  have h10 := (ho.abs h8).2
  have h11 : ‖p‖ ≤ (1 + 80 * u) ^ 2 * vecNorm (numv num y) := by
    have h12 := norm_sub_norm_le p (e.xnorm : 𝕜)
    rw [norm_ofReal, abs_of_nonneg hx0] at h12
    have h13 : (4.1 * u * (1 + 80 * u) + 80 * u) + 1 ≤ (1 + 80 * u) ^ 2 := by nlinarith
    have := mul_le_mul_of_nonneg_right h13 hR0
    linarith
  rw [h9, ← ofReal_sub, norm_ofReal]
  have h14 : |‖p‖ - e.xnorm| ≤ (4.1 * u * (1 + 80 * u) + 80 * u) * vecNorm (numv num y) := by
    have := abs_norm_sub_norm_le p (e.xnorm : 𝕜)
    rw [norm_ofReal, abs_of_nonneg hx0] at this
    exact this.trans h7
  calc |val (o.abs (o.mul a (o.cj (flNewHouse o k y).alpha))) - e.xnorm|
      = |(val (o.abs (o.mul a (o.cj (flNewHouse o k y).alpha))) - ‖p‖) + (‖p‖ - e.xnorm)| := by ring_nf
    _ ≤ u * ‖p‖ + (4.1 * u * (1 + 80 * u) + 80 * u) * vecNorm (numv num y) := (abs_add_le _ _).trans (add_le_add h10 h14)
    _ ≤ u * ((1 + 80 * u) ^ 2 * vecNorm (numv num y)) + (4.1 * u * (1 + 80 * u) + 80 * u) * vecNorm (numv num y) := by gcongr
    _ = (u * (1 + 80 * u) ^ 2 + (4.1 * u * (1 + 80 * u) + 80 * u)) * vecNorm (numv num y) := by ring
    _ ≤ _ := by
      refine mul_le_mul_of_nonneg_right ?_ hR0
      have e3 : (1 + 80 * u) ^ 3 - 1 = 240 * u + 19200 * u ^ 2 + 512000 * u ^ 3 := by ring
      have e4 : u * (1 + 80 * u) ^ 2 + (4.1 * u * (1 + 80 * u) + 80 * u) = 85.1 * u + 488 * u ^ 2 + 6400 * u ^ 3 := by ring
      rw [e3, e4]
      have : 0 ≤ u ^ 2 := by positivity
      have : 0 ≤ u ^ 3 := by positivity
      nlinarith

theorem flHouseCol_low {k : ℕ} {y : Fin (N + 1) → K} {old : ℕ → K} {i : ℕ} (hi : i ≤ k) : flHouseCol o k y old i = flEv o y i := by
  unfold flHouseCol
  rw [Function.update_of_ne (by omega)]
  split
  · change (if i < k + 2 then _ else _) = _
    rw [if_pos (by omega)]
    unfold flEv
    split
    · unfold flReduceTail flSetSlice
      rw [dif_neg (by simp only; omega)]
    · rfl
  · change (if i < k + 1 then _ else _) = _
    rw [if_pos (by omega)]

theorem flHouseCol_sub {k : ℕ} (hk : k < N) {y : Fin (N + 1) → K} {old : ℕ → K} :
    flHouseCol o k y old (k + 1) = o.ofReal (o.abs (flEv o (flReduceTail o k y) (k + 1))) := by
  unfold flHouseCol
  rw [Function.update_self, if_pos hk, if_pos (by omega)]

theorem flHouseCol_last {k : ℕ} (hk : ¬ k < N) {y : Fin (N + 1) → K} {old : ℕ → K} : flHouseCol o k y old (k + 1) = o.ofReal (o.abs (old (k + 1))) := by
  unfold flHouseCol
  rw [Function.update_self, if_neg hk, if_neg (by omega)]

theorem nums_unit (ho : FlHouseAcc o num fin val finF u) (m : ℕ) : numv num (flUnitVec o m : Fin (N + 1) → K) = unitVec m := by
  funext i
  unfold numv flUnitVec unitVec
  split
  · exact ho.one
  · exact ho.zero

theorem vecNorm_unitVec {m : ℕ} (hm : m ≤ N) : vecNorm (unitVec m : Fin (N + 1) → 𝕜) = 1 := by
  apply vecNorm_unit_of
  unfold enormSq unitVec
  rw [Finset.sum_eq_single ⟨m, by omega⟩]
  · simp
  · intro b _ hb
    rw [if_neg (fun h => hb (Fin.ext h))]; simp
  · simp

theorem vecNorm_basisVec {hs : Houses 𝕜 N} {i : ℕ} (hi : i ≤ N) (hg : GoodTo hs (i + 1)) : vecNorm (basisVec hs i) = 1 := by
  rw [basisVec, vecNorm_smul, (hg i (by omega)).2.2, one_mul, vecNorm_houseBack (by omega) hg, vecNorm_unitVec hi]

theorem houseBack_zero {hs : Houses 𝕜 N} {m : ℕ} (hm : m ≤ N + 1) (hg : GoodTo hs m) : houseBack hs m (0 : Fin (N + 1) → 𝕜) = 0 := by
  have := houseBack_smul hm hg (0 : 𝕜) 0
  simpa using this

/-- utils.py 990-994: the new basis vector with errors. -/
theorem flHouseVec_near (ho : FlHouseAcc o num fin val finF u) (hu : 0 ≤ u) (hu1 : u ≤ 1 / 1000) {fs : FlHouses F K N} {hs : Houses 𝕜 N} {k : ℕ} (hk : k < N)
    (hg : GoodTo hs (k + 2)) (hn : ∀ j < k + 2, HouseNear num val u (fs j) (hs j)) (hf : ∀ i, fin (flHouseVec o fs k i)) :
    vecNorm (numv num (flHouseVec o fs k) - basisVec hs (k + 1)) ≤ (1 + 80 * u) ^ (k + 3) - 1 := by
  have hfb : ∀ i, fin (flHouseBack o fs (k + 2) (flUnitVec o (k + 1)) i) := fun i => (ho.mul (hf i)).1
  obtain ⟨-, h1⟩ := flHouseBack_near ho hu hu1 (by omega) hg hn hfb
  have hu0 := vecNorm_unitVec (𝕜 := 𝕜) (show k + 1 ≤ N by omega)
  have h2 := h1 (unitVec (k + 1)) 1 1 (by rw [nums_unit ho, sub_self, vecNorm_eq_zero.mpr rfl]; simp) hu0
  have hal := (hg (k + 1) (by omega)).2.2
  set B := numv num (flHouseBack o fs (k + 2) (flUnitVec o (k + 1))) with hB
  have h3 : vecNorm (numv num (flHouseVec o fs k) - (hs (k + 1)).alpha • B) ≤ 80 * u * vecNorm B := by
    refine vecNorm_le_of (by positivity) fun i => ?_
    have r := mul_phase ho hu hu1 hal (hn (k + 1) (by omega)).alpha (hf i)
    unfold Rel at r
    rw [norm_mul, hal, mul_one] at r
    rw [Pi.sub_apply, Pi.smul_apply, smul_eq_mul, mul_comm]
    exact r.trans (mul_le_mul_of_nonneg_right (by linarith) (norm_nonneg _))
  have h4 := approx_step (P := fun y => (hs (k + 1)).alpha • y) (fun x y => by rw [← smul_sub, vecNorm_smul, hal, one_mul]) (c := 80 * u) (by positivity) h3 h2
    (by rw [vecNorm_houseBack (by omega) hg, hu0])
  rw [one_mul, mul_one, ← pow_succ] at h4
  exact h4

theorem flHouseAdvance_inv (ho : FlHouseAcc o num fin val finF u) (hu : 0 ≤ u) (hu1 : u ≤ 1 / 1000) {A : (Fin (N + 1) → K) → (Fin (N + 1) → K)} {maxiter : ℕ}
    {s s' : FlHArn F K N} {hs : Houses 𝕜 N} (inv : FlHInv num fin val u o.zero A s hs) (h : flHouseAdvance o A maxiter s = .ok s') (hf : s'.Finite fin finF) :
    ∃ hs' : Houses 𝕜 N, FlHInv num fin val u o.zero A s' hs' := by
  obtain ⟨-, c2, c3, -, c5, c6, c7, c8⟩ := flHouseAdvance_cases h
  have hkN := inv.live c2
  set k := s.iter with hk
  set y := flHouseAv o A s with hy
  set Y := numv num y with hY
  set E := numv num (A (s.V k)) with hE
  have hE0 := vecNorm_nonneg E
  have hs1 : ∀ j ≤ k, houseList k Y hs j = hs j := fun j hj => houseList_lt Y hs (by omega)
  have hf1 : ∀ j ≤ k, s'.houses j = s.houses j := fun j hj => by rw [c5]; exact flHouseList_old hj
  have hcol : ∀ i, s'.H i k = flHouseCol o k y (fun i => s.H i k) i := fun i => by rw [c6, if_pos rfl]
  have hfH : ∀ i < k + 2, fin (flHouseCol o k y (fun i => s.H i k) i) := fun i hi => by rw [← hcol]; exact hf.H k (by omega) i hi
  -- the transformed vector is finite
  have hyf : ∀ i, fin (y i) := by
    intro i
    by_cases hi : (i : ℕ) ≤ k
    · have := hfH i (by omega)
      rw [flHouseCol_low hi] at this
      unfold flEv at this
      rwa [dif_pos i.2] at this
    · have h1 := hf.houses (k + 1) (by omega) (by omega)
      rw [c5, flHouseList_new (by omega)] at h1
      exact flSlice_fin (o := o) (j := k + 1) (fun l => flHouse_finite ho h1 l) i (by omega)
  have hg : GoodTo (houseList k Y hs) (k + 1) := fun j hj => by rw [hs1 j (by omega)]; exact inv.good j (by omega) (by omega)
  have hn : ∀ j < k + 1, HouseNear num val u (s.houses j) (houseList k Y hs j) := fun j hj => by
    rw [hs1 j (by omega)]; exact inv.near j (by omega) (by omega)
  obtain ⟨hAf, hloop⟩ := flHouseLoop_near ho hu hu1 (by omega) hg hn hyf
  have hexp := house_expansion_err (by omega) hg E Y
  have hYn : vecNorm Y ≤ (1 + 80 * u) ^ (2 * (k + 1)) * vecNorm E := by
    have h1 := vecNorm_add_le' (Y - houseLoop (houseList k Y hs) (k + 1) E) (houseLoop (houseList k Y hs) (k + 1) E)
    rw [sub_add_cancel, vecNorm_houseLoop (by omega) hg] at h1
    have h2 : vecNorm (Y - houseLoop (houseList k Y hs) (k + 1) E) ≤ ((1 + 80 * u) ^ (2 * (k + 1)) - 1) * vecNorm E := hloop
    linarith
  have hpow : (1 + 80 * u) ^ (2 * k + 5) = (1 + 80 * u) ^ (2 * (k + 1)) * (1 + 80 * u) ^ 3 := by ring
  have hp1 := one_le_pow_c hu (2 * (k + 1))
  have hp3 := one_le_pow_c hu 3
  have hlow : ∀ i ≤ k, num (s'.H i k) = ev Y i := fun i hi => by rw [hcol, flHouseCol_low hi, num_ev ho.zero]
  have hgood : ∀ j ≤ s'.iter, j ≤ N → Good (houseList k Y hs j) := by
    intro j hj hjN
    rcases Nat.lt_or_ge j (k + 1) with h | h
    · exact hg j h
    · obtain rfl : j = k + 1 := by omega
      rw [houseList_new (by omega)]; exact good_mk _
  have hnear : ∀ j ≤ s'.iter, j ≤ N → HouseNear num val u (s'.houses j) (houseList k Y hs j) := by
    intro j hj hjN
    rcases Nat.lt_or_ge j (k + 1) with h | h
    · rw [hf1 j (by omega)]; exact hn j h
    · obtain rfl : j = k + 1 := by omega
      have h1 := hf.houses (k + 1) (by omega) hjN
      rw [c5, flHouseList_new (by omega)] at h1 ⊢
      rw [houseList_new (by omega)]
      have h2 := flHouse_near ho hu hu1 h1
      have e : (fun i => num (flSlice o y (k + 1) i)) = slice Y (k + 1) := num_slice ho.zero y (k + 1)
      rw [e] at h2
      exact h2
  -- the subdiagonal entry
  have hsub : ∃ X : ℝ, 0 ≤ X ∧ X ≤ vecNorm Y ∧ houseBack (houseList k Y hs) (k + 1) (tail (k + 1) Y) = (X : 𝕜) • basisVec (houseList k Y hs) (k + 1) ∧
      ‖num (s'.H (k + 1) k) - (X : 𝕜)‖ * vecNorm (basisVec (houseList k Y hs) (k + 1)) ≤ ((1 + 80 * u) ^ 3 - 1) * vecNorm Y ∧
      ‖num (s'.H (k + 1) k) - (X : 𝕜)‖ ≤ ((1 + 80 * u) ^ 3 - 1) * vecNorm Y ∧
      vecNorm (num (s'.H (k + 1) k) • basisVec (houseList k Y hs) (k + 1)) ≤ ‖num (s'.H (k + 1) k)‖ := by
    by_cases hlt : k < N
    · have h1 := hf.houses (k + 1) (by omega) (by omega)
      rw [c5, flHouseList_new hlt] at h1
      have h2 := hfH (k + 1) (by omega)
      rw [flHouseCol_sub hlt] at h2
      have h3 := subdiag_near ho hu hu1 hlt h1 h2
      rw [hcol, flHouseCol_sub hlt]
      have hb := houseBack_tail hlt hg (houseList_new hlt Y hs)
      have hgg : GoodTo (houseList k Y hs) (k + 1 + 1) := fun j hj => hgood j (by omega) (by omega)
      refine ⟨_, newHouse_xnorm_nonneg k Y, ?_, hb, ?_, h3, ?_⟩
      · have : (newHouse k Y).xnorm = √(enormSq (slice Y (k + 1))) := (mkHouse_ok _).xnorm
        rw [this]; exact vecNorm_slice_le (by omega) Y
      · rw [vecNorm_basisVec (by omega) hgg, mul_one]; exact h3
      · rw [vecNorm_smul, vecNorm_basisVec (by omega) hgg, mul_one]
    · have hz : num (s'.H (k + 1) k) = 0 := by
        have h2 := hfH (k + 1) (by omega)
        rw [hcol]
        rw [flHouseCol_last hlt, inv.zero _ _ le_rfl] at h2 ⊢
        obtain ⟨h3, h4⟩ := ho.ofReal h2
        have h5 := (ho.abs h3).2
        rw [ho.zero, norm_zero, mul_zero, sub_zero] at h5
        rw [h4, abs_eq_zero.mp (le_antisymm h5 (abs_nonneg _))]; simp
      have hYn0 := vecNorm_nonneg Y
      have hnn : 0 ≤ ((1 + 80 * u) ^ 3 - 1) * vecNorm Y := mul_nonneg (by linarith) hYn0
      refine ⟨0, le_rfl, hYn0, ?_, ?_, ?_, ?_⟩
      · have hkN' : k + 1 = N + 1 := by omega
        have ht : tail (k + 1) Y = 0 := by rw [hkN']; exact tail_full Y
        rw [ht, houseBack_zero (by omega) hg]; simp
      · rw [hz]; simpa using hnn
      · rw [hz]; simpa using hnn
      · rw [hz, zero_smul, norm_zero]; exact (vecNorm_eq_zero.mpr rfl).le
  obtain ⟨X, hX0, hXY, hX1, hX2, hX3, hX4⟩ := hsub
  refine ⟨houseList k Y hs, ⟨by omega, ?_, hgood, hnear, ?_, ?_, ?_, ?_, ?_, ?_⟩⟩
  · intro hi; have := (c8 hi).1; omega
  · intro i hi
    have hVf := hf.V i hi
    rcases Nat.lt_or_ge i (k + 1) with hlt | hge
    · rw [c7 i (by omega), basisVec_congr (hs' := hs) fun j hj => hs1 j (by omega)]
      refine inv.basis i ?_
      rcases Nat.lt_or_ge i k with h | h
      · exact .inl h
      · exact .inr ⟨by omega, c2⟩
    · have hi' : i = k + 1 ∧ s'.invariant = false := by
        rcases hi with h | ⟨h, h'⟩
        · omega
        · exact ⟨by omega, h'⟩
      obtain ⟨rfl, hinv⟩ := hi'
      obtain ⟨h1, h2⟩ := c8 hinv
      rw [h2] at hVf ⊢
      exact flHouseVec_near ho hu hu1 h1 (fun j hj => hgood j (by omega) (by omega)) (fun j hj => hnear j (by omega) (by omega)) hVf
  · intro j hj
    rcases Nat.lt_or_ge j k with hlt | hge
    · rw [c7 j (by omega)]
      have e : ∑ i ∈ range (j + 2), num (s'.H i j) • basisVec (houseList k Y hs) i = ∑ i ∈ range (j + 2), num (s.H i j) • basisVec hs i :=
        Finset.sum_congr rfl fun i hi => by
          have := Finset.mem_range.mp hi
          rw [c6, if_neg (by omega), basisVec_congr (hs' := hs) fun l hl => hs1 l (by omega)]
      rw [e]
      exact inv.rel j hlt
    · obtain rfl : j = k := by omega
      rw [c7 k le_rfl]
      change vecNorm (E - _) ≤ _ * vecNorm E
      rw [Finset.sum_range_succ]
      have e : ∑ i ∈ range (k + 1), num (s'.H i k) • basisVec (houseList k Y hs) i = ∑ i ∈ range (k + 1), ev Y i • basisVec (houseList k Y hs) i :=
        Finset.sum_congr rfl fun i hi => by
          have := Finset.mem_range.mp hi
          rw [hlow i (by omega)]
      rw [e]
      rw [hX1] at hexp
      set S := ∑ i ∈ range (k + 1), ev Y i • basisVec (houseList k Y hs) i with hS
      set b := basisVec (houseList k Y hs) (k + 1) with hb
      have e2 : E - (S + num (s'.H (k + 1) k) • b) = (E - (S + (X : 𝕜) • b)) - (num (s'.H (k + 1) k) - (X : 𝕜)) • b := by
        rw [sub_smul]; abel
      rw [e2]
      refine (vecNorm_sub_le' _ _).trans ?_
      rw [hexp, vecNorm_smul]
      have h1 : ((1 + 80 * u) ^ 3 - 1) * vecNorm Y ≤ ((1 + 80 * u) ^ 3 - 1) * ((1 + 80 * u) ^ (2 * (k + 1)) * vecNorm E) :=
        mul_le_mul_of_nonneg_left hYn (by linarith)
      have h2 : vecNorm (Y - houseLoop (houseList k Y hs) (k + 1) E) ≤ ((1 + 80 * u) ^ (2 * (k + 1)) - 1) * vecNorm E := hloop
      rw [hpow]
      linarith
  · intro j hj i hi
    rcases Nat.lt_or_ge j k with hlt | hge
    · rw [c7 j (by omega), c6, if_neg (by omega)]
      exact inv.bound j hlt i hi
    · obtain rfl : j = k := by omega
      rw [c7 k le_rfl]
      change _ ≤ _ * vecNorm E
      have hYE : (1 + 80 * u) ^ 3 * vecNorm Y ≤ (1 + 80 * u) ^ (2 * k + 5) * vecNorm E := by
        rw [hpow, mul_comm ((1 + 80 * u) ^ (2 * (k + 1))), mul_assoc]
        exact mul_le_mul_of_nonneg_left hYn (by linarith)
      have hYn0 := vecNorm_nonneg Y
      rcases Nat.lt_or_ge i (k + 1) with h1 | h1
      · rw [hlow i (by omega)]
        have h2 := ev_le_vecNorm Y i
        nlinarith
      · obtain rfl : i = k + 1 := by omega
        have h2 := norm_sub_norm_le (num (s'.H (k + 1) k)) (X : 𝕜)
        rw [norm_ofReal, abs_of_nonneg hX0] at h2
        linarith
  · intro i j hj
    rw [c6, if_neg (by omega)]
    exact inv.zero i j (by omega)
  · intro j hj
    rw [c7 j (by omega)]
    rcases Nat.lt_or_ge j k with hlt | hge
    · exact inv.finA j hlt
    · obtain rfl : j = k := by omega
      exact hAf
  · intro j hj
    rcases Nat.lt_or_ge j k with hlt | hge
    · rw [c6, if_neg (by omega), basisVec_congr (hs' := hs) fun l hl => hs1 l (by omega)]
      exact inv.subn j hlt
    · obtain rfl : j = k := by omega
      exact hX4

theorem flHouseRun_inv (ho : FlHouseAcc o num fin val finF u) (hu : 0 ≤ u) (hu1 : u ≤ 1 / 1000) {A : (Fin (N + 1) → K) → (Fin (N + 1) → K)} {maxiter : ℕ}
    {v : Fin (N + 1) → K} {m : ℕ} {s : FlHArn F K N} (h : flHouseRun o A maxiter v m = .ok s) (hf : s.Finite fin finF) :
    ∃ hs : Houses 𝕜 N, FlHInv num fin val u o.zero A s hs := by
  induction m generalizing s with
  | zero =>
    cases h
    exact flHouseInit_inv ho hu hu1 A hf
  | succ m ih =>
    rw [flHouseRun] at h
    split at h
    · cases h
    · next s0 h0 =>
      obtain ⟨hs, inv⟩ := ih h0 (flHouseAdvance_finite h hf)
      exact flHouseAdvance_inv ho hu hu1 inv h hf

/-! ## Results -/

open Matrix in
/-- C85: a computed transformation acts like a unitary matrix which maps the given vector to a multiple of the first unit vector. -/
theorem C85_house (ho : FlHouseAcc o num fin val finF u) (hu : 0 ≤ u) (hu1 : u ≤ 1 / 1000) {x : Fin (n + 1) → K} (hf : (flHouse o x).Finite fin finF) :
    ∃ (U : Matrix (Fin (n + 1)) (Fin (n + 1)) 𝕜) (a : 𝕜), Uᴴ * U = 1 ∧ ‖a‖ = 1 ∧ (U *ᵥ numv num x = Pi.single 0 (a * (vecNorm (numv num x) : 𝕜))) ∧
      ‖num (flHouse o x).alpha - a‖ ≤ 3 * u ∧ |val (flHouse o x).xnorm - vecNorm (numv num x)| ≤ 3 * u * vecNorm (numv num x) ∧
      ∀ y : Fin (n + 1) → K, (∀ i, fin ((flHouse o x).apply o y i)) →
        vecNorm (numv num ((flHouse o x).apply o y) - U *ᵥ numv num y) ≤ 80 * u * vecNorm (numv num y) := by
  have hn := flHouse_near ho hu hu1 hf
  have hm := mkHouse_ok (numv num x)
  have hx : (mkHouse (numv num x)).xnorm = vecNorm (numv num x) := hm.xnorm
  refine ⟨(mkHouse (numv num x)).matrix, (mkHouse (numv num x)).alpha, ?_, hm.alpha, ?_, hn.alpha, ?_, fun y hy => ?_⟩
  · rw [(C09_matrix (numv num x) 0).2.1]; exact (C09_matrix (numv num x) 0).2.2
  · rw [← (C09_matrix (numv num x) _).1, hm.maps, hx]
    funext i
    by_cases hi : i = 0
    · subst hi; simp
    · simp [hi]
  · have := hn.xnorm
    change |_ - (mkHouse (numv num x)).xnorm| ≤ _ * (mkHouse (numv num x)).xnorm at this
    rwa [hx] at this
  · rw [← (C09_matrix (numv num x) _).1]
    exact (flApply_near ho hu hu1 hn hm.unit hy).2

theorem FlHInv.le {A : (Fin (N + 1) → K) → (Fin (N + 1) → K)} {s : FlHArn F K N} {hs : Houses 𝕜 N} (inv : FlHInv num fin val u o.zero A s hs) {i : ℕ}
    (hi : s.Has i) : i ≤ N ∧ i ≤ s.iter := by
  have := inv.kN
  rcases hi with h | ⟨h, h'⟩
  · omega
  · have := inv.live h'; omega

theorem FlHInv.unit {A : (Fin (N + 1) → K) → (Fin (N + 1) → K)} {s : FlHArn F K N} {hs : Houses 𝕜 N} (inv : FlHInv num fin val u o.zero A s hs) {i : ℕ}
    (hi : s.Has i) : vecNorm (basisVec hs i) = 1 := by
  obtain ⟨h1, h2⟩ := inv.le hi
  exact vecNorm_basisVec h1 fun j hj => inv.good j (by omega) (by omega)

/-- C85: the computed basis vectors are orthonormal up to an error which depends on their number only. -/
theorem C85_orthonormal (ho : FlHouseAcc o num fin val finF u) (hu : 0 ≤ u) (hu1 : u ≤ 1 / 1000) {A : (Fin (N + 1) → K) → (Fin (N + 1) → K)} {maxiter : ℕ}
    {v : Fin (N + 1) → K} {m : ℕ} {s : FlHArn F K N} (h : flHouseRun o A maxiter v m = .ok s) (hf : s.Finite fin finF) {i j : ℕ} (hi : s.Has i) (hj : s.Has j) :
    ‖edot (numv num (s.V i)) (numv num (s.V j)) - if i = j then 1 else 0‖ ≤ (1 + 80 * u) ^ (i + j + 4) - 1 := by
  obtain ⟨hs, inv⟩ := flHouseRun_inv ho hu hu1 h hf
  obtain ⟨hi1, hi2⟩ := inv.le hi
  obtain ⟨hj1, hj2⟩ := inv.le hj
  have hg : GoodTo hs (max i j + 1) := fun l hl => inv.good l (by omega) (by omega)
  rw [← basis_orth (by omega) hg (show i < max i j + 1 by omega) (show j < max i j + 1 by omega)]
  have h1 := inv.basis i hi
  have h2 := inv.basis j hj
  have u1 := inv.unit hi
  have u2 := inv.unit hj
  set x := numv num (s.V i)
  set y := numv num (s.V j)
  set b := basisVec hs i
  set b' := basisVec hs j
  have hy : vecNorm y ≤ (1 + 80 * u) ^ (j + 2) := by
    have := vecNorm_add_le' (y - b') b'
    rw [sub_add_cancel, u2] at this
    linarith
  have e : edot x y - edot b b' = edot (x - b) y + edot b (y - b') := by
    rw [edot_sub_left']
    have : edot b (y - b') = edot b y - edot b b' := by
      have := (edot_inner N).add_right (𝕜 := 𝕜) b (y - b') b'
      rw [sub_add_cancel] at this
      rw [this]; ring
    rw [this]; ring
  rw [e]
  calc ‖edot (x - b) y + edot b (y - b')‖ ≤ vecNorm (x - b) * vecNorm y + vecNorm b * vecNorm (y - b') :=
        (norm_add_le _ _).trans (add_le_add (edot_le _ _) (edot_le _ _))
    _ ≤ ((1 + 80 * u) ^ (i + 2) - 1) * (1 + 80 * u) ^ (j + 2) + 1 * ((1 + 80 * u) ^ (j + 2) - 1) := by
      rw [u1]
      have := one_le_pow_c hu (i + 2)
      have := vecNorm_nonneg y
      gcongr
    _ = _ := by rw [show i + j + 4 = (i + 2) + (j + 2) by ring, pow_add]; ring

theorem pow_lin {x : ℝ} (hx : 0 ≤ x) {m : ℕ} (h : m * x ≤ 1) : (1 + x) ^ m - 1 ≤ 2 * (m * x) := by
  have h1 : (1 + x) ^ m ≤ Real.exp (m * x) := by
    rw [Real.exp_nat_mul]
    exact pow_le_pow_left₀ (by linarith) (by linarith [Real.add_one_le_exp x]) m
  have h0 : 0 ≤ m * x := by positivity
  have h2 := Real.abs_exp_sub_one_sub_id_le (x := m * x) (by rw [abs_of_nonneg h0]; exact h)
  have h3 := (abs_le.mp h2).2
  nlinarith

/-- C85: the same bound without powers. -/
theorem C85_orthonormal_linear (ho : FlHouseAcc o num fin val finF u) (hu : 0 ≤ u) (hu1 : u ≤ 1 / 1000) {A : (Fin (N + 1) → K) → (Fin (N + 1) → K)} {maxiter : ℕ}
    {v : Fin (N + 1) → K} {m : ℕ} {s : FlHArn F K N} (h : flHouseRun o A maxiter v m = .ok s) (hf : s.Finite fin finF) {i j : ℕ} (hi : s.Has i) (hj : s.Has j)
    (hs : 80 * (i + j + 4) * u ≤ 1) :
    ‖edot (numv num (s.V i)) (numv num (s.V j)) - if i = j then 1 else 0‖ ≤ 160 * (i + j + 4) * u := by
  refine (C85_orthonormal ho hu hu1 h hf hi hj).trans ((pow_lin (by positivity) ?_).trans (le_of_eq ?_))
  · push_cast; linarith
  · push_cast; ring

/-- The error of the Arnoldi relation when the exact basis vectors are replaced by the computed ones. -/
theorem rel_swap (hu : 0 ≤ u) {A : (Fin (N + 1) → K) → (Fin (N + 1) → K)} {s : FlHArn F K N} {hs : Houses 𝕜 N} (inv : FlHInv num fin val u o.zero A s hs)
    {j m : ℕ} (hj : j < s.iter) (hm : m ≤ j + 2) (hV : ∀ i < m, s.Has i) :
    vecNorm (∑ i ∈ range m, num (s.H i j) • basisVec hs i - ∑ i ∈ range m, num (s.H i j) • numv num (s.V i)) ≤
      m * ((1 + 80 * u) ^ (3 * j + 8) - 1) * vecNorm (numv num (A (s.V j))) := by
  induction m with
  | zero => simp [vecNorm_eq_zero.mpr (rfl : (0 : Fin (N + 1) → 𝕜) = 0)]
  | succ m ih =>
    have h1 := ih (by omega) fun i hi => hV i (by omega)
    rw [Finset.sum_range_succ, Finset.sum_range_succ, add_sub_add_comm, ← smul_sub]
    refine (vecNorm_add_le' _ _).trans ?_
    rw [vecNorm_smul, vecNorm_sub_rev' (basisVec hs m)]
    have h2 := inv.bound j hj m (by omega)
    have h3 := inv.basis m (hV m (by omega))
    have h4 : (1 + 80 * u) ^ (m + 2) ≤ (1 + 80 * u) ^ (j + 3) := pow_le_pow_right₀ (by linarith) (by omega)
    have hE := vecNorm_nonneg (numv num (A (s.V j)))
    have hp := one_le_pow_c hu (j + 3)
    have hq := one_le_pow_c hu (2 * j + 5)
    have h5 : ‖num (s.H m j)‖ * vecNorm (numv num (s.V m) - basisVec hs m) ≤ ((1 + 80 * u) ^ (3 * j + 8) - 1) * vecNorm (numv num (A (s.V j))) := by
      calc ‖num (s.H m j)‖ * vecNorm (numv num (s.V m) - basisVec hs m)
          ≤ ((1 + 80 * u) ^ (2 * j + 5) * vecNorm (numv num (A (s.V j)))) * ((1 + 80 * u) ^ (j + 3) - 1) :=
            mul_le_mul h2 (h3.trans (by linarith)) (vecNorm_nonneg _) (by positivity)
        _ = ((1 + 80 * u) ^ (3 * j + 8) - (1 + 80 * u) ^ (2 * j + 5)) * vecNorm (numv num (A (s.V j))) := by
            rw [show 3 * j + 8 = (2 * j + 5) + (j + 3) by ring, pow_add]; ring
        _ ≤ _ := by gcongr
    push_cast
    linarith

open Matrix in
/-- The operator `A` (a matrix of norm at most `α`) is applied with an error of at most `δ`, relative to the norm of the argument. -/
structure FlHouseOp (num : K → 𝕜) (fin : K → Prop) (A : (Fin (N + 1) → K) → (Fin (N + 1) → K)) (B : Matrix (Fin (N + 1)) (Fin (N + 1)) 𝕜) (α δ : ℝ) : Prop where
  err : ∀ x, (∀ i, fin (A x i)) → vecNorm (numv num (A x) - B *ᵥ numv num x) ≤ δ * vecNorm (numv num x)
  norm : ∀ z : Fin (N + 1) → 𝕜, vecNorm (B *ᵥ z) ≤ α * vecNorm z

/-- The relative error of the Arnoldi relation in column `j`. -/
noncomputable def houseRelErr (u α δ : ℝ) (j : ℕ) : ℝ := (δ + (j + 3) * ((1 + 80 * u) ^ (3 * j + 8) - 1) * (α + δ)) * (1 + 80 * u) ^ (j + 2)

open Matrix in
theorem rel_op {A : (Fin (N + 1) → K) → (Fin (N + 1) → K)} {B : Matrix (Fin (N + 1)) (Fin (N + 1)) 𝕜} {α δ : ℝ}
    (hA : FlHouseOp num fin A B α δ) (hδ : 0 ≤ δ) {s : FlHArn F K N} {hs : Houses 𝕜 N} (inv : FlHInv num fin val u o.zero A s hs) {j : ℕ} (hj : j < s.iter) {C : ℝ} (hC : 0 ≤ C)
    {S : Fin (N + 1) → 𝕜} {ρ : ℝ} (hS : vecNorm (numv num (A (s.V j)) - S) ≤ C * vecNorm (numv num (A (s.V j))) + ρ) :
    vecNorm (B *ᵥ numv num (s.V j) - S) ≤ (δ + C * (α + δ)) * (1 + 80 * u) ^ (j + 2) + ρ := by
  have h1 := hA.err _ (inv.finA j hj)
  have h2 := hA.norm (numv num (s.V j))
  have hu1 := inv.unit (.inl hj)
  have hb := inv.basis j (.inl hj)
  set x := numv num (s.V j)
  set y := numv num (A (s.V j))
  have hx : vecNorm x ≤ (1 + 80 * u) ^ (j + 2) := by
    have := vecNorm_add_le' (x - basisVec hs j) (basisVec hs j)
    rw [sub_add_cancel, hu1] at this
    linarith
  have hy : vecNorm y ≤ (α + δ) * vecNorm x := by
    have := vecNorm_add_le' (y - B *ᵥ x) (B *ᵥ x)
    rw [sub_add_cancel] at this
    linarith
  have h3 := vecNorm_add_le' (B *ᵥ x - y) (y - S)
  rw [sub_add_sub_cancel, vecNorm_sub_rev' (B *ᵥ x) y] at h3
  have h4 := mul_le_mul_of_nonneg_left hy hC
  have hx0 := vecNorm_nonneg x
  have hy0 := vecNorm_nonneg y
  have hxb := vecNorm_nonneg (basisVec hs j)
  have h5 : 0 ≤ δ + C * (α + δ) := by
    -- a basis vector shows that `α + δ` is not negative
    have h6 := hA.norm (basisVec hs j)
    rw [hu1, mul_one] at h6
    have h7 : 0 ≤ α := (vecNorm_nonneg _).trans h6
    positivity
  have h8 := mul_le_mul_of_nonneg_left hx h5
  linarith

open Matrix in
/-- C85: the Arnoldi relation holds up to small errors. -/
theorem C85_relation (ho : FlHouseAcc o num fin val finF u) (hu : 0 ≤ u) (hu1 : u ≤ 1 / 1000) {A : (Fin (N + 1) → K) → (Fin (N + 1) → K)}
    {B : Matrix (Fin (N + 1)) (Fin (N + 1)) 𝕜} {α δ : ℝ} (hA : FlHouseOp num fin A B α δ) (hδ : 0 ≤ δ) {maxiter : ℕ} {v : Fin (N + 1) → K} {m : ℕ}
    {s : FlHArn F K N} (h : flHouseRun o A maxiter v m = .ok s) (hf : s.Finite fin finF) {j : ℕ} (hj : s.Has (j + 1)) :
    vecNorm (B *ᵥ numv num (s.V j) - ∑ i ∈ range (j + 2), num (s.H i j) • numv num (s.V i)) ≤ houseRelErr u α δ j := by
  obtain ⟨hs, inv⟩ := flHouseRun_inv ho hu hu1 h hf
  have hjs : j < s.iter := by rcases hj with h | ⟨h, -⟩ <;> omega
  have hV : ∀ i < j + 2, s.Has i := fun i hi => by
    rcases Nat.lt_or_ge i (j + 1) with h | h
    · exact .inl (by omega)
    · obtain rfl : i = j + 1 := by omega
      exact hj
  have h1 := inv.rel j hjs
  have h2 := rel_swap hu inv hjs le_rfl hV
  have hE := vecNorm_nonneg (numv num (A (s.V j)))
  have h3 : (1 + 80 * u) ^ (2 * j + 5) ≤ (1 + 80 * u) ^ (3 * j + 8) := pow_le_pow_right₀ (by linarith) (by omega)
  have hp := one_le_pow_c hu (3 * j + 8)
  have h4 := rel_op hA hδ inv hjs (C := (j + 3) * ((1 + 80 * u) ^ (3 * j + 8) - 1)) (mul_nonneg (by positivity) (by linarith)) (ρ := 0)
    (S := ∑ i ∈ range (j + 2), num (s.H i j) • numv num (s.V i)) (by
      have h5 := vecNorm_add_le' (numv num (A (s.V j)) - ∑ i ∈ range (j + 2), num (s.H i j) • basisVec hs i)
        (∑ i ∈ range (j + 2), num (s.H i j) • basisVec hs i - ∑ i ∈ range (j + 2), num (s.H i j) • numv num (s.V i))
      rw [sub_add_sub_cancel] at h5
      have h6 := mul_le_mul_of_nonneg_right (sub_le_sub_right h3 1) hE
      push_cast at h2
      linarith)
  rw [add_zero] at h4
  exact h4

open Matrix in
/-- C85: if the space was found to be invariant, then it is invariant up to the size of the last subdiagonal entry and small errors. -/
theorem C85_invariant (ho : FlHouseAcc o num fin val finF u) (hu : 0 ≤ u) (hu1 : u ≤ 1 / 1000) {A : (Fin (N + 1) → K) → (Fin (N + 1) → K)}
    {B : Matrix (Fin (N + 1)) (Fin (N + 1)) 𝕜} {α δ : ℝ} (hA : FlHouseOp num fin A B α δ) (hδ : 0 ≤ δ) {maxiter : ℕ} {v : Fin (N + 1) → K} {m : ℕ}
    {s : FlHArn F K N} (h : flHouseRun o A maxiter v m = .ok s) (hf : s.Finite fin finF) {j : ℕ} (hj : j + 1 = s.iter) :
    vecNorm (B *ᵥ numv num (s.V j) - ∑ i ∈ range (j + 1), num (s.H i j) • numv num (s.V i)) ≤ houseRelErr u α δ j + ‖num (s.H (j + 1) j)‖ := by
  obtain ⟨hs, inv⟩ := flHouseRun_inv ho hu hu1 h hf
  have hjs : j < s.iter := by omega
  have h1 := inv.rel j hjs
  have h2 := rel_swap hu inv hjs (show j + 1 ≤ j + 2 by omega) fun i hi => .inl (by omega)
  have hE := vecNorm_nonneg (numv num (A (s.V j)))
  have h3 : (1 + 80 * u) ^ (2 * j + 5) ≤ (1 + 80 * u) ^ (3 * j + 8) := pow_le_pow_right₀ (by linarith) (by omega)
  have hp := one_le_pow_c hu (3 * j + 8)
  have hlast : vecNorm (num (s.H (j + 1) j) • basisVec hs (j + 1)) ≤ ‖num (s.H (j + 1) j)‖ := inv.subn j hjs
  exact rel_op hA hδ inv hjs (C := (j + 3) * ((1 + 80 * u) ^ (3 * j + 8) - 1)) (mul_nonneg (by positivity) (by linarith))
    (by
      have h5 := vecNorm_add_le' (numv num (A (s.V j)) - ∑ i ∈ range (j + 2), num (s.H i j) • basisVec hs i)
        (∑ i ∈ range (j + 1), num (s.H i j) • basisVec hs i - ∑ i ∈ range (j + 1), num (s.H i j) • numv num (s.V i))
      have h7 := vecNorm_add_le' ((numv num (A (s.V j)) - ∑ i ∈ range (j + 2), num (s.H i j) • basisVec hs i) +
        (∑ i ∈ range (j + 1), num (s.H i j) • basisVec hs i - ∑ i ∈ range (j + 1), num (s.H i j) • numv num (s.V i))) (num (s.H (j + 1) j) • basisVec hs (j + 1))
      have e : (numv num (A (s.V j)) - ∑ i ∈ range (j + 2), num (s.H i j) • basisVec hs i) +
        (∑ i ∈ range (j + 1), num (s.H i j) • basisVec hs i - ∑ i ∈ range (j + 1), num (s.H i j) • numv num (s.V i)) + num (s.H (j + 1) j) • basisVec hs (j + 1) =
          numv num (A (s.V j)) - ∑ i ∈ range (j + 1), num (s.H i j) • numv num (s.V i) := by
        rw [Finset.sum_range_succ _ (j + 1)]; abel
      rw [e] at h7
      have h6 := mul_le_mul_of_nonneg_right (sub_le_sub_right h3 1) hE
      have h8 : 0 ≤ ((1 + 80 * u) ^ (3 * j + 8) - 1) * vecNorm (numv num (A (s.V j))) := mul_nonneg (by linarith) hE
      push_cast at h2
      linarith)

end

/-! ## Refinement -/

section
variable {𝕜 : Type*} [RCLike 𝕜] {n N : ℕ}

/-- Exact operations. -/
noncomputable def exactHouse : FlHouseOps ℝ 𝕜 where
  zero := 0
  one := 1
  two := 2
  neg a := -a
  add := (· + ·)
  sub := (· - ·)
  mul := (· * ·)
  div a r := a / (r : 𝕜)
  cj a := conj a
  ofReal r := r
  abs a := ‖a‖
  zeroF := 0
  hyp r s := √(r ^ 2 + s ^ 2)
  norm _ x := √(∑ i, ‖x i‖ ^ 2)
  dot _ x y := ∑ i, conj (x i) * y i
  isZero a := open Classical in decide (a = 0)
  isZeroF r := decide (r = 0)
  pos r := decide (0 < r)
  tiny H m n := decide (specNorm H m n ≠ 0 ∧ ‖H (m - 1) (n - 1)‖ / specNorm H m n ≤ 1e-14)

/-- The object of the exact model. -/
noncomputable def FlHouse.toHouse (h : FlHouse ℝ 𝕜 n) : House 𝕜 n := ⟨h.xnorm, h.v, h.alpha, if h.refl then 2 else 0⟩

/-- C85: with exact operations `flHouse` is the exact model of `House`. -/
theorem C85_refines_house (x : Fin (n + 1) → 𝕜) : (flHouse exactHouse x).toHouse = mkHouse x := by
  have hs : flSigma exactHouse x = tailNorm x := rfl
  have hx : flXnorm exactHouse x = √(‖x 0‖ ^ 2 + tailNorm x ^ 2) := rfl
  unfold flHouse flReflector mkHouse
  rw [hs, hx]
  by_cases hn : n = 0
  · simp [hn, flHouseOf, FlHouse.toHouse, exactHouse, flPhase]
  · by_cases ht : tailNorm x = 0
    · simp [hn, ht, flHouseOf, FlHouse.toHouse, exactHouse, flPhase]
    · by_cases h0 : x 0 = 0
      · simp [hn, ht, h0, flHouseOf, FlHouse.toHouse, exactHouse]
      · simp [hn, ht, h0, flHouseOf, FlHouse.toHouse, exactHouse, neg_div]

/-- C85: likewise for `apply`. -/
theorem C85_refines_apply (h : FlHouse ℝ 𝕜 n) (x : Fin (n + 1) → 𝕜) : h.apply exactHouse x = h.toHouse.apply x := by
  unfold FlHouse.apply House.apply FlHouse.toHouse
  by_cases hr : h.refl = true
  · have e : ((2 : ℝ) : 𝕜) = 2 := RCLike.ofReal_ofNat 2
    simp [hr, exactHouse, e]
  · simp [hr]

/-- The state of the exact model. -/
noncomputable def FlHArn.toHArn (s : FlHArn ℝ 𝕜 N) : HArn 𝕜 N := ⟨⟨s.iter, s.V, s.V, s.H, s.invariant, s.vnorm⟩, fun j => (s.houses j).toHouse⟩

theorem flSlice_exact (x : Fin (N + 1) → 𝕜) (j : ℕ) : flSlice exactHouse x j = slice x j := rfl

theorem flApplyAt_exact (j : ℕ) (h : FlHouse ℝ 𝕜 (N - j)) (x : Fin (N + 1) → 𝕜) : flApplyAt exactHouse j h x = applyAt j h.toHouse x := by
  unfold flApplyAt applyAt
  rw [C85_refines_apply]; rfl

theorem flHouseLoop_exact (fs : FlHouses ℝ 𝕜 N) (m : ℕ) (x : Fin (N + 1) → 𝕜) : flHouseLoop exactHouse fs m x = houseLoop (fun j => (fs j).toHouse) m x := by
  induction m with
  | zero => rfl
  | succ m ih => rw [flHouseLoop, houseLoop, ih, flApplyAt_exact]; rfl

theorem flHouseBack_exact (fs : FlHouses ℝ 𝕜 N) (m : ℕ) (x : Fin (N + 1) → 𝕜) : flHouseBack exactHouse fs m x = houseBack (fun j => (fs j).toHouse) m x := by
  induction m generalizing x with
  | zero => rfl
  | succ m ih => rw [flHouseBack, houseBack, ih, flApplyAt_exact]

theorem flNewHouse_exact (k : ℕ) (y : Fin (N + 1) → 𝕜) : (flNewHouse exactHouse k y).toHouse = newHouse k y := C85_refines_house _

theorem flReduceTail_exact (k : ℕ) (y : Fin (N + 1) → 𝕜) : flReduceTail exactHouse k y = reduceTail k y := by
  unfold flReduceTail reduceTail
  rw [C85_refines_apply, flNewHouse_exact, ← flNewHouse_exact]; rfl

theorem flHouseCol_exact (k : ℕ) (y : Fin (N + 1) → 𝕜) (old : ℕ → 𝕜) : flHouseCol exactHouse k y old = houseCol k y old := by
  unfold flHouseCol houseCol
  rw [flReduceTail_exact]; rfl

theorem flHouseList_exact (k : ℕ) (y : Fin (N + 1) → 𝕜) (fs : FlHouses ℝ 𝕜 N) :
    (fun j => (flHouseList exactHouse k y fs j).toHouse) = houseList k y fun j => (fs j).toHouse := by
  funext j
  unfold flHouseList houseList
  split
  · by_cases hj : j = k + 1
    · subst hj; rw [Function.update_self, Function.update_self, flNewHouse_exact]
    · rw [Function.update_of_ne hj, Function.update_of_ne hj]
  · rfl

/-- C85: with exact operations the constructor of `Arnoldi` is the exact model. -/
theorem C85_refines_init (v : Fin (N + 1) → 𝕜) : houseInit true v = .ok (flHouseInit exactHouse v).toHArn := by
  have hh : (fun j => ((Function.update (flDummyHouses exactHouse) 0 (flHouse exactHouse v) : FlHouses ℝ 𝕜 N) j).toHouse) =
      Function.update dummyHouses 0 (mkHouse v) := by
    funext j
    by_cases hj : j = 0
    · subst hj; rw [Function.update_self, Function.update_self]; exact C85_refines_house v
    · rw [Function.update_of_ne hj, Function.update_of_ne hj]
      simp [flDummyHouses, FlHouse.toHouse, dummyHouses, exactHouse]
      rfl
  have hn : exactHouse.norm (N + 1) v = euclNorm v := rfl
  unfold houseInit flHouseInit
  simp only [if_true]
  rw [hn]
  have hp : (exactHouse (𝕜 := 𝕜)).pos (euclNorm v) = decide (0 < euclNorm v) := rfl
  rw [hp]
  by_cases h : 0 < euclNorm v
  · simp only [h, if_true, decide_true]
    unfold FlHArn.toHArn
    dsimp only
    rw [hh]
    have e : (fun i => exactHouse.div (v i) (euclNorm v)) = ((euclNorm v : 𝕜)⁻¹) • v := by
      funext i
      rw [Pi.smul_apply, smul_eq_mul, mul_comm, ← div_eq_mul_inv]; rfl
    rw [e]
    rfl
  · simp only [h, if_false, decide_false]
    unfold FlHArn.toHArn
    simp only [Bool.false_eq_true, if_false]
    rw [hh]
    rfl

/-- C85: with exact operations `advance` is the exact model. -/
theorem C85_refines_advance (A : (Fin (N + 1) → 𝕜) →ₗ[𝕜] (Fin (N + 1) → 𝕜)) (maxiter : ℕ) (s : FlHArn ℝ 𝕜 N) :
    houseAdvance A maxiter s.toHArn = (flHouseAdvance exactHouse A maxiter s).map FlHArn.toHArn := by
  unfold houseAdvance flHouseAdvance
  have e0 : s.toHArn.arn.iter = s.iter := rfl
  have e1 : s.toHArn.arn.invariant = s.invariant := rfl
  have e2 : houseLoop s.toHArn.houses (s.iter + 1) (A (s.toHArn.arn.V s.iter)) = flHouseAv exactHouse A s := by
    unfold flHouseAv; rw [flHouseLoop_exact]; rfl
  rw [e0, e1]
  split
  · rfl
  split
  · rfl
  dsimp only
  rw [e2]
  set y := flHouseAv exactHouse A s
  have e3 : houseList s.iter y s.toHArn.houses = fun j => (flHouseList exactHouse s.iter y s.houses j).toHouse := (flHouseList_exact s.iter y s.houses).symm
  rw [e3]
  have e4 : (houseCol s.iter y fun i => s.toHArn.arn.H i s.iter) = flHouseCol exactHouse s.iter y fun i => s.H i s.iter := (flHouseCol_exact _ _ _).symm
  rw [e4]
  have e5 : setCol s.toHArn.arn.H s.iter (flHouseCol exactHouse s.iter y fun i => s.H i s.iter) =
      fun i j => if j = s.iter then flHouseCol exactHouse s.iter y (fun i => s.H i s.iter) i else s.H i j := rfl
  rw [e5]
  set H : ℕ → ℕ → 𝕜 := fun i j => if j = s.iter then flHouseCol exactHouse s.iter y (fun i => s.H i s.iter) i else s.H i j with hH
  have e6 : H (s.iter + 1) s.iter = flHouseCol exactHouse s.iter y (fun i => s.H i s.iter) (s.iter + 1) := by rw [hH]; simp
  have e7 : exactHouse.tiny H (s.iter + 2) (s.iter + 1) = decide (specNorm H (s.iter + 2) (s.iter + 1) ≠ 0 ∧
      ‖flHouseCol exactHouse s.iter y (fun i => s.H i s.iter) (s.iter + 1)‖ / specNorm H (s.iter + 2) (s.iter + 1) ≤ 1e-14) := by
    rw [← e6]; rfl
  rw [e7]
  simp only [decide_eq_true_eq]
  split
  · rfl
  split
  · rfl
  · have e8 : (flHouseList exactHouse s.iter y s.houses (s.iter + 1)).toHouse.alpha •
        houseBack (fun j => (flHouseList exactHouse s.iter y s.houses j).toHouse) (s.iter + 2) (unitVec (s.iter + 1)) =
          flHouseVec exactHouse (flHouseList exactHouse s.iter y s.houses) s.iter := by
      funext i
      unfold flHouseVec
      rw [flHouseBack_exact, Pi.smul_apply, smul_eq_mul, mul_comm]; rfl
    rw [e8]
    rfl

end

/-! ## Examples -/

section

/-- Lifting of an operation to numbers which may be NaN. -/
def exOp1 (f : ℝ → ℝ) : Option ℝ → Option ℝ := Option.map f

def exOp2 (f : ℝ → ℝ → ℝ) : Option ℝ → Option ℝ → Option ℝ
  | some a, some b => some (f a b)
  | _, _ => none

noncomputable def exOdiv : Option ℝ → Option ℝ → Option ℝ
  | some a, some b => if b = 0 then none else some (a / b)
  | _, _ => none

noncomputable def exOsum (f : (m : ℕ) → (Fin m → ℝ) → (Fin m → ℝ) → ℝ) (m : ℕ) (x y : Fin m → Option ℝ) : Option ℝ :=
  if (∀ i, (x i).isSome) ∧ ∀ i, (y i).isSome then some (f m (fun i => (x i).getD 0) fun i => (y i).getD 0) else none

/-- Real numbers with NaN; products are too large by a factor of `1 + 1/2000`; the test for invariance never fires. -/
noncomputable def exHouseOps : FlHouseOps (Option ℝ) (Option ℝ) where
  zero := some 0
  one := some 1
  two := some 2
  neg := exOp1 fun a => -a
  add := exOp2 (· + ·)
  sub := exOp2 (· - ·)
  mul := exOp2 fun a b => a * b * (1 + 1 / 2000)
  div := exOdiv
  cj := exOp1 id
  ofReal := exOp1 id
  abs := exOp1 fun a => |a|
  zeroF := some 0
  hyp := exOp2 fun r s => √(r ^ 2 + s ^ 2)
  norm m x := exOsum (fun _ x _ => vecNorm x) m x x
  dot := exOsum fun _ x y => edot x y
  isZero a := decide (a = some 0)
  isZeroF a := decide (a = some 0)
  pos a := decide (0 < a.getD 0)
  tiny _ _ _ := false

abbrev exNum (a : Option ℝ) : ℝ := a.getD 0
abbrev exFin (a : Option ℝ) : Prop := a.isSome = true

theorem exOp2_some {f : ℝ → ℝ → ℝ} {a b : Option ℝ} (h : exFin (exOp2 f a b)) : ∃ x y, a = some x ∧ b = some y ∧ exOp2 f a b = some (f x y) := by
  cases a <;> cases b <;> simp_all [exOp2, exFin]

theorem exOp2_fin {f : ℝ → ℝ → ℝ} {a b : Option ℝ} (ha : exFin a) (hb : exFin b) : exFin (exOp2 f a b) := by
  cases a <;> cases b <;> simp_all [exOp2, exFin]

theorem exOp1_some {f : ℝ → ℝ} {a : Option ℝ} (h : exFin (exOp1 f a)) : ∃ x, a = some x ∧ exOp1 f a = some (f x) := by
  cases a <;> simp_all [exOp1, exFin]

theorem exOp1_fin {f : ℝ → ℝ} {a : Option ℝ} (ha : exFin a) : exFin (exOp1 f a) := by
  cases a <;> simp_all [exOp1, exFin]

theorem exOdiv_some {a b : Option ℝ} (h : exFin (exOdiv a b)) : ∃ x y, a = some x ∧ b = some y ∧ y ≠ 0 ∧ exOdiv a b = some (x / y) := by
  cases a <;> cases b <;> simp_all [exOdiv, exFin]

theorem exOdiv_fin {a b : Option ℝ} (ha : exFin a) (hb : exFin b) (h0 : b ≠ some 0) : exFin (exOdiv a b) := by
  cases a <;> cases b <;> simp_all [exOdiv, exFin]

theorem exOsum_some {f : (m : ℕ) → (Fin m → ℝ) → (Fin m → ℝ) → ℝ} {m : ℕ} {x y : Fin m → Option ℝ} (h : exFin (exOsum f m x y)) :
    (∀ i, exFin (x i)) ∧ exOsum f m x y = some (f m (fun i => exNum (x i)) fun i => exNum (y i)) := by
  unfold exOsum at h ⊢
  split at h
  · rename_i hc; exact ⟨hc.1, by rw [if_pos hc]⟩
  · cases h

theorem exOsum_fin {f : (m : ℕ) → (Fin m → ℝ) → (Fin m → ℝ) → ℝ} {m : ℕ} {x y : Fin m → Option ℝ} (hx : ∀ i, exFin (x i)) (hy : ∀ i, exFin (y i)) :
    exOsum f m x y = some (f m (fun i => exNum (x i)) fun i => exNum (y i)) := by
  unfold exOsum; rw [if_pos ⟨hx, hy⟩]

theorem exHouseAcc : FlHouseAcc (𝕜 := ℝ) exHouseOps exNum exFin exNum exFin (1 / 1000) where
  zero := rfl
  one := rfl
  two := rfl
  neg h := by obtain ⟨x, rfl, -⟩ := exOp1_some h; exact ⟨rfl, rfl⟩
  cj h := by obtain ⟨x, rfl, -⟩ := exOp1_some h; exact ⟨rfl, rfl⟩
  ofReal h := by obtain ⟨x, rfl, -⟩ := exOp1_some h; exact ⟨rfl, rfl⟩
  add h := by obtain ⟨x, y, rfl, rfl, -⟩ := exOp2_some h; exact ⟨rfl, rfl, by simp [exHouseOps, exOp2]⟩
  sub h := by obtain ⟨x, y, rfl, rfl, -⟩ := exOp2_some h; exact ⟨rfl, rfl, by simp [exHouseOps, exOp2]⟩
  mul h := by
    obtain ⟨x, y, rfl, rfl, -⟩ := exOp2_some h
    refine ⟨rfl, rfl, ?_⟩
    have e : exNum (exHouseOps.mul (some x) (some y)) - exNum (some x) * exNum (some y) = 1 / 2000 * (x * y) := by
      simp only [exHouseOps, exOp2, exNum, Option.getD_some]; ring
    rw [e, norm_mul]
    have := norm_nonneg (x * y)
    have h : ‖(1 / 2000 : ℝ)‖ = 1 / 2000 := by norm_num
    rw [h]
    show _ ≤ 1 / 1000 * ‖x * y‖
    nlinarith
  div h _ := by
    obtain ⟨x, y, rfl, rfl, hy, e⟩ := exOdiv_some h
    have e' : exHouseOps.div (some x) (some y) = some (x / y) := e
    refine ⟨rfl, hy, ?_⟩
    rw [e']
    simp only [exNum, Option.getD_some, RCLike.ofReal_real_eq_id, id]
    rw [mul_div_cancel₀ _ hy, sub_self, norm_zero]
    positivity
  abs h := by obtain ⟨x, rfl, -⟩ := exOp1_some h; exact ⟨rfl, by simp [exHouseOps, exOp1]⟩
  hyp h := by
    obtain ⟨x, y, rfl, rfl, -⟩ := exOp2_some h
    exact ⟨rfl, rfl, by simp [exHouseOps, exOp2]⟩
  norm {m x} h := by
    obtain ⟨h1, h2⟩ := exOsum_some (f := fun _ x _ => vecNorm x) h
    refine ⟨h1, ?_⟩
    have e : exHouseOps.norm m x = _ := h2
    rw [e]
    simp only [exNum, Option.getD_some, sub_self, abs_zero]
    exact mul_nonneg (by norm_num) (vecNorm_nonneg _)
  dot {m x y} h := by
    obtain ⟨h1, h2⟩ := exOsum_some h
    have e : exHouseOps.dot m x y = _ := h2
    rw [e]
    simp only [exNum, Option.getD_some, sub_self, norm_zero]
    exact mul_nonneg (by norm_num) (mul_nonneg (vecNorm_nonneg _) (vecNorm_nonneg _))
  isZero {a} h := by obtain ⟨x, rfl⟩ := Option.isSome_iff_exists.mp h; simp [exHouseOps]
  isZeroF {a} h := by obtain ⟨x, rfl⟩ := Option.isSome_iff_exists.mp h; simp [exHouseOps]
  pos {a} h := by simp [exHouseOps]

/-- In this arithmetic a transformation is always finite. -/
theorem exHouse_fin {n : ℕ} {x : Fin (n + 1) → Option ℝ} (hx : ∀ i, exFin (x i)) : (flHouse exHouseOps x).Finite exFin exFin := by
  have hs : flSigma exHouseOps x = some (vecNorm fun i : Fin n => exNum (x i.succ)) := exOsum_fin (f := fun _ x _ => vecNorm x) (fun i => hx _) fun i => hx _
  have key : ∀ v0 : Option ℝ, exFin v0 → ∀ r s : ℝ, v0 = some r → (r ≠ 0 ∨ s ≠ 0) → ∀ (xn : Option ℝ) (al : Option ℝ) (b : Bool), exFin xn → exFin al →
      (flHouseOf exHouseOps x v0 (some s) xn al b).Finite exFin exFin := by
    intro v0 h0 r s hr hrs xn al b hxn hal
    have hd : exHouseOps.hyp (exHouseOps.abs v0) (some s) = some (√(|r| ^ 2 + s ^ 2)) := by rw [hr]; rfl
    have hd0 : √(|r| ^ 2 + s ^ 2) ≠ 0 := by
      rw [sq_abs]
      apply ne_of_gt
      apply Real.sqrt_pos.mpr
      rcases hrs with h | h
      · positivity
      · positivity
    refine ⟨hxn, fun i => ?_, hal, ?_⟩
    · show exFin (exOdiv (Function.update x 0 v0 i) (exHouseOps.hyp (exHouseOps.abs v0) (some s)))
      rw [hd]
      refine exOdiv_fin ?_ rfl (by simpa using hd0)
      by_cases hi : i = 0
      · subst hi; rwa [Function.update_self]
      · rw [Function.update_of_ne hi]; exact hx i
    · show exFin (exHouseOps.hyp (exHouseOps.abs v0) (some s))
      rw [hd]; rfl
  have hab : exFin (exHouseOps.abs (x 0)) := exOp1_fin (hx 0)
  have hg : exHouseOps.isZero (x 0) = false → ∀ y, exFin y → exFin (exHouseOps.div y (exHouseOps.abs (x 0))) := by
    intro h y hy
    refine exOdiv_fin hy hab ?_
    obtain ⟨a, ha⟩ := Option.isSome_iff_exists.mp (hx 0)
    rw [ha] at h ⊢
    simpa [exHouseOps, exOp1] using h
  have hp : exFin (flPhase exHouseOps (x 0)) := by
    unfold flPhase
    cases h : exHouseOps.isZero (x 0)
    · exact hg h _ (hx 0)
    · rfl
  unfold flHouse
  split
  · exact key _ rfl 1 0 rfl (.inl one_ne_zero) _ _ _ hab hp
  split
  · rw [hs]; exact key _ rfl 1 _ rfl (.inl one_ne_zero) _ _ _ hab hp
  · rename_i hz
    have hz' : (vecNorm fun i : Fin n => exNum (x i.succ)) ≠ 0 := by
      rw [hs] at hz
      simpa [exHouseOps] using hz
    have hxn : exFin (flXnorm exHouseOps x) := by
      unfold flXnorm; rw [hs]; exact exOp2_fin hab rfl
    unfold flReflector
    dsimp only
    rw [hs]
    cases h : exHouseOps.isZero (x 0)
    · have hf : exFin (exHouseOps.add (x 0) (exHouseOps.mul (exHouseOps.div (x 0) (exHouseOps.abs (x 0))) (exHouseOps.ofReal (flXnorm exHouseOps x)))) :=
        exOp2_fin (hx 0) (exOp2_fin (hg h _ (hx 0)) (exOp1_fin hxn))
      obtain ⟨r, hr⟩ := Option.isSome_iff_exists.mp hf
      exact key _ hf r _ hr (.inr hz') _ _ _ hxn (hg h _ (exOp1_fin (hx 0)))
    · exact key _ rfl (-_) _ rfl (.inr hz') _ _ _ hxn rfl

theorem exApply_fin {n : ℕ} {h : FlHouse (Option ℝ) (Option ℝ) n} (hf : h.Finite exFin exFin) {x : Fin (n + 1) → Option ℝ} (hx : ∀ i, exFin (x i)) (i) :
    exFin (h.apply exHouseOps x i) := by
  unfold FlHouse.apply
  split
  · refine exOp2_fin (hx i) (exOp2_fin (exOp2_fin rfl (hf.v i)) ?_)
    show exFin (exOsum _ _ _ _)
    rw [exOsum_fin hf.v hx]; rfl
  · exact hx i

theorem exEv_fin {N : ℕ} {x : Fin (N + 1) → Option ℝ} (hx : ∀ i, exFin (x i)) (i : ℕ) : exFin (flEv exHouseOps x i) := by
  unfold flEv; split
  · exact hx _
  · rfl

theorem exApplyAt_fin {N j : ℕ} {h : FlHouse (Option ℝ) (Option ℝ) (N - j)} (hf : h.Finite exFin exFin) {x : Fin (N + 1) → Option ℝ}
    (hx : ∀ i, exFin (x i)) (i) : exFin (flApplyAt exHouseOps j h x i) := by
  unfold flApplyAt flSetSlice
  split
  · exact exApply_fin hf (fun l => exEv_fin hx _) _
  · exact hx i

theorem exLoop_fin {N : ℕ} {fs : FlHouses (Option ℝ) (Option ℝ) N} {m : ℕ} (hf : ∀ j < m, (fs j).Finite exFin exFin) {x : Fin (N + 1) → Option ℝ}
    (hx : ∀ i, exFin (x i)) : ∀ i, exFin (flHouseLoop exHouseOps fs m x i) := by
  induction m with
  | zero => exact hx
  | succ m ih =>
    intro i
    have h1 := ih fun j hj => hf j (by omega)
    have h2 := exApplyAt_fin (hf m (by omega)) h1
    rw [flHouseLoop]
    unfold flMulAt
    split
    · exact exOp2_fin (h2 i) (exOp1_fin (hf m (by omega)).alpha)
    · exact h2 i

theorem exBack_fin {N : ℕ} {fs : FlHouses (Option ℝ) (Option ℝ) N} {m : ℕ} (hf : ∀ j < m, (fs j).Finite exFin exFin) {x : Fin (N + 1) → Option ℝ}
    (hx : ∀ i, exFin (x i)) : ∀ i, exFin (flHouseBack exHouseOps fs m x i) := by
  induction m generalizing x with
  | zero => exact hx
  | succ m ih =>
    intro i
    rw [flHouseBack]
    exact ih (fun j hj => hf j (by omega)) (exApplyAt_fin (hf m (by omega)) hx) i

/-- Every number computed in a run with finite data is finite. -/
theorem exRun_fin {N : ℕ} {A : (Fin (N + 1) → Option ℝ) → (Fin (N + 1) → Option ℝ)} (hA : ∀ x, (∀ i, exFin (x i)) → ∀ i, exFin (A x i))
    {v : Fin (N + 1) → Option ℝ} (hv : ∀ i, exFin (v i)) {maxiter m : ℕ} {s : FlHArn (Option ℝ) (Option ℝ) N}
    (h : flHouseRun exHouseOps A maxiter v m = .ok s) :
    exFin s.vnorm ∧ (∀ j, (s.houses j).Finite exFin exFin) ∧ (∀ i l, exFin (s.V i l)) ∧ (∀ i j, exFin (s.H i j)) := by
  induction m generalizing s with
  | zero =>
    cases h
    have hn : exHouseOps.norm (N + 1) v = some (vecNorm fun i => exNum (v i)) := exOsum_fin (f := fun _ x _ => vecNorm x) hv hv
    have hh : ∀ j, ((Function.update (flDummyHouses exHouseOps) 0 (flHouse exHouseOps v) : FlHouses (Option ℝ) (Option ℝ) N) j).Finite exFin exFin := by
      intro j
      by_cases hj : j = 0
      · subst hj; rw [Function.update_self]; exact exHouse_fin hv
      · rw [Function.update_of_ne hj]; exact ⟨rfl, fun _ => rfl, rfl, rfl⟩
    unfold flHouseInit
    dsimp only
    rw [hn]
    split
    · rename_i hp
      refine ⟨rfl, hh, fun i l => ?_, fun _ _ => rfl⟩
      by_cases hi : i = 0
      · subst hi
        dsimp only
        rw [Function.update_self]
        refine exOdiv_fin (hv l) rfl ?_
        have : 0 < vecNorm fun i => exNum (v i) := by simpa [exHouseOps] using hp
        simpa using this.ne'
      · dsimp only
        rw [Function.update_of_ne hi]; rfl
    · exact ⟨rfl, hh, fun _ _ => rfl, fun _ _ => rfl⟩
  | succ m ih =>
    rw [flHouseRun] at h
    split at h
    · cases h
    · rename_i t ht
      obtain ⟨h1, h2, h3, h4⟩ := ih ht
      unfold flHouseAdvance at h
      split at h
      · cases h
      split at h
      · cases h
      dsimp only at h
      have hy : ∀ i, exFin (flHouseAv exHouseOps A t i) := exLoop_fin (fun j _ => h2 j) (hA _ (h3 _))
      generalize flHouseAv exHouseOps A t = y at h hy
      have hnew : ∀ k, (flNewHouse exHouseOps k y).Finite exFin exFin := fun k => exHouse_fin fun i => exEv_fin hy _
      have hl : ∀ j, (flHouseList exHouseOps t.iter y t.houses j).Finite exFin exFin := by
        intro j
        unfold flHouseList
        split
        · by_cases hj : j = t.iter + 1
          · subst hj; rw [Function.update_self]; exact hnew _
          · rw [Function.update_of_ne hj]; exact h2 j
        · exact h2 j
      have hred : ∀ i, exFin (flReduceTail exHouseOps t.iter y i) := by
        intro i
        unfold flReduceTail flSetSlice
        split
        · exact exOp2_fin (exApply_fin (hnew _) (fun _ => exEv_fin hy _) _) (exOp1_fin (hnew _).alpha)
        · exact hy i
      have hcol0 : ∀ i, exFin ((if t.iter < N then fun i => if i < t.iter + 2 then flEv exHouseOps (flReduceTail exHouseOps t.iter y) i else t.H i t.iter
          else fun i => if i < t.iter + 1 then flEv exHouseOps y i else t.H i t.iter : ℕ → Option ℝ) i) := by
        intro i
        split
        · dsimp only
          split
          · exact exEv_fin hred i
          · exact h4 _ _
        · dsimp only
          split
          · exact exEv_fin hy i
          · exact h4 _ _
      have hcol : ∀ i, exFin (flHouseCol exHouseOps t.iter y (fun i => t.H i t.iter) i) := by
        intro i
        unfold flHouseCol
        dsimp only
        by_cases hi : i = t.iter + 1
        · subst hi; rw [Function.update_self]; exact exOp1_fin (exOp1_fin (hcol0 _))
        · rw [Function.update_of_ne hi]; exact hcol0 i
      have hH : ∀ i j, exFin (if j = t.iter then flHouseCol exHouseOps t.iter y (fun i => t.H i t.iter) i else t.H i j) := by
        intro i j
        split
        · exact hcol i
        · exact h4 i j
      split at h
      · cases h; exact ⟨h1, hl, h3, hH⟩
      split at h
      · cases h
      · cases h
        refine ⟨h1, hl, fun i l => ?_, hH⟩
        dsimp only
        by_cases hi : i = t.iter + 1
        · subst hi
          rw [Function.update_self]
          refine exOp2_fin (exBack_fin (fun j _ => hl j) ?_ l) (hl _).alpha
          intro i
          unfold flUnitVec
          split <;> rfl
        · rw [Function.update_of_ne hi]; exact h3 i l

/-- The cyclic shift of three entries, a non-symmetric matrix. -/
def flShift (x : Fin 3 → Option ℝ) : Fin 3 → Option ℝ := ![x 2, x 0, x 1]

/-- Two steps of the method with ortho="house" for the shift and `v = (1, 2, 2)`. -/
theorem exHouseRun : ∃ s, flHouseRun exHouseOps flShift 5 ![some 1, some 2, some 2] 2 = .ok s ∧ s.Finite exFin exFin ∧ s.iter = 2 ∧ s.Has 2 := by
  have hv : ∀ i, exFin ((![some 1, some 2, some 2] : Fin 3 → Option ℝ) i) := fun i => by fin_cases i <;> rfl
  have hn : exHouseOps.norm 3 ![some 1, some 2, some 2] = some (vecNorm fun i => exNum ((![some 1, some 2, some 2] : Fin 3 → Option ℝ) i)) :=
    exOsum_fin (f := fun _ x _ => vecNorm x) hv hv
  have hpos : 0 < vecNorm fun i => exNum ((![some 1, some 2, some 2] : Fin 3 → Option ℝ) i) := by
    unfold vecNorm
    apply Real.sqrt_pos.mpr
    rw [Fin.sum_univ_three]
    simp
    norm_num
  have hp : exHouseOps.pos (exHouseOps.norm 3 ![some 1, some 2, some 2]) = true := by rw [hn]; simpa [exHouseOps] using hpos
  have h0 : ∃ s0, flHouseRun exHouseOps flShift 5 ![some 1, some 2, some 2] 0 = .ok s0 ∧ s0.iter = 0 ∧ s0.invariant = false := by
    refine ⟨_, rfl, ?_⟩
    unfold flHouseInit
    dsimp only
    rw [if_pos hp]
    exact ⟨rfl, rfl⟩
  have step : ∀ m s, flHouseRun exHouseOps flShift 5 ![some 1, some 2, some 2] m = .ok s → s.iter = m → s.invariant = false → m < 2 →
      ∃ t, flHouseRun exHouseOps flShift 5 ![some 1, some 2, some 2] (m + 1) = .ok t ∧ t.iter = m + 1 ∧ t.invariant = false := by
    intro m s h hi hv hm
    rw [flHouseRun, h]
    dsimp only
    unfold flHouseAdvance
    rw [if_neg (by omega), if_neg (by rw [hv]; exact Bool.false_ne_true)]
    dsimp only
    rw [if_neg (by exact Bool.false_ne_true), if_neg (by omega)]
    exact ⟨_, rfl, by rw [hi], rfl⟩
  obtain ⟨s0, a0, b0, c0⟩ := h0
  obtain ⟨s1, a1, b1, c1⟩ := step 0 s0 a0 b0 c0 (by omega)
  obtain ⟨s2, a2, b2, c2⟩ := step 1 s1 a1 b1 c1 (by omega)
  obtain ⟨f1, f2, f3, f4⟩ := exRun_fin (fun x hx i => by fin_cases i <;> exact hx _) (fun i => by fin_cases i <;> rfl) a2
  exact ⟨s2, a2, ⟨f1, fun j _ _ => f2 j, fun i _ l => f3 i l, fun j _ i _ => f4 i j⟩, b2, .inr ⟨b2.symm, c2⟩⟩

/-- The hypotheses of `C85_house` are met with the errors of `exHouseOps`. -/
example := C85_house exHouseAcc (by norm_num) le_rfl (exHouse_fin (x := ![some 3, some 4]) fun i => by fin_cases i <;> rfl)

/-- The hypotheses of `C85_orthonormal` are met. -/
example : ∃ s, flHouseRun exHouseOps flShift 5 ![some 1, some 2, some 2] 2 = .ok s ∧
    ‖edot (numv exNum (s.V 1)) (numv exNum (s.V 2))‖ ≤ (1 + 80 * (1 / 1000)) ^ 7 - 1 := by
  obtain ⟨s, h, hf, hi, h2⟩ := exHouseRun
  exact ⟨s, h, by simpa using C85_orthonormal exHouseAcc (by norm_num) le_rfl h hf (i := 1) (j := 2) (.inl (by omega)) h2⟩

/-- The hypotheses of `C85_orthonormal_linear` are met. -/
example : ∃ s, flHouseRun exHouseOps flShift 5 ![some 1, some 2, some 2] 2 = .ok s ∧
    ‖edot (numv exNum (s.V 0)) (numv exNum (s.V 2))‖ ≤ 160 * 6 * (1 / 1000) := by
  obtain ⟨s, h, hf, hi, h2⟩ := exHouseRun
  refine ⟨s, h, ?_⟩
  have := C85_orthonormal_linear exHouseAcc (by norm_num) le_rfl h hf (i := 0) (j := 2) (.inl (by omega)) h2 (by norm_num)
  norm_num at this ⊢
  exact this

/-- The matrix of the shift. -/
def flShiftMat : Matrix (Fin 3) (Fin 3) ℝ := !![0, 0, 1; 1, 0, 0; 0, 1, 0]

open Matrix in
theorem flShiftOp : FlHouseOp (𝕜 := ℝ) exNum exFin flShift flShiftMat 1 0 := by
  have e : ∀ z : Fin 3 → ℝ, flShiftMat *ᵥ z = ![z 2, z 0, z 1] := by
    intro z
    funext i
    fin_cases i <;> simp [flShiftMat, Matrix.mulVec, dotProduct, Fin.sum_univ_three]
  constructor
  · intro x _
    have h : numv exNum (flShift x) = flShiftMat *ᵥ numv exNum x := by
      rw [e]
      funext i
      fin_cases i <;> rfl
    rw [h, sub_self, zero_mul]
    exact le_of_eq (by simp [vecNorm])
  · intro z
    rw [e, one_mul]
    apply le_of_eq
    unfold vecNorm
    rw [Fin.sum_univ_three, Fin.sum_univ_three]
    congr 1
    simp
    ring

open Matrix in
/-- The hypotheses of `C85_relation` and of `C85_invariant` are met. -/
example : ∃ s, flHouseRun exHouseOps flShift 5 ![some 1, some 2, some 2] 2 = .ok s ∧
    vecNorm (flShiftMat *ᵥ numv exNum (s.V 1) - ∑ i ∈ range 3, exNum (s.H i 1) • numv exNum (s.V i)) ≤ houseRelErr (1 / 1000) 1 0 1 ∧
    vecNorm (flShiftMat *ᵥ numv exNum (s.V 1) - ∑ i ∈ range 2, exNum (s.H i 1) • numv exNum (s.V i)) ≤ houseRelErr (1 / 1000) 1 0 1 + ‖exNum (s.H 2 1)‖ := by
  obtain ⟨s, h, hf, hi, h2⟩ := exHouseRun
  exact ⟨s, h, C85_relation exHouseAcc (by norm_num) le_rfl flShiftOp le_rfl h hf (j := 1) h2,
    C85_invariant exHouseAcc (by norm_num) le_rfl flShiftOp le_rfl h hf (j := 1) (by omega)⟩

end
end Krypy
