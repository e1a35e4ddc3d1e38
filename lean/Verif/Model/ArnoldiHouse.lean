import Verif.Model.Arnoldi
import Verif.Model.House
import Verif.Model.Gmres

/-!
# `utils.Arnoldi` with `ortho="house"` (utils.py 910-922, 968-994) and `Gmres` with it

Vectors are elements of `Fin (N + 1) → 𝕜`, i.e. the dimension is `N + 1` (dimension zero raises `IndexError` in
`House`).  The list `houses` is a function: `houses j` is the transformation of the slice `x[j:]`, which has
dimension `N + 1 - j`.
-/

namespace Krypy
variable {𝕜 : Type*} [RCLike 𝕜] {N : ℕ}
open scoped ComplexConjugate

/-- Entry `i` of a vector (zero if out of bounds, which does not occur for the accesses of the code) (utils.py 974). -/
def ev (x : Fin (N + 1) → 𝕜) (i : ℕ) : 𝕜 := if h : i < N + 1 then x ⟨i, h⟩ else 0

/-- `x[j:]` for `j ≤ N` (utils.py 973, 993). -/
def slice (x : Fin (N + 1) → 𝕜) (j : ℕ) : Fin (N - j + 1) → 𝕜 := fun i => ev x (j + i)

/-- `x[j:] = y` (utils.py 973, 993). -/
def setSlice (x : Fin (N + 1) → 𝕜) (j : ℕ) (y : Fin (N - j + 1) → 𝕜) : Fin (N + 1) → 𝕜 :=
  fun i => if h : j ≤ i then y ⟨i - j, by omega⟩ else x i

/-- `x[j:] = house.apply(x[j:])` (utils.py 973, 993). -/
noncomputable def applyAt (j : ℕ) (h : House 𝕜 (N - j)) (x : Fin (N + 1) → 𝕜) : Fin (N + 1) → 𝕜 :=
  setSlice x j (h.apply (slice x j))

/-- The list `self.houses` (utils.py 921, 977). -/
abbrev Houses (𝕜 : Type*) (N : ℕ) := (j : ℕ) → House 𝕜 (N - j)

/-- `x[i] *= a` (utils.py 974). -/
def mulAt (x : Fin (N + 1) → 𝕜) (n : ℕ) (a : 𝕜) : Fin (N + 1) → 𝕜 :=
  fun i => if (i : ℕ) = n then x i * a else x i

/-- utils.py 972-974: `for j in range(n): x[j:] = houses[j].apply(x[j:]); x[j] *= conj(houses[j].alpha)`. -/
noncomputable def houseLoop (hs : Houses 𝕜 N) : ℕ → (Fin (N + 1) → 𝕜) → (Fin (N + 1) → 𝕜)
  | 0, x => x
  | n + 1, x => mulAt (applyAt n (hs n) (houseLoop hs n x)) n (conj (hs n).alpha)

/-- utils.py 992-993: `for j in range(n - 1, -1, -1): x[j:] = houses[j].apply(x[j:])`. -/
noncomputable def houseBack (hs : Houses 𝕜 N) : ℕ → (Fin (N + 1) → 𝕜) → (Fin (N + 1) → 𝕜)
  | 0, x => x
  | n + 1, x => houseBack hs n (applyAt n (hs n) x)

/-- The unit vector `e_n` (utils.py 990-991). -/
def unitVec (n : ℕ) : Fin (N + 1) → 𝕜 := fun i => if (i : ℕ) = n then 1 else 0

/-- The object with its list `houses`; `arn.P` is a copy of `arn.V` (utils.py 899-922). -/
structure HArn (𝕜 : Type*) (N : ℕ) where
  arn : Arn 𝕜 (Fin (N + 1) → 𝕜)
  houses : Houses 𝕜 N

/-- `numpy.linalg.norm(v, 2)` (utils.py 922). -/
noncomputable def euclNorm (v : Fin (N + 1) → 𝕜) : ℝ := Real.sqrt (∑ i, ‖v i‖ ^ 2)

/-- Transformations which are never read (entries of the list of utils.py 921 which do not exist yet; no counterpart in the code). -/
def dummyHouses : Houses 𝕜 N := fun _ => ⟨0, 0, 0, 0⟩

/-- utils.py 910-922, 949-952: the constructor; `plain` says that there is no preconditioner and no `ip_B`. -/
noncomputable def houseInit (plain : Bool) (v : Fin (N + 1) → 𝕜) : Except Err (HArn 𝕜 N) :=
  if plain then
    let hs : Houses 𝕜 N := Function.update dummyHouses 0 (mkHouse v)
    let r := euclNorm v
    if 0 < r then
      let V := Function.update (0 : ℕ → Fin (N + 1) → 𝕜) 0 (((r : 𝕜)⁻¹) • v)
      .ok ⟨⟨0, V, V, fun _ _ => 0, false, r⟩, hs⟩
    else .ok ⟨⟨0, 0, 0, fun _ _ => 0, true, r⟩, hs⟩
  else .error .argumentError

/-- utils.py 975-982: the new transformation, applied to the tail and multiplied with `conj(alpha)`. -/
noncomputable def newHouse (k : ℕ) (Av : Fin (N + 1) → 𝕜) : House 𝕜 (N - (k + 1)) := mkHouse (slice Av (k + 1))

/-- utils.py 978. -/
noncomputable def reduceTail (k : ℕ) (Av : Fin (N + 1) → 𝕜) : Fin (N + 1) → 𝕜 :=
  setSlice Av (k + 1) fun i =>
    (newHouse k Av).apply (slice Av (k + 1)) i * conj (newHouse k Av).alpha

/-- utils.py 975-983: the new column of `H`. -/
noncomputable def houseCol (k : ℕ) (Av : Fin (N + 1) → 𝕜) (old : ℕ → 𝕜) : ℕ → 𝕜 :=
  let col : ℕ → 𝕜 := if k < N then fun i => if i < k + 2 then ev (reduceTail k Av) i else old i
    else fun i => if i < k + 1 then ev Av i else old i
  Function.update col (k + 1) ((‖col (k + 1)‖ : ℝ) : 𝕜)

/-- utils.py 975-977: `self.houses.append(house)` if `k + 1 < N`. -/
noncomputable def houseList (k : ℕ) (Av : Fin (N + 1) → 𝕜) (hs : Houses 𝕜 N) : Houses 𝕜 N :=
  if k < N then Function.update hs (k + 1) (newHouse k Av) else hs

/-- utils.py 954-994 and 1048: `advance()`.  984-988: the invariance test is false if it is 0/0; 990-994: the new
basis vector (`IndexError` if there is no further direction). -/
noncomputable def houseAdvance (A : (Fin (N + 1) → 𝕜) →ₗ[𝕜] (Fin (N + 1) → 𝕜)) (maxiter : ℕ) (s : HArn 𝕜 N) :
    Except Err (HArn 𝕜 N) :=
  if maxiter ≤ s.arn.iter then .error .argumentError
  else if s.arn.invariant then .error .argumentError
  else
    let k := s.arn.iter
    let Av := houseLoop s.houses (k + 1) (A (s.arn.V k))
    let hs := houseList k Av s.houses
    let col := houseCol k Av fun i => s.arn.H i k
    let H := setCol s.arn.H k col
    let nH := specNorm H (k + 2) (k + 1)
    if nH ≠ 0 ∧ ‖col (k + 1)‖ / nH ≤ 1e-14 then
      .ok ⟨⟨k + 1, s.arn.V, s.arn.P, H, true, s.arn.vnorm⟩, hs⟩
    else if N ≤ k then .error .valueError
    else
      let V := Function.update s.arn.V (k + 1)
        ((hs (k + 1)).alpha • houseBack hs (k + 2) (unitVec (k + 1)))
      .ok ⟨⟨k + 1, V, V, H, false, s.arn.vnorm⟩, hs⟩

/-- Body of the GMRES loop with a Householder object (linsys.py 976-993). -/
noncomputable def gmresStepHouse (A : (Fin (N + 1) → 𝕜) →ₗ[𝕜] (Fin (N + 1) → 𝕜)) (maxiter : ℕ)
    (s : GmresSt 𝕜 (Fin (N + 1) → 𝕜) × Houses 𝕜 N) :
    Except Err ((GmresSt 𝕜 (Fin (N + 1) → 𝕜) × Houses 𝕜 N) × ℝ) :=
  match houseAdvance A maxiter ⟨s.1.arn, s.2⟩ with
  | .error e => .error e
  | .ok h => match gmresStep (fun _ => .ok h.arn) s.1 with
    | .error e => .error e
    | .ok (s', r) => .ok ((s', h.houses), r)

/-- The GMRES loop (linsys.py 971-993) as a method of the driver. -/
noncomputable def gmresMethodHouse (A Mr : (Fin (N + 1) → 𝕜) →ₗ[𝕜] (Fin (N + 1) → 𝕜))
    (post : (Fin (N + 1) → 𝕜) → Except Err (Fin (N + 1) → 𝕜)) (maxiter : ℕ) :
    Method ℝ (Fin (N + 1) → 𝕜) (GmresSt 𝕜 (Fin (N + 1) → 𝕜) × Houses 𝕜 N) where
  more s := decide (s.1.arn.iter < maxiter) && !s.1.arn.invariant
  step := gmresStepHouse A maxiter
  getXk s := gmresXk Mr post s.1
  k s := s.1.arn.iter
  post s _ := s
  countAfter := false

/-- `Gmres(linear_system, ortho="house", ...)` (linsys.py 342-405, 941-1004); `plain` says that `M` is the identity
operator and `ip_B` is `None` (otherwise `ArgumentError`, utils.py 911-920). -/
noncomputable def gmresHouse (s : LS 𝕜 (Fin (N + 1) → 𝕜)) (hk : Hooks 𝕜 (Fin (N + 1) → 𝕜)) (plain : Bool)
    (a : SolverArgs (Fin (N + 1) → 𝕜)) :
    Outcome (St ℝ (Fin (N + 1) → 𝕜) (GmresSt 𝕜 (Fin (N + 1) → 𝕜) × Houses 𝕜 N)) :=
  match hk.initRes a.x0 with
  | .error e => .raised e
  | .ok (_, Mlr0, r0) =>
    match houseInit plain Mlr0 with
    | .error e => .raised e
    | .ok h => run (mkCfg s a) (gmresMethodHouse hk.op s.Mr hk.post a.maxiter) (a.x0.getD 0) r0
        (fun x => (gmresInit h.arn r0 x, h.houses)) hk.post

end Krypy
