import Verif.Model.ArnoldiHouse

/-!
# `utils.House` (utils.py 332-389) and `utils.Arnoldi` with `ortho="house"` (utils.py 910-922, 968-994) in an arbitrary arithmetic

The same code as in `Model/House` and `Model/ArnoldiHouse`, but over arbitrary operations on scalars: `F` are the real and `K` the (possibly complex)
floating point numbers.  Arrays are functions to `K` and the array operations of the code work entry by entry, except for the norm and the inner product.
Nothing is assumed about the operations; divisions by zero go on with whatever they give.
Not modelled: the application of `House` to several columns at once, `House.matrix`.
-/

namespace Krypy

/-- The scalar operations of `House` (utils.py 343-389) and of the Householder branch of `Arnoldi` (utils.py 921-922, 950, 968-994). -/
structure FlHouseOps (F K : Type*) where
  /-- an entry of `numpy.zeros` -/
  zero : K
  /-- the number 1 -/
  one : K
  /-- `beta = 2` as a factor -/
  two : K
  /-- `-a` -/
  neg : K → K
  /-- `a + b` -/
  add : K → K → K
  /-- `a - b` -/
  sub : K → K → K
  /-- `a * b` -/
  mul : K → K → K
  /-- `a / r` with a real divisor -/
  div : K → F → K
  /-- `numpy.conj(a)` -/
  cj : K → K
  /-- a float as a factor or stored in an array -/
  ofReal : F → K
  /-- `numpy.abs(a)` -/
  abs : K → F
  /-- the integer 0 as `sigma` -/
  zeroF : F
  /-- `numpy.sqrt(r ** 2 + s ** 2)` -/
  hyp : F → F → F
  /-- `numpy.linalg.norm(x, 2)` for a vector -/
  norm : (n : ℕ) → (Fin n → K) → F
  /-- `numpy.dot(x.T.conj(), y)` for vectors -/
  dot : (n : ℕ) → (Fin n → K) → (Fin n → K) → K
  /-- `a == 0` -/
  isZero : K → Bool
  /-- `r == 0` -/
  isZeroF : F → Bool
  /-- `r > 0` -/
  pos : F → Bool
  /-- `H[m-1, n-1] / numpy.linalg.norm(H[:m, :n], 2) <= 1e-14` -/
  tiny : (ℕ → ℕ → K) → ℕ → ℕ → Bool

variable {F K : Type*} {n N : ℕ}

/-- The attributes of a `House` object (utils.py 374-377); `refl` says that `beta` is 2 (it is 0 otherwise).  `den` is the divisor of line 375, which is
not an attribute in the code. -/
structure FlHouse (F K : Type*) (n : ℕ) where
  xnorm : F
  v : Fin (n + 1) → K
  alpha : K
  refl : Bool
  den : F

/-- utils.py 374-377 for the vector `x` with first entry replaced by `v0`. -/
def flHouseOf (o : FlHouseOps F K) (x : Fin (n + 1) → K) (v0 : K) (sigma xnorm : F) (alpha : K) (refl : Bool) : FlHouse F K n :=
  let den := o.hyp (o.abs v0) sigma
  ⟨xnorm, fun i => o.div (Function.update x 0 v0 i) den, alpha, refl, den⟩

/-- utils.py 352, 364: `alpha = 1 if gamma == 0 else gamma / xnorm` with `xnorm = numpy.abs(gamma)`. -/
def flPhase (o : FlHouseOps F K) (gamma : K) : K := if o.isZero gamma then o.one else o.div gamma (o.abs gamma)

/-- utils.py 357: `sigma`. -/
def flSigma (o : FlHouseOps F K) (x : Fin (n + 1) → K) : F := o.norm n fun i => x i.succ

/-- utils.py 358: `xnorm`. -/
def flXnorm (o : FlHouseOps F K) (x : Fin (n + 1) → K) : F := o.hyp (o.abs (x 0)) (flSigma o x)

/-- utils.py 366-372, 374-377: the branch with `beta = 2`. -/
def flReflector (o : FlHouseOps F K) (x : Fin (n + 1) → K) : FlHouse F K n :=
  let gamma := x 0
  if o.isZero gamma then flHouseOf o x (o.neg (o.ofReal (flSigma o x))) (flSigma o x) (flXnorm o x) o.one true
  else flHouseOf o x (o.add gamma (o.mul (o.div gamma (o.abs gamma)) (o.ofReal (flXnorm o x)))) (flSigma o x) (flXnorm o x)
    (o.div (o.neg gamma) (o.abs gamma)) true

/-- utils.py 343-377: the constructor of `House` for a vector. -/
def flHouse (o : FlHouseOps F K) (x : Fin (n + 1) → K) : FlHouse F K n :=
  if n = 0 then flHouseOf o x o.one o.zeroF (o.abs (x 0)) (flPhase o (x 0)) false
  else if o.isZeroF (flSigma o x) then flHouseOf o x o.one (flSigma o x) (o.abs (x 0)) (flPhase o (x 0)) false
  else flReflector o x

/-- utils.py 379-389: `apply` on a single column. -/
def FlHouse.apply (o : FlHouseOps F K) (h : FlHouse F K n) (x : Fin (n + 1) → K) : Fin (n + 1) → K :=
  if h.refl then fun i => o.sub (x i) (o.mul (o.mul o.two (h.v i)) (o.dot (n + 1) h.v x)) else x

/-- Entry `i` of a vector (zero if out of bounds, which does not occur for the accesses of the code) (utils.py 974). -/
def flEv (o : FlHouseOps F K) (x : Fin (N + 1) → K) (i : ℕ) : K := if h : i < N + 1 then x ⟨i, h⟩ else o.zero

/-- `x[j:]` for `j ≤ N` (utils.py 973, 993). -/
def flSlice (o : FlHouseOps F K) (x : Fin (N + 1) → K) (j : ℕ) : Fin (N - j + 1) → K := fun i => flEv o x (j + i)

/-- `x[j:] = y` (utils.py 973, 978, 993). -/
def flSetSlice (x : Fin (N + 1) → K) (j : ℕ) (y : Fin (N - j + 1) → K) : Fin (N + 1) → K :=
  fun i => if h : j ≤ i then y ⟨i - j, by omega⟩ else x i

/-- `x[j:] = house.apply(x[j:])` (utils.py 973, 993). -/
def flApplyAt (o : FlHouseOps F K) (j : ℕ) (h : FlHouse F K (N - j)) (x : Fin (N + 1) → K) : Fin (N + 1) → K :=
  flSetSlice x j (h.apply o (flSlice o x j))

/-- `x[i] *= a` (utils.py 974). -/
def flMulAt (o : FlHouseOps F K) (x : Fin (N + 1) → K) (n : ℕ) (a : K) : Fin (N + 1) → K := fun i => if (i : ℕ) = n then o.mul (x i) a else x i

/-- The list `self.houses` (utils.py 921, 977). -/
abbrev FlHouses (F K : Type*) (N : ℕ) := (j : ℕ) → FlHouse F K (N - j)

/-- utils.py 972-974: `for j in range(n): x[j:] = houses[j].apply(x[j:]); x[j] *= conj(houses[j].alpha)`. -/
def flHouseLoop (o : FlHouseOps F K) (hs : FlHouses F K N) : ℕ → (Fin (N + 1) → K) → (Fin (N + 1) → K)
  | 0, x => x
  | n + 1, x => flMulAt o (flApplyAt o n (hs n) (flHouseLoop o hs n x)) n (o.cj (hs n).alpha)

/-- utils.py 992-993: `for j in range(n - 1, -1, -1): x[j:] = houses[j].apply(x[j:])`. -/
def flHouseBack (o : FlHouseOps F K) (hs : FlHouses F K N) : ℕ → (Fin (N + 1) → K) → (Fin (N + 1) → K)
  | 0, x => x
  | n + 1, x => flHouseBack o hs n (flApplyAt o n (hs n) x)

/-- The unit vector `e_n` (utils.py 990-991). -/
def flUnitVec (o : FlHouseOps F K) (n : ℕ) : Fin (N + 1) → K := fun i => if (i : ℕ) = n then o.one else o.zero

/-- Attributes of the object (utils.py 899-908, 921-922). -/
structure FlHArn (F K : Type*) (N : ℕ) where
  iter : ℕ
  V : ℕ → Fin (N + 1) → K
  H : ℕ → ℕ → K
  invariant : Bool
  vnorm : F
  houses : FlHouses F K N

/-- Transformations which are never read (entries of the list of utils.py 921 which do not exist yet; no counterpart in the code). -/
def flDummyHouses (o : FlHouseOps F K) : FlHouses F K N := fun _ => ⟨o.zeroF, fun _ => o.zero, o.zero, false, o.zeroF⟩

/-- utils.py 904-922, 949-952: the constructor for `M=None` and `ip_B=None`. -/
def flHouseInit (o : FlHouseOps F K) (v : Fin (N + 1) → K) : FlHArn F K N :=
  let r := o.norm (N + 1) v
  let hs : FlHouses F K N := Function.update (flDummyHouses o) 0 (flHouse o v)
  let V : ℕ → Fin (N + 1) → K := fun _ _ => o.zero
  if o.pos r then ⟨0, Function.update V 0 fun i => o.div (v i) r, fun _ _ => o.zero, false, r, hs⟩
  else ⟨0, V, fun _ _ => o.zero, true, r, hs⟩

/-- utils.py 976: the new transformation. -/
def flNewHouse (o : FlHouseOps F K) (k : ℕ) (Av : Fin (N + 1) → K) : FlHouse F K (N - (k + 1)) := flHouse o (flSlice o Av (k + 1))

/-- utils.py 978. -/
def flReduceTail (o : FlHouseOps F K) (k : ℕ) (Av : Fin (N + 1) → K) : Fin (N + 1) → K :=
  flSetSlice Av (k + 1) fun i => o.mul ((flNewHouse o k Av).apply o (flSlice o Av (k + 1)) i) (o.cj (flNewHouse o k Av).alpha)

/-- utils.py 975-983: the new column of `H`; `old` is what the array contained before. -/
def flHouseCol (o : FlHouseOps F K) (k : ℕ) (Av : Fin (N + 1) → K) (old : ℕ → K) : ℕ → K :=
  let col : ℕ → K := if k < N then fun i => if i < k + 2 then flEv o (flReduceTail o k Av) i else old i
    else fun i => if i < k + 1 then flEv o Av i else old i
  Function.update col (k + 1) (o.ofReal (o.abs (col (k + 1))))

/-- utils.py 975-977: `self.houses.append(house)` if `k + 1 < N`. -/
def flHouseList (o : FlHouseOps F K) (k : ℕ) (Av : Fin (N + 1) → K) (hs : FlHouses F K N) : FlHouses F K N :=
  if k < N then Function.update hs (k + 1) (flNewHouse o k Av) else hs

/-- utils.py 968-974: the product with `A` and the loop over the transformations. -/
def flHouseAv (o : FlHouseOps F K) (A : (Fin (N + 1) → K) → (Fin (N + 1) → K)) (s : FlHArn F K N) : Fin (N + 1) → K :=
  flHouseLoop o s.houses (s.iter + 1) (A (s.V s.iter))

/-- utils.py 990-994: the new basis vector. -/
def flHouseVec (o : FlHouseOps F K) (hs : FlHouses F K N) (k : ℕ) : Fin (N + 1) → K :=
  fun i => o.mul (flHouseBack o hs (k + 2) (flUnitVec o (k + 1)) i) (hs (k + 1)).alpha

/-- utils.py 954-994 and 1048: `advance()`; line 991 raises `IndexError` if there is no further direction. -/
def flHouseAdvance (o : FlHouseOps F K) (A : (Fin (N + 1) → K) → (Fin (N + 1) → K)) (maxiter : ℕ) (s : FlHArn F K N) : Except Err (FlHArn F K N) :=
  if maxiter ≤ s.iter then .error .argumentError
  else if s.invariant then .error .argumentError
  else
    let k := s.iter
    let Av := flHouseAv o A s
    let hs := flHouseList o k Av s.houses
    let H : ℕ → ℕ → K := fun i j => if j = k then flHouseCol o k Av (fun i => s.H i k) i else s.H i j
    if o.tiny H (k + 2) (k + 1) then .ok ⟨k + 1, s.V, H, true, s.vnorm, hs⟩
    else if N ≤ k then .error .valueError
    else .ok ⟨k + 1, Function.update s.V (k + 1) (flHouseVec o hs k), H, false, s.vnorm, hs⟩

/-- Several calls of `advance()`, as in `arnoldi()` and in `Gmres` (utils.py 1079-1080, linsys.py 971-976). -/
def flHouseRun (o : FlHouseOps F K) (A : (Fin (N + 1) → K) → (Fin (N + 1) → K)) (maxiter : ℕ) (v : Fin (N + 1) → K) : ℕ → Except Err (FlHArn F K N)
  | 0 => .ok (flHouseInit o v)
  | n + 1 => match flHouseRun o A maxiter v n with
    | .error e => .error e
    | .ok s => flHouseAdvance o A maxiter s

end Krypy
