import Verif.Model.Arnoldi

/-!
# `utils.Arnoldi` (utils.py 854-1081) for `ortho` in `mgs`, `dmgs`, `lanczos` in an arbitrary arithmetic

The same code as in `Model/Arnoldi`, but over arbitrary operations on scalars and vectors: `F` are the real and `K` the (possibly complex) floating
point numbers, `X` the arrays of shape `(N, 1)`.  Nothing is assumed about the operations; divisions by zero go on with whatever they give.
For `M = None` the code has no array `P` and uses `V` in its place; the model then keeps `P = V`.
Not modelled: warnings.
-/

namespace Krypy

/-- The array and scalar operations of `Arnoldi` (utils.py 927-1045). -/
structure FlArnOps (F K X : Type*) where
  /-- `self.A * x` -/
  A : X → X
  /-- `self.M * x` (`none` if `self.M is None`) -/
  M : Option (X → X)
  /-- `x - y` -/
  sub : X → X → X
  /-- `a * x` -/
  scale : K → X → X
  /-- `x / a` -/
  sdiv : X → F → X
  /-- `inner(x, y, ip_B=self.ip_B)[0, 0]` -/
  ip : X → X → K
  /-- `a.real` -/
  re : K → K
  /-- `a + b` -/
  acc : K → K → K
  /-- the entry zero of a new array `H` -/
  zero : K
  /-- storing a float in `H` -/
  ofReal : F → K
  /-- `norm(x, y, ip_B=self.ip_B)` (`none`: `norm(x, ip_B=self.ip_B)`) -/
  norm : X → Option X → Except Err F
  /-- `a / numpy.linalg.norm(H[:m, :n], 2) <= 1e-14` -/
  tiny : (ℕ → ℕ → K) → ℕ → ℕ → F → Bool
  /-- `a > 0` -/
  pos : F → Bool

/-- Attributes of the object (utils.py 899-908, 933-952). -/
structure FlArn (F K X : Type*) where
  iter : ℕ
  V : ℕ → X
  P : ℕ → X
  H : ℕ → ℕ → K
  invariant : Bool
  vnorm : F

variable {F K X : Type*}

/-- utils.py 927-932: the vector from which the first basis vector is computed. -/
def flStartV (o : FlArnOps F K X) (v : X) (Mv : Option X) : X :=
  match o.M with
  | none => v
  | some M => Mv.getD (M v)

/-- utils.py 933-943: `self.vnorm`. -/
def flStartNorm (o : FlArnOps F K X) (v w : X) (MvNorm : Option F) : Except Err F :=
  match MvNorm with
  | some r => .ok r
  | none => o.norm v (o.M.map fun _ => w)

/-- utils.py 927-952: the constructor (`Mv`, `Mv_norm` as passed). -/
def flArnInit [Zero X] (o : FlArnOps F K X) (v : X) (Mv : Option X) (MvNorm : Option F) : Except Err (FlArn F K X) :=
  let w : X := flStartV o v Mv
  match flStartNorm o v w MvNorm with
  | .error e => .error e
  | .ok r =>
    if o.pos r then
      .ok ⟨0, Function.update 0 0 (o.sdiv w r), Function.update 0 0 (o.sdiv v r), fun _ _ => o.zero, false, r⟩
    else .ok ⟨0, 0, 0, fun _ _ => o.zero, true, r⟩

/-- One step of the inner loop (utils.py 1015-1029) on `(Av, H[:, k])`. -/
def flOrthoStep (o : FlArnOps F K X) (ortho : Ortho) (V P : ℕ → X) (st : X × (ℕ → K)) (j : ℕ) : X × (ℕ → K) :=
  let alpha := o.ip (V j) st.1
  let alpha := if ortho = .lanczos then o.re alpha else alpha
  (o.sub st.1 (o.scale alpha (P j)), Function.update st.2 j (o.acc (st.2 j) alpha))

/-- The indices visited by the two loops (utils.py 998, 1002, 1012-1014), in this order. -/
def flOrthoList (ortho : Ortho) (k : ℕ) : List ℕ :=
  let start := if ortho = .lanczos then k else 0
  (List.replicate (ortho.reorthos + 1) (List.range' start (k + 1 - start))).flatten

/-- utils.py 968, 1000-1009: the product with `A` and, for Lanczos, the subtraction of the multiple of the previous vector. -/
def flOrthoStart (o : FlArnOps F K X) (ortho : Ortho) (s : FlArn F K X) : X × (ℕ → K) :=
  let k := s.iter
  let Av := o.A (s.V k)
  let h : ℕ → K := fun i => s.H i k
  if ortho = .lanczos ∧ 0 < k then (o.sub Av (o.scale (s.H k (k - 1)) (s.P (k - 1))), Function.update h (k - 1) (s.H k (k - 1))) else (Av, h)

/-- utils.py 954-1048: `advance()`. -/
def flArnAdvance (o : FlArnOps F K X) (ortho : Ortho) (maxiter : ℕ) (s : FlArn F K X) : Except Err (FlArn F K X) :=
  if maxiter ≤ s.iter then .error .argumentError
  else if s.invariant then .error .argumentError
  else
    let k := s.iter
    let st := (flOrthoList ortho k).foldl (flOrthoStep o ortho s.V s.P) (flOrthoStart o ortho s)
    let MAv := o.M.map fun M => M st.1
    match o.norm st.1 MAv with
    | .error e => .error e
    | .ok r =>
      let H : ℕ → ℕ → K := fun i j => if j = k then Function.update st.2 (k + 1) (o.ofReal r) i else s.H i j
      if o.tiny H (k + 2) (k + 1) r then .ok ⟨k + 1, s.V, s.P, H, true, s.vnorm⟩
      else .ok ⟨k + 1, Function.update s.V (k + 1) (o.sdiv (MAv.getD st.1) r), Function.update s.P (k + 1) (o.sdiv st.1 r), H, false, s.vnorm⟩

/-- The loop of `arnoldi()` (utils.py 1079-1080). -/
def flArnLoop (o : FlArnOps F K X) (ortho : Ortho) (maxiter : ℕ) : ℕ → FlArn F K X → Except Err (FlArn F K X)
  | fuel, s =>
    if s.iter < maxiter ∧ s.invariant = false then
      match fuel with
      | 0 => .error .other
      | fuel + 1 => match flArnAdvance o ortho maxiter s with
        | .error e => .error e
        | .ok s => flArnLoop o ortho maxiter fuel s
    else .ok s

/-- utils.py 1077-1081: `arnoldi(...)`. -/
def flArnoldi [Zero X] (o : FlArnOps F K X) (ortho : Ortho) (maxiter : ℕ) (v : X) (Mv : Option X) (MvNorm : Option F) : Except Err (FlArn F K X) :=
  match flArnInit o v Mv MvNorm with
  | .error e => .error e
  | .ok s => flArnLoop o ortho maxiter maxiter s

end Krypy
