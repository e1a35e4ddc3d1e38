import Verif.Model.Projection

/-!
# `utils.Projection` (utils.py 439-677) in an arbitrary arithmetic

The same code as in `Model/Projection`, over arbitrary operations: `K` are the (possibly complex) floating point numbers, `X` the arrays of shape `(N, 1)`.
Nothing is assumed about the operations.  As in `Model/Projection` the array `a` has one column, `(N, k)` arrays are families `Fin k → X`, and
the checks of the shapes (utils.py 491-494) are not modelled.
-/

namespace Krypy
variable {K X : Type*} {k : ℕ}

/-- The operations of `Projection` (utils.py 482-677). -/
structure FlProjOps (K X : Type*) (k : ℕ) where
  /-- `numpy.zeros(a.shape)` -/
  zeros : X
  /-- an entry of `numpy.zeros((0, a.shape[1]))` (there are none) -/
  zeroK : K
  /-- `x + y` -/
  add : X → X → X
  /-- `x - y` -/
  sub : X → X → X
  /-- `inner(x, y, ip_B=self.ip_B)[0, 0]` -/
  ip : X → X → K
  /-- `V.dot(c)` -/
  dot : (Fin k → X) → (Fin k → K) → X
  /-- `R.T.conj()` -/
  adj : Matrix (Fin k) (Fin k) K → Matrix (Fin k) (Fin k) K
  /-- `Q.dot(c)` -/
  mul : Matrix (Fin k) (Fin k) K → (Fin k → K) → Fin k → K
  /-- `scipy.linalg.solve_triangular(R, c)` -/
  solveU : Matrix (Fin k) (Fin k) K → (Fin k → K) → Except Err (Fin k → K)
  /-- `scipy.linalg.solve_triangular(L, c, lower=True)` -/
  solveL : Matrix (Fin k) (Fin k) K → (Fin k → K) → Except Err (Fin k → K)
  /-- `qr(X, ip_B=ip_B)` -/
  qr : (Fin k → X) → Except Err ((Fin k → X) × Matrix (Fin k) (Fin k) K)
  /-- `scipy.linalg.qr(M)` -/
  matQr : Matrix (Fin k) (Fin k) K → Except Err (Matrix (Fin k) (Fin k) K × Matrix (Fin k) (Fin k) K)

/-- utils.py 519: `inner(self.W, self.V, ip_B=ip_B)`. -/
def flGram (o : FlProjOps K X k) (W V : Fin k → X) : Matrix (Fin k) (Fin k) K := Matrix.of fun i j => o.ip (W i) (V j)

/-- utils.py 510-520 for given bases `V` and `W` of the general case. -/
def flOblique (o : FlProjOps K X k) (V W : Fin k → X) (VR WR : Option (Matrix (Fin k) (Fin k) K)) (iterations : ℕ) : Except Err (Proj K X k) :=
  match o.matQr (flGram o W V) with
  | .error e => .error e
  | .ok QR => .ok ⟨V, W, VR, WR, some QR, iterations⟩

/-- utils.py 482-520: the constructor.  `Y = none` models `Y is None` (and `Y is X`). -/
def flMkProj (o : FlProjOps K X k) (A : Fin k → X) (Y : Option (Fin k → X)) (orthogonalize : Bool) (iterations : ℤ) : Except Err (Proj K X k) :=
  if iterations < 1 then .error .argumentError
  else if k = 0 then .ok ⟨fun _ => o.zeros, fun _ => o.zeros, none, none, none, iterations.toNat⟩
  else if orthogonalize then
    match o.qr A with
    | .error e => .error e
    | .ok (V, VR) => match Y with
      | none => .ok ⟨V, V, some VR, some VR, none, iterations.toNat⟩
      | some Y => match o.qr Y with
        | .error e => .error e
        | .ok (W, WR) => flOblique o V W (some VR) (some WR) iterations.toNat
  else flOblique o A (Y.getD A) none none iterations.toNat

/-- utils.py 542-545: the returned `Ya`. -/
def flProjYa (o : FlProjOps K X k) (p : Proj K X k) (c : Fin k → K) : Fin k → K :=
  match p.WR with
  | some WR => o.mul (o.adj WR) c
  | none => c

/-- utils.py 547-548: the coefficients. -/
def flProjSolve (o : FlProjOps K X k) (p : Proj K X k) (c : Fin k → K) : Except Err (Fin k → K) :=
  match p.QR with
  | none => .ok c
  | some (Q, R) => o.solveU R (o.mul (o.adj Q) c)

/-- utils.py 522-552: `_apply(a, return_Ya=True)`. -/
def flProjApply1 (o : FlProjOps K X k) (p : Proj K X k) (a : X) : Except Err (X × (Fin k → K)) :=
  if k = 0 then .ok (o.zeros, fun _ => o.zeroK)
  else
    let c : Fin k → K := fun i => o.ip (p.W i) a
    match flProjSolve o p c with
    | .error e => .error e
    | .ok y => .ok (o.dot p.V y, flProjYa o p c)

/-- First component of `_apply` (utils.py 522-552). -/
def flProjApply1x (o : FlProjOps K X k) (p : Proj K X k) (a : X) : Except Err X :=
  match flProjApply1 o p a with
  | .error e => .error e
  | .ok r => .ok r.1

/-- utils.py 560-563: the coefficients of the adjoint. -/
def flProjSolveAdj (o : FlProjOps K X k) (p : Proj K X k) (c : Fin k → K) : Except Err (Fin k → K) :=
  match p.QR with
  | none => .ok c
  | some (Q, R) => match o.solveL (o.adj R) c with
    | .error e => .error e
    | .ok y => .ok (o.mul Q y)

/-- utils.py 554-564: `_apply_adj`. -/
def flProjApplyAdj1 (o : FlProjOps K X k) (p : Proj K X k) (a : X) : Except Err X :=
  if k = 0 then .ok o.zeros
  else match flProjSolveAdj o p fun i => o.ip (p.V i) a with
    | .error e => .error e
    | .ok y => .ok (o.dot p.W y)

/-- utils.py 585-588 (and 598-601): `n` refinement steps `x = x + f(a - x)`. -/
def flRefine (o : FlProjOps K X k) (f : X → Except Err X) (a : X) : ℕ → X → Except Err X
  | 0, x => .ok x
  | n + 1, x => match flRefine o f a n x with
    | .error e => .error e
    | .ok x => match f (o.sub a x) with
      | .error e => .error e
      | .ok w => .ok (o.add x w)

/-- utils.py 622-624 (and 635-637): `n` steps `z = z - f(z)`. -/
def flRefineCompl (o : FlProjOps K X k) (f : X → Except Err X) : ℕ → X → Except Err X
  | 0, z => .ok z
  | n + 1, z => match flRefineCompl o f n z with
    | .error e => .error e
    | .ok z => match f z with
      | .error e => .error e
      | .ok w => .ok (o.sub z w)

/-- utils.py 566-591: `apply(a, return_Ya=True)`. -/
def flProjApply (o : FlProjOps K X k) (p : Proj K X k) (a : X) : Except Err (X × (Fin k → K)) :=
  if k = 0 then .ok (o.zeros, fun _ => o.zeroK)
  else match flProjApply1 o p a with
    | .error e => .error e
    | .ok r => match flRefine o (flProjApply1x o p) a (p.iterations - 1) r.1 with
      | .error e => .error e
      | .ok x => .ok (x, r.2)

/-- utils.py 593-602: `apply_adj`. -/
def flProjApplyAdj (o : FlProjOps K X k) (p : Proj K X k) (a : X) : Except Err X :=
  if k = 0 then .ok o.zeros
  else match flProjApplyAdj1 o p a with
    | .error e => .error e
    | .ok x => flRefine o (flProjApplyAdj1 o p) a (p.iterations - 1) x

/-- utils.py 604-627: `apply_complement(a, return_Ya=True)`. -/
def flProjCompl (o : FlProjOps K X k) (p : Proj K X k) (a : X) : Except Err (X × (Fin k → K)) :=
  if k = 0 then .ok (a, fun _ => o.zeroK)
  else match flProjApply1 o p a with
    | .error e => .error e
    | .ok r => match flRefineCompl o (flProjApply1x o p) (p.iterations - 1) (o.sub a r.1) with
      | .error e => .error e
      | .ok z => .ok (z, r.2)

/-- utils.py 629-638: `apply_complement_adj`. -/
def flProjComplAdj (o : FlProjOps K X k) (p : Proj K X k) (a : X) : Except Err X :=
  if k = 0 then .ok a
  else match flProjApplyAdj1 o p a with
    | .error e => .error e
    | .ok x => flRefineCompl o (flProjApplyAdj1 o p) (p.iterations - 1) (o.sub a x)

end Krypy
