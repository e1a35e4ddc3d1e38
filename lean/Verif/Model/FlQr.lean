import Verif.Model.Qr

/-!
# `utils.qr` (utils.py 680-707) with `ip_B` in an arbitrary arithmetic

The same loops as in `Model/Qr`, over arbitrary operations: `F` are the real and `K` the (possibly complex) floating point numbers, `X` the arrays of shape
`(N, 1)`.  Nothing is assumed about the operations.
-/

namespace Krypy

/-- The operations of `qr` (utils.py 697-706). -/
structure FlQrOps (F K X : Type*) where
  /-- `x - y` -/
  sub : X → X → X
  /-- `a * x` -/
  scale : K → X → X
  /-- `x / a` -/
  sdiv : X → F → X
  /-- `inner(x, y, ip_B=ip_B)[0, 0]` -/
  ip : X → X → K
  /-- `a + b` -/
  acc : K → K → K
  /-- an entry of `numpy.zeros((k, k))` -/
  zero : K
  /-- storing a float in `R` -/
  ofReal : F → K
  /-- `norm(x, ip_B=ip_B)` -/
  norm : X → Except Err F
  /-- `a >= 1e-15` -/
  ge : F → Bool

variable {F K X : Type*}

/-- One step of the innermost loop (utils.py 701-703) on `(Q[:, i], R[:, i])`. -/
def flQrStep (o : FlQrOps F K X) (Q : ℕ → X) (st : X × (ℕ → K)) (j : ℕ) : X × (ℕ → K) :=
  let alpha := o.ip (Q j) st.1
  (o.sub st.1 (o.scale alpha (Q j)), Function.update st.2 j (o.acc (st.2 j) alpha))

/-- The indices `j` visited for column `i` (utils.py 699-700), in this order. -/
def flQrList (reorthos i : ℕ) : List ℕ := (List.replicate (reorthos + 1) (List.range i)).flatten

/-- utils.py 698-706: column `i`. -/
def flQrCol (o : FlQrOps F K X) (reorthos : ℕ) (i : ℕ) (Q : ℕ → X) (R : ℕ → ℕ → K) : Except Err ((ℕ → X) × (ℕ → ℕ → K)) :=
  let st := (flQrList reorthos i).foldl (flQrStep o Q) (Q i, fun j => R j i)
  match o.norm st.1 with
  | .error e => .error e
  | .ok r =>
    let q := if o.ge r then o.sdiv st.1 r else st.1
    .ok (Function.update Q i q, fun a b => if b = i then Function.update st.2 i (o.ofReal r) a else R a b)

/-- utils.py 695-707: the first `k` columns.  `Q` starts as a copy of `X`, `R` as zeros. -/
def flQrLoop (o : FlQrOps F K X) (reorthos : ℕ) (x : ℕ → X) : ℕ → Except Err ((ℕ → X) × (ℕ → ℕ → K))
  | 0 => .ok (x, fun _ _ => o.zero)
  | i + 1 => match flQrLoop o reorthos x i with
    | .error e => .error e
    | .ok (Q, R) => flQrCol o reorthos i Q R

end Krypy
