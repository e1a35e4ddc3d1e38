import Mathlib.Order.Lattice
import Mathlib.Order.Defs.LinearOrder
import Mathlib.Algebra.Order.Group.Unbundled.Abs
import Mathlib.Data.List.Sort
import Mathlib.Data.List.MinMax

/-!
# Model of `Interval` and `Intervals` (krypy/utils.py 1711-1844)

Scalars are any linear order `α` (so in particular the non-NaN doubles).
Python's `set` iterates in an arbitrary order: the model is relational in that order
(`AddStep` is true for *every* order in which the merge loop may run).
-/

namespace Krypy

/-- utils.py 1711-1720: `Interval` objects; the constructor guard `left > right` raises,
so every existing object satisfies `le`. -/
structure Interval (α : Type*) [LinearOrder α] where
  left : α
  right : α
  le : left ≤ right

/-- Errors raised by the interval code (utils.py 1717-1718, 1794-1844). -/
inductive IntervalErr
  | argumentError
  deriving DecidableEq

namespace Interval
variable {α : Type*} [LinearOrder α]

/-- utils.py 1714-1720: `Interval(left, right=None)`. -/
def make (left : α) (right : Option α := none) : Except IntervalErr (Interval α) :=
  let r := right.getD left
  if h : left > r then .error .argumentError
  else .ok ⟨left, r, not_lt.mp h⟩

/-- utils.py 1722-1728: `__and__`; `None` is `none`.  (Objects are always truthy in Python since
`Interval` defines neither `__bool__` nor `__len__`.) -/
def inter (i j : Interval α) : Option (Interval α) :=
  if h : max i.left j.left ≤ min i.right j.right then
    some ⟨max i.left j.left, min i.right j.right, h⟩
  else none

/-- utils.py 1730-1736: `__or__`. -/
def union (i j : Interval α) : Option (Interval α) :=
  if (inter i j).isSome then
    some ⟨min i.left j.left, max i.right j.right,
      le_trans (min_le_left _ _) (le_trans i.le (le_max_left _ _))⟩
  else none

/-- utils.py 1741-1743: `contains`. -/
def contains (i : Interval α) (x : α) : Bool := decide (i.left ≤ x) && decide (x ≤ i.right)

/-- utils.py 1745-1749: `distance`. -/
def distance {α : Type*} [LinearOrder α] [Zero α] [Sub α] (i j : Interval α) : α :=
  if (inter i j).isSome then 0 else max (j.left - i.right) (i.left - j.right)

end Interval

/-- The `set` of intervals held by an `Intervals` object, listed in some order
(utils.py 1756).  Elements are compared by identity in Python, so the set is a bag of objects. -/
abbrev IvSet (α : Type*) [LinearOrder α] := List (Interval α)

namespace IvSet
variable {α : Type*} [LinearOrder α]
open Interval

/-- utils.py 1764-1765: `for interval in intersecting: new = new | interval`; a `None` result would
make the next `|` raise `TypeError`, represented by `none`. -/
def mergeAll (new : Interval α) : List (Interval α) → Option (Interval α)
  | [] => some new
  | i :: l => match union new i with
    | some n => mergeAll n l
    | none => none

/-- utils.py 1761-1767: one call of `add(new)`, for every iteration order `l` of the Python set
`intersecting` and every listing `s'` of the resulting set. -/
inductive AddStep (s : IvSet α) (new : Interval α) : IvSet α → Prop
  | mk (l : List (Interval α)) (hl : l.Perm (s.filter fun i => (inter i new).isSome))
      (n : Interval α) (hn : mergeAll new l = some n)
      (s' : IvSet α) (hs : s'.Perm (n :: s.filter fun i => ¬ (inter i new).isSome)) :
      AddStep s new s'

/-- utils.py 1755-1759 (and any later `add` calls): sets reachable by adding the given intervals
one after the other, starting with the empty set. -/
inductive Built : List (Interval α) → IvSet α → Prop
  | nil : Built [] []
  | snoc {is : List (Interval α)} {s s' : IvSet α} {new : Interval α} :
      Built is s → AddStep s new s' → Built (is ++ [new]) s'

/-- utils.py 1769-1773: `contains`. -/
def contains (s : IvSet α) (x : α) : Bool := s.any fun i => i.contains x

/-- utils.py 1778-1782 before sorting. -/
def rawEndpoints (s : IvSet α) : List α :=
  s.flatMap fun i => if i.left = i.right then [i.left] else [i.left, i.right]

/-- utils.py 1775-1784: `get_endpoints`. -/
def endpoints (s : IvSet α) : List α := s.rawEndpoints.mergeSort (fun a b => decide (a ≤ b))

/-- What a query returns: a number, `None`, or (utils.py 1797, 1802, ...: `return ArgumentError(..)`
instead of `raise`) an exception *object*. -/
inductive Res (β : Type*)
  | val (b : β)
  | pyNone
  | errObj

/-- numpy.min / numpy.max of a non-empty list as a `Res` (the empty case cannot be reached) (utils.py 1794-1844). -/
def Res.ofOption {β : Type*} : Option β → Res β
  | some b => .val b
  | none => .errObj

/-- utils.py 1795-1798: `min`. -/
def qmin (s : IvSet α) : Res α :=
  if s.length = 0 then .errObj else .ofOption (s.map (·.left)).min?

/-- utils.py 1800-1803: `max`. -/
def qmax (s : IvSet α) : Res α :=
  if s.length = 0 then .errObj else .ofOption (s.map (·.right)).max?

/-- utils.py 1805-1814: `min_pos`. -/
def minPos [Zero α] (s : IvSet α) : Res α :=
  if s.length = 0 then .errObj
  else if s.contains 0 then .pyNone
  else
    let positive := s.filter fun i => i.left > 0
    if positive.length = 0 then .pyNone else .ofOption (positive.map (·.left)).min?

/-- utils.py 1816-1825: `max_neg`. -/
def maxNeg [Zero α] (s : IvSet α) : Res α :=
  if s.length = 0 then .errObj
  else if s.contains 0 then .pyNone
  else
    let negative := s.filter fun i => i.right < 0
    if negative.length = 0 then .pyNone else .ofOption (negative.map (·.right)).max?

/-- utils.py 1834-1838: the list comprehension `[abs(val) for val in [...] if val is not None]`. -/
def absVals [AddGroup α] : List (Res α) → List α
  | [] => []
  | .val a :: l => |a| :: absVals l
  | _ :: l => absVals l

/-- utils.py 1827-1839: `min_abs`. -/
def minAbs [AddGroup α] (s : IvSet α) : Res α :=
  if s.length = 0 then .errObj
  else if s.contains 0 then .val 0
  else .ofOption (absVals [s.maxNeg, s.minPos]).min?

/-- utils.py 1841-1844: `max_abs`. -/
def maxAbs [AddGroup α] (s : IvSet α) : Res α :=
  if s.length = 0 then .errObj
  else .ofOption (absVals [s.qmax, s.qmin]).max?

end IvSet
end Krypy
