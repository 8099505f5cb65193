import Verif.Model.Py
import Mathlib.Algebra.Order.Group.Unbundled.Int
import Mathlib.Data.Nat.Find

/-!
# Model of `limit_denominator`, e3nn_jax/_src/utils/math_numpy.py:38-68

Integers are unbounded (the code uses numpy int64 and does not check overflows); arrays are flattened to lists of
pairs `(n, d)`.  `//` is floor division, and numpy integer division by zero gives `0` (with a warning), as `Int.fdiv` does.
-/

namespace E3nn.LimDen

/-- One entry of the arrays `p0, q0, p1, q1, n, d`, math_numpy.py:41-46, and of `n0, d0`, math_numpy.py:40. -/
structure St where
  p0 : ℤ
  q0 : ℤ
  p1 : ℤ
  q1 : ℤ
  n : ℤ
  d : ℤ
  n0 : ℤ
  d0 : ℤ
  deriving DecidableEq, Repr

/-- math_numpy.py:40-46. -/
def init (x : ℤ × ℤ) : St := ⟨0, 1, 1, 0, x.1, x.2, x.1, x.2⟩

/-- `stop`, math_numpy.py:48-50. -/
def St.stop (M : ℤ) (s : St) : Bool :=
  let a := Int.fdiv s.n s.d
  let q2 := s.q0 + a * s.q1
  decide (q2 > M) || decide (s.d0 ≤ M)

/-- math_numpy.py:48-54, one entry. -/
def St.step (M : ℤ) (s : St) : St :=
  let a := Int.fdiv s.n s.d
  let q2 := s.q0 + a * s.q1
  if s.stop M then s
  else { s with p0 := s.p1, q0 := s.q1, p1 := s.p0 + a * s.p1, q1 := q2, n := s.d, d := s.n - a * s.d }

/-- math_numpy.py:56-68, one entry. -/
def St.finish (M : ℤ) (s : St) : ℤ × ℤ :=
  let k := Int.fdiv (M - s.q0) s.q1
  let n1 := s.p0 + k * s.p1
  let d1 := s.q0 + k * s.q1
  let n2 := s.p1
  let d2 := s.q1
  let mask := decide (|d1 * (n2 * s.d0 - s.n0 * d2)| ≤ |d2 * (n1 * s.d0 - s.n0 * d1)|)
  if s.d0 < M then (s.n0, s.d0) else if mask then (n2, d2) else (n1, d1)

open Classical in
/-- The `while True` loop, math_numpy.py:47-54: all entries are updated until `np.all(stop)`. -/
noncomputable def loop (M : ℤ) (ss : List St) : Except PyErr (List St) :=
  if h : ∃ k : ℕ, ((List.map (St.step M))^[k] ss).all (St.stop M) then .ok ((List.map (St.step M))^[Nat.find h] ss)
  else .error .diverges

/-- `limit_denominator`, math_numpy.py:38-68. -/
noncomputable def limitDenominator (M : ℤ) (xs : List (ℤ × ℤ)) : Except PyErr (List (ℤ × ℤ)) := do
  let ss ← loop M (xs.map init)
  return ss.map (St.finish M)

end E3nn.LimDen
