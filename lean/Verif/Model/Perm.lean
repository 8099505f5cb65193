import Verif.Model.Py

/-!
# Model of `e3nn_jax/perm.py`

A permutation `TY_PERM` is a tuple of integers; entries are natural numbers here.
-/

namespace E3nn.Perm

/-- `is_perm`, perm.py:9-10: `sorted(set(p)) == list(range(len(p)))`. -/
def isPerm (p : List Nat) : Bool :=
  pySorted (fun a b => decide (a < b)) p.eraseDups == List.range p.length

/-- `identity`, perm.py:13-14. -/
def identity (n : Nat) : List Nat := List.range n

/-- `compose`, perm.py:17-23 with its two assertions. `p1[p2[i]]` cannot be out of range once
they hold; `getD` stands for the subscript. -/
def compose (p1 p2 : List Nat) : Except PyErr (List Nat) :=
  if !(isPerm p1 && isPerm p2) then .error .assertion
  else if p1.length ≠ p2.length then .error .assertion
  else .ok ((List.range p1.length).map fun i => p1.getD (p2.getD i 0) 0)

/-- `tuple.index`: raises `ValueError` when absent (perm.py:27 and 52). -/
def pyIndex (p : List Nat) (i : Nat) : Except PyErr Nat :=
  if p.contains i then .ok (p.idxOf i) else .error .valueError

/-- `inverse`, perm.py:26-27. -/
def inverse (p : List Nat) : Except PyErr (List Nat) := (List.range p.length).mapM (pyIndex p)

/-- The loop of `from_int`, perm.py:35-43: `pool`, then `i`, with the current `n = len(pool)`;
`k` counts the remaining rounds. `pool.pop(j)` removes position `j`. -/
def fromIntLoop : Nat → List Nat → Nat → List Nat
  | 0, _, _ => []
  | k + 1, pool, i =>
    let n := pool.length
    let j := i % n
    pool.getD j 0 :: fromIntLoop k (pool.eraseIdx j) (i / n)

/-- `from_int`, perm.py:35-43. -/
def fromInt (i n : Nat) : List Nat := fromIntLoop n (List.range n) i

/-- The loop of `to_int`, perm.py:46-56 (state `pool`, `i`, `m`); `pool.index(j)` raises when
`j` is not in the pool. -/
def toIntLoop : List Nat → List Nat → Nat → Nat → Except PyErr Nat
  | [], _, i, _ => .ok i
  | j :: js, pool, i, m =>
    match pyIndex pool j with
    | .error e => .error e
    | .ok k => toIntLoop js (pool.eraseIdx k) (i + k * m) (m * pool.length)

/-- `to_int`, perm.py:46-56. -/
def toInt (p : List Nat) : Except PyErr Nat := toIntLoop p (List.range p.length) 0 1

/-- `math.factorial` (perm.py:60). -/
def factorial : Nat → Nat
  | 0 => 1
  | n + 1 => (n + 1) * factorial n

/-- `group`, perm.py:59-60; a Python set is modelled by a duplicate-free list. -/
def group (n : Nat) : List (List Nat) :=
  ((List.range (factorial n)).map fun i => fromInt i n).eraseDups

end E3nn.Perm
