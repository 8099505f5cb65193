import Verif.Model.Py

/-!
# Model of `e3nn_jax/_src/irreps.py` (structure part)

`Irrep`, `MulIrrep` and `Irreps` and their list algebra.  The matrix part (`D_from_*`) is in
`Verif.Model.Wigner`, the text part (`__new__` on strings, `__repr__`) in `Verif.Model.Parse`.
-/

namespace E3nn

/-- The two values `+1` (even) and `-1` (odd) allowed for `Irrep.p`.
Models irreps.py:63 (`assert p in [-1, 1]`). -/
inductive Parity where
  | e
  | o
  deriving DecidableEq, Repr

/-- The integer `p` stored by the code. Models irreps.py:92. -/
def Parity.toInt : Parity → Int
  | .e => 1
  | .o => -1

/-- Product of parities. Models `self.p * other.p`, irreps.py:265. -/
def Parity.mul : Parity → Parity → Parity
  | .e, p => p
  | .o, .e => .o
  | .o, .o => .e

/-- `(-1) ** l` as a parity. Models irreps.py:82, 111. -/
def Parity.ofPow (l : Nat) : Parity := if l % 2 = 0 then .e else .o

/-- `p ** l` for a parity `p`. Models irreps.py:473. -/
def Parity.pow (p : Parity) (l : Nat) : Parity :=
  match p with
  | .e => .e
  | .o => Parity.ofPow l

/-- `-p`. Models irreps.py:112. -/
def Parity.neg : Parity → Parity
  | .e => .o
  | .o => .e

/-- Models `class Irrep`, irreps.py:25-93: degree `l ≥ 0` and parity. -/
structure Irrep where
  l : Nat
  p : Parity
  deriving DecidableEq, Repr

/-- `Irrep.dim`, irreps.py:250-252. -/
def Irrep.dim (ir : Irrep) : Nat := 2 * ir.l + 1

/-- `Irrep.is_scalar`, irreps.py:254-256. -/
def Irrep.isScalar (ir : Irrep) : Bool := ir.l == 0 && ir.p == .e

/-- The key compared by `Irrep.__lt__`, irreps.py:295: `(l, -p * (-1)**l)`. -/
def Irrep.key (ir : Irrep) : Int × Int := (ir.l, -ir.p.toInt * (-1) ^ ir.l)

/-- `Irrep.__lt__`, irreps.py:293-298: Python's lexicographic `<` on the two keys. -/
def Irrep.lt (a b : Irrep) : Bool :=
  if a.key.1 ≠ b.key.1 then a.key.1 < b.key.1 else a.key.2 < b.key.2

/-- The `l`-th round of the loop of `Irrep.iterator`, irreps.py:110-112. -/
def Irrep.iterRound (l : Nat) : List Irrep :=
  [⟨l, Parity.ofPow l⟩, ⟨l, (Parity.ofPow l).neg⟩]

/-- What `Irrep.iterator()` has yielded after `n` rounds, irreps.py:102-115 (`lmax=None`). -/
def Irrep.iterPrefix (n : Nat) : List Irrep := (List.range n).flatMap Irrep.iterRound

/-- `list(Irrep.iterator(lmax))`, irreps.py:102-115: the loop breaks after round `lmax`. -/
def Irrep.iterator (lmax : Nat) : List Irrep := Irrep.iterPrefix (lmax + 1)

/-- `Irrep.__mul__`, irreps.py:258-269: `range(|l1-l2|, l1+l2+1)` with parity `p1*p2`. -/
def Irrep.mul (a b : Irrep) : List Irrep :=
  let p := a.p.mul b.p
  let lmin := (max a.l b.l) - (min a.l b.l)
  let lmax := a.l + b.l
  (List.range' lmin (lmax + 1 - lmin)).map fun l => ⟨l, p⟩

/-- `class MulIrrep`, irreps.py:309-323. Multiplicities are non-negative integers
(checked at irreps.py:427, 450). -/
structure MulIrrep where
  mul : Nat
  ir : Irrep
  deriving DecidableEq, Repr

/-- `MulIrrep.dim`, irreps.py:325-327. -/
def MulIrrep.dim (m : MulIrrep) : Nat := m.mul * m.ir.dim

/-- `class Irreps(tuple)`, irreps.py:364: a tuple of `MulIrrep`. -/
abbrev Irreps := List MulIrrep

namespace Irreps

/-- `Irreps(iterable of (int, Irrep))`, irreps.py:431-454: a negative multiplicity raises
`ValueError`. -/
def ofPairs (ps : List (Int × Irrep)) : Except PyErr Irreps :=
  ps.mapM fun (m, ir) => if 0 ≤ m then .ok ⟨m.toNat, ir⟩ else .error .valueError

/-- `Irreps.spherical_harmonics(lmax, p)`, irreps.py:456-473. -/
def sphericalHarmonics (lmax : Nat) (p : Parity) : Irreps :=
  (List.range (lmax + 1)).map fun l => ⟨1, ⟨l, p.pow l⟩⟩

/-- `Irreps.slices`, irreps.py:475-487; `i` is the running offset of the loop. -/
def slicesFrom (i : Nat) : Irreps → List (Nat × Nat)
  | [] => []
  | m :: ms => (i, i + m.dim) :: slicesFrom (i + m.dim) ms

/-- `Irreps.slices`, irreps.py:475-487. -/
def slices (x : Irreps) : List (Nat × Nat) := slicesFrom 0 x

/-- `Irreps.__contains__`, irreps.py:496-499: compares irreps only, not multiplicities. -/
def contains (x : Irreps) (ir : Irrep) : Bool := (x.map MulIrrep.ir).contains ir

/-- `Irreps.count`, irreps.py:501-515. -/
def count (x : Irreps) (ir : Irrep) : Nat :=
  ((x.filter fun m => decide (ir = m.ir)).map MulIrrep.mul).sum

/-- `Irreps.is_scalar`, irreps.py:517-531: the set of irreps equals `{0e}`. -/
def isScalar (x : Irreps) : Bool :=
  (!x.isEmpty) && x.all fun m => m.ir == ⟨0, .e⟩

/-- `Irreps.__add__`, irreps.py:536-539. -/
def add (x y : Irreps) : Irreps := x ++ y

/-- `Irreps.__mul__` by a non-negative integer, irreps.py:545-556. (A negative factor makes
`Irreps([...])` raise as soon as one multiplicity is positive: see `mulInt`.) -/
def mul (x : Irreps) (n : Nat) : Irreps := x.map fun m => ⟨m.mul * n, m.ir⟩

/-- `Irreps.__mul__` by any integer, irreps.py:545-556. -/
def mulInt (x : Irreps) (n : Int) : Except PyErr Irreps :=
  ofPairs (x.map fun m => ((m.mul : Int) * n, m.ir))

/-- `Irreps.__floordiv__`, irreps.py:567-574, for a non-negative divisor
(`mul // 0` raises `ZeroDivisionError`). -/
def floordiv (x : Irreps) (n : Nat) : Except PyErr Irreps :=
  x.mapM fun m => if n = 0 then .error .zeroDivision else .ok ⟨m.mul / n, m.ir⟩

/-- `Irreps.repeat`, irreps.py:589-596. -/
def rep (x : Irreps) (n : Nat) : Irreps := (List.replicate n x).flatten

/-- The loop of `Irreps.unify`, irreps.py:614-620. `out` is kept reversed (`out[-1]` is its head). -/
def unifyLoop : Irreps → Irreps → Irreps
  | out, [] => out.reverse
  | [], m :: ms => unifyLoop [m] ms
  | b :: out, m :: ms =>
    if b.ir = m.ir then unifyLoop (⟨b.mul + m.mul, m.ir⟩ :: out) ms
    else unifyLoop (m :: b :: out) ms

/-- `Irreps.unify`, irreps.py:598-620. -/
def unify (x : Irreps) : Irreps := unifyLoop [] x

/-- `Irreps.remove_zero_multiplicities`, irreps.py:622-629. -/
def removeZeroMultiplicities (x : Irreps) : Irreps := x.filter fun m => decide (m.mul > 0)

/-- `Irreps.simplify`, irreps.py:631-650. -/
def simplify (x : Irreps) : Irreps := unify (removeZeroMultiplicities x)

/-- Python's `<` on the tuples `(ir, i, mul)` sorted at irreps.py:673-674: the first component
that differs decides. -/
def sortLt (a b : Irrep × Nat × Nat) : Bool :=
  if a.1 ≠ b.1 then a.1.lt b.1
  else if a.2.1 ≠ b.2.1 then a.2.1 < b.2.1
  else a.2.2 < b.2.2

/-- The list built and sorted at irreps.py:673-674.  See `pySorted` for Python's `sorted`. -/
def sortedTriples (x : Irreps) : List (Irrep × Nat × Nat) :=
  pySorted sortLt (x.zipIdx.map fun (m, i) => (m.ir, i, m.mul))

/-- The result of `Irreps.sort()`, irreps.py:673. -/
structure SortResult where
  irreps : Irreps
  p : List Nat
  inv : List Nat
  deriving DecidableEq, Repr

/-- `Irreps.set_mul`, irreps.py:694-701. -/
def setMul (x : Irreps) (mul : Nat) : Irreps := x.map fun m => ⟨mul, m.ir⟩

/-- The `keep`/`drop` argument of `Irreps.filter` after normalisation (irreps.py:740-760):
a collection of irreps (strings, `Irrep`, `MulIrrep`, lists are converted to one; only the irreps
matter) or a callable on `MulIrrep`. -/
inductive FilterArg where
  | irs (s : List Irrep)
  | pred (f : MulIrrep → Bool)

/-- `Irreps.filter`, irreps.py:703-767. -/
def filter' (x : Irreps) (keep drop : Option FilterArg) (lmax : Option Int) :
    Except PyErr Irreps :=
  if keep.isNone && drop.isNone && lmax.isNone then .ok x
  else if keep.isSome && drop.isSome then .error .valueError
  else if keep.isSome && lmax.isSome then .error .valueError
  else if drop.isSome && lmax.isSome then .error .valueError
  else
    match keep with
    | some (.pred f) => .ok (x.filter f)
    | some (.irs s) => .ok (x.filter fun m => s.contains m.ir)
    | none =>
      match drop with
      | some (.pred f) => .ok (x.filter fun m => !f m)
      | some (.irs s) => .ok (x.filter fun m => !s.contains m.ir)
      | none =>
        match lmax with
        | some L => .ok (x.filter fun m => decide ((m.ir.l : Int) ≤ L))
        | none => .ok x

/-- `Irreps.dim`, irreps.py:811-819. -/
def dim (x : Irreps) : Nat := (x.map fun m => m.mul * m.ir.dim).sum

/-- `Irreps.num_irreps`, irreps.py:821-829. -/
def numIrreps (x : Irreps) : Nat := (x.map MulIrrep.mul).sum

/-- `Irreps.mul_gcd`, irreps.py:831-839 (`math.gcd()` of nothing is 0). -/
def mulGcd (x : Irreps) : Nat := (x.map MulIrrep.mul).foldl Nat.gcd 0

/-- `Irreps.ls`, irreps.py:841-849. -/
def ls (x : Irreps) : List Nat := x.flatMap fun m => List.replicate m.mul m.ir.l

/-- `Irreps.lmax`, irreps.py:851-861: raises on the empty tuple, and `max([])` raises too when
every multiplicity is zero. -/
def lmax (x : Irreps) : Except PyErr Nat :=
  if x.length = 0 then .error .valueError
  else match x.ls.max? with
    | some l => .ok l
    | none => .error .valueError

/-- Loop of `_MulIndexSliceHelper.__getitem__`, irreps.py:968-976; `i` is the running
multiplicity offset.  The produced multiplicity may be negative (a Python int). -/
def sliceByMulLoop (start stop : Nat) : Nat → Irreps → List (Int × Irrep)
  | _, [] => []
  | i, m :: ms =>
    let rest := sliceByMulLoop start stop (i + m.mul) ms
    if start ≤ i ∧ i + m.mul ≤ stop then (m.mul, m.ir) :: rest
    else if start < i + m.mul ∧ i < stop then
      ((min stop (i + m.mul) : Int) - (max start i : Int), m.ir) :: rest
    else rest

/-- `_MulIndexSliceHelper.__getitem__`, irreps.py:960-976. -/
def sliceByMul (x : Irreps) (s : PySlice) : Except PyErr Irreps :=
  if s.step = some 0 then .error .valueError
  else if s.stepIsOne then
    ofPairs (sliceByMulLoop (s.bounds x.numIrreps).1 (s.bounds x.numIrreps).2 0 x)
  else .error .notImplemented

/-- Loop of `_DimIndexSliceHelper.__getitem__`, irreps.py:993-1007. `%` and `//` are Python's
(floor) operations with a positive divisor, i.e. Lean's `Int.emod`, `Int.ediv`. -/
def sliceByDimLoop (start stop : Nat) : Nat → Irreps → Except PyErr (List (Int × Irrep))
  | _, [] => .ok []
  | i, m :: ms =>
    if start ≤ i ∧ i + m.dim ≤ stop then do
      let rest ← sliceByDimLoop start stop (i + m.dim) ms
      return ((m.mul : Int), m.ir) :: rest
    else if start < i + m.dim ∧ i < stop then
      let d : Int := (min stop (i + m.dim) : Int) - (max start i : Int)
      if d % (m.ir.dim : Int) ≠ 0 then .error .valueError
      else do
        let rest ← sliceByDimLoop start stop (i + m.dim) ms
        return (d / (m.ir.dim : Int), m.ir) :: rest
    else sliceByDimLoop start stop (i + m.dim) ms

/-- `_DimIndexSliceHelper.__getitem__`, irreps.py:985-1007. -/
def sliceByDim (x : Irreps) (s : PySlice) : Except PyErr Irreps :=
  if s.step = some 0 then .error .valueError
  else if s.stepIsOne then do
    let ps ← sliceByDimLoop (s.bounds x.dim).1 (s.bounds x.dim).2 0 x
    ofPairs ps
  else .error .notImplemented

/-- `_ChunkIndexSliceHelper.__getitem__`, irreps.py:1016-1020, for step 1. -/
def sliceByChunk (x : Irreps) (s : PySlice) : Irreps :=
  (x.take (s.bounds x.length).2).drop (s.bounds x.length).1

end Irreps

end E3nn
