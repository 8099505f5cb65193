import Verif.Model.Sort

/-!
# Model of `e3nn_jax/_src/irreps_array.py` (class `IrrepsArray`)

The array of shape `(..., dim)` is a list of `dim` columns; a column has a type `α` that stands
for everything on the leading axes (a number when there is none, a function of the leading indices
otherwise), so every statement is uniform in the leading shape.  A chunk of shape
`(..., mul, ir.dim)` is the list of its `mul` rows of `ir.dim` columns.  Column-wise operations act
on `α`.  Broadcasting between different leading shapes and dtypes are not represented.
-/

namespace E3nn

/-- A chunk: `None` or an array of shape `(mul, ir.dim)` (list of rows) (irreps_array.py:78-105). -/
abbrev Chunk (α : Type) := Option (List (List α))

/-- The four attributes of `IrrepsArray`, irreps_array.py:79-84. `chunks?` is the cache `_chunks`. -/
structure IArr (α : Type) where
  irreps : Irreps
  array : List α
  zeroFlags? : Option (List Bool)
  chunks? : Option (List (Chunk α))
  deriving DecidableEq, Repr

namespace IArr

variable {α β : Type}

/-- `jnp.reshape` of a list of `m * d` columns into `m` rows of `d` (irreps_array.py:200-204). -/
def rows : Nat → Nat → List α → List (List α)
  | 0, _, _ => []
  | m + 1, d, l => l.take d :: rows m d (l.drop d)

/-- `chunk.shape[-2:] == (mul, ir.dim)` (irreps_array.py:96-101). -/
def shapeOk (m : MulIrrep) : Chunk α → Bool
  | none => true
  | some c => c.length == m.mul && c.all fun r => r.length == m.ir.dim

/-- The constructor with its checks, irreps_array.py:86-114. -/
def make (irreps : Irreps) (array : List α) (zeroFlags : Option (List Bool))
    (chunks : Option (List (Chunk α))) : Except PyErr (IArr α) :=
  if array.length ≠ irreps.dim then .error .valueError
  else if !(match chunks with
      | none => true
      | some cs => (irreps.zip cs).all fun mc => shapeOk mc.1 mc.2) then .error .valueError
  else if (match zeroFlags with
      | none => false
      | some fs => decide (fs.length ≠ irreps.length)) then .error .valueError
  else if (match chunks with
      | none => false
      | some cs => decide (cs.length ≠ irreps.length)) then .error .valueError
  else .ok ⟨irreps, array, zeroFlags, chunks⟩

/-- The property `zero_flags`, irreps_array.py:210-214. -/
def zeroFlags (x : IArr α) : List Bool :=
  x.zeroFlags?.getD (List.replicate x.irreps.length false)

/-- The list computed when `_chunks` is `None`, irreps_array.py:184-206. -/
def computeChunks (irreps : Irreps) (array : List α) (flags : List Bool) : List (Chunk α) :=
  if irreps.length = 1 then
    match irreps, flags with
    | m :: _, z :: _ => [if z then none else some (rows m.mul m.ir.dim array)]
    | _, _ => []
  else
    (flags.zip (irreps.slices.zip irreps)).map fun (z, (i, j), m) =>
      if z then none else some (rows m.mul m.ir.dim ((array.take j).drop i))

/-- The property `chunks`, irreps_array.py:163-208 (without the effect of caching). -/
def chunks (x : IArr α) : List (Chunk α) :=
  match x.chunks? with
  | some cs => cs
  | none => computeChunks x.irreps x.array x.zeroFlags

/-- The effect of reading `x.chunks` on `x` itself: the list is stored, irreps_array.py:206. -/
def force (x : IArr α) : IArr α := { x with chunks? := some x.chunks }

/-- One piece of the concatenation in `from_chunks`, basic.py:63-76. -/
def flatChunk [Zero α] (m : MulIrrep) : Chunk α → List α
  | none => List.replicate m.dim 0
  | some c => c.flatten

/-- `from_chunks`, basic.py:12-80. `hasDtype` says that the `dtype` argument is given. -/
def fromChunks [Zero α] (irreps : Irreps) (cs : List (Chunk α)) (hasDtype : Bool := true) :
    Except PyErr (IArr α) :=
  if irreps.length ≠ cs.length then .error .valueError
  else if !((irreps.zip cs).all fun mc => shapeOk mc.1 mc.2) then .error .valueError
  else if !(hasDtype || cs.any Option.isSome) then .error .valueError
  else
    let array :=
      if irreps.dim > 0 then ((irreps.zip cs).map fun mc => flatChunk mc.1 mc.2).flatten
      else List.replicate 0 0
    make irreps array (some (cs.map Option.isNone)) (some cs)

/-- `zeros`, basic.py:106-112; `zeros_like`, basic.py:115-117, is this at the irreps of its argument. -/
def zeros [Zero α] (irreps : Irreps) : Except PyErr (IArr α) :=
  make irreps (List.replicate irreps.dim 0) (some (List.replicate irreps.length true)) none

/-- `ones`, basic.py:120-126; `ones_like`, basic.py:129-131, is this at the irreps of its argument. -/
def ones [One α] (irreps : Irreps) : Except PyErr (IArr α) :=
  make irreps (List.replicate irreps.dim 1) (some (List.replicate irreps.length false)) none

/-- `as_irreps_array` of a plain array with `a.length` columns, basic.py:83-103 (an `IrrepsArray` is returned
as it is; an array without axis raises `ValueError`). -/
def asIrrepsArray (a : List α) : Except PyErr (IArr α) := make [⟨a.length, ⟨0, .e⟩⟩] a none none

/-- `IrrepsArray(irreps, array)` (irreps_array.py:78-105). -/
def ofArray (irreps : Irreps) (array : List α) : Except PyErr (IArr α) :=
  make irreps array none none

/-- `tree_map(f, self._chunks)`: `None` entries (and a missing cache) are left alone (irreps_array.py:291, 404, 446, 471). -/
def mapChunks (f : α → β) (cs : Option (List (Chunk α))) : Option (List (Chunk β)) :=
  cs.map fun cs => cs.map fun c => c.map fun rows => rows.map fun r => r.map f

/-- Column-wise application of `f` to the array and the cached chunks, keeping the zero flags:
the common shape of `__neg__` (irreps_array.py:286-292), `__mul__`/`__truediv__` by a scalar or by
an array of last dimension 1 (400-405, 442-447), `astype` (648-662), `reshape` (618-646), indexing
of the leading axes (605-612) and `broadcast_to` (1220-1234). -/
def mapCols (f : α → β) (x : IArr α) : Except PyErr (IArr β) :=
  make x.irreps (x.array.map f) (some x.zeroFlags) (mapChunks f x.chunks?)

/-- `__neg__`, irreps_array.py:286-292. -/
def neg [Neg α] (x : IArr α) : Except PyErr (IArr α) := mapCols (fun a => -a) x

/-- `__mul__` by a number (or an array whose last dimension is 1), irreps_array.py:390-405; `f` is
the multiplication of a column. `self.irreps.lmax` is evaluated first and raises when there is no
irrep. -/
def scale (f : α → α) (x : IArr α) : Except PyErr (IArr α) :=
  match x.irreps.lmax with
  | .error e => .error e
  | .ok _ => mapCols f x

/-- `__add__` of one pair of cached chunks, irreps_array.py:319-320. -/
def addChunk [Add α] : Chunk α → Chunk α → Chunk α
  | none, y => y
  | some x, none => some x
  | some x, some y => some (List.zipWith (List.zipWith (· + ·)) x y)

/-- `__add__` of two `IrrepsArray` of the same leading shape, irreps_array.py:311-325. -/
def add [Add α] (x y : IArr α) : Except PyErr (IArr α) :=
  if x.irreps ≠ y.irreps then .error .valueError
  else
    let flags := List.zipWith (· && ·) x.zeroFlags y.zeroFlags
    let chunks :=
      match x.chunks?, y.chunks? with
      | some cx, some cy => some (List.zipWith addChunk cx cy)
      | _, _ => none
    make x.irreps (List.zipWith (· + ·) x.array y.array) (some flags) chunks

/-- `__add__` of a non-zero number, irreps_array.py:302-309. -/
def addScalar [Add α] (x : IArr α) (v : α) : Except PyErr (IArr α) :=
  if x.irreps.all fun m => m.ir == ⟨0, .e⟩ then make x.irreps (x.array.map (· + v)) none none
  else .error .valueError

/-- `__sub__` of one pair of cached chunks, irreps_array.py:357-358. -/
def subChunk [Sub α] [Neg α] : Chunk α → Chunk α → Chunk α
  | x, none => x
  | none, some y => some (y.map fun r => r.map fun a => -a)
  | some x, some y => some (List.zipWith (List.zipWith (· - ·)) x y)

/-- `__sub__` of two `IrrepsArray` of the same leading shape, irreps_array.py:349-363. -/
def sub [Sub α] [Neg α] (x y : IArr α) : Except PyErr (IArr α) :=
  if x.irreps ≠ y.irreps then .error .valueError
  else
    let flags := List.zipWith (· && ·) x.zeroFlags y.zeroFlags
    let chunks :=
      match x.chunks?, y.chunks? with
      | some cx, some cy => some (List.zipWith subChunk cx cy)
      | _, _ => none
    make x.irreps (List.zipWith (· - ·) x.array y.array) (some flags) chunks

/-- `__pow__` on scalars `0e`, irreps_array.py:467-472: the zero flags are *not* passed on, the
cached chunks are. `f` is the power of a column. -/
def powScalars (f : α → α) (x : IArr α) : Except PyErr (IArr α) :=
  if x.irreps.all fun m => m.ir == ⟨0, .e⟩ then
    make x.irreps (x.array.map f) none (mapChunks f x.chunks?)
  else .error .valueError

/-! ## rechunk -/

/-- The per-column flags, irreps_array.py:1117-1125. -/
def columnFlags (irreps : Irreps) (flags : List Bool) : List Bool :=
  ((flags.zip irreps).map fun zm => List.replicate (zm.2.mul * zm.2.ir.dim) zm.1).flatten

/-- The flags of the new chunks, irreps_array.py:1126. -/
def rechunkFlags (old : Irreps) (flags : List Bool) (new : Irreps) : List Bool :=
  new.slices.map fun (i, j) => (((columnFlags old flags).take j).drop i).all id

/-- `current_array`: an integer (number of zero rows so far) or an array of rows (irreps_array.py:1134). -/
inductive Cur (α : Type) where
  | count (n : Nat)
  | arr (rows : List (List α))

/-- `current_mul`, irreps_array.py:1143-1146. -/
def Cur.mul : Cur α → Nat
  | .count n => n
  | .arr r => r.length

/-- State of the loop of `rechunk`: `new_chunks`, the entries of `irreps` from index
`len(new_chunks)` on, and `current_array` (irreps_array.py:1133-1137). -/
structure RState (α : Type) where
  done : List (Chunk α)
  todo : Irreps
  cur : Cur α

/-- `while len(new_chunks) < len(irreps) and irreps[len(new_chunks)].mul == 0: new_chunks.append(None)`,
irreps_array.py:1136-1137 and 1203-1207. -/
def skipZeros (done : List (Chunk α)) : Irreps → List (Chunk α) × Irreps
  | [] => (done, [])
  | m :: ms => if m.mul = 0 then skipZeros (done ++ [none]) ms else (done, m :: ms)

/-- `current_array` extended by `x` (`m` rows), irreps_array.py:1162-1192. -/
def extendCur [Zero α] (d : Nat) (cur : Cur α) (m : Nat) (x : Chunk α) : Cur α :=
  match x, cur with
  | none, .count n => .count (n + m)
  | none, .arr r => .arr (r ++ List.replicate m (List.replicate d 0))
  | some x, .count n =>
    if n = 0 then .arr x else .arr (List.replicate n (List.replicate d 0) ++ x)
  | some x, .arr r => .arr (r ++ x)

/-- The completed chunk: `None` or the array (irreps_array.py:1194-1201). -/
def Cur.chunk : Cur α → Chunk α
  | .count _ => none
  | .arr r => some r

/-- The inner loop `while mul > 0`, irreps_array.py:1142-1207, for one chunk `y` of row length `d`.
`irreps[len(new_chunks)]` raises `IndexError` past the end; `needed_mul ≤ 0` would loop for ever
(or split at a non-positive place), `diverges` stands for that. -/
def rechunkInner [Zero α] (d : Nat) : Nat → Nat → Chunk α → RState α → Except PyErr (RState α)
  | _, 0, _, s => .ok s
  | 0, _ + 1, _, _ => .error .diverges
  | fuel + 1, mul, y, s =>
    match s.todo with
    | [] => .error .indexError
    | t :: ts =>
      if t.mul ≤ s.cur.mul then .error .diverges
      else
        let needed := t.mul - s.cur.mul
        let m := if mul ≤ needed then mul else needed
        let x := if mul ≤ needed then y else y.map fun r => r.take needed
        let y' := if mul ≤ needed then y else y.map fun r => r.drop needed
        let mul' := if mul ≤ needed then 0 else mul - needed
        let cur := extendCur d s.cur m x
        if cur.mul = t.mul then
          let (done, todo) := skipZeros (s.done ++ [cur.chunk]) ts
          rechunkInner d fuel mul' y' ⟨done, todo, .count 0⟩
        else
          rechunkInner d fuel mul' y' ⟨s.done, t :: ts, cur⟩

/-- The outer loop `for mul_ir, y in zip(self.irreps, self.chunks)`, irreps_array.py:1139-1207. -/
def rechunkOuter [Zero α] : List (MulIrrep × Chunk α) → RState α → Except PyErr (RState α)
  | [], s => .ok s
  | (m, y) :: l, s =>
    match rechunkInner m.ir.dim m.mul m.mul y s with
    | .error e => .error e
    | .ok s => rechunkOuter l s

/-- The final assertions on one new chunk, irreps_array.py:1209-1216. -/
def finalCheck : MulIrrep × Chunk α × Bool → Except PyErr Unit
  | (_, none, true) => .ok ()
  | (_, some _, true) => .error .assertion
  | (_, none, false) => .error .attributeError
  | (m, some c, false) => if shapeOk m (some c) then .ok () else .error .assertion

/-- `new_chunks` when the cache is filled, irreps_array.py:1128-1216. -/
def rechunkChunks [Zero α] (old : Irreps) (cs : List (Chunk α)) (new : Irreps)
    (flags : List Bool) : Except PyErr (List (Chunk α)) :=
  let (done, todo) := skipZeros [] new
  match rechunkOuter (old.zip cs) ⟨done, todo, .count 0⟩ with
  | .error e => .error e
  | .ok s =>
    match s.cur with
    | .arr _ => .error .assertion
    | .count n =>
      if n ≠ 0 then .error .assertion
      else if s.done.length ≠ new.length then .error .assertion
      else
        match (new.zip (s.done.zip flags)).mapM finalCheck with
        | .error e => .error e
        | .ok _ => .ok s.done

/-- `rechunk`, irreps_array.py:1093-1218. -/
def rechunk [Zero α] (x : IArr α) (new : Irreps) : Except PyErr (IArr α) :=
  if x.irreps.simplify ≠ new.simplify then .error .assertion
  else if x.irreps = new then .ok x
  else
    let flags := rechunkFlags x.irreps x.zeroFlags new
    match x.chunks? with
    | none => make new x.array (some flags) none
    | some cs =>
      match rechunkChunks x.irreps cs new flags with
      | .error e => .error e
      | .ok new_chunks => make new x.array (some flags) (some new_chunks)

/-! ## structural operations -/

/-- `simplify`, irreps_array.py:685-695. -/
def simplify [Zero α] (x : IArr α) : Except PyErr (IArr α) := x.rechunk x.irreps.simplify

/-- `unify`, irreps_array.py:697-704. -/
def unify [Zero α] (x : IArr α) : Except PyErr (IArr α) := x.rechunk x.irreps.unify

/-- `[self.chunks[i] for i in inv]` (irreps_array.py:716). -/
def pick (cs : List (Chunk α)) (inv : List Nat) : Except PyErr (List (Chunk α)) :=
  inv.mapM fun i =>
    match cs[i]? with
    | some c => .ok c
    | none => .error .indexError

/-- `sort`, irreps_array.py:706-720. -/
def sort [Zero α] (x : IArr α) : Except PyErr (IArr α) := do
  let r ← x.irreps.sort
  let cs ← pick x.chunks r.inv
  fromChunks r.irreps cs

/-- `regroup`, irreps_array.py:729-738. -/
def regroup [Zero α] (x : IArr α) : Except PyErr (IArr α) := do
  let y ← x.sort
  y.simplify

/-- `filter`, irreps_array.py:740-773. Which chunks are kept is decided by `mul_ir in new_irreps`,
which looks at the irrep only. -/
def filter [Zero α] (x : IArr α) (keep drop : Option Irreps.FilterArg) (lmax : Option Int) :
    Except PyErr (IArr α) :=
  if keep.isNone && drop.isNone && lmax.isNone then .ok x
  else
    match x.irreps.filter' keep drop lmax with
    | .error e => .error e
    | .ok new =>
      fromChunks new (((x.chunks.zip x.irreps).filter fun cm => new.contains cm.2.ir).map Prod.fst)

/-- The loop of `extend_with_zeros`, irreps_array.py:799-811: the new chunks and the entries of
`cur_irreps` that were not matched. -/
def extendLoop : List (MulIrrep × Chunk α) → Irreps → List (Chunk α) × List (MulIrrep × Chunk α)
  | cur, [] => ([], cur)
  | [], ms => (ms.map fun _ => none, [])
  | (m, c) :: cur, n :: ns =>
    if m = n then
      let (r, rest) := extendLoop cur ns
      (c :: r, rest)
    else
      let (r, rest) := extendLoop ((m, c) :: cur) ns
      (none :: r, rest)

/-- `extend_with_zeros`, irreps_array.py:782-823. -/
def extendWithZeros [Zero α] (x : IArr α) (new : Irreps) : Except PyErr (IArr α) :=
  let (cs, rest) := extendLoop (x.irreps.zip x.chunks) new
  if rest.length > 0 then .error .valueError
  else fromChunks new cs

/-- `remove_zero_chunks`, irreps_array.py:671-683. -/
def removeZeroChunks [Zero α] (x : IArr α) : Except PyErr (IArr α) :=
  fromChunks (((x.irreps.zip x.zeroFlags).filter fun mz => !mz.2).map Prod.fst)
    (((x.chunks.zip x.zeroFlags).filter fun cz => !cz.2).map Prod.fst)

/-- The loop of `slice_by_mul`, irreps_array.py:1401-1412; subscripting `None` raises `TypeError`.
Multiplicities may come out negative, as in `Irreps.slice_by_mul`. -/
def sliceByMulLoop (start stop : Nat) : Nat → List (MulIrrep × Chunk α) →
    Except PyErr (List ((Int × Irrep) × Chunk α))
  | _, [] => .ok []
  | i, (m, x) :: l =>
    if start ≤ i ∧ i + m.mul ≤ stop then do
      let r ← sliceByMulLoop start stop (i + m.mul) l
      return (((m.mul : Int), m.ir), x) :: r
    else if start < i + m.mul ∧ i < stop then
      match x with
      | none => .error .typeError
      | some c => do
        let r ← sliceByMulLoop start stop (i + m.mul) l
        return (((min stop (i + m.mul) : Int) - (max start i : Int), m.ir),
          some ((c.take (min stop (i + m.mul) - i)).drop (max start i - i))) :: r
    else sliceByMulLoop start stop (i + m.mul) l

/-- `slice_by_mul`, irreps_array.py:1390-1419. -/
def sliceByMul [Zero α] (x : IArr α) (s : PySlice) : Except PyErr (IArr α) :=
  if s.step = some 0 then .error .valueError
  else if s.stepIsOne then do
    let b := s.bounds x.irreps.numIrreps
    let r ← sliceByMulLoop b.1 b.2 0 (x.irreps.zip x.chunks)
    let irreps ← Irreps.ofPairs (r.map Prod.fst)
    fromChunks irreps (r.map Prod.snd)
  else .error .notImplemented

/-- `slice_by_chunk`, irreps_array.py:1442-1455, for step 1. -/
def sliceByChunk [Zero α] (x : IArr α) (s : PySlice) : Except PyErr (IArr α) :=
  let b := s.bounds x.irreps.length
  fromChunks ((x.irreps.take b.2).drop b.1) ((x.chunks.take b.2).drop b.1)

/-! ## indexing of the irreps axis -/

/-- The positions at which `pat` occurs, irreps_array.py:507-511. -/
def occurrences (irreps pat : Irreps) : List Nat :=
  (List.range irreps.length).filter fun i => decide ((irreps.drop i).take pat.length = pat)

/-- `x[..., irreps]`, irreps_array.py:499-526. -/
def getIrreps (x : IArr α) (pat : Irreps) : Except PyErr (IArr α) :=
  match occurrences x.irreps pat with
  | [i] =>
    make pat ((x.array.take (Irreps.dim (x.irreps.take (i + pat.length)))).drop (Irreps.dim (x.irreps.take i)))
      (some ((x.zeroFlags.drop i).take pat.length)) (some ((x.chunks.drop i).take pat.length))
  | _ => .error .indexError

/-- Outcome of the scan over the terms (irreps_array.py:539-582). -/
inductive Scan where
  /-- cut term number `k` into `mul1` and the rest, then start again. -/
  | split (k : Nat) (mul1 : Int)
  | found (a b : Nat)
  | notFound
  deriving DecidableEq, Repr

/-- `self.irreps[k].ir.dim`, irreps_array.py:550 and 565 (`k` is in range when it is used). -/
def termDim (irreps : Irreps) (k : Nat) : Nat :=
  match irreps[k]? with
  | some m => m.ir.dim
  | none => 1

/-- The loop at irreps_array.py:542-582 over `i ∈ range(len(irreps) + 1)`; `s` is `irreps_start`.
`(start - self.irreps[: i - 1].dim) % ir.dim` is Python's floor modulus of a possibly negative
integer. `irreps_stop` is always `None` before the `break`. -/
def scan (irreps : Irreps) (start stop : Nat) : List Nat → Option Nat → Scan
  | [], _ => .notFound
  | i :: is, s =>
    let d := Irreps.dim (irreps.take i)
    let s := if d = start then some i else s
    let prev := Irreps.dim (irreps.take (i - 1))
    let irdim := termDim irreps (i - 1)
    if s = none ∧ start < d ∧ ((start : Int) - prev) % irdim = 0 then
      .split (i - 1) (((start : Int) - prev) / irdim)
    else if d = stop then
      match s with
      | some a => .found a i
      | none => .notFound
    else if stop < d ∧ ((stop : Int) - prev) % irdim = 0 then
      .split (i - 1) (((stop : Int) - prev) / irdim)
    else scan irreps start stop is s

/-- `self.irreps[:k] + Irreps([(mul1, ir), (mul - mul1, ir)]) + self.irreps[k+1:]`,
irreps_array.py:551-555, 566-570; `Irreps` raises on negative multiplicities. -/
def splitTerm (irreps : Irreps) (k : Nat) (mul1 : Int) : Except PyErr Irreps :=
  match irreps[k]? with
  | none => .error .indexError
  | some m => do
    let mid ← Irreps.ofPairs [(mul1, m.ir), ((m.mul : Int) - mul1, m.ir)]
    return irreps.take k ++ mid ++ irreps.drop (k + 1)

/-- `x[..., start:stop]` for resolved bounds, irreps_array.py:528-582; the recursion
`self.rechunk(...)[index]` takes fuel. -/
def getSliceAux [Zero α] (start stop : Nat) : Nat → IArr α → Except PyErr (IArr α)
  | 0, _ => .error .diverges
  | fuel + 1, x =>
    match scan x.irreps start stop (List.range (x.irreps.length + 1)) none with
    | .notFound => .error .indexError
    | .split k mul1 => do
      let new ← splitTerm x.irreps k mul1
      let y ← x.rechunk new
      getSliceAux start stop fuel y
    | .found a b =>
      make ((x.irreps.take b).drop a) ((x.array.take stop).drop start)
        (some ((x.zeroFlags.take b).drop a)) (some ((x.chunks.take b).drop a))

/-- `x[..., s]` for a slice `s` without step and with at least one bound, irreps_array.py:528-582
(also `slice_by_dim`, 1422-1433). -/
def getSlice [Zero α] (x : IArr α) (s : PySlice) : Except PyErr (IArr α) :=
  getSliceAux (s.bounds x.array.length).1 (s.bounds x.array.length).2 3 x

/-! ## `x.at[index]` on leading axes -/

/-- `x.at[index].set(0)`, irreps_array.py:1303-1309; `f` is the update of one column. -/
def atSetZero (f : α → α) (x : IArr α) : Except PyErr (IArr α) :=
  make x.irreps (x.array.map f) (some x.zeroFlags) none

/-- `x.at[index].set(values)` / `.add(values)` for an `IrrepsArray` of values with columns in `β`
(a smaller leading shape), irreps_array.py:1311-1327 and 1361-1377; `f old new` is the update of
one column. -/
def atUpdate [Zero β] (f : α → β → α) (x : IArr α) (values : IArr β) : Except PyErr (IArr α) :=
  if x.irreps.simplify ≠ values.irreps.simplify then .error .valueError
  else do
    let v ← values.rechunk x.irreps
    make x.irreps (List.zipWith f x.array v.array)
      (some (List.zipWith (· && ·) x.zeroFlags v.zeroFlags)) none

/-! ## concatenate (basic.py) -/

/-- `concatenate(arrays, axis=-1)`, basic.py:264-304. -/
def concatenate (xs : List (IArr α)) : Except PyErr (IArr α) :=
  if xs.length = 0 then .error .valueError
  else make (xs.map IArr.irreps).flatten (xs.map IArr.array).flatten
    (some (xs.map IArr.zeroFlags).flatten) (some (xs.map IArr.chunks).flatten)

end IArr
end E3nn
