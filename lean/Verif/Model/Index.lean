import Verif.Model.IArr

/-!
# `x[index]` for indices of the leading axes (irreps_array.py:494-613)

The numpy arrays are modelled by their shape and the value at each position. Indices with arrays or booleans and slices with a negative step
are not modelled; integers out of range raise IndexError as in numpy (jax clamps them).
-/

namespace E3nn.Ndx

/-- An array of any number of axes (irreps_array.py:80, 84). -/
structure ND (α : Type) where
  shape : List Nat
  get : List Nat → α

/-- One entry of an index: an integer, a slice (the step, if given, is positive), `None`, or `...` (irreps_array.py:33-38, 494-496). -/
inductive Ix where
  | int (k : Int)
  | slice (start stop : Option Int) (step : Option Nat)
  | newaxis
  | ellipsis
  deriving DecidableEq, Repr

/-- `slice(None)`, irreps_array.py:37-38. -/
def full : Ix := .slice none none none

/-- The entries that use up one axis in `self.array[index]` (irreps_array.py:609). -/
def consumes : Ix → Bool
  | .int _ => true
  | .slice _ _ _ => true
  | _ => false

/-- `...` stands for as many `:` as needed; without it they are added at the end (the indexing of numpy, irreps_array.py:609, 611). -/
def expandIx (idx : List Ix) (nd : Nat) : Except PyErr (List Ix) :=
  if idx.count .ellipsis > 1 then .error .indexError
  else if idx.countP consumes > nd then .error .indexError
  else
    let fill := List.replicate (nd - idx.countP consumes) full
    if .ellipsis ∈ idx then .ok (idx.flatMap fun e => if e = .ellipsis then fill else [e]) else .ok (idx ++ fill)

/-- What an entry does to its axis: a new axis of length 1, one position, or `len` positions from `start` with a stride (irreps_array.py:609). -/
inductive Act where
  | new
  | pick (k : Nat)
  | range (start len step : Nat)
  deriving DecidableEq, Repr

/-- The entries applied to the axes of a shape, from left to right (the indexing of numpy, irreps_array.py:609, 611). -/
def resolve : List Ix → List Nat → Except PyErr (List Act)
  | [], [] => .ok []
  | .newaxis :: r, s => (resolve r s).map (.new :: ·)
  | .int k :: r, n :: s =>
    if -(n : Int) ≤ k ∧ k < n then (resolve r s).map (.pick (k % (n : Int)).toNat :: ·) else .error .indexError
  | .slice a b st :: r, n :: s =>
    let step := st.getD 1
    let start := (a.map (adjustIndex n)).getD 0
    let stop := (b.map (adjustIndex n)).getD n
    if step = 0 then .error .valueError
    else (resolve r s).map (.range start ((stop - start + (step - 1)) / step) step :: ·)
  | _, _ => .error .indexError

/-- The shape of the result (irreps_array.py:609). -/
def outShape : List Act → List Nat
  | [] => []
  | .new :: r => 1 :: outShape r
  | .pick _ :: r => outShape r
  | .range _ n _ :: r => n :: outShape r

/-- The position in the array which a position of the result shows (irreps_array.py:609). -/
def back : List Act → List Nat → List Nat
  | [], _ => []
  | .new :: r, i => back r i.tail
  | .pick k :: r, i => k :: back r i
  | .range a _ st :: r, i => (a + i.headD 0 * st) :: back r i.tail

variable {α : Type}

/-- `array[index]` of numpy (irreps_array.py:609, 611). -/
def npIndex (a : ND α) (idx : List Ix) : Except PyErr (ND α) :=
  match expandIx idx a.shape.length with
  | .error e => .error e
  | .ok l =>
    match resolve l a.shape with
    | .error e => .error e
    | .ok r => .ok ⟨outShape r, fun i => a.get (back r i)⟩

/-- The four attributes of `IrrepsArray`, irreps_array.py:79-84; `flags` is the property `zero_flags` (210-214). -/
structure NI (α : Type) where
  irreps : Irreps
  array : ND α
  flags : List Bool
  chunks? : Option (List (Option (ND α)))

/-- `chunk.shape[-2:] == (mul, ir.dim)`, irreps_array.py:96-101. -/
def chunkOk (m : MulIrrep) : Option (ND α) → Bool
  | none => true
  | some c => c.shape.drop (c.shape.length - 2) == [m.mul, m.ir.dim]

/-- The constructor with its checks, irreps_array.py:86-114. -/
def mk' (irreps : Irreps) (array : ND α) (flags : List Bool) (chunks : Option (List (Option (ND α)))) : Except PyErr (NI α) :=
  if array.shape ≠ [] ∧ array.shape.getLastD 0 ≠ irreps.dim then .error .valueError
  else if array.shape ≠ [] ∧ ¬ ((irreps.zip (chunks.getD [])).all fun q => chunkOk q.1 q.2) then .error .valueError
  else if flags.length ≠ irreps.length then .error .valueError
  else if (match chunks with
      | none => false
      | some cs => decide (cs.length ≠ irreps.length)) then .error .valueError
  else .ok ⟨irreps, array, flags, chunks⟩

/-- `tree_map(lambda x: x[index + (slice(None),)], chunks)`, irreps_array.py:611: `None` chunks stay. -/
def chunksIx (idx : List Ix) : List (Option (ND α)) → Except PyErr (List (Option (ND α)))
  | [] => .ok []
  | none :: cs => (chunksIx idx cs).map (none :: ·)
  | some c :: cs =>
    match npIndex c (idx ++ [full]) with
    | .error e => .error e
    | .ok d => (chunksIx idx cs).map (some d :: ·)

/-- `__getitem__` after the cases of irreps and slices of the irreps axis, irreps_array.py:584-612. -/
def plain (x : NI α) (idx : List Ix) : Except PyErr (NI α) :=
  let nd := x.array.shape.length
  let init := idx.dropLast
  let last := idx.getLast?
  if (init.length = nd ∨ .ellipsis ∈ init) ∧ last = some .newaxis then .error .indexError
  else if (idx.length = nd ∨ .ellipsis ∈ init) ∧ ¬ (last = some .ellipsis ∨ last = some full ∨ last = some .newaxis) then .error .indexError
  else
    match npIndex x.array idx with
    | .error e => .error e
    | .ok a =>
      match x.chunks? with
      | none => mk' x.irreps a x.flags none
      | some cs =>
        match chunksIx idx cs with
        | .error e => .error e
        | .ok ds => mk' x.irreps a x.flags (some ds)

/-- `x[index]`, irreps_array.py:494-613, for indices without irreps. `cut x a b` is `x[..., a:b]` for one or two bounds, of which Model/IArr.lean has
the details. -/
def getitem (cut : NI α → Option Int → Option Int → Except PyErr (NI α)) (x : NI α) (idx : List Ix) : Except PyErr (NI α) :=
  match idx.getLast? with
  | none => .error .indexError
  | some (.slice a b none) =>
    if (idx.length = x.array.shape.length ∨ .ellipsis ∈ idx.dropLast) ∧ (a.isSome ∨ b.isSome) then
      match cut x a b with
      | .error e => .error e
      | .ok y => plain y (idx.dropLast ++ [full])
    else plain x idx
  | some _ => plain x idx

/-- The property `chunks`, irreps_array.py:163-208: the stored list, or views of the array, `None` for the flagged terms. -/
def views (x : NI α) : List (Option (ND α)) :=
  match x.chunks? with
  | some cs => cs
  | none => (List.range x.irreps.length).map fun t =>
    match x.irreps[t]?, x.flags[t]? with
    | some m, some false => some ⟨x.array.shape.dropLast ++ [m.mul, m.ir.dim], fun p =>
        x.array.get (p.dropLast.dropLast ++ [Irreps.dim (x.irreps.take t) + p.dropLast.getLastD 0 * m.ir.dim + p.getLastD 0])⟩
    | _, _ => none

/-- `x[index, irreps]`, irreps_array.py:498-526; `idx` is the index without its last entry. -/
def getitemIrreps (x : NI α) (idx : List Ix) (pat : Irreps) : Except PyErr (NI α) :=
  if ¬ (.ellipsis ∈ idx ∨ idx.length + 1 = x.array.shape.length) then .error .indexError
  else
    match E3nn.IArr.occurrences x.irreps pat with
    | [i] =>
      let a := Irreps.dim (x.irreps.take i)
      let b := Irreps.dim (x.irreps.take (i + pat.length))
      match mk' pat ⟨x.array.shape.dropLast ++ [b - a], fun p => x.array.get (p.dropLast ++ [a + p.getLastD 0])⟩
          ((x.flags.drop i).take pat.length) (some (((views x).drop i).take pat.length)) with
      | .error e => .error e
      | .ok y => plain y (idx ++ [full])
    | _ => .error .indexError

/-- `list(x)`: `x[0], ..., x[len(x) - 1]`, irreps_array.py:488-492. -/
def iter (cut : NI α → Option Int → Option Int → Except PyErr (NI α)) (x : NI α) : Except PyErr (List (NI α)) :=
  if x.array.shape.length ≤ 1 then .error .valueError
  else (List.range (x.array.shape.headD 0)).mapM fun i : Nat => getitem cut x [.int (i : Int)]

end E3nn.Ndx
