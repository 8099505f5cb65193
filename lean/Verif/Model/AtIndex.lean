import Verif.Model.Index

/-!
# `x.at[index].set(values)` and `x.at[index].add(values)` (irreps_array.py:1262-1382)

The values have the shape of `x[index]`; broadcasting of the values is not modelled.
-/

namespace E3nn.Ndx

variable {α : Type}

/-- The position of the indexed array which shows a position of the array, if any (`array.at[index]`, irreps_array.py:1307, 1325, 1375). -/
def fwd : List Act → List Nat → Option (List Nat)
  | [], _ => some []
  | .new :: r, p => (fwd r p).map (0 :: ·)
  | .pick k :: r, p => if p.headD 0 = k then fwd r p.tail else none
  | .range a n st :: r, p =>
    let q := p.headD 0
    if a ≤ q ∧ (q - a) % st = 0 ∧ (q - a) / st < n then (fwd r p.tail).map ((q - a) / st :: ·) else none

/-- One entry after the update (irreps_array.py:1307, 1325, 1375). -/
def updGet (op : α → α → α) (a v : ND α) (r : List Act) (p : List Nat) : α :=
  match fwd r p with
  | some i => op (a.get p) (v.get i)
  | none => a.get p

/-- `array.at[index].set(values)` with `op old new = new`, `array.at[index].add(values)` with `op = (+)` (irreps_array.py:1307, 1325, 1375). -/
def npUpdate (op : α → α → α) (a : ND α) (idx : List Ix) (v : ND α) : Except PyErr (ND α) :=
  match expandIx idx a.shape.length with
  | .error e => .error e
  | .ok l =>
    match resolve l a.shape with
    | .error e => .error e
    | .ok r =>
      if v.shape ≠ outShape r then .error .valueError
      else .ok ⟨a.shape, updGet op a v r⟩

/-- The tests on the index, irreps_array.py:1278-1301 and 1338-1358; `none` is no error. -/
def atGuard (nd : Nat) (idx : List Ix) : Option PyErr :=
  match idx.getLast? with
  | none => some .indexError
  | some E =>
    if (match E with
      | .slice a b none => decide (Ix.ellipsis ∈ idx.dropLast ∨ idx.length = nd) && (a.isSome || b.isSome)
      | _ => false) then some .notImplemented
    else if (idx.length = nd ∨ Ix.ellipsis ∈ idx) ∧ ¬ (E = Ix.ellipsis ∨ E = full) then some .indexError
    else none

/-- `x.at[index].set(values)` and `.add(values)` for an `IrrepsArray` of values, irreps_array.py:1276-1327 and 1334-1377; `rechunk` is
`values.rechunk(irreps)` (Model/IArr.lean has its details). -/
def atOp (rechunk : NI α → Irreps → Except PyErr (NI α)) (op : α → α → α) (x : NI α) (idx : List Ix) (values : NI α) : Except PyErr (NI α) :=
  match atGuard x.array.shape.length idx with
  | some e => .error e
  | none =>
    if x.irreps.simplify ≠ values.irreps.simplify then .error .valueError
    else
      match rechunk values x.irreps with
      | .error e => .error e
      | .ok v =>
        match npUpdate op x.array idx v.array with
        | .error e => .error e
        | .ok a => mk' x.irreps a (List.zipWith (· && ·) x.flags v.flags) none

end E3nn.Ndx
