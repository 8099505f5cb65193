import Verif.Model.IArr
import Mathlib.Algebra.Group.Pi.Basic
import Mathlib.Algebra.BigOperators.Group.List.Basic

/-!
# The leading axes with their shape: `reshape`, `broadcast_to`, `axis_to_irreps` (irreps_array.py:618-646, 851-866, 1220-1234)

An array of shape `lead + (dim,)` is stored in row-major order: a column is a function of the position in the leading axes.
-/

namespace E3nn.Shp

open E3nn.IArr

variable {α : Type}

/-- An `IrrepsArray` with the shape of its leading axes (`self.shape[:-1]`, irreps_array.py:217-219). -/
structure NArr (α : Type) where
  lead : List ℕ
  val : IArr (Fin lead.prod → α)

/-- The position of a multi-index in row-major (C) order: the order in which `reshape` reads and writes (irreps_array.py:640, 643, 865). -/
def flat : List ℕ → List ℕ → ℕ
  | _ :: s, i :: is => i * s.prod + flat s is
  | _, _ => 0

/-- The multi-index at a position, inverse of `flat` (irreps_array.py:640, 643, 865). -/
def unflat : List ℕ → ℕ → List ℕ
  | [], _ => []
  | _ :: s, k => (k / s.prod) :: unflat s (k % s.prod)

/-- An entry of a column, zero outside (irreps_array.py:640: never read outside, C112). -/
def at0 [Zero α] {n : ℕ} (col : Fin n → α) (k : ℕ) : α := if h : k < n then col ⟨k, h⟩ else 0

/-- The shape computed by `a.reshape(s + tail)` of an array with `n * tail` entries (irreps_array.py:640, 643): at most one `-1`, which is
inferred. Wrong sizes raise `TypeError` (jax; numpy raises `ValueError`). When the known sizes multiply to zero the result of the inference
depends on the backend: `undefined`. -/
def resolve (s : List Int) (tail n : ℕ) : Except PyErr (List ℕ) :=
  if s.any (fun k => decide (k < -1)) || decide (1 < s.count (-1)) then .error .typeError
  else if s.count (-1) = 0 then
    if (s.map Int.toNat).prod * tail = n * tail then .ok (s.map Int.toNat) else .error .typeError
  else
    let known := ((s.filter fun k => k ≠ -1).map Int.toNat).prod * tail
    if known = 0 then .error .undefined
    else if n * tail % known ≠ 0 then .error .typeError
    else .ok (s.map fun k => if k = -1 then n * tail / known else k.toNat)

/-- The reshaped cached chunks of `tree_map`, irreps_array.py:642-644: one `reshape` for each chunk that is not `None`. -/
def chunksResolve (x : NArr α) (s : List Int) : Except PyErr Unit :=
  match x.val.chunks? with
  | none => .ok ()
  | some cs => (x.val.irreps.zip cs).forM fun q =>
      match q.2 with
      | none => .ok ()
      | some _ => (resolve s (q.1.mul * q.1.ir.dim) x.lead.prod).map fun _ => ()

/-- `x.reshape(shape)`, irreps_array.py:618-646. -/
def reshape [Zero α] (x : NArr α) (shape : List Int) : Except PyErr (NArr α) :=
  match shape.getLast? with
  | none => .error .indexError
  | some l =>
    if l ≠ x.val.irreps.dim ∧ l ≠ -1 then .error .assertion
    else do
      let lead ← resolve shape.dropLast x.val.irreps.dim x.lead.prod
      chunksResolve x shape.dropLast
      let v ← mapCols (fun col (k : Fin lead.prod) => at0 col k) x.val
      .ok ⟨lead, v⟩

/-- The rule of `jnp.broadcast_to` for the leading axes, irreps_array.py:1227-1230: the axes are aligned at the end, each one equal or `1`. -/
def bcOk (s t : List ℕ) : Bool :=
  decide (s.length ≤ t.length) && ((t.drop (t.length - s.length)).zip s).all fun q => q.2 == q.1 || q.2 == 1

/-- The index read by `jnp.broadcast_to`, irreps_array.py:1227-1230. -/
def bcIdx (s i : List ℕ) : List ℕ := List.zipWith (fun n k => if n = 1 then 0 else k) s (i.drop (i.length - s.length))

/-- `x.broadcast_to(shape)`, irreps_array.py:1220-1234. -/
def broadcastTo [Zero α] (x : NArr α) (shape : List Int) : Except PyErr (NArr α) :=
  match shape.getLast? with
  | none => .error .indexError
  | some l =>
    if l ≠ x.val.irreps.dim ∧ l ≠ -1 then .error .assertion
    else if shape.dropLast.any (fun k => decide (k < 0)) then .error .valueError
    else
      let lead := shape.dropLast.map Int.toNat
      if !bcOk x.lead lead then .error .valueError
      else
        let f := fun (col : Fin x.lead.prod → α) (k : Fin lead.prod) => at0 col (flat x.lead (bcIdx x.lead (unflat lead k)))
        match make x.val.irreps (x.val.array.map f) (some x.val.zeroFlags) (mapChunks f (some x.val.chunks)) with
        | .error e => .error e
        | .ok v => .ok ⟨lead, v⟩

/-- `x.axis_to_irreps(axis)`, irreps_array.py:851-866: `_standardize_axis` (1245-1259), `moveaxis(array, axis, -2)`, then a `reshape` with
`self.shape[:-2]`. The last axis is not refused. -/
def axisToIrreps [Zero α] (x : NArr α) (axis : Int) : Except PyErr (NArr α) :=
  let nd := x.lead.length + 1
  if nd < 2 then .error .assertion
  else if ¬ (-(nd : Int) ≤ axis ∧ axis < nd) then .error .valueError
  else
    let a := (axis % nd).toNat
    let full := x.lead ++ [x.val.irreps.dim]
    let n := full.getD a 0
    let irr := (x.val.irreps.rep n).simplify
    let moved := (full.eraseIdx a).insertIdx (nd - 2) n
    let lead := x.lead.dropLast
    if lead.prod * irr.dim ≠ x.lead.prod * x.val.irreps.dim then .error .typeError
    else
      let array := (List.range irr.dim).map fun c => fun k : Fin lead.prod =>
        let i := unflat moved (k * irr.dim + c)
        let j := (i.eraseIdx (nd - 2)).insertIdx a (i.getD (nd - 2) 0)
        at0 (x.val.array.getD (j.getLastD 0) 0) (flat x.lead j.dropLast)
      match ofArray irr array with
      | .error e => .error e
      | .ok v => .ok ⟨lead, v⟩

end E3nn.Shp
