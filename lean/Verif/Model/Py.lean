/-!
# Python values used by every model

Exceptions raised by the modelled code are values of `PyErr`; a modelled function that can raise
returns `Except PyErr _`.  `PySlice` is a Python `slice` object with integer (or missing) fields.
-/

namespace E3nn

/-- The exception classes raised by the modelled code (irreps.py:63-100). -/
inductive PyErr where
  | valueError
  | indexError
  | notImplemented
  | assertion
  | typeError
  | attributeError
  | zeroDivision
  | keyError
  | runtimeError
  | nameError
  /-- Not a Python exception: a modelled `while` loop or recursion that does not terminate. -/
  | diverges
  /-- Not a Python exception: the library documents the result as unspecified. -/
  | undefined
  deriving DecidableEq, Repr

/-- A Python `slice(start, stop, step)` whose fields are `None` or integers (irreps.py:960-1018). -/
structure PySlice where
  start : Option Int
  stop : Option Int
  step : Option Int
  deriving DecidableEq, Repr

/-- One bound of `slice.indices(n)` for step `1` (CPython `PySlice_AdjustIndices`): negative bounds
count from the end, then the bound is clamped to `[0, n]` (irreps.py:964, 989 and irreps_array.py:537). -/
def adjustIndex (n : Nat) (i : Int) : Nat :=
  if i < 0 then (i + n).toNat else min i.toNat n

/-- `slice.indices(n)` for slices of step `1` or `None`; any other step makes the callers in
irreps.py raise, which is modelled by the callers. Returns `(start, stop)` (irreps.py:964, 989 and irreps_array.py:537). -/
def PySlice.bounds (s : PySlice) (n : Nat) : Nat × Nat :=
  ((s.start.map (adjustIndex n)).getD 0, (s.stop.map (adjustIndex n)).getD n)

/-- `index.indices(len)` returned a stride equal to 1 (irreps.py:965 and 990). -/
def PySlice.stepIsOne (s : PySlice) : Bool :=
  match s.step with
  | none => true
  | some k => k == 1

/-- One insertion of `sorted`: `a` goes before the first element that is not smaller than it (irreps.py:674). -/
def pyInsert {α : Type _} (lt : α → α → Bool) (a : α) : List α → List α
  | [] => [a]
  | b :: bs => if lt b a then b :: pyInsert lt a bs else a :: b :: bs

/-- Python's `sorted` for a comparison `<` that is a strict weak order: a stable sort. Insertion
sort is used as its meaning; the lemmas in `Verif.Lemmas.Sort` show that the result is the unique
sorted stable rearrangement (irreps.py:674). -/
def pySorted {α : Type _} (lt : α → α → Bool) (l : List α) : List α := l.foldr (pyInsert lt) []

end E3nn
