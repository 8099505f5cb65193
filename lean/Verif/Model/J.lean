/-!
# The tables of `e3nn_jax/_src/J.py`

Generated from the source by a script that only rewrites the syntax: `n * sqrt(r) / d` becomes
`⟨n, r, d⟩`, an integer `n` becomes `⟨n, 1, 1⟩` and `n / d` becomes `⟨n, 1, d⟩`.
-/

namespace E3nn

/-- The number `num * sqrt(rad) / den` (J.py:6-2186). -/
structure JE where
  num : Int
  rad : Nat
  den : Nat
  deriving DecidableEq

/-- `J0`, J.py:6-10. -/
def jTable0 : List (List JE) := [
  [⟨1, 1, 1⟩]]

/-- `J1`, J.py:12-18. -/
def jTable1 : List (List JE) := [
  [⟨0, 1, 1⟩, ⟨-1, 1, 1⟩, ⟨0, 1, 1⟩],
  [⟨-1, 1, 1⟩, ⟨0, 1, 1⟩, ⟨0, 1, 1⟩],
  [⟨0, 1, 1⟩, ⟨0, 1, 1⟩, ⟨1, 1, 1⟩]]

/-- `J2`, J.py:20-28. -/
def jTable2 : List (List JE) := [
  [⟨0, 1, 1⟩, ⟨0, 1, 1⟩, ⟨0, 1, 1⟩, ⟨-1, 1, 1⟩, ⟨0, 1, 1⟩],
  [⟨0, 1, 1⟩, ⟨1, 1, 1⟩, ⟨0, 1, 1⟩, ⟨0, 1, 1⟩, ⟨0, 1, 1⟩],
  [⟨0, 1, 1⟩, ⟨0, 1, 1⟩, ⟨-1, 1, 2⟩, ⟨0, 1, 1⟩, ⟨-1, 3, 2⟩],
  [⟨-1, 1, 1⟩, ⟨0, 1, 1⟩, ⟨0, 1, 1⟩, ⟨0, 1, 1⟩, ⟨0, 1, 1⟩],
  [⟨0, 1, 1⟩, ⟨0, 1, 1⟩, ⟨-1, 3, 2⟩, ⟨0, 1, 1⟩, ⟨1, 1, 2⟩]]

/-- `J3`, J.py:30-40. -/
def jTable3 : List (List JE) := [
  [⟨0, 1, 1⟩, ⟨0, 1, 1⟩, ⟨0, 1, 1⟩, ⟨1, 10, 4⟩, ⟨0, 1, 1⟩, ⟨-1, 6, 4⟩, ⟨0, 1, 1⟩],
  [⟨0, 1, 1⟩, ⟨1, 1, 1⟩, ⟨0, 1, 1⟩, ⟨0, 1, 1⟩, ⟨0, 1, 1⟩, ⟨0, 1, 1⟩, ⟨0, 1, 1⟩],
  [⟨0, 1, 1⟩, ⟨0, 1, 1⟩, ⟨0, 1, 1⟩, ⟨1, 6, 4⟩, ⟨0, 1, 1⟩, ⟨1, 10, 4⟩, ⟨0, 1, 1⟩],
  [⟨1, 10, 4⟩, ⟨0, 1, 1⟩, ⟨1, 6, 4⟩, ⟨0, 1, 1⟩, ⟨0, 1, 1⟩, ⟨0, 1, 1⟩, ⟨0, 1, 1⟩],
  [⟨0, 1, 1⟩, ⟨0, 1, 1⟩, ⟨0, 1, 1⟩, ⟨0, 1, 1⟩, ⟨-1, 1, 4⟩, ⟨0, 1, 1⟩, ⟨-1, 15, 4⟩],
  [⟨-1, 6, 4⟩, ⟨0, 1, 1⟩, ⟨1, 10, 4⟩, ⟨0, 1, 1⟩, ⟨0, 1, 1⟩, ⟨0, 1, 1⟩, ⟨0, 1, 1⟩],
  [⟨0, 1, 1⟩, ⟨0, 1, 1⟩, ⟨0, 1, 1⟩, ⟨0, 1, 1⟩, ⟨-1, 15, 4⟩, ⟨0, 1, 1⟩, ⟨1, 1, 4⟩]]

/-- `J4`, J.py:42-54. -/
def jTable4 : List (List JE) := [
  [⟨0, 1, 1⟩, ⟨0, 1, 1⟩, ⟨0, 1, 1⟩, ⟨0, 1, 1⟩, ⟨0, 1, 1⟩, ⟨1, 14, 4⟩, ⟨0, 1, 1⟩, ⟨-1, 2, 4⟩, ⟨0, 1, 1⟩],
  [⟨0, 1, 1⟩, ⟨3, 1, 4⟩, ⟨0, 1, 1⟩, ⟨-1, 7, 4⟩, ⟨0, 1, 1⟩, ⟨0, 1, 1⟩, ⟨0, 1, 1⟩, ⟨0, 1, 1⟩, ⟨0, 1, 1⟩],
  [⟨0, 1, 1⟩, ⟨0, 1, 1⟩, ⟨0, 1, 1⟩, ⟨0, 1, 1⟩, ⟨0, 1, 1⟩, ⟨1, 2, 4⟩, ⟨0, 1, 1⟩, ⟨1, 14, 4⟩, ⟨0, 1, 1⟩],
  [⟨0, 1, 1⟩, ⟨-1, 7, 4⟩, ⟨0, 1, 1⟩, ⟨-3, 1, 4⟩, ⟨0, 1, 1⟩, ⟨0, 1, 1⟩, ⟨0, 1, 1⟩, ⟨0, 1, 1⟩, ⟨0, 1, 1⟩],
  [⟨0, 1, 1⟩, ⟨0, 1, 1⟩, ⟨0, 1, 1⟩, ⟨0, 1, 1⟩, ⟨3, 1, 8⟩, ⟨0, 1, 1⟩, ⟨1, 5, 4⟩, ⟨0, 1, 1⟩, ⟨1, 35, 8⟩],
  [⟨1, 14, 4⟩, ⟨0, 1, 1⟩, ⟨1, 2, 4⟩, ⟨0, 1, 1⟩, ⟨0, 1, 1⟩, ⟨0, 1, 1⟩, ⟨0, 1, 1⟩, ⟨0, 1, 1⟩, ⟨0, 1, 1⟩],
  [⟨0, 1, 1⟩, ⟨0, 1, 1⟩, ⟨0, 1, 1⟩, ⟨0, 1, 1⟩, ⟨1, 5, 4⟩, ⟨0, 1, 1⟩, ⟨1, 1, 2⟩, ⟨0, 1, 1⟩, ⟨-1, 7, 4⟩],
  [⟨-1, 2, 4⟩, ⟨0, 1, 1⟩, ⟨1, 14, 4⟩, ⟨0, 1, 1⟩, ⟨0, 1, 1⟩, ⟨0, 1, 1⟩, ⟨0, 1, 1⟩, ⟨0, 1, 1⟩, ⟨0, 1, 1⟩],
  [⟨0, 1, 1⟩, ⟨0, 1, 1⟩, ⟨0, 1, 1⟩, ⟨0, 1, 1⟩, ⟨1, 35, 8⟩, ⟨0, 1, 1⟩, ⟨-1, 7, 4⟩, ⟨0, 1, 1⟩, ⟨1, 1, 8⟩]]

/-- `J5`, J.py:56-70. -/
def jTable5 : List (List JE) := [
  [⟨0, 1, 1⟩, ⟨0, 1, 1⟩, ⟨0, 1, 1⟩, ⟨0, 1, 1⟩, ⟨0, 1, 1⟩, ⟨-3, 14, 16⟩, ⟨0, 1, 1⟩, ⟨1, 30, 8⟩, ⟨0, 1, 1⟩, ⟨-1, 10, 16⟩, ⟨0, 1, 1⟩],
  [⟨0, 1, 1⟩, ⟨1, 1, 2⟩, ⟨0, 1, 1⟩, ⟨-1, 3, 2⟩, ⟨0, 1, 1⟩, ⟨0, 1, 1⟩, ⟨0, 1, 1⟩, ⟨0, 1, 1⟩, ⟨0, 1, 1⟩, ⟨0, 1, 1⟩, ⟨0, 1, 1⟩],
  [⟨0, 1, 1⟩, ⟨0, 1, 1⟩, ⟨0, 1, 1⟩, ⟨0, 1, 1⟩, ⟨0, 1, 1⟩, ⟨-1, 70, 16⟩, ⟨0, 1, 1⟩, ⟨-1, 6, 8⟩, ⟨0, 1, 1⟩, ⟨9, 2, 16⟩, ⟨0, 1, 1⟩],
  [⟨0, 1, 1⟩, ⟨-1, 3, 2⟩, ⟨0, 1, 1⟩, ⟨-1, 1, 2⟩, ⟨0, 1, 1⟩, ⟨0, 1, 1⟩, ⟨0, 1, 1⟩, ⟨0, 1, 1⟩, ⟨0, 1, 1⟩, ⟨0, 1, 1⟩, ⟨0, 1, 1⟩],
  [⟨0, 1, 1⟩, ⟨0, 1, 1⟩, ⟨0, 1, 1⟩, ⟨0, 1, 1⟩, ⟨0, 1, 1⟩, ⟨-1, 15, 8⟩, ⟨0, 1, 1⟩, ⟨-1, 7, 4⟩, ⟨0, 1, 1⟩, ⟨-1, 21, 8⟩, ⟨0, 1, 1⟩],
  [⟨-3, 14, 16⟩, ⟨0, 1, 1⟩, ⟨-1, 70, 16⟩, ⟨0, 1, 1⟩, ⟨-1, 15, 8⟩, ⟨0, 1, 1⟩, ⟨0, 1, 1⟩, ⟨0, 1, 1⟩, ⟨0, 1, 1⟩, ⟨0, 1, 1⟩, ⟨0, 1, 1⟩],
  [⟨0, 1, 1⟩, ⟨0, 1, 1⟩, ⟨0, 1, 1⟩, ⟨0, 1, 1⟩, ⟨0, 1, 1⟩, ⟨0, 1, 1⟩, ⟨1, 1, 8⟩, ⟨0, 1, 1⟩, ⟨1, 42, 16⟩, ⟨0, 1, 1⟩, ⟨1, 210, 16⟩],
  [⟨1, 30, 8⟩, ⟨0, 1, 1⟩, ⟨-1, 6, 8⟩, ⟨0, 1, 1⟩, ⟨-1, 7, 4⟩, ⟨0, 1, 1⟩, ⟨0, 1, 1⟩, ⟨0, 1, 1⟩, ⟨0, 1, 1⟩, ⟨0, 1, 1⟩, ⟨0, 1, 1⟩],
  [⟨0, 1, 1⟩, ⟨0, 1, 1⟩, ⟨0, 1, 1⟩, ⟨0, 1, 1⟩, ⟨0, 1, 1⟩, ⟨0, 1, 1⟩, ⟨1, 42, 16⟩, ⟨0, 1, 1⟩, ⟨13, 1, 16⟩, ⟨0, 1, 1⟩, ⟨-3, 5, 16⟩],
  [⟨-1, 10, 16⟩, ⟨0, 1, 1⟩, ⟨9, 2, 16⟩, ⟨0, 1, 1⟩, ⟨-1, 21, 8⟩, ⟨0, 1, 1⟩, ⟨0, 1, 1⟩, ⟨0, 1, 1⟩, ⟨0, 1, 1⟩, ⟨0, 1, 1⟩, ⟨0, 1, 1⟩],
  [⟨0, 1, 1⟩, ⟨0, 1, 1⟩, ⟨0, 1, 1⟩, ⟨0, 1, 1⟩, ⟨0, 1, 1⟩, ⟨0, 1, 1⟩, ⟨1, 210, 16⟩, ⟨0, 1, 1⟩, ⟨-3, 5, 16⟩, ⟨0, 1, 1⟩, ⟨1, 1, 16⟩]]

/-- `J6`, J.py:72-172. -/
def jTable6 : List (List JE) := [
  [⟨0, 1, 1⟩, ⟨0, 1, 1⟩, ⟨0, 1, 1⟩, ⟨0, 1, 1⟩, ⟨0, 1, 1⟩, ⟨0, 1, 1⟩, ⟨0, 1, 1⟩, ⟨-3, 22, 16⟩, ⟨0, 1, 1⟩, ⟨1, 55, 16⟩, ⟨0, 1, 1⟩, ⟨-1, 3, 16⟩, ⟨0, 1, 1⟩],
  [⟨0, 1, 1⟩, ⟨5, 1, 16⟩, ⟨0, 1, 1⟩, ⟨-1, 165, 16⟩, ⟨0, 1, 1⟩, ⟨1, 66, 16⟩, ⟨0, 1, 1⟩, ⟨0, 1, 1⟩, ⟨0, 1, 1⟩, ⟨0, 1, 1⟩, ⟨0, 1, 1⟩, ⟨0, 1, 1⟩, ⟨0, 1, 1⟩],
  [⟨0, 1, 1⟩, ⟨0, 1, 1⟩, ⟨0, 1, 1⟩, ⟨0, 1, 1⟩, ⟨0, 1, 1⟩, ⟨0, 1, 1⟩, ⟨0, 1, 1⟩, ⟨-1, 3, 4⟩, ⟨0, 1, 1⟩, ⟨-1, 30, 8⟩, ⟨0, 1, 1⟩, ⟨1, 22, 8⟩, ⟨0, 1, 1⟩],
  [⟨0, 1, 1⟩, ⟨-1, 165, 16⟩, ⟨0, 1, 1⟩, ⟨1, 1, 16⟩, ⟨0, 1, 1⟩, ⟨3, 10, 16⟩, ⟨0, 1, 1⟩, ⟨0, 1, 1⟩, ⟨0, 1, 1⟩, ⟨0, 1, 1⟩, ⟨0, 1, 1⟩, ⟨0, 1, 1⟩, ⟨0, 1, 1⟩],
  [⟨0, 1, 1⟩, ⟨0, 1, 1⟩, ⟨0, 1, 1⟩, ⟨0, 1, 1⟩, ⟨0, 1, 1⟩, ⟨0, 1, 1⟩, ⟨0, 1, 1⟩, ⟨-1, 10, 16⟩, ⟨0, 1, 1⟩, ⟨-9, 1, 16⟩, ⟨0, 1, 1⟩, ⟨-1, 165, 16⟩, ⟨0, 1, 1⟩],
  [⟨0, 1, 1⟩, ⟨1, 66, 16⟩, ⟨0, 1, 1⟩, ⟨3, 10, 16⟩, ⟨0, 1, 1⟩, ⟨5, 1, 8⟩, ⟨0, 1, 1⟩, ⟨0, 1, 1⟩, ⟨0, 1, 1⟩, ⟨0, 1, 1⟩, ⟨0, 1, 1⟩, ⟨0, 1, 1⟩, ⟨0, 1, 1⟩],
  [⟨0, 1, 1⟩, ⟨0, 1, 1⟩, ⟨0, 1, 1⟩, ⟨0, 1, 1⟩, ⟨0, 1, 1⟩, ⟨0, 1, 1⟩, ⟨-5, 1, 16⟩, ⟨0, 1, 1⟩, ⟨-1, 210, 32⟩, ⟨0, 1, 1⟩, ⟨-3, 7, 16⟩, ⟨0, 1, 1⟩, ⟨-1, 462, 32⟩],
  [⟨-3, 22, 16⟩, ⟨0, 1, 1⟩, ⟨-1, 3, 4⟩, ⟨0, 1, 1⟩, ⟨-1, 10, 16⟩, ⟨0, 1, 1⟩, ⟨0, 1, 1⟩, ⟨0, 1, 1⟩, ⟨0, 1, 1⟩, ⟨0, 1, 1⟩, ⟨0, 1, 1⟩, ⟨0, 1, 1⟩, ⟨0, 1, 1⟩],
  [⟨0, 1, 1⟩, ⟨0, 1, 1⟩, ⟨0, 1, 1⟩, ⟨0, 1, 1⟩, ⟨0, 1, 1⟩, ⟨0, 1, 1⟩, ⟨-1, 210, 32⟩, ⟨0, 1, 1⟩, ⟨-17, 1, 32⟩, ⟨0, 1, 1⟩, ⟨-1, 30, 32⟩, ⟨0, 1, 1⟩, ⟨3, 55, 32⟩],
  [⟨1, 55, 16⟩, ⟨0, 1, 1⟩, ⟨-1, 30, 8⟩, ⟨0, 1, 1⟩, ⟨-9, 1, 16⟩, ⟨0, 1, 1⟩, ⟨0, 1, 1⟩, ⟨0, 1, 1⟩, ⟨0, 1, 1⟩, ⟨0, 1, 1⟩, ⟨0, 1, 1⟩, ⟨0, 1, 1⟩, ⟨0, 1, 1⟩],
  [⟨0, 1, 1⟩, ⟨0, 1, 1⟩, ⟨0, 1, 1⟩, ⟨0, 1, 1⟩, ⟨0, 1, 1⟩, ⟨0, 1, 1⟩, ⟨-3, 7, 16⟩, ⟨0, 1, 1⟩, ⟨-1, 30, 32⟩, ⟨0, 1, 1⟩, ⟨13, 1, 16⟩, ⟨0, 1, 1⟩, ⟨-1, 66, 32⟩],
  [⟨-1, 3, 16⟩, ⟨0, 1, 1⟩, ⟨1, 22, 8⟩, ⟨0, 1, 1⟩, ⟨-1, 165, 16⟩, ⟨0, 1, 1⟩, ⟨0, 1, 1⟩, ⟨0, 1, 1⟩, ⟨0, 1, 1⟩, ⟨0, 1, 1⟩, ⟨0, 1, 1⟩, ⟨0, 1, 1⟩, ⟨0, 1, 1⟩],
  [⟨0, 1, 1⟩, ⟨0, 1, 1⟩, ⟨0, 1, 1⟩, ⟨0, 1, 1⟩, ⟨0, 1, 1⟩, ⟨0, 1, 1⟩, ⟨-1, 462, 32⟩, ⟨0, 1, 1⟩, ⟨3, 55, 32⟩, ⟨0, 1, 1⟩, ⟨-1, 66, 32⟩, ⟨0, 1, 1⟩, ⟨1, 1, 32⟩]]

/-- `J7`, J.py:174-384. -/
def jTable7 : List (List JE) := [
  [⟨0, 1, 1⟩, ⟨0, 1, 1⟩, ⟨0, 1, 1⟩, ⟨0, 1, 1⟩, ⟨0, 1, 1⟩, ⟨0, 1, 1⟩, ⟨0, 1, 1⟩, ⟨1, 429, 32⟩, ⟨0, 1, 1⟩, ⟨-1, 2002, 64⟩, ⟨0, 1, 1⟩, ⟨1, 91, 32⟩, ⟨0, 1, 1⟩, ⟨-1, 14, 64⟩, ⟨0, 1, 1⟩],
  [⟨0, 1, 1⟩, ⟨3, 1, 16⟩, ⟨0, 1, 1⟩, ⟨-1, 26, 8⟩, ⟨0, 1, 1⟩, ⟨1, 143, 16⟩, ⟨0, 1, 1⟩, ⟨0, 1, 1⟩, ⟨0, 1, 1⟩, ⟨0, 1, 1⟩, ⟨0, 1, 1⟩, ⟨0, 1, 1⟩, ⟨0, 1, 1⟩, ⟨0, 1, 1⟩, ⟨0, 1, 1⟩],
  [⟨0, 1, 1⟩, ⟨0, 1, 1⟩, ⟨0, 1, 1⟩, ⟨0, 1, 1⟩, ⟨0, 1, 1⟩, ⟨0, 1, 1⟩, ⟨0, 1, 1⟩, ⟨1, 231, 32⟩, ⟨0, 1, 1⟩, ⟨1, 22, 64⟩, ⟨0, 1, 1⟩, ⟨-25, 1, 32⟩, ⟨0, 1, 1⟩, ⟨5, 26, 64⟩, ⟨0, 1, 1⟩],
  [⟨0, 1, 1⟩, ⟨-1, 26, 8⟩, ⟨0, 1, 1⟩, ⟨1, 1, 2⟩, ⟨0, 1, 1⟩, ⟨1, 22, 8⟩, ⟨0, 1, 1⟩, ⟨0, 1, 1⟩, ⟨0, 1, 1⟩, ⟨0, 1, 1⟩, ⟨0, 1, 1⟩, ⟨0, 1, 1⟩, ⟨0, 1, 1⟩, ⟨0, 1, 1⟩, ⟨0, 1, 1⟩],
  [⟨0, 1, 1⟩, ⟨0, 1, 1⟩, ⟨0, 1, 1⟩, ⟨0, 1, 1⟩, ⟨0, 1, 1⟩, ⟨0, 1, 1⟩, ⟨0, 1, 1⟩, ⟨3, 21, 32⟩, ⟨0, 1, 1⟩, ⟨19, 2, 64⟩, ⟨0, 1, 1⟩, ⟨-1, 11, 32⟩, ⟨0, 1, 1⟩, ⟨-3, 286, 64⟩, ⟨0, 1, 1⟩],
  [⟨0, 1, 1⟩, ⟨1, 143, 16⟩, ⟨0, 1, 1⟩, ⟨1, 22, 8⟩, ⟨0, 1, 1⟩, ⟨5, 1, 16⟩, ⟨0, 1, 1⟩, ⟨0, 1, 1⟩, ⟨0, 1, 1⟩, ⟨0, 1, 1⟩, ⟨0, 1, 1⟩, ⟨0, 1, 1⟩, ⟨0, 1, 1⟩, ⟨0, 1, 1⟩, ⟨0, 1, 1⟩],
  [⟨0, 1, 1⟩, ⟨0, 1, 1⟩, ⟨0, 1, 1⟩, ⟨0, 1, 1⟩, ⟨0, 1, 1⟩, ⟨0, 1, 1⟩, ⟨0, 1, 1⟩, ⟨5, 7, 32⟩, ⟨0, 1, 1⟩, ⟨15, 6, 64⟩, ⟨0, 1, 1⟩, ⟨3, 33, 32⟩, ⟨0, 1, 1⟩, ⟨1, 858, 64⟩, ⟨0, 1, 1⟩],
  [⟨1, 429, 32⟩, ⟨0, 1, 1⟩, ⟨1, 231, 32⟩, ⟨0, 1, 1⟩, ⟨3, 21, 32⟩, ⟨0, 1, 1⟩, ⟨5, 7, 32⟩, ⟨0, 1, 1⟩, ⟨0, 1, 1⟩, ⟨0, 1, 1⟩, ⟨0, 1, 1⟩, ⟨0, 1, 1⟩, ⟨0, 1, 1⟩, ⟨0, 1, 1⟩, ⟨0, 1, 1⟩],
  [⟨0, 1, 1⟩, ⟨0, 1, 1⟩, ⟨0, 1, 1⟩, ⟨0, 1, 1⟩, ⟨0, 1, 1⟩, ⟨0, 1, 1⟩, ⟨0, 1, 1⟩, ⟨0, 1, 1⟩, ⟨-5, 1, 64⟩, ⟨0, 1, 1⟩, ⟨-9, 3, 64⟩, ⟨0, 1, 1⟩, ⟨-5, 33, 64⟩, ⟨0, 1, 1⟩, ⟨-1, 3003, 64⟩],
  [⟨-1, 2002, 64⟩, ⟨0, 1, 1⟩, ⟨1, 22, 64⟩, ⟨0, 1, 1⟩, ⟨19, 2, 64⟩, ⟨0, 1, 1⟩, ⟨15, 6, 64⟩, ⟨0, 1, 1⟩, ⟨0, 1, 1⟩, ⟨0, 1, 1⟩, ⟨0, 1, 1⟩, ⟨0, 1, 1⟩, ⟨0, 1, 1⟩, ⟨0, 1, 1⟩, ⟨0, 1, 1⟩],
  [⟨0, 1, 1⟩, ⟨0, 1, 1⟩, ⟨0, 1, 1⟩, ⟨0, 1, 1⟩, ⟨0, 1, 1⟩, ⟨0, 1, 1⟩, ⟨0, 1, 1⟩, ⟨0, 1, 1⟩, ⟨-9, 3, 64⟩, ⟨0, 1, 1⟩, ⟨-39, 1, 64⟩, ⟨0, 1, 1⟩, ⟨-11, 11, 64⟩, ⟨0, 1, 1⟩, ⟨1, 1001, 64⟩],
  [⟨1, 91, 32⟩, ⟨0, 1, 1⟩, ⟨-25, 1, 32⟩, ⟨0, 1, 1⟩, ⟨-1, 11, 32⟩, ⟨0, 1, 1⟩, ⟨3, 33, 32⟩, ⟨0, 1, 1⟩, ⟨0, 1, 1⟩, ⟨0, 1, 1⟩, ⟨0, 1, 1⟩, ⟨0, 1, 1⟩, ⟨0, 1, 1⟩, ⟨0, 1, 1⟩, ⟨0, 1, 1⟩],
  [⟨0, 1, 1⟩, ⟨0, 1, 1⟩, ⟨0, 1, 1⟩, ⟨0, 1, 1⟩, ⟨0, 1, 1⟩, ⟨0, 1, 1⟩, ⟨0, 1, 1⟩, ⟨0, 1, 1⟩, ⟨-5, 33, 64⟩, ⟨0, 1, 1⟩, ⟨-11, 11, 64⟩, ⟨0, 1, 1⟩, ⟨43, 1, 64⟩, ⟨0, 1, 1⟩, ⟨-1, 91, 64⟩],
  [⟨-1, 14, 64⟩, ⟨0, 1, 1⟩, ⟨5, 26, 64⟩, ⟨0, 1, 1⟩, ⟨-3, 286, 64⟩, ⟨0, 1, 1⟩, ⟨1, 858, 64⟩, ⟨0, 1, 1⟩, ⟨0, 1, 1⟩, ⟨0, 1, 1⟩, ⟨0, 1, 1⟩, ⟨0, 1, 1⟩, ⟨0, 1, 1⟩, ⟨0, 1, 1⟩, ⟨0, 1, 1⟩],
  [⟨0, 1, 1⟩, ⟨0, 1, 1⟩, ⟨0, 1, 1⟩, ⟨0, 1, 1⟩, ⟨0, 1, 1⟩, ⟨0, 1, 1⟩, ⟨0, 1, 1⟩, ⟨0, 1, 1⟩, ⟨-1, 3003, 64⟩, ⟨0, 1, 1⟩, ⟨1, 1001, 64⟩, ⟨0, 1, 1⟩, ⟨-1, 91, 64⟩, ⟨0, 1, 1⟩, ⟨1, 1, 64⟩]]

/-- `J8`, J.py:386-712. -/
def jTable8 : List (List JE) := [
  [⟨0, 1, 1⟩, ⟨0, 1, 1⟩, ⟨0, 1, 1⟩, ⟨0, 1, 1⟩, ⟨0, 1, 1⟩, ⟨0, 1, 1⟩, ⟨0, 1, 1⟩, ⟨0, 1, 1⟩, ⟨0, 1, 1⟩, ⟨1, 715, 32⟩, ⟨0, 1, 1⟩, ⟨-1, 273, 32⟩, ⟨0, 1, 1⟩, ⟨1, 35, 32⟩, ⟨0, 1, 1⟩, ⟨-1, 1, 32⟩, ⟨0, 1, 1⟩],
  [⟨0, 1, 1⟩, ⟨7, 1, 64⟩, ⟨0, 1, 1⟩, ⟨-5, 35, 64⟩, ⟨0, 1, 1⟩, ⟨3, 273, 64⟩, ⟨0, 1, 1⟩, ⟨-1, 715, 64⟩, ⟨0, 1, 1⟩, ⟨0, 1, 1⟩, ⟨0, 1, 1⟩, ⟨0, 1, 1⟩, ⟨0, 1, 1⟩, ⟨0, 1, 1⟩, ⟨0, 1, 1⟩, ⟨0, 1, 1⟩, ⟨0, 1, 1⟩],
  [⟨0, 1, 1⟩, ⟨0, 1, 1⟩, ⟨0, 1, 1⟩, ⟨0, 1, 1⟩, ⟨0, 1, 1⟩, ⟨0, 1, 1⟩, ⟨0, 1, 1⟩, ⟨0, 1, 1⟩, ⟨0, 1, 1⟩, ⟨1, 858, 64⟩, ⟨0, 1, 1⟩, ⟨1, 910, 64⟩, ⟨0, 1, 1⟩, ⟨-7, 42, 64⟩, ⟨0, 1, 1⟩, ⟨3, 30, 64⟩, ⟨0, 1, 1⟩],
  [⟨0, 1, 1⟩, ⟨-5, 35, 64⟩, ⟨0, 1, 1⟩, ⟨45, 1, 64⟩, ⟨0, 1, 1⟩, ⟨1, 195, 64⟩, ⟨0, 1, 1⟩, ⟨-1, 1001, 64⟩, ⟨0, 1, 1⟩, ⟨0, 1, 1⟩, ⟨0, 1, 1⟩, ⟨0, 1, 1⟩, ⟨0, 1, 1⟩, ⟨0, 1, 1⟩, ⟨0, 1, 1⟩, ⟨0, 1, 1⟩, ⟨0, 1, 1⟩],
  [⟨0, 1, 1⟩, ⟨0, 1, 1⟩, ⟨0, 1, 1⟩, ⟨0, 1, 1⟩, ⟨0, 1, 1⟩, ⟨0, 1, 1⟩, ⟨0, 1, 1⟩, ⟨0, 1, 1⟩, ⟨0, 1, 1⟩, ⟨1, 77, 32⟩, ⟨0, 1, 1⟩, ⟨5, 15, 32⟩, ⟨0, 1, 1⟩, ⟨3, 13, 32⟩, ⟨0, 1, 1⟩, ⟨-1, 455, 32⟩, ⟨0, 1, 1⟩],
  [⟨0, 1, 1⟩, ⟨3, 273, 64⟩, ⟨0, 1, 1⟩, ⟨1, 195, 64⟩, ⟨0, 1, 1⟩, ⟨-17, 1, 64⟩, ⟨0, 1, 1⟩, ⟨-1, 1155, 64⟩, ⟨0, 1, 1⟩, ⟨0, 1, 1⟩, ⟨0, 1, 1⟩, ⟨0, 1, 1⟩, ⟨0, 1, 1⟩, ⟨0, 1, 1⟩, ⟨0, 1, 1⟩, ⟨0, 1, 1⟩, ⟨0, 1, 1⟩],
  [⟨0, 1, 1⟩, ⟨0, 1, 1⟩, ⟨0, 1, 1⟩, ⟨0, 1, 1⟩, ⟨0, 1, 1⟩, ⟨0, 1, 1⟩, ⟨0, 1, 1⟩, ⟨0, 1, 1⟩, ⟨0, 1, 1⟩, ⟨1, 70, 64⟩, ⟨0, 1, 1⟩, ⟨3, 66, 64⟩, ⟨0, 1, 1⟩, ⟨1, 1430, 64⟩, ⟨0, 1, 1⟩, ⟨1, 2002, 64⟩, ⟨0, 1, 1⟩],
  [⟨0, 1, 1⟩, ⟨-1, 715, 64⟩, ⟨0, 1, 1⟩, ⟨-1, 1001, 64⟩, ⟨0, 1, 1⟩, ⟨-1, 1155, 64⟩, ⟨0, 1, 1⟩, ⟨-35, 1, 64⟩, ⟨0, 1, 1⟩, ⟨0, 1, 1⟩, ⟨0, 1, 1⟩, ⟨0, 1, 1⟩, ⟨0, 1, 1⟩, ⟨0, 1, 1⟩, ⟨0, 1, 1⟩, ⟨0, 1, 1⟩, ⟨0, 1, 1⟩],
  [⟨0, 1, 1⟩, ⟨0, 1, 1⟩, ⟨0, 1, 1⟩, ⟨0, 1, 1⟩, ⟨0, 1, 1⟩, ⟨0, 1, 1⟩, ⟨0, 1, 1⟩, ⟨0, 1, 1⟩, ⟨35, 1, 128⟩, ⟨0, 1, 1⟩, ⟨3, 70, 64⟩, ⟨0, 1, 1⟩, ⟨3, 77, 64⟩, ⟨0, 1, 1⟩, ⟨1, 858, 64⟩, ⟨0, 1, 1⟩, ⟨3, 715, 128⟩],
  [⟨1, 715, 32⟩, ⟨0, 1, 1⟩, ⟨1, 858, 64⟩, ⟨0, 1, 1⟩, ⟨1, 77, 32⟩, ⟨0, 1, 1⟩, ⟨1, 70, 64⟩, ⟨0, 1, 1⟩, ⟨0, 1, 1⟩, ⟨0, 1, 1⟩, ⟨0, 1, 1⟩, ⟨0, 1, 1⟩, ⟨0, 1, 1⟩, ⟨0, 1, 1⟩, ⟨0, 1, 1⟩, ⟨0, 1, 1⟩, ⟨0, 1, 1⟩],
  [⟨0, 1, 1⟩, ⟨0, 1, 1⟩, ⟨0, 1, 1⟩, ⟨0, 1, 1⟩, ⟨0, 1, 1⟩, ⟨0, 1, 1⟩, ⟨0, 1, 1⟩, ⟨0, 1, 1⟩, ⟨3, 70, 64⟩, ⟨0, 1, 1⟩, ⟨1, 1, 2⟩, ⟨0, 1, 1⟩, ⟨1, 110, 32⟩, ⟨0, 1, 1⟩, ⟨0, 1, 1⟩, ⟨0, 1, 1⟩, ⟨-1, 2002, 64⟩],
  [⟨-1, 273, 32⟩, ⟨0, 1, 1⟩, ⟨1, 910, 64⟩, ⟨0, 1, 1⟩, ⟨5, 15, 32⟩, ⟨0, 1, 1⟩, ⟨3, 66, 64⟩, ⟨0, 1, 1⟩, ⟨0, 1, 1⟩, ⟨0, 1, 1⟩, ⟨0, 1, 1⟩, ⟨0, 1, 1⟩, ⟨0, 1, 1⟩, ⟨0, 1, 1⟩, ⟨0, 1, 1⟩, ⟨0, 1, 1⟩, ⟨0, 1, 1⟩],
  [⟨0, 1, 1⟩, ⟨0, 1, 1⟩, ⟨0, 1, 1⟩, ⟨0, 1, 1⟩, ⟨0, 1, 1⟩, ⟨0, 1, 1⟩, ⟨0, 1, 1⟩, ⟨0, 1, 1⟩, ⟨3, 77, 64⟩, ⟨0, 1, 1⟩, ⟨1, 110, 32⟩, ⟨0, 1, 1⟩, ⟨-9, 1, 32⟩, ⟨0, 1, 1⟩, ⟨-1, 546, 32⟩, ⟨0, 1, 1⟩, ⟨1, 455, 64⟩],
  [⟨1, 35, 32⟩, ⟨0, 1, 1⟩, ⟨-7, 42, 64⟩, ⟨0, 1, 1⟩, ⟨3, 13, 32⟩, ⟨0, 1, 1⟩, ⟨1, 1430, 64⟩, ⟨0, 1, 1⟩, ⟨0, 1, 1⟩, ⟨0, 1, 1⟩, ⟨0, 1, 1⟩, ⟨0, 1, 1⟩, ⟨0, 1, 1⟩, ⟨0, 1, 1⟩, ⟨0, 1, 1⟩, ⟨0, 1, 1⟩, ⟨0, 1, 1⟩],
  [⟨0, 1, 1⟩, ⟨0, 1, 1⟩, ⟨0, 1, 1⟩, ⟨0, 1, 1⟩, ⟨0, 1, 1⟩, ⟨0, 1, 1⟩, ⟨0, 1, 1⟩, ⟨0, 1, 1⟩, ⟨1, 858, 64⟩, ⟨0, 1, 1⟩, ⟨0, 1, 1⟩, ⟨0, 1, 1⟩, ⟨-1, 546, 32⟩, ⟨0, 1, 1⟩, ⟨1, 1, 2⟩, ⟨0, 1, 1⟩, ⟨-1, 30, 64⟩],
  [⟨-1, 1, 32⟩, ⟨0, 1, 1⟩, ⟨3, 30, 64⟩, ⟨0, 1, 1⟩, ⟨-1, 455, 32⟩, ⟨0, 1, 1⟩, ⟨1, 2002, 64⟩, ⟨0, 1, 1⟩, ⟨0, 1, 1⟩, ⟨0, 1, 1⟩, ⟨0, 1, 1⟩, ⟨0, 1, 1⟩, ⟨0, 1, 1⟩, ⟨0, 1, 1⟩, ⟨0, 1, 1⟩, ⟨0, 1, 1⟩, ⟨0, 1, 1⟩],
  [⟨0, 1, 1⟩, ⟨0, 1, 1⟩, ⟨0, 1, 1⟩, ⟨0, 1, 1⟩, ⟨0, 1, 1⟩, ⟨0, 1, 1⟩, ⟨0, 1, 1⟩, ⟨0, 1, 1⟩, ⟨3, 715, 128⟩, ⟨0, 1, 1⟩, ⟨-1, 2002, 64⟩, ⟨0, 1, 1⟩, ⟨1, 455, 64⟩, ⟨0, 1, 1⟩, ⟨-1, 30, 64⟩, ⟨0, 1, 1⟩, ⟨1, 1, 128⟩]]

/-- `J9`, J.py:714-1116. -/
def jTable9 : List (List JE) := [
  [⟨0, 1, 1⟩, ⟨0, 1, 1⟩, ⟨0, 1, 1⟩, ⟨0, 1, 1⟩, ⟨0, 1, 1⟩, ⟨0, 1, 1⟩, ⟨0, 1, 1⟩, ⟨0, 1, 1⟩, ⟨0, 1, 1⟩, ⟨-1, 24310, 256⟩, ⟨0, 1, 1⟩, ⟨3, 221, 64⟩, ⟨0, 1, 1⟩, ⟨-3, 238, 128⟩, ⟨0, 1, 1⟩, ⟨1, 51, 64⟩, ⟨0, 1, 1⟩, ⟨-3, 2, 256⟩, ⟨0, 1, 1⟩],
  [⟨0, 1, 1⟩, ⟨1, 1, 16⟩, ⟨0, 1, 1⟩, ⟨-1, 102, 32⟩, ⟨0, 1, 1⟩, ⟨1, 119, 16⟩, ⟨0, 1, 1⟩, ⟨-1, 442, 32⟩, ⟨0, 1, 1⟩, ⟨0, 1, 1⟩, ⟨0, 1, 1⟩, ⟨0, 1, 1⟩, ⟨0, 1, 1⟩, ⟨0, 1, 1⟩, ⟨0, 1, 1⟩, ⟨0, 1, 1⟩, ⟨0, 1, 1⟩, ⟨0, 1, 1⟩, ⟨0, 1, 1⟩],
  [⟨0, 1, 1⟩, ⟨0, 1, 1⟩, ⟨0, 1, 1⟩, ⟨0, 1, 1⟩, ⟨0, 1, 1⟩, ⟨0, 1, 1⟩, ⟨0, 1, 1⟩, ⟨0, 1, 1⟩, ⟨0, 1, 1⟩, ⟨-3, 1430, 256⟩, ⟨0, 1, 1⟩, ⟨1, 13, 64⟩, ⟨0, 1, 1⟩, ⟨23, 14, 128⟩, ⟨0, 1, 1⟩, ⟨-21, 3, 64⟩, ⟨0, 1, 1⟩, ⟨7, 34, 256⟩, ⟨0, 1, 1⟩],
  [⟨0, 1, 1⟩, ⟨-1, 102, 32⟩, ⟨0, 1, 1⟩, ⟨23, 1, 32⟩, ⟨0, 1, 1⟩, ⟨-1, 42, 32⟩, ⟨0, 1, 1⟩, ⟨-3, 39, 32⟩, ⟨0, 1, 1⟩, ⟨0, 1, 1⟩, ⟨0, 1, 1⟩, ⟨0, 1, 1⟩, ⟨0, 1, 1⟩, ⟨0, 1, 1⟩, ⟨0, 1, 1⟩, ⟨0, 1, 1⟩, ⟨0, 1, 1⟩, ⟨0, 1, 1⟩, ⟨0, 1, 1⟩],
  [⟨0, 1, 1⟩, ⟨0, 1, 1⟩, ⟨0, 1, 1⟩, ⟨0, 1, 1⟩, ⟨0, 1, 1⟩, ⟨0, 1, 1⟩, ⟨0, 1, 1⟩, ⟨0, 1, 1⟩, ⟨0, 1, 1⟩, ⟨-3, 286, 128⟩, ⟨0, 1, 1⟩, ⟨-1, 65, 32⟩, ⟨0, 1, 1⟩, ⟨3, 70, 64⟩, ⟨0, 1, 1⟩, ⟨5, 15, 32⟩, ⟨0, 1, 1⟩, ⟨-5, 170, 128⟩, ⟨0, 1, 1⟩],
  [⟨0, 1, 1⟩, ⟨1, 119, 16⟩, ⟨0, 1, 1⟩, ⟨-1, 42, 32⟩, ⟨0, 1, 1⟩, ⟨-9, 1, 16⟩, ⟨0, 1, 1⟩, ⟨-1, 182, 32⟩, ⟨0, 1, 1⟩, ⟨0, 1, 1⟩, ⟨0, 1, 1⟩, ⟨0, 1, 1⟩, ⟨0, 1, 1⟩, ⟨0, 1, 1⟩, ⟨0, 1, 1⟩, ⟨0, 1, 1⟩, ⟨0, 1, 1⟩, ⟨0, 1, 1⟩, ⟨0, 1, 1⟩],
  [⟨0, 1, 1⟩, ⟨0, 1, 1⟩, ⟨0, 1, 1⟩, ⟨0, 1, 1⟩, ⟨0, 1, 1⟩, ⟨0, 1, 1⟩, ⟨0, 1, 1⟩, ⟨0, 1, 1⟩, ⟨0, 1, 1⟩, ⟨-1, 2310, 128⟩, ⟨0, 1, 1⟩, ⟨-3, 21, 32⟩, ⟨0, 1, 1⟩, ⟨-1, 78, 64⟩, ⟨0, 1, 1⟩, ⟨1, 91, 32⟩, ⟨0, 1, 1⟩, ⟨1, 9282, 128⟩, ⟨0, 1, 1⟩],
  [⟨0, 1, 1⟩, ⟨-1, 442, 32⟩, ⟨0, 1, 1⟩, ⟨-3, 39, 32⟩, ⟨0, 1, 1⟩, ⟨-1, 182, 32⟩, ⟨0, 1, 1⟩, ⟨-7, 1, 32⟩, ⟨0, 1, 1⟩, ⟨0, 1, 1⟩, ⟨0, 1, 1⟩, ⟨0, 1, 1⟩, ⟨0, 1, 1⟩, ⟨0, 1, 1⟩, ⟨0, 1, 1⟩, ⟨0, 1, 1⟩, ⟨0, 1, 1⟩, ⟨0, 1, 1⟩, ⟨0, 1, 1⟩],
  [⟨0, 1, 1⟩, ⟨0, 1, 1⟩, ⟨0, 1, 1⟩, ⟨0, 1, 1⟩, ⟨0, 1, 1⟩, ⟨0, 1, 1⟩, ⟨0, 1, 1⟩, ⟨0, 1, 1⟩, ⟨0, 1, 1⟩, ⟨-21, 5, 128⟩, ⟨0, 1, 1⟩, ⟨-7, 22, 64⟩, ⟨0, 1, 1⟩, ⟨-1, 1001, 64⟩, ⟨0, 1, 1⟩, ⟨-1, 858, 64⟩, ⟨0, 1, 1⟩, ⟨-1, 2431, 128⟩, ⟨0, 1, 1⟩],
  [⟨-1, 24310, 256⟩, ⟨0, 1, 1⟩, ⟨-3, 1430, 256⟩, ⟨0, 1, 1⟩, ⟨-3, 286, 128⟩, ⟨0, 1, 1⟩, ⟨-1, 2310, 128⟩, ⟨0, 1, 1⟩, ⟨-21, 5, 128⟩, ⟨0, 1, 1⟩, ⟨0, 1, 1⟩, ⟨0, 1, 1⟩, ⟨0, 1, 1⟩, ⟨0, 1, 1⟩, ⟨0, 1, 1⟩, ⟨0, 1, 1⟩, ⟨0, 1, 1⟩, ⟨0, 1, 1⟩, ⟨0, 1, 1⟩],
  [⟨0, 1, 1⟩, ⟨0, 1, 1⟩, ⟨0, 1, 1⟩, ⟨0, 1, 1⟩, ⟨0, 1, 1⟩, ⟨0, 1, 1⟩, ⟨0, 1, 1⟩, ⟨0, 1, 1⟩, ⟨0, 1, 1⟩, ⟨0, 1, 1⟩, ⟨7, 1, 128⟩, ⟨0, 1, 1⟩, ⟨1, 462, 128⟩, ⟨0, 1, 1⟩, ⟨1, 1430, 128⟩, ⟨0, 1, 1⟩, ⟨7, 286, 256⟩, ⟨0, 1, 1⟩, ⟨3, 4862, 256⟩],
  [⟨3, 221, 64⟩, ⟨0, 1, 1⟩, ⟨1, 13, 64⟩, ⟨0, 1, 1⟩, ⟨-1, 65, 32⟩, ⟨0, 1, 1⟩, ⟨-3, 21, 32⟩, ⟨0, 1, 1⟩, ⟨-7, 22, 64⟩, ⟨0, 1, 1⟩, ⟨0, 1, 1⟩, ⟨0, 1, 1⟩, ⟨0, 1, 1⟩, ⟨0, 1, 1⟩, ⟨0, 1, 1⟩, ⟨0, 1, 1⟩, ⟨0, 1, 1⟩, ⟨0, 1, 1⟩, ⟨0, 1, 1⟩],
  [⟨0, 1, 1⟩, ⟨0, 1, 1⟩, ⟨0, 1, 1⟩, ⟨0, 1, 1⟩, ⟨0, 1, 1⟩, ⟨0, 1, 1⟩, ⟨0, 1, 1⟩, ⟨0, 1, 1⟩, ⟨0, 1, 1⟩, ⟨0, 1, 1⟩, ⟨1, 462, 128⟩, ⟨0, 1, 1⟩, ⟨29, 1, 64⟩, ⟨0, 1, 1⟩, ⟨1, 1365, 64⟩, ⟨0, 1, 1⟩, ⟨3, 273, 128⟩, ⟨0, 1, 1⟩, ⟨-1, 4641, 128⟩],
  [⟨-3, 238, 128⟩, ⟨0, 1, 1⟩, ⟨23, 14, 128⟩, ⟨0, 1, 1⟩, ⟨3, 70, 64⟩, ⟨0, 1, 1⟩, ⟨-1, 78, 64⟩, ⟨0, 1, 1⟩, ⟨-1, 1001, 64⟩, ⟨0, 1, 1⟩, ⟨0, 1, 1⟩, ⟨0, 1, 1⟩, ⟨0, 1, 1⟩, ⟨0, 1, 1⟩, ⟨0, 1, 1⟩, ⟨0, 1, 1⟩, ⟨0, 1, 1⟩, ⟨0, 1, 1⟩, ⟨0, 1, 1⟩],
  [⟨0, 1, 1⟩, ⟨0, 1, 1⟩, ⟨0, 1, 1⟩, ⟨0, 1, 1⟩, ⟨0, 1, 1⟩, ⟨0, 1, 1⟩, ⟨0, 1, 1⟩, ⟨0, 1, 1⟩, ⟨0, 1, 1⟩, ⟨0, 1, 1⟩, ⟨1, 1430, 128⟩, ⟨0, 1, 1⟩, ⟨1, 1365, 64⟩, ⟨0, 1, 1⟩, ⟨9, 1, 64⟩, ⟨0, 1, 1⟩, ⟨-41, 5, 128⟩, ⟨0, 1, 1⟩, ⟨3, 85, 128⟩],
  [⟨1, 51, 64⟩, ⟨0, 1, 1⟩, ⟨-21, 3, 64⟩, ⟨0, 1, 1⟩, ⟨5, 15, 32⟩, ⟨0, 1, 1⟩, ⟨1, 91, 32⟩, ⟨0, 1, 1⟩, ⟨-1, 858, 64⟩, ⟨0, 1, 1⟩, ⟨0, 1, 1⟩, ⟨0, 1, 1⟩, ⟨0, 1, 1⟩, ⟨0, 1, 1⟩, ⟨0, 1, 1⟩, ⟨0, 1, 1⟩, ⟨0, 1, 1⟩, ⟨0, 1, 1⟩, ⟨0, 1, 1⟩],
  [⟨0, 1, 1⟩, ⟨0, 1, 1⟩, ⟨0, 1, 1⟩, ⟨0, 1, 1⟩, ⟨0, 1, 1⟩, ⟨0, 1, 1⟩, ⟨0, 1, 1⟩, ⟨0, 1, 1⟩, ⟨0, 1, 1⟩, ⟨0, 1, 1⟩, ⟨7, 286, 256⟩, ⟨0, 1, 1⟩, ⟨3, 273, 128⟩, ⟨0, 1, 1⟩, ⟨-41, 5, 128⟩, ⟨0, 1, 1⟩, ⟨89, 1, 256⟩, ⟨0, 1, 1⟩, ⟨-3, 17, 256⟩],
  [⟨-3, 2, 256⟩, ⟨0, 1, 1⟩, ⟨7, 34, 256⟩, ⟨0, 1, 1⟩, ⟨-5, 170, 128⟩, ⟨0, 1, 1⟩, ⟨1, 9282, 128⟩, ⟨0, 1, 1⟩, ⟨-1, 2431, 128⟩, ⟨0, 1, 1⟩, ⟨0, 1, 1⟩, ⟨0, 1, 1⟩, ⟨0, 1, 1⟩, ⟨0, 1, 1⟩, ⟨0, 1, 1⟩, ⟨0, 1, 1⟩, ⟨0, 1, 1⟩, ⟨0, 1, 1⟩, ⟨0, 1, 1⟩],
  [⟨0, 1, 1⟩, ⟨0, 1, 1⟩, ⟨0, 1, 1⟩, ⟨0, 1, 1⟩, ⟨0, 1, 1⟩, ⟨0, 1, 1⟩, ⟨0, 1, 1⟩, ⟨0, 1, 1⟩, ⟨0, 1, 1⟩, ⟨0, 1, 1⟩, ⟨3, 4862, 256⟩, ⟨0, 1, 1⟩, ⟨-1, 4641, 128⟩, ⟨0, 1, 1⟩, ⟨3, 85, 128⟩, ⟨0, 1, 1⟩, ⟨-3, 17, 256⟩, ⟨0, 1, 1⟩, ⟨1, 1, 256⟩]]

/-- `J10`, J.py:1118-1604. -/
def jTable10 : List (List JE) := [
  [⟨0, 1, 1⟩, ⟨0, 1, 1⟩, ⟨0, 1, 1⟩, ⟨0, 1, 1⟩, ⟨0, 1, 1⟩, ⟨0, 1, 1⟩, ⟨0, 1, 1⟩, ⟨0, 1, 1⟩, ⟨0, 1, 1⟩, ⟨0, 1, 1⟩, ⟨0, 1, 1⟩, ⟨-1, 41990, 256⟩, ⟨0, 1, 1⟩, ⟨1, 4845, 128⟩, ⟨0, 1, 1⟩, ⟨-1, 969, 128⟩, ⟨0, 1, 1⟩, ⟨1, 285, 256⟩, ⟨0, 1, 1⟩, ⟨-1, 5, 256⟩, ⟨0, 1, 1⟩],
  [⟨0, 1, 1⟩, ⟨9, 1, 256⟩, ⟨0, 1, 1⟩, ⟨-7, 57, 256⟩, ⟨0, 1, 1⟩, ⟨1, 4845, 128⟩, ⟨0, 1, 1⟩, ⟨-3, 969, 128⟩, ⟨0, 1, 1⟩, ⟨1, 8398, 256⟩, ⟨0, 1, 1⟩, ⟨0, 1, 1⟩, ⟨0, 1, 1⟩, ⟨0, 1, 1⟩, ⟨0, 1, 1⟩, ⟨0, 1, 1⟩, ⟨0, 1, 1⟩, ⟨0, 1, 1⟩, ⟨0, 1, 1⟩, ⟨0, 1, 1⟩, ⟨0, 1, 1⟩],
  [⟨0, 1, 1⟩, ⟨0, 1, 1⟩, ⟨0, 1, 1⟩, ⟨0, 1, 1⟩, ⟨0, 1, 1⟩, ⟨0, 1, 1⟩, ⟨0, 1, 1⟩, ⟨0, 1, 1⟩, ⟨0, 1, 1⟩, ⟨0, 1, 1⟩, ⟨0, 1, 1⟩, ⟨-1, 221, 32⟩, ⟨0, 1, 1⟩, ⟨-1, 102, 32⟩, ⟨0, 1, 1⟩, ⟨1, 510, 32⟩, ⟨0, 1, 1⟩, ⟨-11, 6, 64⟩, ⟨0, 1, 1⟩, ⟨1, 38, 64⟩, ⟨0, 1, 1⟩],
  [⟨0, 1, 1⟩, ⟨-7, 57, 256⟩, ⟨0, 1, 1⟩, ⟨161, 1, 256⟩, ⟨0, 1, 1⟩, ⟨-7, 85, 128⟩, ⟨0, 1, 1⟩, ⟨-11, 17, 128⟩, ⟨0, 1, 1⟩, ⟨3, 1326, 256⟩, ⟨0, 1, 1⟩, ⟨0, 1, 1⟩, ⟨0, 1, 1⟩, ⟨0, 1, 1⟩, ⟨0, 1, 1⟩, ⟨0, 1, 1⟩, ⟨0, 1, 1⟩, ⟨0, 1, 1⟩, ⟨0, 1, 1⟩, ⟨0, 1, 1⟩, ⟨0, 1, 1⟩],
  [⟨0, 1, 1⟩, ⟨0, 1, 1⟩, ⟨0, 1, 1⟩, ⟨0, 1, 1⟩, ⟨0, 1, 1⟩, ⟨0, 1, 1⟩, ⟨0, 1, 1⟩, ⟨0, 1, 1⟩, ⟨0, 1, 1⟩, ⟨0, 1, 1⟩, ⟨0, 1, 1⟩, ⟨-9, 78, 256⟩, ⟨0, 1, 1⟩, ⟨-69, 1, 128⟩, ⟨0, 1, 1⟩, ⟨1, 5, 128⟩, ⟨0, 1, 1⟩, ⟨43, 17, 256⟩, ⟨0, 1, 1⟩, ⟨-3, 969, 256⟩, ⟨0, 1, 1⟩],
  [⟨0, 1, 1⟩, ⟨1, 4845, 128⟩, ⟨0, 1, 1⟩, ⟨-7, 85, 128⟩, ⟨0, 1, 1⟩, ⟨-31, 1, 64⟩, ⟨0, 1, 1⟩, ⟨1, 5, 64⟩, ⟨0, 1, 1⟩, ⟨3, 390, 128⟩, ⟨0, 1, 1⟩, ⟨0, 1, 1⟩, ⟨0, 1, 1⟩, ⟨0, 1, 1⟩, ⟨0, 1, 1⟩, ⟨0, 1, 1⟩, ⟨0, 1, 1⟩, ⟨0, 1, 1⟩, ⟨0, 1, 1⟩, ⟨0, 1, 1⟩, ⟨0, 1, 1⟩],
  [⟨0, 1, 1⟩, ⟨0, 1, 1⟩, ⟨0, 1, 1⟩, ⟨0, 1, 1⟩, ⟨0, 1, 1⟩, ⟨0, 1, 1⟩, ⟨0, 1, 1⟩, ⟨0, 1, 1⟩, ⟨0, 1, 1⟩, ⟨0, 1, 1⟩, ⟨0, 1, 1⟩, ⟨-1, 39, 32⟩, ⟨0, 1, 1⟩, ⟨-11, 2, 32⟩, ⟨0, 1, 1⟩, ⟨-5, 10, 32⟩, ⟨0, 1, 1⟩, ⟨-1, 34, 64⟩, ⟨0, 1, 1⟩, ⟨1, 1938, 64⟩, ⟨0, 1, 1⟩],
  [⟨0, 1, 1⟩, ⟨-3, 969, 128⟩, ⟨0, 1, 1⟩, ⟨-11, 17, 128⟩, ⟨0, 1, 1⟩, ⟨1, 5, 64⟩, ⟨0, 1, 1⟩, ⟨21, 1, 64⟩, ⟨0, 1, 1⟩, ⟨7, 78, 128⟩, ⟨0, 1, 1⟩, ⟨0, 1, 1⟩, ⟨0, 1, 1⟩, ⟨0, 1, 1⟩, ⟨0, 1, 1⟩, ⟨0, 1, 1⟩, ⟨0, 1, 1⟩, ⟨0, 1, 1⟩, ⟨0, 1, 1⟩, ⟨0, 1, 1⟩, ⟨0, 1, 1⟩],
  [⟨0, 1, 1⟩, ⟨0, 1, 1⟩, ⟨0, 1, 1⟩, ⟨0, 1, 1⟩, ⟨0, 1, 1⟩, ⟨0, 1, 1⟩, ⟨0, 1, 1⟩, ⟨0, 1, 1⟩, ⟨0, 1, 1⟩, ⟨0, 1, 1⟩, ⟨0, 1, 1⟩, ⟨-7, 3, 128⟩, ⟨0, 1, 1⟩, ⟨-7, 26, 128⟩, ⟨0, 1, 1⟩, ⟨-5, 130, 128⟩, ⟨0, 1, 1⟩, ⟨-7, 442, 256⟩, ⟨0, 1, 1⟩, ⟨-1, 25194, 256⟩, ⟨0, 1, 1⟩],
  [⟨0, 1, 1⟩, ⟨1, 8398, 256⟩, ⟨0, 1, 1⟩, ⟨3, 1326, 256⟩, ⟨0, 1, 1⟩, ⟨3, 390, 128⟩, ⟨0, 1, 1⟩, ⟨7, 78, 128⟩, ⟨0, 1, 1⟩, ⟨63, 1, 128⟩, ⟨0, 1, 1⟩, ⟨0, 1, 1⟩, ⟨0, 1, 1⟩, ⟨0, 1, 1⟩, ⟨0, 1, 1⟩, ⟨0, 1, 1⟩, ⟨0, 1, 1⟩, ⟨0, 1, 1⟩, ⟨0, 1, 1⟩, ⟨0, 1, 1⟩, ⟨0, 1, 1⟩],
  [⟨0, 1, 1⟩, ⟨0, 1, 1⟩, ⟨0, 1, 1⟩, ⟨0, 1, 1⟩, ⟨0, 1, 1⟩, ⟨0, 1, 1⟩, ⟨0, 1, 1⟩, ⟨0, 1, 1⟩, ⟨0, 1, 1⟩, ⟨0, 1, 1⟩, ⟨-63, 1, 256⟩, ⟨0, 1, 1⟩, ⟨-7, 165, 256⟩, ⟨0, 1, 1⟩, ⟨-1, 2145, 128⟩, ⟨0, 1, 1⟩, ⟨-3, 4290, 512⟩, ⟨0, 1, 1⟩, ⟨-1, 12155, 256⟩, ⟨0, 1, 1⟩, ⟨-1, 92378, 512⟩],
  [⟨-1, 41990, 256⟩, ⟨0, 1, 1⟩, ⟨-1, 221, 32⟩, ⟨0, 1, 1⟩, ⟨-9, 78, 256⟩, ⟨0, 1, 1⟩, ⟨-1, 39, 32⟩, ⟨0, 1, 1⟩, ⟨-7, 3, 128⟩, ⟨0, 1, 1⟩, ⟨0, 1, 1⟩, ⟨0, 1, 1⟩, ⟨0, 1, 1⟩, ⟨0, 1, 1⟩, ⟨0, 1, 1⟩, ⟨0, 1, 1⟩, ⟨0, 1, 1⟩, ⟨0, 1, 1⟩, ⟨0, 1, 1⟩, ⟨0, 1, 1⟩, ⟨0, 1, 1⟩],
  [⟨0, 1, 1⟩, ⟨0, 1, 1⟩, ⟨0, 1, 1⟩, ⟨0, 1, 1⟩, ⟨0, 1, 1⟩, ⟨0, 1, 1⟩, ⟨0, 1, 1⟩, ⟨0, 1, 1⟩, ⟨0, 1, 1⟩, ⟨0, 1, 1⟩, ⟨-7, 165, 256⟩, ⟨0, 1, 1⟩, ⟨-119, 1, 256⟩, ⟨0, 1, 1⟩, ⟨-13, 13, 128⟩, ⟨0, 1, 1⟩, ⟨-19, 26, 512⟩, ⟨0, 1, 1⟩, ⟨1, 663, 256⟩, ⟨0, 1, 1⟩, ⟨1, 125970, 512⟩],
  [⟨1, 4845, 128⟩, ⟨0, 1, 1⟩, ⟨-1, 102, 32⟩, ⟨0, 1, 1⟩, ⟨-69, 1, 128⟩, ⟨0, 1, 1⟩, ⟨-11, 2, 32⟩, ⟨0, 1, 1⟩, ⟨-7, 26, 128⟩, ⟨0, 1, 1⟩, ⟨0, 1, 1⟩, ⟨0, 1, 1⟩, ⟨0, 1, 1⟩, ⟨0, 1, 1⟩, ⟨0, 1, 1⟩, ⟨0, 1, 1⟩, ⟨0, 1, 1⟩, ⟨0, 1, 1⟩, ⟨0, 1, 1⟩, ⟨0, 1, 1⟩, ⟨0, 1, 1⟩],
  [⟨0, 1, 1⟩, ⟨0, 1, 1⟩, ⟨0, 1, 1⟩, ⟨0, 1, 1⟩, ⟨0, 1, 1⟩, ⟨0, 1, 1⟩, ⟨0, 1, 1⟩, ⟨0, 1, 1⟩, ⟨0, 1, 1⟩, ⟨0, 1, 1⟩, ⟨-1, 2145, 128⟩, ⟨0, 1, 1⟩, ⟨-13, 13, 128⟩, ⟨0, 1, 1⟩, ⟨1, 1, 64⟩, ⟨0, 1, 1⟩, ⟨83, 2, 256⟩, ⟨0, 1, 1⟩, ⟨11, 51, 128⟩, ⟨0, 1, 1⟩, ⟨-1, 9690, 256⟩],
  [⟨-1, 969, 128⟩, ⟨0, 1, 1⟩, ⟨1, 510, 32⟩, ⟨0, 1, 1⟩, ⟨1, 5, 128⟩, ⟨0, 1, 1⟩, ⟨-5, 10, 32⟩, ⟨0, 1, 1⟩, ⟨-5, 130, 128⟩, ⟨0, 1, 1⟩, ⟨0, 1, 1⟩, ⟨0, 1, 1⟩, ⟨0, 1, 1⟩, ⟨0, 1, 1⟩, ⟨0, 1, 1⟩, ⟨0, 1, 1⟩, ⟨0, 1, 1⟩, ⟨0, 1, 1⟩, ⟨0, 1, 1⟩, ⟨0, 1, 1⟩, ⟨0, 1, 1⟩],
  [⟨0, 1, 1⟩, ⟨0, 1, 1⟩, ⟨0, 1, 1⟩, ⟨0, 1, 1⟩, ⟨0, 1, 1⟩, ⟨0, 1, 1⟩, ⟨0, 1, 1⟩, ⟨0, 1, 1⟩, ⟨0, 1, 1⟩, ⟨0, 1, 1⟩, ⟨-3, 4290, 512⟩, ⟨0, 1, 1⟩, ⟨-19, 26, 512⟩, ⟨0, 1, 1⟩, ⟨83, 2, 256⟩, ⟨0, 1, 1⟩, ⟨237, 1, 512⟩, ⟨0, 1, 1⟩, ⟨-31, 102, 512⟩, ⟨0, 1, 1⟩, ⟨1, 4845, 512⟩],
  [⟨1, 285, 256⟩, ⟨0, 1, 1⟩, ⟨-11, 6, 64⟩, ⟨0, 1, 1⟩, ⟨43, 17, 256⟩, ⟨0, 1, 1⟩, ⟨-1, 34, 64⟩, ⟨0, 1, 1⟩, ⟨-7, 442, 256⟩, ⟨0, 1, 1⟩, ⟨0, 1, 1⟩, ⟨0, 1, 1⟩, ⟨0, 1, 1⟩, ⟨0, 1, 1⟩, ⟨0, 1, 1⟩, ⟨0, 1, 1⟩, ⟨0, 1, 1⟩, ⟨0, 1, 1⟩, ⟨0, 1, 1⟩, ⟨0, 1, 1⟩, ⟨0, 1, 1⟩],
  [⟨0, 1, 1⟩, ⟨0, 1, 1⟩, ⟨0, 1, 1⟩, ⟨0, 1, 1⟩, ⟨0, 1, 1⟩, ⟨0, 1, 1⟩, ⟨0, 1, 1⟩, ⟨0, 1, 1⟩, ⟨0, 1, 1⟩, ⟨0, 1, 1⟩, ⟨-1, 12155, 256⟩, ⟨0, 1, 1⟩, ⟨1, 663, 256⟩, ⟨0, 1, 1⟩, ⟨11, 51, 128⟩, ⟨0, 1, 1⟩, ⟨-31, 102, 512⟩, ⟨0, 1, 1⟩, ⟨59, 1, 256⟩, ⟨0, 1, 1⟩, ⟨-1, 190, 512⟩],
  [⟨-1, 5, 256⟩, ⟨0, 1, 1⟩, ⟨1, 38, 64⟩, ⟨0, 1, 1⟩, ⟨-3, 969, 256⟩, ⟨0, 1, 1⟩, ⟨1, 1938, 64⟩, ⟨0, 1, 1⟩, ⟨-1, 25194, 256⟩, ⟨0, 1, 1⟩, ⟨0, 1, 1⟩, ⟨0, 1, 1⟩, ⟨0, 1, 1⟩, ⟨0, 1, 1⟩, ⟨0, 1, 1⟩, ⟨0, 1, 1⟩, ⟨0, 1, 1⟩, ⟨0, 1, 1⟩, ⟨0, 1, 1⟩, ⟨0, 1, 1⟩, ⟨0, 1, 1⟩],
  [⟨0, 1, 1⟩, ⟨0, 1, 1⟩, ⟨0, 1, 1⟩, ⟨0, 1, 1⟩, ⟨0, 1, 1⟩, ⟨0, 1, 1⟩, ⟨0, 1, 1⟩, ⟨0, 1, 1⟩, ⟨0, 1, 1⟩, ⟨0, 1, 1⟩, ⟨-1, 92378, 512⟩, ⟨0, 1, 1⟩, ⟨1, 125970, 512⟩, ⟨0, 1, 1⟩, ⟨-1, 9690, 256⟩, ⟨0, 1, 1⟩, ⟨1, 4845, 512⟩, ⟨0, 1, 1⟩, ⟨-1, 190, 512⟩, ⟨0, 1, 1⟩, ⟨1, 1, 512⟩]]

/-- `J11`, J.py:1606-2184. -/
def jTable11 : List (List JE) := [
  [⟨0, 1, 1⟩, ⟨0, 1, 1⟩, ⟨0, 1, 1⟩, ⟨0, 1, 1⟩, ⟨0, 1, 1⟩, ⟨0, 1, 1⟩, ⟨0, 1, 1⟩, ⟨0, 1, 1⟩, ⟨0, 1, 1⟩, ⟨0, 1, 1⟩, ⟨0, 1, 1⟩, ⟨1, 88179, 512⟩, ⟨0, 1, 1⟩, ⟨-1, 124355, 512⟩, ⟨0, 1, 1⟩, ⟨1, 10659, 256⟩, ⟨0, 1, 1⟩, ⟨-3, 2926, 1024⟩, ⟨0, 1, 1⟩, ⟨1, 385, 512⟩, ⟨0, 1, 1⟩, ⟨-1, 22, 1024⟩, ⟨0, 1, 1⟩],
  [⟨0, 1, 1⟩, ⟨5, 1, 256⟩, ⟨0, 1, 1⟩, ⟨-1, 70, 64⟩, ⟨0, 1, 1⟩, ⟨9, 133, 256⟩, ⟨0, 1, 1⟩, ⟨-1, 1938, 64⟩, ⟨0, 1, 1⟩, ⟨1, 22610, 256⟩, ⟨0, 1, 1⟩, ⟨0, 1, 1⟩, ⟨0, 1, 1⟩, ⟨0, 1, 1⟩, ⟨0, 1, 1⟩, ⟨0, 1, 1⟩, ⟨0, 1, 1⟩, ⟨0, 1, 1⟩, ⟨0, 1, 1⟩, ⟨0, 1, 1⟩, ⟨0, 1, 1⟩, ⟨0, 1, 1⟩, ⟨0, 1, 1⟩],
  [⟨0, 1, 1⟩, ⟨0, 1, 1⟩, ⟨0, 1, 1⟩, ⟨0, 1, 1⟩, ⟨0, 1, 1⟩, ⟨0, 1, 1⟩, ⟨0, 1, 1⟩, ⟨0, 1, 1⟩, ⟨0, 1, 1⟩, ⟨0, 1, 1⟩, ⟨0, 1, 1⟩, ⟨1, 46189, 512⟩, ⟨0, 1, 1⟩, ⟨-1, 4845, 512⟩, ⟨0, 1, 1⟩, ⟨-3, 2261, 256⟩, ⟨0, 1, 1⟩, ⟨61, 114, 1024⟩, ⟨0, 1, 1⟩, ⟨-39, 15, 512⟩, ⟨0, 1, 1⟩, ⟨9, 42, 1024⟩, ⟨0, 1, 1⟩],
  [⟨0, 1, 1⟩, ⟨-1, 70, 64⟩, ⟨0, 1, 1⟩, ⟨1, 1, 2⟩, ⟨0, 1, 1⟩, ⟨-3, 190, 64⟩, ⟨0, 1, 1⟩, ⟨0, 1, 1⟩, ⟨0, 1, 1⟩, ⟨1, 323, 32⟩, ⟨0, 1, 1⟩, ⟨0, 1, 1⟩, ⟨0, 1, 1⟩, ⟨0, 1, 1⟩, ⟨0, 1, 1⟩, ⟨0, 1, 1⟩, ⟨0, 1, 1⟩, ⟨0, 1, 1⟩, ⟨0, 1, 1⟩, ⟨0, 1, 1⟩, ⟨0, 1, 1⟩, ⟨0, 1, 1⟩, ⟨0, 1, 1⟩],
  [⟨0, 1, 1⟩, ⟨0, 1, 1⟩, ⟨0, 1, 1⟩, ⟨0, 1, 1⟩, ⟨0, 1, 1⟩, ⟨0, 1, 1⟩, ⟨0, 1, 1⟩, ⟨0, 1, 1⟩, ⟨0, 1, 1⟩, ⟨0, 1, 1⟩, ⟨0, 1, 1⟩, ⟨1, 36465, 512⟩, ⟨0, 1, 1⟩, ⟨17, 17, 512⟩, ⟨0, 1, 1⟩, ⟨-3, 1785, 256⟩, ⟨0, 1, 1⟩, ⟨-105, 10, 1024⟩, ⟨0, 1, 1⟩, ⟨77, 19, 512⟩, ⟨0, 1, 1⟩, ⟨-7, 1330, 1024⟩, ⟨0, 1, 1⟩],
  [⟨0, 1, 1⟩, ⟨9, 133, 256⟩, ⟨0, 1, 1⟩, ⟨-3, 190, 64⟩, ⟨0, 1, 1⟩, ⟨-47, 1, 256⟩, ⟨0, 1, 1⟩, ⟨1, 714, 64⟩, ⟨0, 1, 1⟩, ⟨9, 170, 256⟩, ⟨0, 1, 1⟩, ⟨0, 1, 1⟩, ⟨0, 1, 1⟩, ⟨0, 1, 1⟩, ⟨0, 1, 1⟩, ⟨0, 1, 1⟩, ⟨0, 1, 1⟩, ⟨0, 1, 1⟩, ⟨0, 1, 1⟩, ⟨0, 1, 1⟩, ⟨0, 1, 1⟩, ⟨0, 1, 1⟩, ⟨0, 1, 1⟩],
  [⟨0, 1, 1⟩, ⟨0, 1, 1⟩, ⟨0, 1, 1⟩, ⟨0, 1, 1⟩, ⟨0, 1, 1⟩, ⟨0, 1, 1⟩, ⟨0, 1, 1⟩, ⟨0, 1, 1⟩, ⟨0, 1, 1⟩, ⟨0, 1, 1⟩, ⟨0, 1, 1⟩, ⟨15, 143, 512⟩, ⟨0, 1, 1⟩, ⟨41, 15, 512⟩, ⟨0, 1, 1⟩, ⟨-13, 7, 256⟩, ⟨0, 1, 1⟩, ⟨-53, 102, 1024⟩, ⟨0, 1, 1⟩, ⟨-3, 4845, 512⟩, ⟨0, 1, 1⟩, ⟨5, 13566, 1024⟩, ⟨0, 1, 1⟩],
  [⟨0, 1, 1⟩, ⟨-1, 1938, 64⟩, ⟨0, 1, 1⟩, ⟨0, 1, 1⟩, ⟨0, 1, 1⟩, ⟨1, 714, 64⟩, ⟨0, 1, 1⟩, ⟨1, 1, 2⟩, ⟨0, 1, 1⟩, ⟨1, 105, 32⟩, ⟨0, 1, 1⟩, ⟨0, 1, 1⟩, ⟨0, 1, 1⟩, ⟨0, 1, 1⟩, ⟨0, 1, 1⟩, ⟨0, 1, 1⟩, ⟨0, 1, 1⟩, ⟨0, 1, 1⟩, ⟨0, 1, 1⟩, ⟨0, 1, 1⟩, ⟨0, 1, 1⟩, ⟨0, 1, 1⟩, ⟨0, 1, 1⟩],
  [⟨0, 1, 1⟩, ⟨0, 1, 1⟩, ⟨0, 1, 1⟩, ⟨0, 1, 1⟩, ⟨0, 1, 1⟩, ⟨0, 1, 1⟩, ⟨0, 1, 1⟩, ⟨0, 1, 1⟩, ⟨0, 1, 1⟩, ⟨0, 1, 1⟩, ⟨0, 1, 1⟩, ⟨1, 30030, 512⟩, ⟨0, 1, 1⟩, ⟨57, 14, 512⟩, ⟨0, 1, 1⟩, ⟨11, 30, 256⟩, ⟨0, 1, 1⟩, ⟨-1, 595, 512⟩, ⟨0, 1, 1⟩, ⟨-3, 4522, 512⟩, ⟨0, 1, 1⟩, ⟨-9, 1615, 512⟩, ⟨0, 1, 1⟩],
  [⟨0, 1, 1⟩, ⟨1, 22610, 256⟩, ⟨0, 1, 1⟩, ⟨1, 323, 32⟩, ⟨0, 1, 1⟩, ⟨9, 170, 256⟩, ⟨0, 1, 1⟩, ⟨1, 105, 32⟩, ⟨0, 1, 1⟩, ⟨21, 1, 128⟩, ⟨0, 1, 1⟩, ⟨0, 1, 1⟩, ⟨0, 1, 1⟩, ⟨0, 1, 1⟩, ⟨0, 1, 1⟩, ⟨0, 1, 1⟩, ⟨0, 1, 1⟩, ⟨0, 1, 1⟩, ⟨0, 1, 1⟩, ⟨0, 1, 1⟩, ⟨0, 1, 1⟩, ⟨0, 1, 1⟩, ⟨0, 1, 1⟩],
  [⟨0, 1, 1⟩, ⟨0, 1, 1⟩, ⟨0, 1, 1⟩, ⟨0, 1, 1⟩, ⟨0, 1, 1⟩, ⟨0, 1, 1⟩, ⟨0, 1, 1⟩, ⟨0, 1, 1⟩, ⟨0, 1, 1⟩, ⟨0, 1, 1⟩, ⟨0, 1, 1⟩, ⟨21, 66, 512⟩, ⟨0, 1, 1⟩, ⟨21, 130, 512⟩, ⟨0, 1, 1⟩, ⟨5, 546, 256⟩, ⟨0, 1, 1⟩, ⟨15, 221, 512⟩, ⟨0, 1, 1⟩, ⟨1, 41990, 512⟩, ⟨0, 1, 1⟩, ⟨1, 29393, 512⟩, ⟨0, 1, 1⟩],
  [⟨1, 88179, 512⟩, ⟨0, 1, 1⟩, ⟨1, 46189, 512⟩, ⟨0, 1, 1⟩, ⟨1, 36465, 512⟩, ⟨0, 1, 1⟩, ⟨15, 143, 512⟩, ⟨0, 1, 1⟩, ⟨1, 30030, 512⟩, ⟨0, 1, 1⟩, ⟨21, 66, 512⟩, ⟨0, 1, 1⟩, ⟨0, 1, 1⟩, ⟨0, 1, 1⟩, ⟨0, 1, 1⟩, ⟨0, 1, 1⟩, ⟨0, 1, 1⟩, ⟨0, 1, 1⟩, ⟨0, 1, 1⟩, ⟨0, 1, 1⟩, ⟨0, 1, 1⟩, ⟨0, 1, 1⟩, ⟨0, 1, 1⟩],
  [⟨0, 1, 1⟩, ⟨0, 1, 1⟩, ⟨0, 1, 1⟩, ⟨0, 1, 1⟩, ⟨0, 1, 1⟩, ⟨0, 1, 1⟩, ⟨0, 1, 1⟩, ⟨0, 1, 1⟩, ⟨0, 1, 1⟩, ⟨0, 1, 1⟩, ⟨0, 1, 1⟩, ⟨0, 1, 1⟩, ⟨-21, 1, 512⟩, ⟨0, 1, 1⟩, ⟨-3, 455, 512⟩, ⟨0, 1, 1⟩, ⟨-25, 78, 1024⟩, ⟨0, 1, 1⟩, ⟨-7, 2210, 1024⟩, ⟨0, 1, 1⟩, ⟨-3, 25194, 1024⟩, ⟨0, 1, 1⟩, ⟨-1, 646646, 1024⟩],
  [⟨-1, 124355, 512⟩, ⟨0, 1, 1⟩, ⟨-1, 4845, 512⟩, ⟨0, 1, 1⟩, ⟨17, 17, 512⟩, ⟨0, 1, 1⟩, ⟨41, 15, 512⟩, ⟨0, 1, 1⟩, ⟨57, 14, 512⟩, ⟨0, 1, 1⟩, ⟨21, 130, 512⟩, ⟨0, 1, 1⟩, ⟨0, 1, 1⟩, ⟨0, 1, 1⟩, ⟨0, 1, 1⟩, ⟨0, 1, 1⟩, ⟨0, 1, 1⟩, ⟨0, 1, 1⟩, ⟨0, 1, 1⟩, ⟨0, 1, 1⟩, ⟨0, 1, 1⟩, ⟨0, 1, 1⟩, ⟨0, 1, 1⟩],
  [⟨0, 1, 1⟩, ⟨0, 1, 1⟩, ⟨0, 1, 1⟩, ⟨0, 1, 1⟩, ⟨0, 1, 1⟩, ⟨0, 1, 1⟩, ⟨0, 1, 1⟩, ⟨0, 1, 1⟩, ⟨0, 1, 1⟩, ⟨0, 1, 1⟩, ⟨0, 1, 1⟩, ⟨0, 1, 1⟩, ⟨-3, 455, 512⟩, ⟨0, 1, 1⟩, ⟨-179, 1, 512⟩, ⟨0, 1, 1⟩, ⟨-35, 210, 1024⟩, ⟨0, 1, 1⟩, ⟨-33, 238, 1024⟩, ⟨0, 1, 1⟩, ⟨-1, 67830, 1024⟩, ⟨0, 1, 1⟩, ⟨3, 35530, 1024⟩],
  [⟨1, 10659, 256⟩, ⟨0, 1, 1⟩, ⟨-3, 2261, 256⟩, ⟨0, 1, 1⟩, ⟨-3, 1785, 256⟩, ⟨0, 1, 1⟩, ⟨-13, 7, 256⟩, ⟨0, 1, 1⟩, ⟨11, 30, 256⟩, ⟨0, 1, 1⟩, ⟨5, 546, 256⟩, ⟨0, 1, 1⟩, ⟨0, 1, 1⟩, ⟨0, 1, 1⟩, ⟨0, 1, 1⟩, ⟨0, 1, 1⟩, ⟨0, 1, 1⟩, ⟨0, 1, 1⟩, ⟨0, 1, 1⟩, ⟨0, 1, 1⟩, ⟨0, 1, 1⟩, ⟨0, 1, 1⟩, ⟨0, 1, 1⟩],
  [⟨0, 1, 1⟩, ⟨0, 1, 1⟩, ⟨0, 1, 1⟩, ⟨0, 1, 1⟩, ⟨0, 1, 1⟩, ⟨0, 1, 1⟩, ⟨0, 1, 1⟩, ⟨0, 1, 1⟩, ⟨0, 1, 1⟩, ⟨0, 1, 1⟩, ⟨0, 1, 1⟩, ⟨0, 1, 1⟩, ⟨-25, 78, 1024⟩, ⟨0, 1, 1⟩, ⟨-35, 210, 1024⟩, ⟨0, 1, 1⟩, ⟨-395, 1, 1024⟩, ⟨0, 1, 1⟩, ⟨9, 255, 1024⟩, ⟨0, 1, 1⟩, ⟨39, 323, 1024⟩, ⟨0, 1, 1⟩, ⟨-1, 74613, 1024⟩],
  [⟨-3, 2926, 1024⟩, ⟨0, 1, 1⟩, ⟨61, 114, 1024⟩, ⟨0, 1, 1⟩, ⟨-105, 10, 1024⟩, ⟨0, 1, 1⟩, ⟨-53, 102, 1024⟩, ⟨0, 1, 1⟩, ⟨-1, 595, 512⟩, ⟨0, 1, 1⟩, ⟨15, 221, 512⟩, ⟨0, 1, 1⟩, ⟨0, 1, 1⟩, ⟨0, 1, 1⟩, ⟨0, 1, 1⟩, ⟨0, 1, 1⟩, ⟨0, 1, 1⟩, ⟨0, 1, 1⟩, ⟨0, 1, 1⟩, ⟨0, 1, 1⟩, ⟨0, 1, 1⟩, ⟨0, 1, 1⟩, ⟨0, 1, 1⟩],
  [⟨0, 1, 1⟩, ⟨0, 1, 1⟩, ⟨0, 1, 1⟩, ⟨0, 1, 1⟩, ⟨0, 1, 1⟩, ⟨0, 1, 1⟩, ⟨0, 1, 1⟩, ⟨0, 1, 1⟩, ⟨0, 1, 1⟩, ⟨0, 1, 1⟩, ⟨0, 1, 1⟩, ⟨0, 1, 1⟩, ⟨-7, 2210, 1024⟩, ⟨0, 1, 1⟩, ⟨-33, 238, 1024⟩, ⟨0, 1, 1⟩, ⟨9, 255, 1024⟩, ⟨0, 1, 1⟩, ⟨643, 1, 1024⟩, ⟨0, 1, 1⟩, ⟨-29, 285, 1024⟩, ⟨0, 1, 1⟩, ⟨1, 7315, 1024⟩],
  [⟨1, 385, 512⟩, ⟨0, 1, 1⟩, ⟨-39, 15, 512⟩, ⟨0, 1, 1⟩, ⟨77, 19, 512⟩, ⟨0, 1, 1⟩, ⟨-3, 4845, 512⟩, ⟨0, 1, 1⟩, ⟨-3, 4522, 512⟩, ⟨0, 1, 1⟩, ⟨1, 41990, 512⟩, ⟨0, 1, 1⟩, ⟨0, 1, 1⟩, ⟨0, 1, 1⟩, ⟨0, 1, 1⟩, ⟨0, 1, 1⟩, ⟨0, 1, 1⟩, ⟨0, 1, 1⟩, ⟨0, 1, 1⟩, ⟨0, 1, 1⟩, ⟨0, 1, 1⟩, ⟨0, 1, 1⟩, ⟨0, 1, 1⟩],
  [⟨0, 1, 1⟩, ⟨0, 1, 1⟩, ⟨0, 1, 1⟩, ⟨0, 1, 1⟩, ⟨0, 1, 1⟩, ⟨0, 1, 1⟩, ⟨0, 1, 1⟩, ⟨0, 1, 1⟩, ⟨0, 1, 1⟩, ⟨0, 1, 1⟩, ⟨0, 1, 1⟩, ⟨0, 1, 1⟩, ⟨-3, 25194, 1024⟩, ⟨0, 1, 1⟩, ⟨-1, 67830, 1024⟩, ⟨0, 1, 1⟩, ⟨39, 323, 1024⟩, ⟨0, 1, 1⟩, ⟨-29, 285, 1024⟩, ⟨0, 1, 1⟩, ⟨151, 1, 1024⟩, ⟨0, 1, 1⟩, ⟨-1, 231, 1024⟩],
  [⟨-1, 22, 1024⟩, ⟨0, 1, 1⟩, ⟨9, 42, 1024⟩, ⟨0, 1, 1⟩, ⟨-7, 1330, 1024⟩, ⟨0, 1, 1⟩, ⟨5, 13566, 1024⟩, ⟨0, 1, 1⟩, ⟨-9, 1615, 512⟩, ⟨0, 1, 1⟩, ⟨1, 29393, 512⟩, ⟨0, 1, 1⟩, ⟨0, 1, 1⟩, ⟨0, 1, 1⟩, ⟨0, 1, 1⟩, ⟨0, 1, 1⟩, ⟨0, 1, 1⟩, ⟨0, 1, 1⟩, ⟨0, 1, 1⟩, ⟨0, 1, 1⟩, ⟨0, 1, 1⟩, ⟨0, 1, 1⟩, ⟨0, 1, 1⟩],
  [⟨0, 1, 1⟩, ⟨0, 1, 1⟩, ⟨0, 1, 1⟩, ⟨0, 1, 1⟩, ⟨0, 1, 1⟩, ⟨0, 1, 1⟩, ⟨0, 1, 1⟩, ⟨0, 1, 1⟩, ⟨0, 1, 1⟩, ⟨0, 1, 1⟩, ⟨0, 1, 1⟩, ⟨0, 1, 1⟩, ⟨-1, 646646, 1024⟩, ⟨0, 1, 1⟩, ⟨3, 35530, 1024⟩, ⟨0, 1, 1⟩, ⟨-1, 74613, 1024⟩, ⟨0, 1, 1⟩, ⟨1, 7315, 1024⟩, ⟨0, 1, 1⟩, ⟨-1, 231, 1024⟩, ⟨0, 1, 1⟩, ⟨1, 1, 1024⟩]]

/-- `Jd`, J.py:2186. -/
def jTables : List (List (List JE)) :=
  [jTable0, jTable1, jTable2, jTable3, jTable4, jTable5, jTable6, jTable7, jTable8, jTable9, jTable10, jTable11]

end E3nn
