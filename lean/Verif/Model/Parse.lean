import Verif.Model.Irreps

/-!
# Model of the text form of irreps (`irreps.py`)

Strings are lists of ASCII characters (non-ASCII digits and spaces, which Python's `int` and
`str.strip` also understand, are outside the model, and so is CPython's limit of 4300 digits on
`int`/`str` conversion).
-/

namespace E3nn.Parse

/-- Characters removed by `str.strip()` (ASCII part of `str.isspace`): `\t … \r`, `\x1c … \x1f`,
space (irreps.py:78 and 417). -/
def isPySpace (c : Char) : Bool :=
  (9 ≤ c.toNat && c.toNat ≤ 13) || (28 ≤ c.toNat && c.toNat ≤ 31) || c.toNat == 32

/-- Characters skipped at both ends by `int(str)` on ASCII strings (C `isspace`) (irreps.py:79 and 421). -/
def isCSpace (c : Char) : Bool := (9 ≤ c.toNat && c.toNat ≤ 13) || c.toNat == 32

/-- Remove the characters satisfying `sp` at both ends (`str.strip`) (irreps.py:78). -/
def strip (sp : Char → Bool) (s : List Char) : List Char :=
  ((s.dropWhile sp).reverse.dropWhile sp).reverse

/-- Value of a decimal digit (irreps.py:79 and 421). -/
def digitVal (c : Char) : Nat := c.toNat - 48

/-- `int(str)`: the part after the first digit; single underscores may separate digits (irreps.py:79 and 421). -/
def digitsGo : List Char → Nat → Option Nat
  | [], acc => some acc
  | '_' :: c :: cs, acc => if c.isDigit then digitsGo cs (10 * acc + digitVal c) else none
  | c :: cs, acc => if c.isDigit then digitsGo cs (10 * acc + digitVal c) else none

/-- `int(str)`: an unsigned literal (irreps.py:79 and 421). -/
def pyNat : List Char → Option Nat
  | c :: cs => if c.isDigit then digitsGo cs (digitVal c) else none
  | [] => none

/-- `int(str)` in base 10 (`none` = `ValueError`) (irreps.py:79 and 421). -/
def pyInt (s : List Char) : Option Int :=
  match strip isCSpace s with
  | '+' :: cs => (pyNat cs).map fun (n : Nat) => (n : Int)
  | '-' :: cs => (pyNat cs).map fun (n : Nat) => -(n : Int)
  | cs => (pyNat cs).map fun (n : Nat) => (n : Int)

/-- The table at irreps.py:81-85 applied to `name[-1]`; a missing key raises. -/
def parityOf (l : Nat) : Char → Option Parity
  | 'e' => some .e
  | 'o' => some .o
  | 'y' => some (Parity.ofPow l)
  | _ => none

/-- `Irrep(str)`, irreps.py:76-87 (`none` = `ValueError`). -/
def parseIrrep (s : List Char) : Option Irrep :=
  let name := strip isPySpace s
  match name.getLast? with
  | none => none
  | some c =>
    match pyInt name.dropLast with
    | none => none
    | some l =>
      if 0 ≤ l then (parityOf l.toNat c).map fun p => ⟨l.toNat, p⟩ else none

/-- `str.split(sep)` for a one-character separator (irreps.py:418 and 420). -/
def splitOn (sep : Char) : List Char → List (List Char)
  | [] => [[]]
  | c :: cs =>
    if c = sep then [] :: splitOn sep cs
    else
      match splitOn sep cs with
      | [] => [[c]]
      | w :: ws => (c :: w) :: ws

/-- One term, irreps.py:418-428. `mul, ir = mul_ir.split("x")` raises unless there are exactly
two pieces. -/
def parseTerm (s : List Char) : Option MulIrrep :=
  if s.contains 'x' then
    match splitOn 'x' s with
    | [m, r] =>
      match pyInt m with
      | none => none
      | some mul =>
        match parseIrrep r with
        | none => none
        | some ir => if 0 ≤ mul then some ⟨mul.toNat, ir⟩ else none
    | _ => none
  else (parseIrrep s).map fun ir => ⟨1, ir⟩

/-- `Irreps(str)`, irreps.py:415-430. -/
def parse (s : List Char) : Except PyErr Irreps :=
  if strip isPySpace s = [] then .ok []
  else
    match (splitOn '+' s).mapM parseTerm with
    | none => .error .valueError
    | some x => .ok x

/-- `str(int)` for a non-negative integer (irreps.py:867). -/
def showNat (n : Nat) : List Char := Nat.toDigits 10 n

/-- `Irrep.__repr__`, irreps.py:96-99. -/
def showIrrep (ir : Irrep) : List Char :=
  showNat ir.l ++ [match ir.p with | .e => 'e' | .o => 'o']

/-- `MulIrrep.__repr__`, irreps.py:329-331. -/
def showTerm (m : MulIrrep) : List Char := showNat m.mul ++ 'x' :: showIrrep m.ir

/-- `sep.join(list)` (irreps.py:867). -/
def join (sep : Char) : List (List Char) → List Char
  | [] => []
  | [w] => w
  | w :: ws => w ++ sep :: join sep ws

/-- `Irreps.__repr__`, irreps.py:863-867. -/
def «show» (x : Irreps) : List Char :=
  if x = [] then "Irreps()".toList else join '+' (x.map showTerm)

end E3nn.Parse
