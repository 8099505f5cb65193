import Verif.Model.Irreps

/-! # Specification: which texts denote which irreps

A declarative grammar, independent of the parser.  Blanks are allowed around every integer and
around every irrep; the multiplicity and the `x` may be omitted (meaning 1).
-/

namespace E3nn.Text

/-- ASCII blanks understood around integers. -/
def Blank (c : Char) : Prop := c = ' ' ∨ c = '\t' ∨ c = '\n' ∨ c = '\x0b' ∨ c = '\x0c' ∨ c = '\r'

/-- ASCII blanks understood around a whole irrep: the same plus the separators 28–31. -/
def WideBlank (c : Char) : Prop :=
  Blank c ∨ c = '\x1c' ∨ c = '\x1d' ∨ c = '\x1e' ∨ c = '\x1f'

/-- Unsigned decimal literals: digits, possibly separated by single underscores. -/
inductive NatLit : List Char → Nat → Prop
  | digit (c : Char) : c.isDigit → NatLit [c] (c.toNat - '0'.toNat)
  | snoc (s : List Char) (n : Nat) (c : Char) : NatLit s n → c.isDigit →
      NatLit (s ++ [c]) (10 * n + (c.toNat - '0'.toNat))
  | under (s : List Char) (n : Nat) (c : Char) : NatLit s n → c.isDigit →
      NatLit (s ++ ['_', c]) (10 * n + (c.toNat - '0'.toNat))

/-- Integer literals with a non-negative value: blanks, an optional `+` (or `-` before zero),
digits, blanks. -/
def NonnegLit (s : List Char) (n : Nat) : Prop :=
  ∃ a sg d b, s = a ++ sg ++ d ++ b ∧ (∀ c ∈ a, Blank c) ∧ (∀ c ∈ b, Blank c) ∧ NatLit d n ∧
    (sg = [] ∨ sg = ['+'] ∨ (sg = ['-'] ∧ n = 0))

/-- Texts denoting an irrep: blanks, a degree, a parity letter, blanks. -/
def IrrepText (s : List Char) (ir : Irrep) : Prop :=
  ∃ a d c b, s = a ++ d ++ c :: b ∧ (∀ x ∈ a, WideBlank x) ∧ (∀ x ∈ b, WideBlank x) ∧
    NonnegLit d ir.l ∧
    ((c = 'e' ∧ ir.p = .e) ∨ (c = 'o' ∧ ir.p = .o) ∨
      (c = 'y' ∧ ir.p = if ir.l % 2 = 0 then .e else .o))

/-- Texts denoting one term. -/
def TermText (s : List Char) (m : MulIrrep) : Prop :=
  ('x' ∉ s ∧ m.mul = 1 ∧ IrrepText s m.ir) ∨
  ∃ k r, s = k ++ 'x' :: r ∧ NonnegLit k m.mul ∧ IrrepText r m.ir

/-- The texts `t₁+t₂+…` for a non-empty list of terms. -/
inductive SumText : List Char → Irreps → Prop
  | single (t : List Char) (m : MulIrrep) : '+' ∉ t → TermText t m → SumText t [m]
  | cons (t s : List Char) (m : MulIrrep) (x : Irreps) : '+' ∉ t → TermText t m → SumText s x →
      SumText (t ++ '+' :: s) (m :: x)

/-- Texts denoting an `Irreps`: blank text denotes the empty one. -/
def IrrepsText (s : List Char) (x : Irreps) : Prop :=
  (x = [] ∧ ∀ c ∈ s, WideBlank c) ∨ SumText s x

end E3nn.Text
