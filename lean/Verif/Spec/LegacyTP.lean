import Verif.Model.LegacyTP
import Verif.Lemmas.Offsets

/-!
# What the instructions of a legacy tensor product mean

A path combines copy `u` of the first input with copy `v` of the second one into copy `w` of the output, with one
entry of the weight of the instruction.
-/

namespace E3nn.LTP
open E3nn.IArr

/-- Entry number `q` of the weight, copies `u`, `v` and `w`. -/
structure Path where
  q : ℕ
  u : ℕ
  v : ℕ
  w : ℕ
  deriving DecidableEq

/-- The pairs of copies `u < v`, in lexicographic order. -/
def pairsLt (m : ℕ) : List (ℕ × ℕ) := ((List.range m).product (List.range m)).filter fun p => p.1 < p.2

/-- The paths of each connection mode, as documented: `uvw` connects everything, in `uvu` the output has the
copies of the first input, in `uvv` those of the second one, in `uuw` and `uuu` the copies of the inputs are
paired, `uvuv` makes one output for every pair, `uvu<v` one for every pair `u < v`, `u<vw` mixes these. -/
def paths (mode : Mode) (m1 m2 mo : ℕ) : List Path :=
  match mode with
  | .uvw => (List.range m1).flatMap fun u => (List.range m2).flatMap fun v => (List.range mo).map fun w => ⟨(u * m2 + v) * mo + w, u, v, w⟩
  | .uvu => (List.range m1).flatMap fun u => (List.range m2).map fun v => ⟨u * m2 + v, u, v, u⟩
  | .uvv => (List.range m1).flatMap fun u => (List.range m2).map fun v => ⟨u * m2 + v, u, v, v⟩
  | .uuw => (List.range m1).flatMap fun u => (List.range mo).map fun w => ⟨u * mo + w, u, u, w⟩
  | .uuu => (List.range m1).map fun u => ⟨u, u, u, u⟩
  | .uvuv => (List.range m1).flatMap fun u => (List.range m2).map fun v => ⟨u * m2 + v, u, v, u * m2 + v⟩
  | .uvuLtV => (pairsLt m1).zipIdx.map fun p => ⟨p.2, p.1.1, p.1.2, p.2⟩
  | .uLtVw => (pairsLt m1).zipIdx.flatMap fun p => (List.range mo).map fun w => ⟨p.2 * mo + w, p.1.1, p.1.2, w⟩
  | .other => []

/-- The conditions on the multiplicities, and on the presence of a weight, of each mode. -/
def Fits (mode : Mode) (hasWeight : Bool) (m1 m2 mo : ℕ) : Prop :=
  match mode with
  | .uvw => hasWeight = true
  | .uvu => m1 = mo
  | .uvv => m2 = mo
  | .uuw => m1 = m2 ∧ (hasWeight = true ∨ mo = 1)
  | .uuu => m1 = m2 ∧ m2 = mo
  | .uvuv => m1 * m2 = mo
  | .uvuLtV => m1 = m2 ∧ m1 * (m1 - 1) / 2 = mo
  | .uLtVw => m1 = m2 ∧ hasWeight = true
  | .other => False

/-- The product of one path: the Clebsch-Gordan product of copy `u` of term `i1` with copy `v` of term `i2`,
component `k`. -/
noncomputable def pathProduct (irreps1 irreps2 : Irreps) (X1 X2 : List ℝ) (i1 i2 : ℕ) (l1 l2 l3 : ℕ) (u v : ℕ) (k : Fin (2 * l3 + 1)) : ℝ :=
  ∑ i : Fin (2 * l1 + 1), ∑ j : Fin (2 * l2 + 1),
    SU2.clebschGordan l1 l2 l3 i j k * X1.getD (pos irreps1 i1 l1 u i) 0 * X2.getD (pos irreps2 i2 l2 v j) 0

/-- The contribution of an instruction with weight `w` to component `k` of copy `n` of its output term `c`. -/
noncomputable def term (f : FTP) (X1 X2 : List ℝ) (ins : Ins) (w : List ℝ) (c : MulIrrep) (n : ℕ) (k : Fin (2 * c.ir.l + 1)) : ℝ :=
  let a := f.irreps1.getD ins.i1 ⟨0, ⟨0, .e⟩⟩
  let b := f.irreps2.getD ins.i2 ⟨0, ⟨0, .e⟩⟩
  ins.pathWeight * (((paths ins.mode a.mul b.mul c.mul).filter fun p => p.w = n).map fun p =>
    (if ins.hasWeight then w.getD p.q 0 else 1) *
      pathProduct f.irreps1 f.irreps2 X1 X2 ins.i1 ins.i2 a.ir.l b.ir.l c.ir.l p.u p.v k).sum

/-- `W` gives to every instruction its weight (nothing to those without weight): one entry per element of
`path_shape`. -/
def WeightsFor (f : FTP) (W : List (List ℝ)) : Prop :=
  W.map List.length = f.instructions.map fun ins => if ins.hasWeight then ins.pathShape.prod else 0

/-- The argument `weights` as a list: the weights of the instructions that have one, in order. -/
def weightList (f : FTP) (W : List (List ℝ)) : List (List ℝ) :=
  ((f.instructions.zip W).filter fun q => q.1.hasWeight).map Prod.snd

/-- The multiplicities of the terms of every instruction fit its mode. -/
def Proper (f : FTP) : Prop :=
  ∀ ins ∈ f.instructions, ∀ a b c, f.irreps1[ins.i1]? = some a → f.irreps2[ins.i2]? = some b → f.irrepsOut[ins.io]? = some c →
    Fits ins.mode ins.hasWeight a.mul b.mul c.mul

/-- The terms of every instruction have copies. -/
def Populated (f : FTP) : Prop :=
  ∀ ins ∈ f.instructions, ∀ a b c, f.irreps1[ins.i1]? = some a → f.irreps2[ins.i2]? = some b → f.irrepsOut[ins.io]? = some c →
    0 < a.mul ∧ 0 < b.mul ∧ 0 < c.mul

/-- The modes that `fused=True` accepts: `uvw`, `uvu`, `uvv` with a weight, `uuu` and `uvuv` with or without. -/
def Fusable (f : FTP) : Prop :=
  ∀ ins ∈ f.instructions, match ins.mode with
    | .uvw | .uvu | .uvv => ins.hasWeight = true
    | .uuu | .uvuv => True
    | _ => False

end E3nn.LTP
