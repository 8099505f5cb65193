import Verif.Model.LegacyTP

/-!
# Model of `e3nn_jax/_src/fc_tp_haiku.py` (class `FullyConnectedTensorProduct`)

One element of the leading axes: the module maps `left_right` over them with the same weights.  The parameters are
a function of their name; `hk.get_parameter` raises `ValueError` when the stored shape is not the requested one, here
compared by the number of entries.
-/

namespace E3nn.FCTP
open E3nn.LTP E3nn.IArr

/-- The name of a parameter, fc_tp_haiku.py:40-41: three indices and three terms (the text determines them). -/
structure PName where
  i1 : ℕ
  i2 : ℕ
  io : ℕ
  a : MulIrrep
  b : MulIrrep
  c : MulIrrep
deriving DecidableEq

/-- The parameters of the module: the entries in order of each of them. -/
abbrev Params := PName → List ℝ

/-- One `hk.get_parameter`, fc_tp_haiku.py:37-47. -/
def getParameter (f : FTP) (P : Params) (ins : Ins) : Except PyErr (List ℝ) :=
  match f.irreps1[ins.i1]?, f.irreps2[ins.i2]?, f.irrepsOut[ins.io]? with
  | some a, some b, some c =>
    if (P ⟨ins.i1, ins.i2, ins.io, a, b, c⟩).length = ins.pathShape.prod then .ok (P ⟨ins.i1, ins.i2, ins.io, a, b, c⟩)
    else .error .valueError
  | _, _, _ => .error .indexError

/-- `rechunk` when the irreps are given, fc_tp_haiku.py:26-29. -/
def rechunkTo (irreps : Option Irreps) (x : IArr ℝ) : Except PyErr (IArr ℝ) :=
  match irreps with
  | none => .ok x
  | some i => x.rechunk i

/-- `x.remove_zero_chunks().simplify()` after the optional `rechunk`, fc_tp_haiku.py:26-32. -/
def prepare (irreps : Option Irreps) (x : IArr ℝ) : Except PyErr (IArr ℝ) := do
  let x ← rechunkTo irreps x
  let x ← x.removeZeroChunks
  x.simplify

/-- `FullyConnectedTensorProduct.__call__`, fc_tp_haiku.py:16-54; `n a g` are the normalisation arguments and `fused` the
option of `left_right`, all read from the configuration or from the keyword arguments. -/
noncomputable def call (irrepsOut : Irreps) (in1 in2 : Option Irreps) (n : IrNorm) (a g : ℝ) (fused : Bool) (P : Params)
    (x1 x2 : IArr ℝ) : Except PyErr (IArr ℝ) := do
  let x1 ← prepare in1 x1
  let x2 ← prepare in2 x2
  let f ← fullyConnected x1.irreps x2.irreps irrepsOut.simplify none none none n a g
  let ws ← f.instructions.mapM (getParameter f P)
  let y ← f.leftRight fused (.list ws) x1 x2
  y.rechunk irrepsOut

end E3nn.FCTP
