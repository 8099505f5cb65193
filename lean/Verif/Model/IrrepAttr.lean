import Verif.Model.Parse
import Verif.Model.Py

/-! # Model of the lookup module `e3nn_jax/irrep/__init__.py` -/

namespace E3nn.Parse

/-- `e3nn_jax.irrep.<name>`, `__getattr__`, e3nn_jax/irrep/__init__.py:18-35.  `prefix, *ir = name`
raises `ValueError` on an empty name (line 28); a name that does not start with `l`, the name `l`
alone, and a name whose rest is not the text of an irrep raise `AttributeError` (lines 29-30 and
32-35, where the `ValueError` of `Irrep(str)` is translated). -/
def irrepAttr (name : List Char) : Except PyErr Irrep :=
  match name with
  | [] => .error .valueError
  | c :: ir =>
    if c ≠ 'l' ∨ ir = [] then .error .attributeError
    else
      match parseIrrep ir with
      | some r => .ok r
      | none => .error .attributeError

end E3nn.Parse
