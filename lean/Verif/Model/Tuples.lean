import Verif.Model.Py

/-! # Model of `generate_tuples_with_fixed_sum`, e3nn_jax/_src/reduced_tensor_product.py:340-352 -/

namespace E3nn.Tuples

/-- `generate_tuples_with_fixed_sum(length, sum)`, reduced_tensor_product.py:340-352, the list of what the generator yields.
For `length = 0` and `sum > 0` the recursion of the code never reaches `length == 1`: `diverges` (a `RecursionError`). -/
def generate : (length sum : Nat) → Except PyErr (List (List Nat))
  | 0, 0 => .ok [[]]
  | 0, _ + 1 => .error .diverges
  | 1, s => .ok [[s]]
  | n + 2, 0 => .ok [List.replicate (n + 2) 0]
  | n + 2, s + 1 => do
    -- `for first in range(sum, -1, -1)`
    let rs ← (List.range (s + 2)).reverse.mapM fun first => do
      let ts ← generate (n + 1) (s + 1 - first)
      return ts.map fun t => first :: t
    return rs.flatten

end E3nn.Tuples
