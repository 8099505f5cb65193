import Verif.Model.Py

/-! # Model of `e3nn_jax/_src/config.py` -/

namespace E3nn.Config

/-- Values a user passes (anything but `None`): strings, booleans, numbers (config.py:16-23). -/
inductive Val where
  | str (s : String)
  | bool (b : Bool)
  | num (n d : Int)
  deriving DecidableEq, Repr

/-- The dictionary `__conf`, a list of its items (config.py:1-13). -/
abbrev Conf := List (String × Val)

/-- `__default_conf`, config.py:1-11. -/
def defaultConf : Conf :=
  [("irrep_normalization", .str "component"), ("path_normalization", .str "element"), ("gradient_normalization", .str "path"),
   ("spherical_harmonics_algorithm", .str "automatic"), ("spherical_harmonics_normalization", .str "component"),
   ("custom_einsum_jvp", .bool false), ("fused", .bool false), ("sparse_tp", .bool false)]

/-- `__conf[name]` (config.py:18). -/
def lookup (c : Conf) (name : String) : Option Val := (c.find? fun kv => kv.1 == name).map Prod.snd

/-- `__conf[name] = value` for a present key: the item keeps its place (config.py:21). -/
def assign (c : Conf) (name : String) (v : Val) : Conf := c.map fun kv => if kv.1 == name then (kv.1, v) else kv

/-- `config(name, value)`, config.py:16-23: what it returns (`none` is Python's `None`) and the new dictionary. -/
def config (c : Conf) (name : String) (value : Option Val) : Except PyErr (Option Val) × Conf :=
  match value with
  | none =>
    match lookup c name with
    | some v => (.ok (some v), c)
    | none => (.error .keyError, c)
  | some v =>
    if (lookup c name).isSome then (.ok none, assign c name v)
    else (.error .valueError, c)

/-- The dictionary after a sequence of calls; exceptions are caught by the caller (config.py:16-23). -/
def run (c : Conf) : List (String × Option Val) → Conf
  | [] => c
  | call :: calls => run (config c call.1 call.2).2 calls

end E3nn.Config
