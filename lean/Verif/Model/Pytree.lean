import Verif.Model.IArr

/-!
# `IrrepsArray`, `Irreps`, `MulIrrep` and `Irrep` as jax pytrees (irreps_array.py:1237-1242, irreps.py:306, 343-345, 949-951)

`jax.tree_util` is modelled by its documented behaviour: a tree is flattened depth first into its leaves and a structure; a registered class gives its
children and a static part, which is stored in the structure; `None` is a node without children.
-/

namespace E3nn.Pt

open E3nn.IArr

/-- A leaf: an array with a last axis (the leading axes are inside `α`), or one without axes, or an object without `shape` (irreps_array.py:87-91 tells
these apart). -/
inductive Leaf (α : Type) where
  | cols (a : List α)
  | bare (v : α)
  deriving DecidableEq, Repr

/-- A tree of containers with `IrrepsArray`s, `Irreps` and plain arrays in it (irreps_array.py:1237-1242, irreps.py:949-951). `bareArr` is an
`IrrepsArray` whose `array` has no last axis. The key of a container is its type with its field names. `MulIrrep` and `Irrep` (irreps.py:306,
343-345) are static like `Irreps`. -/
inductive Tree (α : Type) where
  | none
  | leaf (a : Leaf α)
  | irreps (I : Irreps)
  | arr (x : IArr α)
  | bareArr (I : Irreps) (v : α)
  | node (key : String) (cs : List (Tree α))

/-- The structure of a tree; the static part of an `IrrepsArray` is its irreps (irreps_array.py:1240), and that of `Irreps` is itself with no
children (irreps.py:950). -/
inductive Def where
  | none
  | leaf
  | irreps (I : Irreps)
  | arr (I : Irreps)
  | node (key : String) (cs : List Def)

variable {α β : Type}

mutual
/-- `jax.tree_util.tree_leaves`, with the registrations irreps_array.py:1240 and irreps.py:950. -/
def leaves : Tree α → List (Leaf α)
  | .none => []
  | .leaf a => [a]
  | .irreps _ => []
  | .arr x => [.cols x.array]
  | .bareArr _ v => [.bare v]
  | .node _ cs => leavesL cs

/-- The leaves of a list of children (irreps_array.py:1240). -/
def leavesL : List (Tree α) → List (Leaf α)
  | [] => []
  | t :: ts => leaves t ++ leavesL ts
end

mutual
/-- `jax.tree_util.tree_structure`, with the registrations irreps_array.py:1240 and irreps.py:950. -/
def structure' : Tree α → Def
  | .none => .none
  | .leaf _ => .leaf
  | .irreps I => .irreps I
  | .arr x => .arr x.irreps
  | .bareArr I _ => .arr I
  | .node k cs => .node k (structureL cs)

/-- The structures of a list of children (irreps_array.py:1240). -/
def structureL : List (Tree α) → List Def
  | [] => []
  | t :: ts => structure' t :: structureL ts
end

/-- `IrrepsArray(irreps, data[0])`, irreps_array.py:1241 with the constructor 86-114. -/
def rebuild (I : Irreps) : Leaf α → Except PyErr (Tree α)
  | .cols a =>
    match ofArray I a with
    | .error e => .error e
    | .ok x => .ok (.arr x)
  | .bare v => .ok (.bareArr I v)

mutual
/-- `jax.tree_util.tree_unflatten`: the tree and the leaves that were not used (irreps_array.py:1241, irreps.py:950). -/
def unflattenAux : Def → List (Leaf α) → Except PyErr (Tree α × List (Leaf α))
  | .none, ls => .ok (.none, ls)
  | .leaf, [] => .error .valueError
  | .leaf, a :: ls => .ok (.leaf a, ls)
  | .irreps I, ls => .ok (.irreps I, ls)
  | .arr _, [] => .error .valueError
  | .arr I, a :: ls =>
    match rebuild I a with
    | .error e => .error e
    | .ok t => .ok (t, ls)
  | .node k ds, ls =>
    match unflattenL ds ls with
    | .error e => .error e
    | .ok (ts, ls') => .ok (.node k ts, ls')

/-- `tree_unflatten` of a list of children, from left to right (irreps_array.py:1241). -/
def unflattenL : List Def → List (Leaf α) → Except PyErr (List (Tree α) × List (Leaf α))
  | [], ls => .ok ([], ls)
  | d :: ds, ls =>
    match unflattenAux d ls with
    | .error e => .error e
    | .ok (t, ls') =>
      match unflattenL ds ls' with
      | .error e => .error e
      | .ok (ts, ls'') => .ok (t :: ts, ls'')
end

/-- `jax.tree_util.tree_unflatten(structure, leaves)`; the number of leaves must be right (irreps_array.py:1241). -/
def unflatten (d : Def) (ls : List (Leaf α)) : Except PyErr (Tree α) :=
  match unflattenAux d ls with
  | .error e => .error e
  | .ok (t, []) => .ok t
  | .ok (_, _ :: _) => .error .valueError

/-- `jax.tree_util.tree_map(f, tree)` (irreps_array.py:1237-1242). -/
def treeMap (f : Leaf α → Leaf β) (t : Tree α) : Except PyErr (Tree β) :=
  unflatten (structure' t) ((leaves t).map f)

end E3nn.Pt
