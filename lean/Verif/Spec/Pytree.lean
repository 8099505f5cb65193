import Verif.Model.Pytree
import Verif.Spec.IArr

/-!
# What `tree_map` should do
-/

namespace E3nn.Pt

variable {α β : Type}

/-- A fresh `IrrepsArray` on a leaf: no zero flags, no cached chunks. -/
def fresh (I : Irreps) : Leaf α → Tree α
  | .cols a => .arr ⟨I, a, none, none⟩
  | .bare v => .bareArr I v

/-- The leaf has no last axis or a last axis of the dimension of the irreps. -/
def Fits (I : Irreps) : Leaf α → Prop
  | .cols a => a.length = dimOf (expand I)
  | .bare _ => True

mutual
/-- `f` applied to every array, in place. -/
def applied (f : Leaf α → Leaf β) : Tree α → Tree β
  | .none => .none
  | .leaf a => .leaf (f a)
  | .irreps I => .irreps I
  | .arr x => fresh x.irreps (f (.cols x.array))
  | .bareArr I v => fresh I (f (.bare v))
  | .node k cs => .node k (appliedL f cs)

/-- `f` applied to every array of a list of trees. -/
def appliedL (f : Leaf α → Leaf β) : List (Tree α) → List (Tree β)
  | [] => []
  | t :: ts => applied f t :: appliedL f ts
end

/-- `t` holds the `IrrepsArray` with irreps `I` and array `a`, at any depth. -/
inductive Holds : Tree α → Irreps → Leaf α → Prop
  | arr (x : IArr α) : Holds (.arr x) x.irreps (.cols x.array)
  | bareArr (I : Irreps) (v : α) : Holds (.bareArr I v) I (.bare v)
  | node (k : String) (cs : List (Tree α)) (t : Tree α) (h : t ∈ cs) (I : Irreps) (a : Leaf α) (ht : Holds t I a) : Holds (.node k cs) I a

end E3nn.Pt
