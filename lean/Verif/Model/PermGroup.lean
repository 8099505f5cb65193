import Verif.Model.Perm

/-!
# Model of `e3nn_jax/perm.py`, part 2: `germinate`, `is_group`, `to_cycles`, `sign`

A Python `set` is modelled by a duplicate-free list; none of these functions depends on the
iteration order of the set.
-/

namespace E3nn.Perm

/-- `set.union(list)` (perm.py:66-67). -/
def setUnion (s l : List (List Nat)) : List (List Nat) := (s ++ l).eraseDups

/-- One round of the loop of `germinate`, perm.py:66-67. -/
def germinateStep (s : List (List Nat)) : Except PyErr (List (List Nat)) := do
  let invs ← s.mapM inverse
  let s1 := setUnion s invs
  let comps ← (s1.flatMap fun p1 => s1.map fun p2 => (p1, p2)).mapM fun (p1, p2) => compose p1 p2
  return setUnion s1 comps

/-- `germinate`, perm.py:63-69, with fuel for `while True`; `none` means the fuel is exhausted. -/
def germinate : Nat → List (List Nat) → Option (Except PyErr (List (List Nat)))
  | 0, _ => none
  | fuel + 1, s =>
    match germinateStep s with
    | .error e => some (.error e)
    | .ok s' => if s'.length = s.length then some (.ok s') else germinate fuel s'

/-- `for a in l: if not test(a): return False` … `return True`, where `test` may raise (perm.py:75-101). -/
def allE {α : Type _} (test : α → Except PyErr Bool) : List α → Except PyErr Bool
  | [] => .ok true
  | a :: l =>
    match test a with
    | .error e => .error e
    | .ok false => .ok false
    | .ok true => allE test l

/-- `is_group`, perm.py:72-93. -/
def isGroup (g : List (List Nat)) : Except PyErr Bool :=
  match g with
  | [] => .ok false
  | p0 :: _ =>
    let n := p0.length
    if g.any fun p => p.length ≠ n then .error .assertion
    else if !g.contains (identity n) then .ok false
    else
      match allE (fun p => (inverse p).map fun r => g.contains r) g with
      | .error e => .error e
      | .ok false => .ok false
      | .ok true =>
        allE (fun p1 => allE (fun p2 => (compose p1 p2).map fun r => g.contains r) g) g

/-- The inner loop of `to_cycles`, perm.py:102-105: `while p[i] != c[0]: i = p[i]; c += [i]`,
with fuel (`none` = exhausted; the loop need not terminate when `p` is not a permutation). -/
def cycleLoop (p : List Nat) (start : Nat) : Nat → Nat → List Nat → Option (List Nat)
  | 0, _, _ => none
  | fuel + 1, i, c =>
    if p.getD i 0 ≠ start then cycleLoop p start fuel (p.getD i 0) (c ++ [p.getD i 0])
    else some c

/-- `i = c.index(min(c)); c = c[i:] + c[:i]`, perm.py:107-108. -/
def rotateMin (c : List Nat) : List Nat :=
  let i := c.idxOf (c.min?.getD 0)
  c.drop i ++ c.take i

/-- `to_cycles`, perm.py:96-111. The `for i` loop variable is overwritten inside the body but
Python's `for` reassigns it, so each round starts afresh. -/
def toCycles (p : List Nat) : Option (List (List Nat)) := do
  let cs ← (List.range p.length).mapM fun i => cycleLoop p i p.length i [i]
  return ((cs.filter fun c => decide (c.length ≥ 2)).map rotateMin).eraseDups

/-- `sign`, perm.py:114-119. -/
def sign (p : List Nat) : Option Int := do
  let cs ← toCycles p
  return cs.foldl (fun s c => if c.length % 2 = 0 then -s else s) 1

end E3nn.Perm
