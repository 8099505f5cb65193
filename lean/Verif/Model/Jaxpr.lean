import Verif.Model.Py
import Mathlib.Data.Nat.Notation

/-!
# Model of `e3nn_jax/_src/utils/optimize_jaxpr.py`

A jaxpr has constant variables, input variables, a list of equations and outputs. An equation applies a primitive to atoms (variables or
literals); its parameters may contain jaxprs (open, or closed over constants). Nesting is unbounded: `Jx d` is the type of jaxprs of
nesting depth at most `d`.

Simplifications. Types and shapes are not modelled; evaluation is total (a jaxpr that type-checks does not fail) and pure. A
`DropVar` is an ordinary variable that nothing reads. Jaxprs hidden inside tuples of parameters (which the code does not visit either)
belong to the other parameters `P`.
-/

namespace E3nn.JX

/-- `jax.core.Var`, optimize_jaxpr.py:7; variables compare by identity. -/
abbrev Var := ℕ

/-- `jax.core.Atom`: a variable or a literal (optimize_jaxpr.py:7 and 127-130). -/
inductive Atom (L : Type) where
  | var (v : Var)
  | lit (x : L)
  deriving DecidableEq

/-- A primitive; `xla_call_p` is singled out by the code (optimize_jaxpr.py:61-63). -/
inductive Prim where
  | xlaCall
  | other (name : String)
  deriving DecidableEq

/-- A jaxpr among the parameters: `Jaxpr` or `ClosedJaxpr` (optimize_jaxpr.py:7, 113 and 133). -/
inductive Sub (C J : Type) where
  | opn (j : J)
  | closed (consts : List C) (j : J)

/-- `JaxprEqn`; `params` are the parameters that are not jaxprs (optimize_jaxpr.py:7 and 39-42). -/
structure Eqn (L P C J : Type) where
  prim : Prim
  params : P
  subs : List (Sub C J)
  ins : List (Atom L)
  outs : List Var

/-- `Jaxpr` (optimize_jaxpr.py:7 and 34-44). -/
structure Jaxpr (L P C J : Type) where
  constvars : List Var
  invars : List Var
  outs : List (Atom L)
  eqns : List (Eqn L P C J)

/-- Jaxprs of nesting depth at most `d` (optimize_jaxpr.py:65 and 113). -/
def Jx (L P C : Type) : ℕ → Type
  | 0 => Jaxpr L P C Empty
  | d + 1 => Jaxpr L P C (Jx L P C d)

variable {L P C J : Type}

/-- The variables of an atom, optimize_jaxpr.py:84 (`type(invar) is Var`). -/
def Atom.vars : Atom L → List Var
  | .var v => [v]
  | .lit _ => []

/-! ### Meaning -/

/-- The values of literals and constants and the meaning of the primitives, given the meaning of the jaxprs in their parameters (optimize_jaxpr.py:25). -/
structure Sem (L P C V : Type) where
  lit : L → V
  const : C → V
  dflt : V
  prim : String → P → List (List V → List V) → List V → List V

variable {V : Type}

/-- Bind variables to values, from left to right (optimize_jaxpr.py:25). -/
def bind (env : Var → V) (vars : List Var) (vals : List V) : Var → V :=
  (vars.zip vals).foldl (fun env p => fun v => if v = p.1 then p.2 else env v) env

/-- The value of an atom when a jaxpr is run, optimize_jaxpr.py:25 (`jaxpr_as_fun`). -/
def Atom.eval (S : Sem L P C V) (env : Var → V) : Atom L → V
  | .var v => env v
  | .lit x => S.lit x

/-- The function of a jaxpr among the parameters, optimize_jaxpr.py:25. -/
def Sub.eval (S : Sem L P C V) (run : J → List V → List V → List V) : Sub C J → List V → List V
  | .opn j => run j []
  | .closed cs j => run j (cs.map S.const)

/-- The results of an equation; `xla_call` applies its jaxpr (optimize_jaxpr.py:25). -/
def Eqn.results (S : Sem L P C V) (run : J → List V → List V → List V) (e : Eqn L P C J) (args : List V) : List V :=
  match e.prim, e.subs with
  | .xlaCall, s :: _ => s.eval S run args
  | .xlaCall, [] => []
  | .other n, subs => S.prim n e.params (subs.map (Sub.eval S run)) args

/-- Run one equation, optimize_jaxpr.py:25. -/
def Eqn.eval (S : Sem L P C V) (run : J → List V → List V → List V) (env : Var → V) (e : Eqn L P C J) : Var → V :=
  bind env e.outs (e.results S run (e.ins.map (Atom.eval S env)))

/-- `jax.core.eval_jaxpr` (optimize_jaxpr.py:25). -/
def Jaxpr.evalWith (S : Sem L P C V) (run : J → List V → List V → List V) (j : Jaxpr L P C J) (consts args : List V) : List V :=
  let env := bind (bind (fun _ => S.dflt) j.constvars consts) j.invars args
  j.outs.map (Atom.eval S (j.eqns.foldl (Eqn.eval S run) env))

/-- Evaluation at every nesting depth (optimize_jaxpr.py:25). -/
def run (S : Sem L P C V) : (d : ℕ) → Jx L P C d → List V → List V → List V
  | 0 => Jaxpr.evalWith S (fun e => e.elim)
  | d + 1 => Jaxpr.evalWith S (run S d)

/-! ### The passes -/

/-- `re` in `replace_var`, optimize_jaxpr.py:31-32. -/
def re (old new : Var) (v : Var) : Var := if v = old then new else v

/-- `new if var == old else var`, optimize_jaxpr.py:32. -/
def reAtom (old new : Var) : Atom L → Atom L
  | .var v => .var (re old new v)
  | .lit x => .lit x

/-- `replace_var`, optimize_jaxpr.py:30-45. -/
def replaceVar (j : Jaxpr L P C J) (old new : Var) : Jaxpr L P C J where
  constvars := j.constvars.map (re old new)
  invars := j.invars.map (re old new)
  outs := j.outs.map (reAtom old new)
  eqns := j.eqns.map fun e => { e with ins := e.ins.map (reAtom old new), outs := e.outs.map (re old new) }

/-- The rewriting of a live equation, optimize_jaxpr.py:64-79; `dceJ` is the recursive call and `donate idx` keeps the entries `idx` of the
parameter `donated_invars`. -/
def dceEqn (donate : List ℕ → P → P) (dceJ : J → List ℕ → J × List ℕ) (needed : List Var) (e : Eqn L P C J) : Eqn L P C J :=
  match e.prim, e.subs with
  | .xlaCall, .opn j :: rest =>
    let r := dceJ j ((e.outs.zipIdx.filter fun vi => needed.contains vi.1).map Prod.snd)
    { e with
      params := donate r.2 e.params
      subs := .opn r.1 :: rest
      outs := e.outs.filter fun v => needed.contains v
      ins := (e.ins.zipIdx.filter fun ai => r.2.contains ai.2).map Prod.fst }
  | _, _ => e

/-- The body of the loop of `remove_deadcode`, optimize_jaxpr.py:58-85, for an equation and the accumulated `needed` and `eqns`. -/
def dceStep (donate : List ℕ → P → P) (dceJ : J → List ℕ → J × List ℕ) (e : Eqn L P C J) (acc : List Var × List (Eqn L P C J)) : List Var × List (Eqn L P C J) :=
  if e.outs.all (fun v => !acc.1.contains v) then acc
  else ((dceEqn donate dceJ acc.1 e).ins.flatMap Atom.vars ++ acc.1, dceEqn donate dceJ acc.1 e :: acc.2)

/-- `remove_deadcode`, optimize_jaxpr.py:48-92. -/
def dce (donate : List ℕ → P → P) (dceJ : J → List ℕ → J × List ℕ) (j : Jaxpr L P C J) (oi : List ℕ) : Jaxpr L P C J × List ℕ :=
  let outs := oi.filterMap fun i => j.outs[i]?
  let acc := j.eqns.foldr (dceStep donate dceJ) (outs.flatMap Atom.vars, [])
  ({ j with eqns := acc.2, outs := outs, invars := j.invars.filter fun v => acc.1.contains v },
    (j.invars.zipIdx.filter fun vi => acc.1.contains vi.1).map Prod.snd)

/-- `remove_deadcode` at every depth, optimize_jaxpr.py:48-92. -/
def dceD (donate : List ℕ → P → P) : (d : ℕ) → Jx L P C d → List ℕ → Jx L P C d × List ℕ
  | 0 => dce donate fun e => e.elim
  | d + 1 => dce donate (dceD donate d)

/-- The first position `j < i` with `eq`, then over `i ≥ skip`: the two nested loops of optimize_jaxpr.py:98-101 and 147-154. -/
def findPair {α : Type} (eq : α → α → Bool) (l : List α) (skip : ℕ) : Option (ℕ × ℕ) :=
  (List.range l.length).findSome? fun i =>
    if i < skip then none
    else ((l.take i).findIdx? fun b => (l[i]?).any fun a => eq a b).map fun k => (i, k)

/-- The loop of `remove_duplicate_constants`, optimize_jaxpr.py:98-106; `dup` is the test of lines 100-101. The fuel is the number of
constants, which is enough because each round removes one. -/
def rdcLoop (dup : C → C → Bool) : ℕ → List C → Jaxpr L P C J → List C × Jaxpr L P C J
  | 0, cs, j => (cs, j)
  | fuel + 1, cs, j =>
    match findPair dup cs 0 with
    | none => (cs, j)
    | some (i, k) =>
      rdcLoop dup fuel (cs.eraseIdx k) (replaceVar { j with constvars := j.constvars.eraseIdx k } (j.constvars.getD k 0) (j.constvars.getD i 0))

/-- Apply a transformation to the jaxprs among the parameters, optimize_jaxpr.py:109-119. -/
def mapSubs (f : Sub C J → Sub C J) (j : Jaxpr L P C J) : Jaxpr L P C J :=
  { j with eqns := j.eqns.map fun e => { e with subs := e.subs.map f } }

/-- Only closed jaxprs are visited, optimize_jaxpr.py:112-115. -/
def rdcSub (rdcJ : List C → J → List C × J) : Sub C J → Sub C J
  | .opn j => .opn j
  | .closed cs j => .closed (rdcJ cs j).1 (rdcJ cs j).2

/-- `remove_duplicate_constants`, optimize_jaxpr.py:95-121. -/
def rdc (dup : C → C → Bool) (rdcJ : List C → J → List C × J) (cs : List C) (j : Jaxpr L P C J) : List C × Jaxpr L P C J :=
  let r := rdcLoop dup cs.length cs j
  (r.1, mapSubs (rdcSub rdcJ) r.2)

/-- `remove_duplicate_constants` at every depth, optimize_jaxpr.py:95-121. -/
def rdcD (dup : C → C → Bool) : (d : ℕ) → List C → Jx L P C d → List C × Jx L P C d
  | 0 => rdc dup fun _ e => e.elim
  | d + 1 => rdc dup (rdcD dup d)

/-- The keys of `remove_duplicate_equations`, optimize_jaxpr.py:127-145: of a literal, and of the parameters (for a jaxpr, its printed form). -/
structure Keys (L P C J : Type) where
  K : Type
  dec : DecidableEq K
  lit : L → K
  params : P → List (Sub C J) → K

/-- `atom_key(a) == atom_key(b)`; a variable never equals a value (optimize_jaxpr.py:127-130). -/
def Keys.atomEq (K : Keys L P C J) (a b : Atom L) : Bool :=
  letI := K.dec
  match a, b with
  | .var v, .var w => v == w
  | .lit x, .lit y => decide (K.lit x = K.lit y)
  | _, _ => false

/-- The three tests of optimize_jaxpr.py:152-154. -/
def Keys.eqnEq (K : Keys L P C J) (e1 e2 : Eqn L P C J) : Bool :=
  letI := K.dec
  decide (e1.prim = e2.prim) && (e1.ins.length == e2.ins.length && (e1.ins.zip e2.ins).all fun ab => K.atomEq ab.1 ab.2) &&
    decide (K.params e1.params e1.subs = K.params e2.params e2.subs)

/-- The loop of `remove_duplicate_equations`, optimize_jaxpr.py:147-159. The fuel is the number of equations, which is enough because each
round removes one. -/
def rdeLoop (K : Keys L P C J) : ℕ → ℕ → Jaxpr L P C J → Jaxpr L P C J
  | 0, _, j => j
  | fuel + 1, skip, j =>
    match findPair K.eqnEq j.eqns skip with
    | none => j
    | some (i, k) =>
      match j.eqns[i]?, j.eqns[k]? with
      | some e1, some e2 =>
        let j' := (e1.outs.zip e2.outs).foldl (fun j p => replaceVar j p.1 p.2) j
        rdeLoop K fuel (i - 1) { j' with eqns := j'.eqns.eraseIdx i }
      | _, _ => j

/-- Open and closed jaxprs are visited, optimize_jaxpr.py:162-187. -/
def rdeSub (rdeJ : J → J) : Sub C J → Sub C J
  | .opn j => .opn (rdeJ j)
  | .closed cs j => .closed cs (rdeJ j)

/-- `remove_duplicate_equations`, optimize_jaxpr.py:124-189; `rdeJ` is the recursive call. -/
def rde (K : Keys L P C J) (rdeJ : J → J) (j : Jaxpr L P C J) : Jaxpr L P C J :=
  mapSubs (rdeSub rdeJ) (rdeLoop K j.eqns.length 0 j)

/-- The keys at every depth (optimize_jaxpr.py:124-145). -/
def KeysAll (L P C : Type) : Type 1 := (Keys L P C Empty) × ∀ d, Keys L P C (Jx L P C d)

/-- `remove_duplicate_equations` at every depth, optimize_jaxpr.py:124-190. -/
def rdeD (K : KeysAll L P C) : (d : ℕ) → Jx L P C d → Jx L P C d
  | 0 => rde K.1 fun e => e.elim
  | d + 1 => rde (K.2 d) (rdeD K d)

/-- `optimize_jaxpr`, optimize_jaxpr.py:192-197. -/
def optimize (dup : C → C → Bool) (donate : List ℕ → P → P) (K : KeysAll L P C) (d : ℕ) (nOuts : ℕ) (cs : List C) (j : Jx L P C d) : List C × Jx L P C d × List ℕ :=
  let r := rdcD dup d cs j
  let s := dceD donate d r.2 (List.range nOuts)
  (r.1, rdeD K d s.1, s.2)

end E3nn.JX
