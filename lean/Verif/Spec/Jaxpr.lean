import Verif.Model.Jaxpr

/-!
# What a well-formed jaxpr is, and when keys are sound

These are the hypotheses of the theorems about `optimize_jaxpr`: a jaxpr made by `jax.make_jaxpr` binds every variable once and before it
is used, and calls primitives and nested jaxprs with the right numbers of inputs and outputs.
-/

namespace E3nn.JX

variable {L P C J V : Type}

/-- Every variable read by an equation is bound before (`B`: the variables bound so far). -/
def Scoped : List Var → List (Eqn L P C J) → Prop
  | _, [] => True
  | B, e :: es => (∀ v ∈ e.ins.flatMap Atom.vars, v ∈ B) ∧ Scoped (B ++ e.outs) es

/-- All variables bound by a jaxpr. -/
def binders (j : Jaxpr L P C J) : List Var := j.constvars ++ j.invars ++ j.eqns.flatMap Eqn.outs

/-- Every variable is bound once and before it is used. -/
structure SSA (j : Jaxpr L P C J) : Prop where
  once : (binders j).Nodup
  inScope : Scoped (j.constvars ++ j.invars) j.eqns

/-- Every equation returns as many values as it has outputs. -/
def Typed (S : Sem L P C V) (run : J → List V → List V → List V) (es : List (Eqn L P C J)) : Prop :=
  ∀ e ∈ es, ∀ args, args.length = e.ins.length → (e.results S run args).length = e.outs.length

/-- Equal keys mean equal values, for the literals and the parameters in a list of equations. -/
structure KeySound (S : Sem L P C V) (run : J → List V → List V → List V) (K : Keys L P C J) (es : List (Eqn L P C J)) : Prop where
  lits : ∀ e1 ∈ es, ∀ e2 ∈ es, ∀ x y, Atom.lit x ∈ e1.ins → Atom.lit y ∈ e2.ins → K.lit x = K.lit y → S.lit x = S.lit y
  params : ∀ e1 ∈ es, ∀ e2 ∈ es, e1.prim = e2.prim → K.params e1.params e1.subs = K.params e2.params e2.subs → ∀ args, e1.results S run args = e2.results S run args

def nConsts : (d : ℕ) → Jx L P C d → ℕ
  | 0 => fun j => j.constvars.length
  | _ + 1 => fun j => j.constvars.length

def nIns : (d : ℕ) → Jx L P C d → ℕ
  | 0 => fun j => j.invars.length
  | _ + 1 => fun j => j.invars.length

def nOuts : (d : ℕ) → Jx L P C d → ℕ
  | 0 => fun j => j.outs.length
  | _ + 1 => fun j => j.outs.length

/-- A property of the jaxpr under a parameter; a closed jaxpr has one value per constant variable. -/
def Sub.Ok (ok : J → Prop) (nC : J → ℕ) : Sub C J → Prop
  | .opn j => ok j
  | .closed cs j => ok j ∧ cs.length = nC j

def Sub.jaxpr : Sub C J → J
  | .opn j => j
  | .closed _ j => j

/-- One level of well-formedness. -/
structure Ok (S : Sem L P C V) (run : J → List V → List V → List V) (ok : J → Prop) (nC nI nO : J → ℕ) (j : Jaxpr L P C J) : Prop where
  ssa : SSA j
  typed : Typed S run j.eqns
  calls : ∀ e ∈ j.eqns, e.prim = .xlaCall → ∃ s, e.subs = [.opn s] ∧ e.ins.length = nI s ∧ e.outs.length = nO s
  subs : ∀ e ∈ j.eqns, ∀ s ∈ e.subs, s.Ok ok nC

/-- A well-formed jaxpr, at every nesting depth. -/
def WellFormed (S : Sem L P C V) : (d : ℕ) → Jx L P C d → Prop
  | 0 => Ok S (fun e => e.elim) (fun e => e.elim) (fun e => e.elim) (fun e => e.elim) (fun e => e.elim)
  | d + 1 => Ok S (run S d) (WellFormed S d) (nConsts d) (nIns d) (nOuts d)

/-- The keys are sound in the equations of a jaxpr and of the jaxprs nested in it. -/
def KeysSound (S : Sem L P C V) (K : KeysAll L P C) : (d : ℕ) → Jx L P C d → Prop
  | 0 => fun j => KeySound S (fun e => e.elim) K.1 j.eqns
  | d + 1 => fun j => KeySound S (run S d) (K.2 d) j.eqns ∧ ∀ e ∈ j.eqns, ∀ s ∈ e.subs, KeysSound S K d s.jaxpr

end E3nn.JX
