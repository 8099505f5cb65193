import Verif.Lemmas.JaxprDepth

/-!
# C51, C52: `optimize_jaxpr`

`run S d j consts args` is the value of a jaxpr for constants and arguments (`jax.core.eval_jaxpr`), for an arbitrary meaning `S` of literals,
constants and primitives (which receive the meaning of the jaxprs in their parameters). `WellFormed` (Spec/Jaxpr.lean) says that the jaxpr binds
every variable once and before use and calls primitives and `xla_call`s with the right numbers of inputs and outputs, at every depth.
-/

namespace E3nn.JX

variable {L P C V : Type}

/-! ## C51: dead code -/

/-- **C51.** `remove_deadcode(jaxpr, output_indices)` returns a jaxpr and the positions of the inputs it still takes; given those inputs it returns
the requested outputs of the original jaxpr, for every nesting of calls, all constants and all arguments. -/
theorem C51_remove_deadcode (S : Sem L P C V) (donate : List ℕ → P → P) (d : ℕ) (j : Jx L P C d) (hj : WellFormed S d j) (oi : List ℕ) (hoi : ∀ i ∈ oi, i < nOuts d j) (cs args : List V) (ha : args.length = nIns d j) :
    run S d (dceD donate d j oi).1 cs ((dceD donate d j oi).2.map fun i => args.getD i S.dflt) = oi.map fun i => (run S d j cs args).getD i S.dflt :=
  (dceD_spec S donate d j oi hj hoi).2.2.2.2.2 cs args ha

/-- **C51.** The result is well-formed, has the same constants, and takes the inputs listed, which are positions of the original inputs in increasing order. -/
theorem C51_well_formed (S : Sem L P C V) (donate : List ℕ → P → P) (d : ℕ) (j : Jx L P C d) (hj : WellFormed S d j) (oi : List ℕ) (hoi : ∀ i ∈ oi, i < nOuts d j) :
    WellFormed S d (dceD donate d j oi).1 ∧ nConsts d (dceD donate d j oi).1 = nConsts d j ∧ nIns d (dceD donate d j oi).1 = (dceD donate d j oi).2.length ∧ nOuts d (dceD donate d j oi).1 = oi.length ∧
      (dceD donate d j oi).2.Pairwise (· < ·) ∧ ∀ i ∈ (dceD donate d j oi).2, i < nIns d j := by
  obtain ⟨h1, h2, h3, h4, h5, -⟩ := dceD_spec S donate d j oi hj hoi
  refine ⟨h1, h2, h3, h4, ?_, fun i hi => ?_⟩
  · rw [h5]
    exact List.pairwise_lt_range.sublist List.filter_sublist
  · rw [h5] at hi
    exact List.mem_range.mp (List.mem_of_mem_filter hi)

/-- **C51.** Nothing dead is left: every remaining equation binds a variable read by a later equation or returned, every remaining output of a call is
read or returned, and every remaining input is read or returned. -/
theorem C51_nothing_dead (S : Sem L P C V) (donate : List ℕ → P → P) (d : ℕ) (j : Jaxpr L P C (Jx L P C d)) (hj : WellFormed S (d + 1) j) (oi : List ℕ) :
    let j' : Jaxpr L P C (Jx L P C d) := (dceD donate (d + 1) j oi).1
    (∀ X e D, j'.eqns = X ++ e :: D →
      (∃ v ∈ e.outs, v ∈ j'.outs.flatMap Atom.vars ∨ ∃ e' ∈ D, v ∈ e'.ins.flatMap Atom.vars) ∧
      (e.prim = .xlaCall → ∀ v ∈ e.outs, v ∈ j'.outs.flatMap Atom.vars ∨ ∃ e' ∈ D, v ∈ e'.ins.flatMap Atom.vars)) ∧
    ∀ v ∈ j'.invars, v ∈ j'.outs.flatMap Atom.vars ∨ ∃ e' ∈ j'.eqns, v ∈ e'.ins.flatMap Atom.vars := by
  intro j'
  have hc : ∀ e ∈ j.eqns, e.prim = .xlaCall → ∃ s, e.subs = [.opn s] := fun e he hp => by
    obtain ⟨s, hs, _⟩ := hj.calls e he hp
    exact ⟨s, hs⟩
  refine ⟨fun X e D h => dceEqns_live donate (dceD donate d) j.eqns hc _ X D e h, fun v hv => ?_⟩
  have := (List.mem_filter.mp hv).2
  have h2 : v ∈ (j.eqns.foldr (dceStep donate (dceD donate d)) ((oi.filterMap fun i => j.outs[i]?).flatMap Atom.vars, [])).1 := by simpa using this
  exact (dceEqns_needed donate (dceD donate d) j.eqns _ v).mp h2

/-! ## C52: duplicates -/

/-- **C52.** `remove_duplicate_constants`: when constants that the code finds equal have equal values, the result means the same. The remaining
constants are pairwise different for that test. -/
theorem C52_remove_duplicate_constants (S : Sem L P C V) (dup : C → C → Bool) (hd : ∀ c c', dup c c' = true → S.const c = S.const c') (d : ℕ) (cs : List C) (j : Jx L P C d) (hj : WellFormed S d j) (hl : cs.length = nConsts d j) :
    (∀ args, run S d (rdcD dup d cs j).2 ((rdcD dup d cs j).1.map S.const) args = run S d j (cs.map S.const) args) ∧
      WellFormed S d (rdcD dup d cs j).2 ∧ (rdcD dup d cs j).1.length = nConsts d (rdcD dup d cs j).2 ∧
      (rdcD dup d cs j).1.Sublist cs ∧ (rdcD dup d cs j).1.Pairwise fun c' c => dup c c' = false := by
  obtain ⟨h1, h2, -, -, h5, h6, h7⟩ := rdcD_spec S dup hd d cs j hj hl
  exact ⟨h7, h1, h2, h5, h6⟩

/-- **C52.** `remove_duplicate_equations`: when equal keys mean equal values in this program, the result means the same, for every nesting, all
constants and all arguments. -/
theorem C52_remove_duplicate_equations (S : Sem L P C V) (K : KeysAll L P C) (d : ℕ) (j : Jx L P C d) (hj : WellFormed S d j) (hK : KeysSound S K d j) :
    (∀ cs args, run S d (rdeD K d j) cs args = run S d j cs args) ∧ WellFormed S d (rdeD K d j) ∧ nConsts d (rdeD K d j) = nConsts d j ∧ nIns d (rdeD K d j) = nIns d j ∧ nOuts d (rdeD K d j) = nOuts d j := by
  obtain ⟨h1, h2, h3, h4, h5⟩ := rdeD_spec S K d j hj hK
  exact ⟨h5, h1, h2, h3, h4⟩

/-- **C52.** No two equations with equal primitive, inputs and parameters are left in a program without nested jaxprs (`skip_first` skips no pair). -/
theorem C52_no_duplicates_left (S : Sem L P C V) (K : KeysAll L P C) (j : Jaxpr L P C Empty) (hj : WellFormed S 0 j) (hK : KeysSound S K 0 j) :
    List.Pairwise (fun e2 e1 => K.1.eqnEq e1 e2 = false) (Jaxpr.eqns (J := Empty) (rdeD K 0 j)) := by
  have h := (rdeLoop_spec S (fun e : Empty => e.elim) K.1 j.eqns.length 0 j hj.ssa hj.typed hK).2.2.2.2.2.2.2 (le_refl _) (by simp)
  show ((rdeLoop K.1 j.eqns.length 0 j).eqns.map fun e => { e with subs := e.subs.map (rdeSub fun e : Empty => e.elim) }).Pairwise _
  rw [List.pairwise_map]
  refine h.imp fun {e2 e1} he => ?_
  have hs : ∀ l : List (Sub C Empty), l.map (rdeSub fun e : Empty => e.elim) = l := by
    intro l
    conv_rhs => rw [← List.map_id l]
    exact List.map_congr_left fun s _ => s.jaxpr.elim
  rw [hs, hs]
  exact he

/-- **C52, C51.** `optimize_jaxpr`: the optimized jaxpr, applied to its constants and to the listed inputs, returns what the original returns. -/
theorem C52_optimize (S : Sem L P C V) (dup : C → C → Bool) (hd : ∀ c c', dup c c' = true → S.const c = S.const c') (donate : List ℕ → P → P) (K : KeysAll L P C) (d : ℕ) (cs : List C) (j : Jx L P C d)
    (hj : WellFormed S d j) (hl : cs.length = nConsts d j) (hK : KeysSound S K d (dceD donate d (rdcD dup d cs j).2 (List.range (nOuts d j))).1) (args : List V) (ha : args.length = nIns d j) :
    let r := optimize dup donate K d (nOuts d j) cs j
    run S d r.2.1 (r.1.map S.const) (r.2.2.map fun i => args.getD i S.dflt) = run S d j (cs.map S.const) args ∧ WellFormed S d r.2.1 := by
  intro r
  obtain ⟨a1, a2, a3, a4, a5, a6, a7⟩ := rdcD_spec S dup hd d cs j hj hl
  have hoi : ∀ i ∈ List.range (nOuts d j), i < nOuts d (rdcD dup d cs j).2 := fun i hi => by
    rw [a4]; exact List.mem_range.mp hi
  obtain ⟨b1, b2, b3, b4, b5, b6⟩ := dceD_spec S donate d (rdcD dup d cs j).2 (List.range (nOuts d j)) a1 hoi
  obtain ⟨c1, c2, c3, c4, c5⟩ := rdeD_spec S K d (dceD donate d (rdcD dup d cs j).2 (List.range (nOuts d j))).1 b1 hK
  refine ⟨?_, c1⟩
  show run S d (rdeD K d (dceD donate d (rdcD dup d cs j).2 (List.range (nOuts d j))).1) ((rdcD dup d cs j).1.map S.const) ((dceD donate d (rdcD dup d cs j).2 (List.range (nOuts d j))).2.map fun i => args.getD i S.dflt) = _
  rw [c5, b6 _ _ (by rw [ha, a3]), a7]
  refine List.ext_getElem (by rw [List.length_map, List.length_range, run_length]) fun i h1 h2 => ?_
  rw [List.getElem_map, List.getElem_range, List.getD_eq_getElem]

/-! ## A program that meets the hypotheses -/

/-- Every primitive adds its arguments, its parameter and the results of its jaxprs. -/
def exS : Sem ℤ ℤ ℤ ℤ where
  lit x := x
  const c := c
  dflt := 0
  prim _ p fs args := [args.sum + p + (fs.map fun f => (f args).sum).sum]

def exK : KeysAll ℤ ℤ ℤ := (⟨ℤ, inferInstance, id, fun p _ => p⟩, fun _ => ⟨ℤ × Bool, inferInstance, fun x => (x, true), fun p ss => (p, ss.isEmpty)⟩)

/-- `lambda x, y: (x + 1, y + x)`. -/
def exInner : Jx ℤ ℤ ℤ 0 where
  constvars := []
  invars := [0, 1]
  outs := [.var 2, .var 3]
  eqns := [⟨.other "add", 0, [], [.var 0, .lit 1], [2]⟩, ⟨.other "add", 0, [], [.var 1, .var 0], [3]⟩]

/-- Two equal constants, two equal equations, a call with an unused output and input, an unused equation. -/
def exOuter : Jx ℤ ℤ ℤ 1 where
  constvars := [0, 1]
  invars := [2, 3]
  outs := [.var 5, .var 6]
  eqns := [⟨.other "add", 0, [], [.var 2, .var 0], [4]⟩, ⟨.other "add", 0, [], [.var 2, .var 1], [5]⟩, ⟨.xlaCall, 0, [.opn exInner], [.var 4, .var 3], [6, 7]⟩,
    ⟨.other "mul", 0, [], [.var 3, .var 3], [8]⟩]

theorem exInner_wf : WellFormed exS 0 exInner where
  ssa := ⟨by decide, by simp [exInner, Scoped, Atom.vars]⟩
  typed := by
    intro e he args _
    simp only [exInner, List.mem_cons, List.not_mem_nil, or_false] at he
    rcases he with rfl | rfl <;> rfl
  calls := by
    intro e he hp
    simp only [exInner, List.mem_cons, List.not_mem_nil, or_false] at he
    rcases he with rfl | rfl <;> cases hp
  subs := by
    intro e he s hs
    simp only [exInner, List.mem_cons, List.not_mem_nil, or_false] at he
    rcases he with rfl | rfl <;> simp at hs

theorem exOuter_wf : WellFormed exS 1 exOuter where
  ssa := ⟨by decide, by simp [exOuter, Scoped, Atom.vars]⟩
  typed := by
    intro e he args _
    simp only [exOuter, List.mem_cons, List.not_mem_nil, or_false] at he
    rcases he with rfl | rfl | rfl | rfl <;> rfl
  calls := by
    intro e he hp
    simp only [exOuter, List.mem_cons, List.not_mem_nil, or_false] at he
    rcases he with rfl | rfl | rfl | rfl
    · cases hp
    · cases hp
    · exact ⟨exInner, rfl, rfl, rfl⟩
    · cases hp
  subs := by
    intro e he s hs
    simp only [exOuter, List.mem_cons, List.not_mem_nil, or_false] at he
    rcases he with rfl | rfl | rfl | rfl
    · simp at hs
    · simp at hs
    · simp only [List.mem_singleton] at hs
      subst hs
      exact exInner_wf
    · simp at hs

/-- After the removal of constants and dead code. -/
def exMid : Jaxpr ℤ ℤ ℤ (Jx ℤ ℤ ℤ 0) where
  constvars := [1]
  invars := [2]
  outs := [.var 5, .var 6]
  eqns := [⟨.other "add", 0, [], [.var 2, .var 1], [4]⟩, ⟨.other "add", 0, [], [.var 2, .var 1], [5]⟩,
    ⟨.xlaCall, 0, [.opn { constvars := [], invars := [0], outs := [.var 2], eqns := [⟨.other "add", 0, [], [.var 0, .lit 1], [2]⟩] }], [.var 4], [6]⟩]

/-- The optimized program: one constant, one addition, the call with one input and one output, one input. -/
example : optimize (fun a b => decide (a = b)) (fun _ p => p) exK 1 2 [7, 7] exOuter =
    ([7], { constvars := [1], invars := [2], outs := [.var 4, .var 6]
            eqns := [⟨.other "add", 0, [], [.var 2, .var 1], [4]⟩,
              ⟨.xlaCall, 0, [.opn { constvars := [], invars := [0], outs := [.var 2], eqns := [⟨.other "add", 0, [], [.var 0, .lit 1], [2]⟩] }], [.var 4], [6]⟩] }, [0]) := rfl

example (x y : ℤ) : run exS 1 exOuter [7, 7] [x, y] = run exS 1 (optimize (fun a b => decide (a = b)) (fun _ p => p) exK 1 2 [7, 7] exOuter).2.1 [7] [x] := by
  refine ((C52_optimize exS (fun a b => decide (a = b)) (fun c c' h => of_decide_eq_true h) (fun _ p => p) exK 1 [7, 7] exOuter exOuter_wf rfl ⟨⟨?_, ?_⟩, ?_⟩ [x, y] rfl).1).symm
  · exact fun _ _ _ _ x y _ _ h => congrArg Prod.fst h
  · intro e1 h1 e2 h2 hp _ args
    have hl : (dceD (fun _ p => p) 1 (rdcD (fun a b => decide (a = b)) 1 [7, 7] exOuter).2 (List.range (nOuts 1 exOuter))).1 = exMid := rfl
    rw [hl] at h1 h2
    simp only [exMid, List.mem_cons, List.not_mem_nil, or_false] at h1 h2
    rcases h1 with rfl | rfl | rfl <;> rcases h2 with rfl | rfl | rfl <;> first | rfl | cases hp
  · intro e he s hs
    have hl : (dceD (fun _ p => p) 1 (rdcD (fun a b => decide (a = b)) 1 [7, 7] exOuter).2 (List.range (nOuts 1 exOuter))).1 = exMid := rfl
    rw [hl] at he
    simp only [exMid, List.mem_cons, List.not_mem_nil, or_false] at he
    rcases he with rfl | rfl | rfl
    · simp at hs
    · simp at hs
    · simp only [List.mem_singleton] at hs
      subst hs
      refine ⟨fun _ _ _ _ x y _ _ h => h, ?_⟩
      intro e1 h1 e2 h2 _ _ args
      simp only [Sub.jaxpr, List.mem_singleton] at h1 h2
      rw [h1, h2]

/-! ## Where the code's keys are not sound -/

/-- Two equations with the same primitive, parameters and inputs up to keys, and the second one returned. -/
def twoLits (x y : L) (p : P) : Jx L P C 0 where
  constvars := []
  invars := []
  outs := [.var 1]
  eqns := [⟨.other "broadcast_in_dim", p, [], [.lit x], [0]⟩, ⟨.other "broadcast_in_dim", p, [], [.lit y], [1]⟩]

/-- The keys of the code compare literals by value (`a.val == b.val`), and `0 == 0.0` although one is an `int32` and the other a `float32`:
literals are pairs of a type and a value here. -/
def valueKeys : KeysAll (String × ℤ) Unit Unit := (⟨ℤ, inferInstance, Prod.snd, fun _ _ => 0⟩, fun _ => ⟨ℤ, inferInstance, Prod.snd, fun _ _ => 0⟩)

def dtypeSem : Sem (String × ℤ) Unit Unit (String × ℤ) where
  lit x := x
  const _ := ("", 0)
  dflt := ("", 0)
  prim _ _ _ args := args

/-- **C52, witness.** Literals of equal value and different dtype: `jnp.zeros(n, int)` and `jnp.zeros(n, float)` are merged, and the well-formed program
returns the integer array where the original returned the float array. -/
theorem C52_literal_dtype_witness :
    WellFormed dtypeSem 0 (twoLits ("int32", 0) ("float32", 0) ()) ∧
      run dtypeSem 0 (twoLits ("int32", 0) ("float32", 0) ()) [] [] = [("float32", 0)] ∧
      run dtypeSem 0 (rdeD valueKeys 0 (twoLits ("int32", 0) ("float32", 0) ())) [] [] = [("int32", 0)] := by
  refine ⟨⟨⟨by decide, by simp [twoLits, Scoped, Atom.vars]⟩, ?_, ?_, ?_⟩, rfl, rfl⟩
  · intro e he args ha
    simp only [twoLits, List.mem_cons, List.not_mem_nil, or_false] at he
    rcases he with rfl | rfl <;> exact ha
  · intro e he hp
    simp only [twoLits, List.mem_cons, List.not_mem_nil, or_false] at he
    rcases he with rfl | rfl <;> cases hp
  · intro e he s hs
    simp only [twoLits, List.mem_cons, List.not_mem_nil, or_false] at he
    rcases he with rfl | rfl <;> simp at hs

/-- `np.array_equal` and `==` identify `0.0` and `-0.0`: a constant is a sign bit and a magnitude here. -/
def signedSem : Sem Unit Unit (Bool × ℕ) (Bool × ℕ) where
  lit _ := (false, 0)
  const c := c
  dflt := (false, 0)
  prim _ _ _ args := args

def arrayEqual (a b : Bool × ℕ) : Bool := a == b || (a.2 == 0 && b.2 == 0)

/-- **C52, witness.** The constants `0.0` and `-0.0` are merged: a program that returns its constant `0.0` returns `-0.0` afterwards (a later `1/x` changes sign). -/
theorem C52_negative_zero_witness :
    run signedSem 0 ({ constvars := [0, 1], invars := [], outs := [.var 0], eqns := [] } : Jaxpr Unit Unit (Bool × ℕ) Empty) [(false, 0), (true, 0)] [] = [(false, 0)] ∧
      (let r := rdcD arrayEqual 0 [(false, 0), (true, 0)] ({ constvars := [0, 1], invars := [], outs := [.var 0], eqns := [] } : Jaxpr Unit Unit (Bool × ℕ) Empty)
       run signedSem 0 r.2 (r.1.map signedSem.const) []) = [(true, 0)] := ⟨rfl, rfl⟩

/-- Keys that print a closed jaxpr: the values of its constants are not printed. -/
def printKeys : KeysAll Unit Unit ℤ := (⟨ℕ, inferInstance, fun _ => 0, fun _ _ => 0⟩, fun _ => ⟨ℕ, inferInstance, fun _ => 0, fun _ ss => ss.length⟩)

def callSem : Sem Unit Unit ℤ ℤ where
  lit _ := 0
  const c := c
  dflt := 0
  prim _ _ fs args := fs.flatMap fun f => f args

/-- A closed jaxpr that returns its constant. -/
def constant (c : ℤ) : Sub ℤ (Jx Unit Unit ℤ 0) := .closed [c] ({ constvars := [0], invars := [], outs := [.var 0], eqns := [] } : Jaxpr Unit Unit ℤ Empty)

/-- **C52, witness.** Two calls of closed jaxprs that differ only in the values of their constants are merged (`str(ClosedJaxpr)` prints no constant values):
the program returned 2 and returns 1. The same happens with two callables of equal `__name__`. -/
theorem C52_closed_constants_witness :
    let j : Jaxpr Unit Unit ℤ (Jx Unit Unit ℤ 0) := { constvars := [], invars := [], outs := [.var 1], eqns := [⟨.other "custom_jvp_call", (), [constant 1], [], [0]⟩, ⟨.other "custom_jvp_call", (), [constant 2], [], [1]⟩] }
    run callSem 1 j [] [] = [2] ∧ run callSem 1 (rdeD printKeys 1 j) [] [] = [1] := ⟨rfl, rfl⟩

end E3nn.JX
