import Verif.Model.CG
import Verif.Model.IArr
import Verif.Model.Rotation
import Mathlib.Analysis.SpecialFunctions.Trigonometric.Basic
import Mathlib.Analysis.SpecialFunctions.Complex.Arg
import Mathlib.Algebra.Polynomial.Derivative
import Mathlib.Data.Nat.Size

/-!
# Model of `e3nn_jax/_src/spherical_harmonics/` (`__init__.py`, `recursive.py`, `legendre.py`)

Numbers are exact real numbers.  The algorithms act on the last axis and elementwise on the leading axes: they are modelled for one vector
`x : Fin 3 → ℝ` and mapped over the leading index by `sphericalHarmonics`.
-/

namespace E3nn.SH

open E3nn.SU2 E3nn.IArr

/-- The argument `normalization` (the internal value `"none"` of recursive.py behaves like `"norm"`) (spherical_harmonics/__init__.py:100-102). -/
inductive Normalization where
  | integral
  | component
  | norm
  deriving DecidableEq

/-- `biggest_power_of_two(n)`, recursive.py:119-120 (called with `n ≥ 1`); `Nat.size` is `int.bit_length`. -/
def biggestPowerOfTwo (n : ℕ) : ℕ := 2 ^ (Nat.size n - 1)

theorem biggestPowerOfTwo_pos (n : ℕ) : 0 < biggestPowerOfTwo n := by unfold biggestPowerOfTwo; positivity

theorem biggestPowerOfTwo_le {n : ℕ} (h : 0 < n) : biggestPowerOfTwo n ≤ n := by
  unfold biggestPowerOfTwo
  rw [← Nat.lt_size]
  have := Nat.size_pos.mpr h
  omega

/-- `context`: a dictionary from degrees to arrays (recursive.py:13). -/
abbrev Ctx := (l : ℕ) → Option (Fin (2 * l + 1) → ℝ)

/-- `context[l] = v` (recursive.py:97). -/
def Ctx.set (c : Ctx) (l : ℕ) (v : Fin (2 * l + 1) → ℝ) : Ctx := fun l' => if h : l' = l then some (h ▸ v) else c l'

/-- `context[l]` (recursive.py:97). -/
def Ctx.get (c : Ctx) (l : ℕ) : Except PyErr (Fin (2 * l + 1) → ℝ) :=
  match c l with
  | some v => .ok v
  | none => .error .keyError

/-- The constant `x` for `l = 0`, recursive.py:23-28. -/
noncomputable def cst0 : Normalization → ℝ
  | .integral => Real.sqrt (1 / (4 * Real.pi))
  | .component => 1
  | .norm => 1

/-- The constant `x` for `l = 1`, recursive.py:36-41. -/
noncomputable def cst1 : Normalization → ℝ
  | .integral => Real.sqrt (3 / (4 * Real.pi))
  | .component => Real.sqrt 3
  | .norm => 1

/-- The constant `x` for `l ≥ 2`, recursive.py:82-90. -/
noncomputable def cstStep (nrm : Normalization) (l l1 l2 : ℕ) : ℝ :=
  match nrm with
  | .integral => Real.sqrt ((2 * l + 1) / (4 * Real.pi)) / (Real.sqrt ((2 * l1 + 1) / (4 * Real.pi)) * Real.sqrt ((2 * l2 + 1) / (4 * Real.pi)))
  | .component => Real.sqrt ((2 * l + 1) / ((2 * l1 + 1) * (2 * l2 + 1)))
  | .norm => 1

/-- `norm`, recursive.py:74-77: the norm of `yl_var` where the two inputs are the unit vectors at the indices `l1` and `l2`. -/
noncomputable def poleNorm (l1 l2 l : ℕ) : ℝ :=
  Real.sqrt (∑ k, (∑ i : Fin (2 * l1 + 1), ∑ j : Fin (2 * l2 + 1), (if i.val = l1 then 1 else 0) * (if j.val = l2 then 1 else 0) * clebschGordan l1 l2 l i j k) ^ 2)

/-- `einsum("...i,...j,ijk->...k", u, v, C)`, recursive.py:97. -/
noncomputable def dense {l1 l2 l : ℕ} (C : Fin (2 * l1 + 1) → Fin (2 * l2 + 1) → Fin (2 * l + 1) → ℝ) (u : Fin (2 * l1 + 1) → ℝ) (v : Fin (2 * l2 + 1) → ℝ) :
    Fin (2 * l + 1) → ℝ := fun k => ∑ i, ∑ j, u i * v j * C i j k

open Classical in
/-- The sum over the entries that are not zero, recursive.py:98-112. -/
noncomputable def sparse {l1 l2 l : ℕ} (C : Fin (2 * l1 + 1) → Fin (2 * l2 + 1) → Fin (2 * l + 1) → ℝ) (u : Fin (2 * l1 + 1) → ℝ) (v : Fin (2 * l2 + 1) → ℝ) :
    Fin (2 * l + 1) → ℝ := fun k => ∑ p : Fin (2 * l1 + 1) × Fin (2 * l2 + 1) with C p.1 p.2 k ≠ 0, C p.1 p.2 k * u p.1 * v p.2

/-- `recursive_spherical_harmonics(l, context, input, normalization, algorithm)`, recursive.py:11-116.  The symbolic expression that is
returned is represented by the function of `x:3` that it denotes; the context is the second component. -/
noncomputable def recursiveSH (nrm : Normalization) (alg : List String) (x : Fin 3 → ℝ) : (l : ℕ) → Ctx → Except PyErr (((Fin 3 → ℝ) → Fin (2 * l + 1) → ℝ) × Ctx)
  | 0, ctx => .ok (fun _ _ => cst0 nrm, if (ctx 0).isNone then ctx.set 0 (fun _ => cst0 nrm) else ctx)
  | 1, ctx => .ok (fun x i => cst1 nrm * x i, if (ctx 1).isNone then ctx.set 1 (fun i => cst1 nrm * x i) else ctx)
  | n + 2, ctx =>
    let l2 := biggestPowerOfTwo (n + 2 - 1)
    let l1 := n + 2 - l2
    match recursiveSH nrm alg x l1 ctx with
    | .error e => .error e
    | .ok (y1, ctx) =>
      match recursiveSH nrm alg x l2 ctx with
      | .error e => .error e
      | .ok (y2, ctx) =>
        let c := cstStep nrm (n + 2) l1 l2
        let y : (Fin 3 → ℝ) → Fin (2 * (n + 2) + 1) → ℝ := fun x k =>
          c * ((∑ i, ∑ j, y1 x i * y2 x j * clebschGordan l1 l2 (n + 2) i j k) / poleNorm l1 l2 (n + 2))
        if (ctx (n + 2)).isNone then
          let C : Fin (2 * l1 + 1) → Fin (2 * l2 + 1) → Fin (2 * (n + 2) + 1) → ℝ := fun i j k => c / poleNorm l1 l2 (n + 2) * clebschGordan l1 l2 (n + 2) i j k
          match ctx.get l1, ctx.get l2 with
          | .ok u, .ok v =>
            if "dense" ∈ alg then .ok (y, ctx.set (n + 2) (dense C u v))
            else if "sparse" ∈ alg then .ok (y, ctx.set (n + 2) (sparse C u v))
            else .error .valueError
          | .error e, _ => .error e
          | _, .error e => .error e
        else .ok (y, ctx)
termination_by l => l
decreasing_by
  · have := biggestPowerOfTwo_pos (n + 2 - 1); omega
  · have := biggestPowerOfTwo_le (n := n + 2 - 1) (by omega); omega

/-- The loop over the requested degrees, recursive branch of `_spherical_harmonics`, spherical_harmonics/__init__.py:195-197. -/
noncomputable def fillContext (nrm : Normalization) (alg : List String) (x : Fin 3 → ℝ) : List ℕ → Ctx → Except PyErr Ctx
  | [], ctx => .ok ctx
  | l :: ls, ctx =>
    match recursiveSH nrm alg x l ctx with
    | .error e => .error e
    | .ok (_, ctx) => fillContext nrm alg x ls ctx

/-- The degree and the components (recursive.py:97-103). -/
abbrev Vals := (l : ℕ) × (Fin (2 * l + 1) → ℝ)

/-! ### legendre.py -/

/-- The Legendre polynomial (Rodrigues' formula) (legendre.py:30). -/
noncomputable def legendrePoly (l : ℕ) : Polynomial ℝ :=
  Polynomial.C ((1 : ℝ) / (2 ^ l * l.factorial)) * Polynomial.derivative^[l] ((Polynomial.X ^ 2 - 1) ^ l)

/-- `jax.scipy.special.lpmn_values(lmax, lmax, z, is_normalized=True)[m, l]`, taken by its documentation: the associated Legendre function
with the Condon-Shortley phase and the normalisation of spherical harmonics (zero for `m > l`) (legendre.py:30). -/
noncomputable def lpmn (l m : ℕ) (z : ℝ) : ℝ :=
  if l < m then 0
  else Real.sqrt ((2 * l + 1) / (4 * Real.pi) * ((l - m).factorial / (l + m).factorial)) *
    ((-1) ^ m * (Real.sqrt (1 - z ^ 2)) ^ m * (Polynomial.derivative^[m] (legendrePoly l)).eval z)

/-- `_sh_beta(lmax, z)[l, m]` with `legendre(lmax, z, phase=1.0, is_normalized=True)`, legendre.py:28-36, 66-79. -/
noncomputable def shBeta (l m : ℕ) (z : ℝ) : ℝ := (-1 : ℝ) ^ m * lpmn l m z

/-- `_sh_alpha(l, alpha)`, legendre.py:39-63. -/
noncomputable def shAlpha (l : ℕ) (alpha : ℝ) : List ℝ :=
  (List.range l).map (fun i => Real.sqrt 2 * Real.sin (((l - i : ℕ) : ℝ) * alpha)) ++ [1] ++
    (List.range l).map (fun i => Real.sqrt 2 * Real.cos (((i + 1 : ℕ) : ℝ) * alpha))

/-- `arctan2(a, b)` (legendre.py:85). -/
noncomputable def arctan2 (a b : ℝ) : ℝ := Complex.arg ⟨b, a⟩

/-- The value that `g` stores, legendre.py:97-105 (`normalize=False`). -/
noncomputable def legendreVal (nrm : Normalization) (lmax : ℕ) (x : Fin 3 → ℝ) (l : ℕ) (m : ℤ) : ℝ :=
  let n := Real.sqrt (x 0 ^ 2 + x 1 ^ 2 + x 2 ^ 2)
  let z := x 1 / (if 0 < n then n else 1)
  let y := shBeta l m.natAbs z * n ^ l
  let y := match nrm with
    | .norm => y * (Real.sqrt (4 * Real.pi) / Real.sqrt (2 * l + 1))
    | .component => y * Real.sqrt (4 * Real.pi)
    | .integral => y
  y * (shAlpha lmax (arctan2 (x 0) (x 2))).getD (lmax + m).toNat 0

/-- `legendre_spherical_harmonics(lmax, x, False, normalization)`, legendre.py:82-110: the two loops write one entry at a time. -/
noncomputable def legendreSH (nrm : Normalization) (lmax : ℕ) (x : Fin 3 → ℝ) : List ℝ :=
  (List.range (lmax + 1)).foldl (fun sh l =>
    (List.range (2 * l + 1)).foldl (fun sh (i : ℕ) => sh.set ((l : ℤ) ^ 2 + l + ((i : ℤ) - l)).toNat (legendreVal nrm lmax x l ((i : ℤ) - l))) sh)
    (List.replicate ((lmax + 1) ^ 2) 0)

/-- `_spherical_harmonics(ls, x, normalization, algorithm)`, spherical_harmonics/__init__.py:188-199 (`max(())` raises `ValueError`).  `custom_jvp` does not change
the value (spherical_harmonics/__init__.py:178-185, 202-206). -/
noncomputable def shCore (nrm : Normalization) (alg : List String) (ls : List ℕ) (x : Fin 3 → ℝ) : Except PyErr (List Vals) :=
  if "legendre" ∈ alg then
    match ls with
    | [] => .error .valueError
    | _ =>
      let out := legendreSH nrm (ls.foldl max 0) x
      .ok (ls.map fun l => ⟨l, fun i => ((out.take ((l + 1) ^ 2)).drop (l ^ 2)).getD i 0⟩)
  else if "recursive" ∈ alg then
    match fillContext nrm alg x ls fun _ => none with
    | .error e => .error e
    | .ok ctx => ls.mapM fun l =>
      match ctx.get l with
      | .error e => .error e
      | .ok v => .ok ⟨l, v⟩
  else .error .valueError

/-! ### the derivative rule -/

/-- The factor of the Clebsch-Gordan tensor in the derivative rule, spherical_harmonics/__init__.py:226-229. -/
noncomputable def gradW : Normalization → ℕ → ℝ
  | .norm, l => Real.sqrt ((2 * l + 1) * l * (2 * l - 1))
  | _, l => Real.sqrt l * (2 * l + 1)

open Classical in
/-- `h(l, r)`, spherical_harmonics/__init__.py:224-249.  `r` is read by its entries (`einsum` checks the size, which is always the right one here). -/
noncomputable def jvpH (nrm : Normalization) (alg : List String) (l : ℕ) (r : Vals) (xdot : Fin 3 → ℝ) : Except PyErr (Fin (2 * l + 1) → ℝ) :=
  let r' : Fin (2 * (l - 1) + 1) → ℝ := fun i => if h : i.val < 2 * r.1 + 1 then r.2 ⟨i.val, h⟩ else 0
  let w : Fin (2 * (l - 1) + 1) → Fin (2 * l + 1) → Fin 3 → ℝ := fun i j k => clebschGordan (l - 1) l 1 i j k * gradW nrm l
  if "dense" ∈ alg then .ok fun j => ∑ i, ∑ k, r' i * xdot k * w i j k
  else if "sparse" ∈ alg then .ok fun j => ∑ p : Fin (2 * (l - 1) + 1) × Fin 3 with w p.1 j p.2 ≠ 0, w p.1 j p.2 * r' p.1 * xdot p.2
  else .error .valueError

/-- `_jvp`, the rule given to `jax.custom_jvp`, spherical_harmonics/__init__.py:209-252: the primal and the tangent. -/
noncomputable def shJvp (nrm : Normalization) (alg : List String) (ls : List ℕ) (x xdot : Fin 3 → ℝ) : Except PyErr (List Vals × List Vals) :=
  let js := ls.map fun l => max 0 (l - 1)
  match shCore nrm alg (ls ++ js) x with
  | .error e => .error e
  | .ok output =>
    let primal := output.take ls.length
    let res := output.drop ls.length
    match (ls.zip res).mapM fun q => if q.1 > 0 then (jvpH nrm alg q.1 q.2 xdot).map fun v => (⟨q.1, v⟩ : Vals) else .ok ⟨q.2.1, fun _ => 0⟩ with
    | .error e => .error e
    | .ok tangent => .ok (primal, tangent)

/-! ### the public function -/

variable {ι : Type}

/-- The argument `input`: an `IrrepsArray` or an array (spherical_harmonics/__init__.py:50-60). -/
inductive Input (ι : Type) where
  | arr (x : IArr (ι → ℝ))
  | raw (cols : List (ι → ℝ))

/-- The columns of the input (spherical_harmonics/__init__.py:133-169). -/
def Input.cols : Input ι → List (ι → ℝ)
  | .arr x => x.array
  | .raw c => c

/-- The argument `irreps_out`: irreps (or anything that `Irreps()` accepts), an integer or a list of integers (natural numbers here) (spherical_harmonics/__init__.py:104-128). -/
inductive IrrepsOut where
  | irreps (ms : Irreps)
  | int (l : ℕ)
  | ints (ls : List ℕ)

/-- `_check_is_vector`, spherical_harmonics/__init__.py:41-47 (the unpacking of a tuple of the wrong length is also a `ValueError`). -/
def checkIsVector (ms : Irreps) : Except PyErr Parity :=
  if ms.numIrreps ≠ 1 then .error .valueError
  else match ms with
    | [m] => if m.mul = 1 ∧ m.ir.l = 1 then .ok m.ir.p else .error .valueError
    | _ => .error .valueError

/-- The output irreps, spherical_harmonics/__init__.py:104-128. -/
def outIrreps : IrrepsOut → Input ι → Except PyErr Irreps
  | .irreps ms, _ => .ok ms
  | _, .raw _ => .error .valueError
  | .int l, .arr x => (checkIsVector x.irreps).map fun p => [⟨1, ⟨l, p.pow l⟩⟩]
  | .ints ls, .arr x => (checkIsVector x.irreps).map fun p => ls.map fun l => ⟨1, ⟨l, p.pow l⟩⟩

/-- The parities of the odd degrees, spherical_harmonics/__init__.py:131. -/
def oddParities (ms : Irreps) : List Parity := (ms.filter fun m => m.ir.l % 2 = 1).map fun m => m.ir.p

/-- `algorithm` when it is `None`, spherical_harmonics/__init__.py:147-155; `cfg` is the value of `config("spherical_harmonics_algorithm")`, `none` for
`"automatic"`. -/
def chooseAlgorithm (cfg : Option (List String)) (ms : Irreps) : Except PyErr (List String) :=
  match cfg with
  | some a => .ok a
  | none => ms.lmax.map fun lmax => if lmax ≤ 8 then ["recursive", "dense", "custom_jvp"] else ["legendre", "dense", "custom_jvp"]

/-- `x / sqrt(r2)` with `r2 = where(r2 == 0, 1, r2)`, spherical_harmonics/__init__.py:163-166. -/
noncomputable def normalizeVec (x : Fin 3 → ℝ) : Fin 3 → ℝ :=
  let r2 := x 0 ^ 2 + x 1 ^ 2 + x 2 ^ 2
  fun i => x i / Real.sqrt (if r2 = 0 then 1 else r2)

/-- The vector at the leading index `i` (spherical_harmonics/__init__.py:169). -/
def vecOf (cols : List (ι → ℝ)) (i : ι) : Fin 3 → ℝ := fun k => cols.getD k 0 i

/-- The chunks: for each term, `mul` copies of the value, spherical_harmonics/__init__.py:168-174. -/
noncomputable def shChunk (vals : ι → List Vals) (m : MulIrrep) (n : ℕ) : Chunk (ι → ℝ) :=
  some (List.replicate m.mul ((List.range (2 * m.ir.l + 1)).map fun k => fun i =>
    match (vals i)[n]? with
    | some ⟨l, v⟩ => if h : k < 2 * l + 1 then v ⟨k, h⟩ else 0
    | none => 0))

/-- The check of the input when it is an `IrrepsArray`, spherical_harmonics/__init__.py:133-138. -/
def checkInput (ms : Irreps) : Input ι → Except PyErr Unit
  | .arr x =>
    match checkIsVector x.irreps with
    | .error e => .error e
    | .ok p => if (oddParities ms).all fun q => p == q then .ok () else .error .valueError
  | .raw _ => .ok ()

/-- The value of `algorithm` after spherical_harmonics/__init__.py:147-155. -/
def resolveAlgorithm (cfg algorithm : Option (List String)) (ms : Irreps) : Except PyErr (List String) :=
  match algorithm with
  | some a => .ok a
  | none => chooseAlgorithm cfg ms

/-- The part after the checks, spherical_harmonics/__init__.py:157-175.  `shCore` is mapped over the leading index; when it raises, it raises for every index (the
errors do not depend on `x`), `vals` is then meaningless. -/
noncomputable def evaluate (ms : Irreps) (cols : List (ι → ℝ)) (normalize : Bool) (nrm : Normalization) (alg : List String) : Except PyErr (IArr (ι → ℝ)) :=
  if !(alg.all fun k => k ∈ ["legendre", "recursive", "dense", "sparse", "custom_jvp"]) then .error .assertion
  else if cols.length ≠ 3 then .error .assertion
  else
    let vec := fun i => if normalize then normalizeVec (vecOf cols i) else vecOf cols i
    let ls := ms.map fun m => m.ir.l
    match shCore nrm alg ls 0 with
    | .error e => .error e
    | .ok _ =>
      let vals := fun i => match shCore nrm alg ls (vec i) with
        | .ok v => v
        | .error _ => []
      fromChunks ms (ms.zipIdx.map fun q => shChunk vals q.1 q.2)

/-- `spherical_harmonics(irreps_out, input, normalize, normalization, algorithm=...)`, spherical_harmonics/__init__.py:50-175. -/
noncomputable def sphericalHarmonics (cfg : Option (List String)) (out : IrrepsOut) (input : Input ι) (normalize : Bool) (nrm : Normalization)
    (algorithm : Option (List String)) : Except PyErr (IArr (ι → ℝ)) :=
  match outIrreps out input with
  | .error e => .error e
  | .ok ms =>
    if !(ms.all fun m => m.ir.l % 2 == 1 || m.ir.p == .e) then .error .assertion
    else if (oddParities ms).dedup.length > 1 then .error .assertion
    else match checkInput ms input with
      | .error e => .error e
      | .ok _ =>
        if ms.numIrreps = 0 then make ms [] none none
        else match resolveAlgorithm cfg algorithm ms with
          | .error e => .error e
          | .ok alg => evaluate ms input.cols normalize nrm alg

/-- `sh(irreps_out, input, normalize, normalization, algorithm=...)`, spherical_harmonics/__init__.py:12-38: the input is declared as `1e`, the array is returned. -/
noncomputable def sh (cfg : Option (List String)) (out : IrrepsOut) (cols : List (ι → ℝ)) (normalize : Bool) (nrm : Normalization)
    (algorithm : Option (List String)) : Except PyErr (List (ι → ℝ)) := do
  let input ← IArr.ofArray [⟨1, ⟨1, .e⟩⟩] cols
  let y ← sphericalHarmonics cfg out (.arr input) normalize nrm algorithm
  .ok y.array

end E3nn.SH
