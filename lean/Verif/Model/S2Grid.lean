import Verif.Model.SphericalHarmonics
import Verif.Model.Activation
import Verif.Model.Sort

/-!
# Model of `e3nn_jax/_src/s2grid.py`

Numbers are exact real numbers.  The leading axes are an index type `ι`.  `np.polynomial.legendre.leggauss` is a parameter: a function that gives
the nodes and the weights.  The Fourier transforms of `jnp.fft` are given by their definition.  The `s2fft` variants call another library and are not
modelled; `quadrature` and `normalization` are one of their documented values (otherwise the code raises a plain `Exception`).
-/

namespace E3nn.S2

open E3nn.IArr E3nn.SH

/-- The argument `quadrature`, s2grid.py:1375-1384. -/
inductive Quad where
  | soft | gauss
  deriving DecidableEq

/-- `np.polynomial.legendre.leggauss`: nodes and weights (s2grid.py:1381). -/
abbrev LegGauss := (n : ℕ) → (Fin n → ℝ) × (Fin n → ℝ)

/-- `_quadrature_weights_soft(b)[j]`, s2grid.py:1314-1334. -/
noncomputable def softWeight (b j : ℕ) : ℝ :=
  4 / b * Real.sin (Real.pi * (2 * j + 1) / (2 * b)) *
    ((List.range (b / 2)).map fun k : ℕ => 1 / (2 * (k : ℝ) + 1) * Real.sin ((2 * j + 1) * (2 * k + 1) * Real.pi / (2 * b))).sum

/-- `_quadrature_weights`: the values of `y` and the weights, s2grid.py:1361-1385 (`leggauss(0)` raises `ValueError`). -/
noncomputable def quadratureWeights (lg : LegGauss) (q : Quad) (n : ℕ) : Except PyErr ((Fin n → ℝ) × (Fin n → ℝ)) :=
  match q with
  | .soft => if n % 2 = 0 then .ok (fun i => -Real.cos ((i + 0.5) / n * Real.pi), fun i => softWeight n i / 2) else .error .assertion
  | .gauss => if n = 0 then .error .valueError else .ok ((lg n).1, fun i => (lg n).2 i / 2)

/-- The angles `alpha` of the grid, s2grid.py:1356-1357. -/
noncomputable def gridAlpha (n : ℕ) (a : ℕ) : ℝ := a / n * 2 * Real.pi

/-- `_s2grid_vectors`, s2grid.py:1293-1311. -/
noncomputable def gridVector (y alpha : ℝ) : Fin 3 → ℝ :=
  ![Real.sqrt (1 - y ^ 2) * Real.sin alpha, y, Real.sqrt (1 - y ^ 2) * Real.cos alpha]

/-- `SphericalSignal`, s2grid.py:114-147: the constructor checks that the parities are ±1 and the quadrature is known. -/
structure Signal (ι : Type) where
  resBeta : ℕ
  resAlpha : ℕ
  values : Fin resBeta → Fin resAlpha → ι → ℝ
  quad : Quad
  pVal : Parity
  pArg : Parity

/-- `_normalization(lmax, normalization, dtype, "to_s2")[l]`, s2grid.py:1468-1501. -/
noncomputable def normTo (nrm : Normalization) (lmax l : ℕ) : ℝ :=
  match nrm with
  | .component => Real.sqrt (4 * Real.pi) / (Real.sqrt (2 * l + 1) * Real.sqrt (lmax + 1))
  | .norm => Real.sqrt (4 * Real.pi) * 1 / Real.sqrt (lmax + 1)
  | .integral => 1 * Real.sqrt (4 * Real.pi)

/-- `_normalization(lmax, normalization, dtype, "from_s2", lmax_in)[l]`, s2grid.py:1468-1501: `lmax_in` is used by `norm` only. -/
noncomputable def normFrom (nrm : Normalization) (lmax lmaxIn l : ℕ) : ℝ :=
  match nrm with
  | .component => Real.sqrt (4 * Real.pi) * (Real.sqrt (2 * l + 1) * Real.sqrt (lmax + 1))
  | .norm => Real.sqrt (4 * Real.pi) * 1 * Real.sqrt (lmaxIn + 1)
  | .integral => 1 * Real.sqrt (4 * Real.pi)

/-- One turn of the loop of `_expand_matrix`: the assignment of an identity matrix to a block, s2grid.py:1565-1569. -/
def expandStep (lmax : ℕ) (st : (ℕ → ℕ → ℕ → ℝ) × ℕ) (l : ℕ) : (ℕ → ℕ → ℕ → ℝ) × ℕ :=
  (fun l' m i =>
    if l' = l ∧ (lmax - l ≤ m ∧ m < lmax + l + 1) ∧ (st.2 ≤ i ∧ i < st.2 + (2 * l + 1)) then (if m - (lmax - l) = i - st.2 then 1 else 0) else st.1 l' m i,
    st.2 + (2 * l + 1))

/-- `_expand_matrix(ls)`, s2grid.py:1548-1570. -/
def expandMatrix (ls : List ℕ) : ℕ → ℕ → ℕ → ℝ := (ls.foldl (expandStep (ls.foldl max 0)) (fun _ _ _ => 0, 0)).1

/-- `_rollout_sh(sh_y, lmax)` at one `y`, s2grid.py:1573-1592. -/
noncomputable def rolloutSh (lmax : ℕ) (y : ℝ) : List ℝ :=
  (List.range (lmax + 1)).flatMap fun l => (List.range (2 * l + 1)).map fun i : ℕ => shBeta l ((i : ℤ) - l).natAbs y

/-- `einsum("lmj,bj,lmi,l->mbi", m_in, sh_y, m_out, n)` at one `y`, s2grid.py:1063-1066. -/
noncomputable def shYTo (nrm : Normalization) (lmax : ℕ) (ls : List ℕ) (y : ℝ) (m i : ℕ) : ℝ :=
  ∑ l ∈ Finset.range (lmax + 1), ∑ j ∈ Finset.range ((lmax + 1) ^ 2),
    expandMatrix (List.range (lmax + 1)) l m j * (rolloutSh lmax y).getD j 0 * expandMatrix ls l m i * normTo nrm lmax l

/-- `einsum("lmj,bj,lmi,l,b->mbi", m_in, sh_y, m_out, n, qw)` at one `y`, s2grid.py:877-880. -/
noncomputable def shYFrom (nrm : Normalization) (lmax lmaxIn : ℕ) (ls : List ℕ) (y qw : ℝ) (m i : ℕ) : ℝ :=
  ∑ l ∈ Finset.range (lmax + 1), ∑ j ∈ Finset.range ((lmax + 1) ^ 2),
    expandMatrix (List.range (lmax + 1)) l m j * (rolloutSh lmax y).getD j 0 * expandMatrix ls l m i * normFrom nrm lmax lmaxIn l * qw

/-- `jnp.fft.rfft(x)[k]` for `x` of length `n` (s2grid.py:1513). -/
noncomputable def rfft (n : ℕ) (x : ℕ → ℝ) (k : ℕ) : ℂ := ∑ a ∈ Finset.range n, (x a : ℂ) * Complex.exp (-2 * Real.pi * Complex.I * k * a / n)

/-- `jnp.fft.irfft(x, n)[a]` for odd `n`: `x` is cut or padded to the length `n // 2 + 1` (s2grid.py:1544). -/
noncomputable def irfft (x : List ℂ) (n : ℕ) (a : ℕ) : ℝ :=
  ((x.getD 0 0).re + 2 * ∑ k ∈ Finset.range (n / 2), (x.getD (k + 1) 0 * Complex.exp (2 * Real.pi * Complex.I * (k + 1 : ℕ) * a / n)).re) / n

/-- `_rfft(x, l)[m]` for `x` of length `n`, `l ≤ n // 2`, s2grid.py:1504-1522. -/
noncomputable def rfftReal (n : ℕ) (x : ℕ → ℝ) (l : ℕ) (m : ℕ) : ℝ :=
  (((List.range l).map fun k => (rfft n x (k + 1)).im).reverse.map (fun v => v * -Real.sqrt 2) ++ [(rfft n x 0).re] ++
    (List.range l).map fun k => (rfft n x (k + 1)).re * Real.sqrt 2).getD m 0

/-- The complex array of `_irfft(x, res)`, for `x` of length `2 l + 1`, s2grid.py:1533-1543. -/
noncomputable def irfftInput (l : ℕ) (x : ℕ → ℝ) : List ℂ :=
  [((x l : ℝ) : ℂ)] ++
    List.zipWith (fun u v : ℝ => ((u : ℂ) + (v : ℂ) * -Complex.I) / (Real.sqrt 2 : ℂ)) ((List.range l).map fun k => x (l + 1 + k)) (((List.range l).map x).reverse) ++
    List.replicate l 0

/-- The parities of the irreps of even or odd degree, as a set without repetitions, s2grid.py:1426-1427. -/
def paritiesOf (ms : Irreps) (r : ℕ) : List Parity := ((ms.filter fun m => m.ir.l % 2 = r).map fun m => m.ir.p).dedup

/-- `_check_parities(irreps, p_val, p_arg)`, s2grid.py:1423-1465. -/
def checkParities (ms : Irreps) (pVal pArg : Option Parity) : Except PyErr (Option Parity × Option Parity) :=
  if !((paritiesOf ms 0).length ≤ 1 && (paritiesOf ms 1).length ≤ 1) then .error .valueError
  else
    let pEven := (paritiesOf ms 0).head?
    let pOdd := (paritiesOf ms 1).head?
    match pVal, pArg with
    | some v, some a =>
      if (pEven = some v ∨ pEven = none) ∧ (pOdd = some (v.mul a) ∨ pOdd = none) then .ok (some v, some a) else .error .valueError
    | some v, none =>
      if pEven.getD v ≠ v then .error .valueError
      else .ok (some v, pOdd.map v.mul)
    | none, some a =>
      match pEven, pOdd with
      | some e, none => .ok (some e, some (e.mul (e.mul a)))
      | none, some o => .ok (some (o.mul a), some ((o.mul a).mul o))
      | some e, some o => if o ≠ e.mul a then .error .valueError else .ok (some e, some (e.mul o))
      | none, none => .ok (none, none)
    | none, none =>
      match pEven, pOdd with
      | some e, some o => .ok (some e, some (e.mul o))
      | e, _ => .ok (e, none)

variable {ι : Type}

/-- `einsum("mbi,...i->...bm", sh_y, coeffs)` at one `b`, s2grid.py:1069-1071. -/
noncomputable def signalB (nrm : Normalization) (lmax : ℕ) (ls : List ℕ) (y : ℝ) (c : List (ι → ℝ)) (m : ℕ) : ι → ℝ :=
  fun i => ∑ k ∈ Finset.range c.length, shYTo nrm lmax ls y m k * c.getD k 0 i

/-- The last step of `to_s2grid`, s2grid.py:1073-1081. -/
noncomputable def synthesize (fft : Bool) (lmax resAlpha : ℕ) (sb : ℕ → ι → ℝ) (a : ℕ) : ι → ℝ :=
  if fft then fun i => irfft (irfftInput lmax fun m => sb m i) resAlpha a * resAlpha
  else fun i => ∑ m ∈ Finset.range (2 * lmax + 1), sb m i * (shAlpha lmax (gridAlpha resAlpha a)).getD m 0

/-- `to_s2grid` after the checks, for regrouped coefficients, s2grid.py:1055-1083. -/
noncomputable def toGridCore (lg : LegGauss) (nrm : Normalization) (fft : Bool) (c : IArr (ι → ℝ)) (lmax : ℕ) (resBeta resAlpha : ℕ) (q : Quad) (pVal pArg : Parity) :
    Except PyErr (Signal ι) := do
  let g ← quadratureWeights lg q resBeta
  if fft && resAlpha % 2 == 0 then .error .valueError
  else .ok ⟨resBeta, resAlpha, fun b a => synthesize fft lmax resAlpha (signalB nrm lmax c.irreps.ls (g.1 b) c.array) a, q, pVal, pArg⟩

/-- The checks of `to_s2grid` on regrouped coefficients, s2grid.py:1028-1042: `lmax` and the parities. -/
def toGridChecks (c : IArr (ι → ℝ)) (pVal pArg : Option Parity) : Except PyErr (ℕ × Parity × Parity) :=
  match c.irreps.ls.getLast? with
  | none => .error .indexError
  | some lmax =>
    if !(c.irreps.all fun m => m.mul == 1) then .error .valueError
    else if pVal.isSome ≠ pArg.isSome then .error .valueError
    else match checkParities c.irreps pVal pArg with
      | .error e => .error e
      | .ok (some v, some a) => .ok (lmax, v, a)
      | .ok _ => .error .valueError

/-- `to_s2grid(coeffs, res_beta, res_alpha, quadrature=, normalization=, fft=, p_val=, p_arg=)`, s2grid.py:944-1083. -/
noncomputable def toS2Grid (lg : LegGauss) (nrm : Normalization) (fft : Bool) (coeffs : IArr (ι → ℝ)) (resBeta resAlpha : ℕ) (q : Quad) (pVal pArg : Option Parity) :
    Except PyErr (Signal ι) := do
  let c ← coeffs.regroup
  let k ← toGridChecks c pVal pArg
  toGridCore lg nrm fft c k.1 resBeta resAlpha q k.2.1 k.2.2

/-- The integral over `alpha`, s2grid.py:883-888; `_rfft` cannot reshape when there are fewer than `lmax + 1` frequencies. -/
noncomputable def analyze (fft : Bool) (lmax resAlpha : ℕ) (x : ℕ → ℝ) (m : ℕ) : ℝ :=
  if fft then rfftReal resAlpha x lmax m / resAlpha
  else (∑ a ∈ Finset.range resAlpha, x a * (shAlpha lmax (gridAlpha resAlpha a)).getD m 0) / resAlpha

/-- The values along `alpha` (s2grid.py:883-888). -/
def row {ι : Type} (x : Signal ι) (b : Fin x.resBeta) (i : ι) (a : ℕ) : ℝ := if h : a < x.resAlpha then x.values b ⟨a, h⟩ i else 0

/-- `from_s2grid` after the checks, s2grid.py:866-894. -/
noncomputable def fromGridCore (lg : LegGauss) (nrm : Normalization) (fft : Bool) (x : Signal ι) (irreps : Irreps) (lmax lmaxIn : ℕ) : Except PyErr (IArr (ι → ℝ)) := do
  let g ← quadratureWeights lg x.quad x.resBeta
  if fft && (x.resAlpha == 0 || decide (x.resAlpha / 2 < lmax)) then .error .typeError
  else
    IArr.make irreps ((List.range irreps.dim).map fun k => fun i =>
      ∑ m ∈ Finset.range (2 * lmax + 1), ∑ b : Fin x.resBeta, shYFrom nrm lmax lmaxIn irreps.ls (g.1 b) (g.2 b) m k * analyze fft lmax x.resAlpha (row x b i) m) none none

/-- `from_s2grid(x, irreps, normalization=, lmax_in=, fft=)`, s2grid.py:823-894. -/
noncomputable def fromS2Grid (lg : LegGauss) (nrm : Normalization) (fft : Bool) (lmaxIn : Option ℕ) (x : Signal ι) (irreps : Irreps) : Except PyErr (IArr (ι → ℝ)) := do
  let ms ← irreps.regroup
  if !(ms.all fun m => m.mul == 1) then .error .valueError
  else do
    let _ ← checkParities irreps (some x.pVal) (some x.pArg)
    match irreps.ls with
    | [] => .error .valueError
    | _ => fromGridCore lg nrm fft x irreps (irreps.ls.foldl max 0) (lmaxIn.getD (irreps.ls.foldl max 0))

/-- `s2_irreps(lmax, p_val, p_arg)`, s2grid.py:777-795. -/
def s2Irreps (lmax : ℕ) (pVal pArg : Parity) : Irreps := (List.range (lmax + 1)).map fun l => ⟨1, ⟨l, pVal.mul (pArg.pow l)⟩⟩

/-- `SphericalSignal.integrate()`, s2grid.py:584-597: the value and its parity. -/
noncomputable def integrate (lg : LegGauss) (x : Signal ι) : Except PyErr (IArr (ι → ℝ)) := do
  let g ← quadratureWeights lg x.quad x.resBeta
  IArr.make [⟨1, ⟨0, x.pVal⟩⟩] [fun i => (∑ a, ∑ b, g.2 b * x.values b a i) / x.resAlpha * 4 * Real.pi] none none

/-- `SphericalSignal.from_function`, s2grid.py:150-178, for functions of one vector. -/
noncomputable def fromFunction (lg : LegGauss) (f : (Fin 3 → ℝ) → ι → ℝ) (resBeta resAlpha : ℕ) (q : Quad) (pVal pArg : Parity) : Except PyErr (Signal ι) :=
  (quadratureWeights lg q resBeta).map fun g => ⟨resBeta, resAlpha, fun b a => f (gridVector (g.1 b) (gridAlpha resAlpha a)), q, pVal, pArg⟩

/-- `resample`, s2grid.py:337-361. -/
noncomputable def resample (lg : LegGauss) (x : Signal ι) (resBeta resAlpha lmax : ℕ) (q : Option Quad) : Except PyErr (Signal ι) := do
  let c ← fromS2Grid lg .integral true none x (s2Irreps lmax x.pVal x.pArg)
  toS2Grid lg .integral true c resBeta resAlpha (q.getD x.quad) (some x.pVal) (some x.pArg)

/-- `_transform_by`, s2grid.py:363-384, with the action on the coefficients as argument. -/
noncomputable def transformSignal (lg : LegGauss) (act : IArr (ι → ℝ) → Except PyErr (IArr (ι → ℝ))) (x : Signal ι) (lmax : ℕ) : Except PyErr (Signal ι) := do
  let c ← fromS2Grid lg .integral true none x (s2Irreps lmax x.pVal x.pArg)
  let c ← act c
  toS2Grid lg .integral true c x.resBeta x.resAlpha x.quad (some x.pVal) (some x.pArg)

/-- `sh * n`, the product of each irrep with its factor (`elementwise_tensor_product` with scalars), s2grid.py:1276-1279. -/
noncomputable def scaleSh {κ : Type} (nrm : Normalization) (lmax : ℕ) (sh : IArr (κ → ℝ)) : List (κ → ℝ) :=
  List.zipWith (fun (v : κ → ℝ) (n : ℝ) => fun k => v k * n) sh.array (sh.irreps.flatMap fun m => List.replicate (m.mul * (2 * m.ir.l + 1)) (normTo nrm lmax m.ir.l))

/-- `to_s2point(coeffs, point, normalization=)`, s2grid.py:1241-1290, for `n1` coefficients and `n2` points: `einsum("ai,bi->ab")` gives a matrix with a row for each
point and a column for each set of coefficients, whose entries are then read in this order. -/
noncomputable def toS2Point (cfg : Option (List String)) (nrm : Normalization) {n1 n2 : ℕ} (c : IArr (Fin n1 → ℝ)) (point : IArr (Fin n2 → ℝ)) : Except PyErr (IArr (Fin (n2 * n1) → ℝ)) := do
  let c ← c.regroup
  if !(c.irreps.all fun m => m.mul == 1) then .error .valueError
  else match point.irreps with
    | [⟨1, ⟨1, pArg⟩⟩] => do
      let ps ← checkParities c.irreps none (some pArg)
      let sh ← sphericalHarmonics cfg (.ints c.irreps.ls) (.arr point) true .integral none
      let lmax ← sh.irreps.lmax
      match ps.1 with
      | none => .error .keyError
      | some pVal => IArr.make [⟨1, ⟨0, pVal⟩⟩] [fun t => (List.zipWith (fun (u : Fin n2 → ℝ) (v : Fin n1 → ℝ) => u t.divNat * v t.modNat) (scaleSh nrm lmax sh) c.array).sum] none none
    | _ => .error .valueError

/-- `s2_dirac(position, lmax, p_val=, p_arg=)`, s2grid.py:685-774. -/
noncomputable def s2Dirac (cfg : Option (List String)) (position : Input ι) (lmax : ℕ) (pVal pArg : Parity) : Except PyErr (IArr (ι → ℝ)) := do
  let c ← sphericalHarmonics cfg (.irreps (s2Irreps lmax pVal pArg)) position true .integral none
  c.scale fun f => fun i => f i / Real.sqrt (4 * Real.pi)

/-- The two signals have the same `grid_resolution`, s2grid.py:217, 256, 333-335. -/
def SameGrid (x y : Signal ι) : Prop := x.resBeta = y.resBeta ∧ x.resAlpha = y.resAlpha

instance (x y : Signal ι) : Decidable (SameGrid x y) := inferInstanceAs (Decidable (_ ∧ _))

/-- Entry by entry combination of the values, with the quadrature of the first signal (s2grid.py:226-231, 266-271). -/
def combine (f : ℝ → ℝ → ℝ) (x y : Signal ι) (h : SameGrid x y) (pVal : Parity) : Signal ι :=
  ⟨x.resBeta, x.resAlpha, fun b a i => f (x.values b a i) (y.values (b.cast h.1) (a.cast h.2) i), x.quad, pVal, x.pArg⟩

/-- `replace_values`, s2grid.py:421-425. -/
def replaceValues (x : Signal ι) (v : Fin x.resBeta → Fin x.resAlpha → ι → ℝ) : Signal ι := ⟨x.resBeta, x.resAlpha, v, x.quad, x.pVal, x.pArg⟩

/-- `x * y` of two signals, s2grid.py:210-231. -/
def mulSignals (x y : Signal ι) : Except PyErr (Signal ι) :=
  if x.quad ≠ y.quad then .error .valueError
  else if h : SameGrid x y then
    if x.pArg ≠ y.pArg then .error .valueError else .ok (combine (fun u v => u * v) x y h (x.pVal.mul y.pVal))
  else .error .valueError

/-- `x * c` for numbers, one for each leading index, s2grid.py:238-244. -/
def mulNumber (x : Signal ι) (c : ι → ℝ) : Signal ι := replaceValues x fun b a i => x.values b a i * c i

/-- `x * c` for an `IrrepsArray`, s2grid.py:233-244. -/
def mulIrreps (x : Signal ι) (c : IArr (ι → ℝ)) : Except PyErr (Signal ι) :=
  if c.irreps ≠ [⟨1, ⟨0, .e⟩⟩] then .error .valueError else .ok (mulNumber x (c.array.getD 0 0))

/-- `x / c` for a number, s2grid.py:250-252. -/
noncomputable def divNumber (x : Signal ι) (c : ℝ) : Signal ι := mulNumber x fun _ => 1 / c

/-- `x + y`, s2grid.py:254-271. -/
def addSignals (x y : Signal ι) : Except PyErr (Signal ι) :=
  if h : SameGrid x y then
    if (x.pVal, x.pArg) ≠ (y.pVal, y.pArg) then .error .valueError
    else if x.quad ≠ y.quad then .error .valueError
    else .ok (combine (fun u v => u + v) x y h x.pVal)
  else .error .valueError

/-- `-x`, s2grid.py:277-281. -/
def negSignal (x : Signal ι) : Signal ι := replaceValues x fun b a i => -x.values b a i

/-- `x - y`, s2grid.py:273-275. -/
def subSignals (x y : Signal ι) : Except PyErr (Signal ι) := addSignals x (negSignal y)

/-- `apply(func)`, s2grid.py:411-418: the parity that is computed is only used for the check. -/
noncomputable def applySignal (x : Signal ι) (f : ℝ → ℝ) : Except PyErr (Signal ι) :=
  let newPVal : ℤ := if x.pVal = .o then Activ.parityFunction f else x.pVal.toInt
  if newPVal = 0 then .error .valueError else .ok (replaceValues x fun b a i => f (x.values b a i))

/-- `legendre_transform_to_s2grid(coeffs, res_beta, quadrature=, normalization=)`, s2grid.py:1138-1167, for a last axis of length `lmax + 1`. -/
noncomputable def legendreTo (lg : LegGauss) (nrm : Normalization) {lmax : ℕ} (c : Fin (lmax + 1) → ι → ℝ) (resBeta : ℕ) (q : Quad) : Except PyErr (Fin resBeta → ι → ℝ) :=
  (quadratureWeights lg q resBeta).map fun g => fun b i => ∑ l : Fin (lmax + 1), shBeta l 0 (g.1 b) * normTo nrm lmax l * c l i

/-- `legendre_transform_from_s2grid(x_beta, lmax, res_beta, quadrature=, normalization=)`, s2grid.py:1170-1201. -/
noncomputable def legendreFrom (lg : LegGauss) (nrm : Normalization) {n : ℕ} (x : Fin n → ι → ℝ) (lmax resBeta : ℕ) (q : Quad) : Except PyErr (Fin (lmax + 1) → ι → ℝ) :=
  if resBeta ≠ n then .error .assertion
  else (quadratureWeights lg q n).map fun g => fun l i => ∑ b : Fin n, shBeta l 0 (g.1 b) * normFrom nrm lmax lmax l * g.2 b * x b i

/-- `betas_to_spherical_signal(x_beta, res_alpha, quadrature=)`, s2grid.py:1204-1217: the parities are the defaults of `SphericalSignal` (s2grid.py:114-122). -/
def betasToSignal {n : ℕ} (x : Fin n → ι → ℝ) (resAlpha : ℕ) (q : Quad) : Signal ι := ⟨n, resAlpha, fun b _ i => x b i, q, .e, .o⟩

/-- `m0_indices[l]`: an entry of the cumulated sums of `0, 0, 1, 1, 2, 2, ...`, s2grid.py:1232-1234. -/
def m0Index (l : ℕ) : ℕ := ((List.range (2 * l + 1)).map fun k => k / 2).sum + l

/-- `m0_values_to_irrepsarray(m0_values, lmax, p_val, p_arg)`, s2grid.py:1220-1238: `m0.at[:, m0_indices]` needs exactly one leading axis (`hasAxis`; the case of more
is not modelled) and the values are broadcast when there is only one. -/
def m0ToIrreps (hasAxis : Bool) (vals : List (ι → ℝ)) (lmax : ℕ) (pVal pArg : Parity) : Except PyErr (IArr (ι → ℝ)) :=
  if !hasAxis then .error .indexError
  else if vals.length ≠ lmax + 1 ∧ vals.length ≠ 1 then .error .valueError
  else
    IArr.make (s2Irreps lmax pVal pArg)
      ((List.range (lmax + 1)).foldl (fun m0 l => m0.set (m0Index l) (if vals.length = lmax + 1 then vals.getD l 0 else vals.getD 0 0)) (List.replicate ((lmax + 1) ^ 2) 0)) none none

end E3nn.S2
