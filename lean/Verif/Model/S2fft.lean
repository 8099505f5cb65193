import Verif.Model.S2Grid
import Verif.Model.SU2
import Verif.Spec.S2fft

/-! # Model of the transforms with `use_s2fft=True` (`e3nn_jax/_src/s2grid.py`) -/

namespace E3nn.S2

open E3nn.SH E3nn.SU2

variable {ι : Type}

/-- `get_s2fft_grid_resolution(lmax)`, s2grid.py:798-800. -/
def s2fftResolution (lmax : ℕ) : ℕ × ℕ := (2 * lmax + 2, 2 * lmax + 1)

/-- `_check_compatibility_with_s2fft`, s2grid.py:803-820. -/
def checkS2fft (lmax resBeta resAlpha : ℕ) (q : Quad) (fft : Bool) : Except PyErr Unit :=
  if q ≠ .soft then .error .valueError
  else if (resBeta, resAlpha) ≠ s2fftResolution lmax then .error .valueError
  else if !fft then .error .valueError
  else .ok ()

/-- `(-1) ** jnp.where(m < 0, m + 1, m)` at the index `k = l + m`, s2grid.py:931-932, 1116-1117 (the power of integers gives the sign of the parity of the exponent,
also for a negative one). -/
noncomputable def s2fftSign (l k : ℕ) : ℝ :=
  let m : ℤ := (k : ℤ) - l
  (-1 : ℝ) ^ (if m < 0 then m + 1 else m)

/-- `coeffs.array[l**2 : (l + 1) ** 2]`, s2grid.py:1114. -/
def s2fftSlice (arr : List (ι → ℝ)) (l : ℕ) : List (ι → ℝ) := (arr.drop (l ^ 2)).take ((l + 1) ^ 2 - l ^ 2)

/-- `1j ** (-l) * A @ r` with the scaled entries `r`, s2grid.py:1113-1119. -/
noncomputable def realToComplex (n : ℝ) (l : ℕ) (r : Fin (2 * l + 1) → ℝ) (k : Fin (2 * l + 1)) : ℂ :=
  Complex.I ^ (-(l : ℤ)) * ∑ c, changeBasis l k c * ((r c * n * s2fftSign l c : ℝ) : ℂ)

/-- `coeffs_reshaped.at[l, lmax - l : lmax + l + 1].set(c)` on zeros, s2grid.py:1108, 1120. -/
noncomputable def s2fftArray (nrm : Normalization) (lmax : ℕ) (r : (l : ℕ) → Fin (2 * l + 1) → ℝ) (l : Fin (lmax + 1)) (j : Fin (2 * lmax + 1)) : ℂ :=
  if h : lmax - (l : ℕ) ≤ j ∧ (j : ℕ) < lmax + l + 1 then realToComplex (normTo nrm lmax l) l (r l) ⟨j - (lmax - l), by have := l.isLt; omega⟩ else 0

/-- The loop reads `2 l + 1` entries for each degree; a slice of length one is broadcast, any other length is a `TypeError`, s2grid.py:1114-1117. -/
def s2fftRead (arr : List (ι → ℝ)) (lmax : ℕ) : Except PyErr ((l : ℕ) → Fin (2 * l + 1) → ι → ℝ) :=
  if (List.range (lmax + 1)).all fun l => (s2fftSlice arr l).length == 2 * l + 1 || (s2fftSlice arr l).length == 1 then
    .ok fun l k => (s2fftSlice arr l).getD (if (s2fftSlice arr l).length == 1 then 0 else k) 0
  else .error .typeError

/-- `to_s2grid(..., use_s2fft=True)` with `_to_s2grid_s2fft`, s2grid.py:1028-1053, 1086-1135: after the check the resolution is the one of the package;
the vectorisation over the leading axes applies the function to each entry of `ι`. -/
noncomputable def toS2GridS2fft (s : S2fft.Package) (nrm : Normalization) (fft : Bool) (coeffs : IArr (ι → ℝ)) (resBeta resAlpha : ℕ) (q : Quad) (pVal pArg : Option Parity) :
    Except PyErr (Signal ι) := do
  let c ← coeffs.regroup
  let k ← toGridChecks c pVal pArg
  checkS2fft k.1 resBeta resAlpha q fft
  let r ← s2fftRead c.array k.1
  .ok ⟨2 * k.1 + 2, 2 * k.1 + 1, fun b a i => s.inverse k.1 (s2fftArray nrm k.1 fun l j => r l j i) b a, .soft, k.2.1, k.2.2⟩

/-- `real(1j**l * A.T.conj() @ c) * sign / n` with `c = flm[l][lmax - l : lmax + l + 1]`, s2grid.py:926-933. -/
noncomputable def complexToReal (nrm : Normalization) (lmax : ℕ) (f : Fin (lmax + 1) → Fin (2 * lmax + 1) → ℂ) (l : Fin (lmax + 1)) (k : Fin (2 * (l : ℕ) + 1)) : ℝ :=
  (Complex.I ^ (l : ℕ) * ∑ c : Fin (2 * (l : ℕ) + 1), (starRingEnd ℂ) (changeBasis l c k) * f l ⟨lmax - l + c, by have := l.isLt; have := c.isLt; omega⟩).re *
    s2fftSign l k / normTo nrm lmax l

/-- `from_s2grid(..., use_s2fft=True)` with `_from_s2grid_s2fft`, s2grid.py:848-866, 897-941: the result has the irreps `s2_irreps(lmax)` (with the default parities), whatever was asked for. -/
noncomputable def fromS2GridS2fft (s : S2fft.Package) (nrm : Normalization) (fft : Bool) (x : Signal ι) (irreps : Irreps) : Except PyErr (IArr (ι → ℝ)) := do
  let ms ← irreps.regroup
  if !(ms.all fun m => m.mul == 1) then .error .valueError
  else do
    let _ ← checkParities irreps (some x.pVal) (some x.pArg)
    match irreps.ls with
    | [] => .error .valueError
    | _ =>
      let lmax := irreps.ls.foldl max 0
      checkS2fft lmax x.resBeta x.resAlpha x.quad fft
      let g : Fin (2 * lmax + 2) → Fin (2 * lmax + 1) → ι → ℝ := fun b a i =>
        if h : (b : ℕ) < x.resBeta ∧ (a : ℕ) < x.resAlpha then x.values ⟨b, h.1⟩ ⟨a, h.2⟩ i else 0
      IArr.make (s2Irreps lmax .e .o) ((List.finRange (lmax + 1)).flatMap fun (l : Fin (lmax + 1)) => List.ofFn fun (k : Fin (2 * (l : ℕ) + 1)) (i : ι) =>
        complexToReal nrm lmax (s.forward lmax fun b a => g b a i) l k) none none

end E3nn.S2
