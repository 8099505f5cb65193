import Mathlib.Analysis.SpecialFunctions.Trigonometric.Basic
import Mathlib.Analysis.SpecialFunctions.Complex.Circle
import Mathlib.Algebra.Polynomial.Derivative
import Mathlib.Analysis.Real.Sqrt

/-! # The specification of the `s2fft` package

`s2fft.transforms.spherical.inverse_jax` and `forward_jax` (`sampling="dh"`, `reality=True`) are not part of the repository.
They are taken by their documentation: the coefficients refer to the complex spherical harmonics with the Condon-Shortley phase, the grid has
the polar angles `(2 t + 1) π / (4 L)` and the azimuths `2 π p / (2 L - 1)`, and the forward transform is exact for band-limited signals. -/

namespace E3nn.S2fft

open Polynomial

/-- The Legendre polynomial `1 / (2^l l!) d^l/dz^l (z^2 - 1)^l`. -/
noncomputable def legendre (l : ℕ) : ℝ[X] := C ((1 : ℝ) / (2 ^ l * l.factorial)) * derivative^[l] ((X ^ 2 - 1) ^ l)

/-- `√((2l+1)/4π (l-m)!/(l+m)!) P_l^m(cos θ)` with the Condon-Shortley phase, for `0 ≤ m ≤ l`. -/
noncomputable def polar (l m : ℕ) (θ : ℝ) : ℝ :=
  Real.sqrt ((2 * l + 1) / (4 * Real.pi) * ((l - m).factorial / (l + m).factorial)) * ((-1) ^ m * Real.sin θ ^ m * (derivative^[m] (legendre l)).eval (Real.cos θ))

/-- The complex spherical harmonic `Y_l^m(θ, φ)`; `Y_l^(-m) = (-1)^m conj Y_l^m`. -/
noncomputable def sphericalHarmonic (l : ℕ) (m : ℤ) (θ φ : ℝ) : ℂ :=
  (if m < 0 then (-1 : ℂ) ^ m.natAbs else 1) * (polar l m.natAbs θ : ℂ) * Complex.exp (Complex.I * m * φ)

/-- The two transforms of the package for `L = lmax + 1`: arrays of shape `(L, 2 L - 1)` and signals of shape `(2 L, 2 L - 1)`. -/
structure Package where
  inverse : (lmax : ℕ) → (Fin (lmax + 1) → Fin (2 * lmax + 1) → ℂ) → Fin (2 * lmax + 2) → Fin (2 * lmax + 1) → ℝ
  forward : (lmax : ℕ) → (Fin (2 * lmax + 2) → Fin (2 * lmax + 1) → ℝ) → Fin (lmax + 1) → Fin (2 * lmax + 1) → ℂ

/-- The coefficients of a real signal: the entry of degree `l` and order `m` is in the column `lmax + m`, `f_l^(-m) = (-1)^m conj f_l^m`, and there is nothing for `|m| > l`. -/
def RealCoefficients {lmax : ℕ} (f : Fin (lmax + 1) → Fin (2 * lmax + 1) → ℂ) : Prop :=
  (∀ (l : Fin (lmax + 1)) (j : Fin (2 * lmax + 1)), (l : ℕ) < ((j : ℤ) - lmax).natAbs → f l j = 0) ∧
  ∀ (l : Fin (lmax + 1)) (j : Fin (2 * lmax + 1)), f l j.rev = (-1) ^ ((j : ℤ) - lmax).natAbs * (starRingEnd ℂ) (f l j)

/-- The value of the series with the coefficients `f`. -/
noncomputable def value {lmax : ℕ} (f : Fin (lmax + 1) → Fin (2 * lmax + 1) → ℂ) (θ φ : ℝ) : ℂ :=
  ∑ l, ∑ j, f l j * sphericalHarmonic l ((j : ℤ) - lmax) θ φ

/-- The polar angles. -/
noncomputable def theta (lmax t : ℕ) : ℝ := (2 * t + 1) * Real.pi / (4 * (lmax + 1))
/-- The azimuths. -/
noncomputable def phi (lmax p : ℕ) : ℝ := 2 * Real.pi * p / (2 * lmax + 1)

/-- What the package computes. -/
def Package.Correct (s : Package) : Prop := ∀ (lmax : ℕ) (f : Fin (lmax + 1) → Fin (2 * lmax + 1) → ℂ), RealCoefficients f →
  (∀ t p, (s.inverse lmax f t p : ℂ) = value f (theta lmax t) (phi lmax p)) ∧ s.forward lmax (s.inverse lmax f) = f

end E3nn.S2fft
