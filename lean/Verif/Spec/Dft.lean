import Mathlib.Analysis.SpecialFunctions.Complex.Circle
import Mathlib.RingTheory.RootsOfUnity.Complex
import Mathlib.Algebra.Field.GeomSum

/-!
# Mathematical specification: roots of unity, discrete Fourier transform, convolutions

This file is independent of the model of the code.  It fixes what "the padded DFT", "cyclic convolution"
and "linear convolution" mean.
-/

namespace Fftwpp

open Finset

/-- `w N k = exp(2πi k/N)`, the `k`-th power of the principal `N`-th root of unity. -/
noncomputable def w (N : ℕ) (k : ℤ) : ℂ := Complex.exp (2 * Real.pi * Complex.I * k / N)

/-- Unnormalized DFT (sign `+1`) of length `N`, at frequency `k`, of the sequence whose first `L` values are
`x 0, …, x (L-1)` and whose other values are zero ("zero padded to `N`"). -/
noncomputable def paddedDFT (N L : ℕ) (x : ℕ → ℂ) (k : ℤ) : ℂ :=
  ∑ j ∈ range L, x j * w N (j * k)

/-- `N`-periodic cyclic convolution of two sequences supported on `[0,L)`, at index `k`. -/
noncomputable def cyclicConv (N L : ℕ) (x y : ℕ → ℂ) (k : ℕ) : ℂ :=
  ∑ i ∈ range L, ∑ j ∈ range L, if (i + j) % N = k % N then x i * y j else 0

/-- Linear convolution of two sequences supported on `[0,L)`, at index `k`. -/
noncomputable def linearConv (L : ℕ) (x y : ℕ → ℂ) (k : ℕ) : ℂ :=
  ∑ i ∈ range L, ∑ j ∈ range L, if i + j = k then x i * y j else 0

/-- Cyclic correlation `Σ x_i conj(y_j)` over `i - j ≡ k (mod N)`. -/
noncomputable def cyclicCorr (N L : ℕ) (x y : ℕ → ℂ) (k : ℕ) : ℂ :=
  ∑ i ∈ range L, ∑ j ∈ range L, if (N : ℤ) ∣ (i : ℤ) - j - k then x i * (starRingEnd ℂ) (y j) else 0

/-- The result a convolution should give for inputs `X 0, X 1, …` supported on `[0,L)`: inverse DFT of length `N` of `φ` of
the DFTs of the inputs (`φ e b` gives output `b` at frequency `e` from the inputs at this frequency), at index `j`. -/
noncomputable def convResult (N L : ℕ) (φ : ℕ → ℕ → (ℕ → ℂ) → ℂ) (X : ℕ → ℕ → ℂ) (b j : ℕ) : ℂ :=
  1 / (N : ℂ) * ∑ e ∈ range N, φ e b (fun a => paddedDFT N L (X a) e) * w N (-((j : ℤ) * e))

end Fftwpp
