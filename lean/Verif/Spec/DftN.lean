import Verif.Spec.Dft

/-!
# Mathematical specification: two- and three-dimensional discrete Fourier transforms

Independent of the model of the code.
-/

namespace Fftwpp

open Finset

/-- Unnormalized `X×Y` DFT with the given sign of the exponent (±1). -/
noncomputable def dft2 (X Y : ℕ) (sign : ℤ) (G : ℕ → ℕ → ℂ) (kx ky : ℕ) : ℂ :=
  ∑ i ∈ range X, ∑ j ∈ range Y, G i j * w X (sign * i * kx) * w Y (sign * j * ky)

/-- Unnormalized `X×Y×Z` DFT with the given sign of the exponent (±1). -/
noncomputable def dft3 (X Y Z : ℕ) (sign : ℤ) (G : ℕ → ℕ → ℕ → ℂ) (kx ky kz : ℕ) : ℂ :=
  ∑ i ∈ range X, ∑ j ∈ range Y, ∑ k ∈ range Z, G i j k * w X (sign * i * kx) * w Y (sign * j * ky) * w Z (sign * k * kz)

end Fftwpp
