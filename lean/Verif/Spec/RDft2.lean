import Verif.Spec.Dft

/-!
# Mathematical specification: two-dimensional DFTs of real arrays

Independent of the model of the code.
-/

namespace Fftwpp

open Finset

/-- Unnormalized `X×Y` DFT (sign `-1`) of a real array; index `kx` stands for the frequency `kx-x0` ("Fourier origin at `(x0,0)`"). -/
noncomputable def rdft2 (X Y x0 : ℕ) (G : ℕ → ℕ → ℝ) (kx ky : ℕ) : ℂ :=
  ∑ i ∈ range X, ∑ j ∈ range Y, (G i j : ℂ) * w X (-(i * ((kx : ℤ) - x0))) * w Y (-(j * (ky : ℤ)))

/-- Unnormalized transform of sign `+1`, back from the frequencies `kx-x0`, `ky`. -/
noncomputable def irdft2 (X Y x0 : ℕ) (F : ℕ → ℕ → ℂ) (i j : ℕ) : ℂ :=
  ∑ kx ∈ range X, ∑ ky ∈ range Y, F kx ky * w X (i * ((kx : ℤ) - x0)) * w Y (j * (ky : ℤ))

/-- `F` has the symmetry of the spectrum of a real array: the values at opposite frequencies are complex conjugates.  (The Fourier
origin is 0, or `X/2` for even `X`; the index opposite to `kx` is the same in both cases.) -/
def HermSpec2 (X Y : ℕ) (F : ℕ → ℕ → ℂ) : Prop :=
  ∀ kx < X, ∀ ky < Y, F ((X - kx) % X) ((Y - ky) % Y) = (starRingEnd ℂ) (F kx ky)

end Fftwpp
