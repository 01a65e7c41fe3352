import Verif.Spec.Dft

/-!
# Mathematical specification: three-dimensional DFTs of real arrays

Independent of the model of the code.
-/

namespace Fftwpp

open Finset

/-- Unnormalized `X×Y×Z` DFT (sign `-1`) of a real array; the indices `kx`, `ky` stand for the frequencies `kx-x0`, `ky-y0` ("Fourier origin
at `(x0,y0,0)`"). -/
noncomputable def rdft3 (X Y Z x0 y0 : ℕ) (G : ℕ → ℕ → ℕ → ℝ) (kx ky kz : ℕ) : ℂ :=
  ∑ i ∈ range X, ∑ j ∈ range Y, ∑ k ∈ range Z,
    (G i j k : ℂ) * w X (-(i * ((kx : ℤ) - x0))) * w Y (-(j * ((ky : ℤ) - y0))) * w Z (-(k * (kz : ℤ)))

/-- Unnormalized transform of sign `+1`, back from the frequencies `kx-x0`, `ky-y0`, `kz`. -/
noncomputable def irdft3 (X Y Z x0 y0 : ℕ) (F : ℕ → ℕ → ℕ → ℂ) (i j k : ℕ) : ℂ :=
  ∑ kx ∈ range X, ∑ ky ∈ range Y, ∑ kz ∈ range Z,
    F kx ky kz * w X (i * ((kx : ℤ) - x0)) * w Y (j * ((ky : ℤ) - y0)) * w Z (k * (kz : ℤ))

/-- `F` has the symmetry of the spectrum of a real array: the values at opposite frequencies are complex conjugates.  (The Fourier
origin is 0, or half of an even size, in x and in y; the index opposite to `kx` is the same in both cases.) -/
def HermSpec3 (X Y Z : ℕ) (F : ℕ → ℕ → ℕ → ℂ) : Prop :=
  ∀ kx < X, ∀ ky < Y, ∀ kz < Z, F ((X - kx) % X) ((Y - ky) % Y) ((Z - kz) % Z) = (starRingEnd ℂ) (F kx ky kz)

end Fftwpp
