import Verif.Spec.Dft

/-!
# Mathematical specification: one-dimensional DFTs of real data

Independent of the model of the code.
-/

namespace Fftwpp

open Finset

/-- Unnormalized DFT (sign `-1`) of `n` real values. -/
noncomputable def rdft1 (n : ℕ) (G : ℕ → ℝ) (k : ℕ) : ℂ := ∑ j ∈ range n, (G j : ℂ) * w n (-(j * (k : ℤ)))

/-- Unnormalized transform of sign `+1`. -/
noncomputable def irdft1 (n : ℕ) (F : ℕ → ℂ) (j : ℕ) : ℂ := ∑ k ∈ range n, F k * w n (j * (k : ℤ))

/-- `F` has the symmetry of the spectrum of real values. -/
def HermSpec1 (n : ℕ) (F : ℕ → ℂ) : Prop := ∀ k < n, F ((n - k) % n) = (starRingEnd ℂ) (F k)

end Fftwpp
