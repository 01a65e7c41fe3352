import Verif.Spec.Dft

/-!
# Mathematical specification: transforms of Hermitian-symmetric data

Data `x 0, …, x (H-1)` with `x 0` real represent the sequence on `-(H-1), …, H-1` whose value at `-j` is the conjugate of the value at `j`.
-/

namespace Fftwpp
open Finset

/-- The value at position `j ∈ ℤ` of the Hermitian sequence represented by `x 0, …, x (H-1)`. -/
noncomputable def hext (H : ℕ) (x : ℕ → ℂ) (j : ℤ) : ℂ :=
  if j.natAbs < H then (if 0 ≤ j then x j.natAbs else (starRingEnd ℂ) (x j.natAbs)) else 0

/-- Unnormalized DFT (sign `+1`) of length `N`, at frequency `k`, of the Hermitian sequence represented by `x 0, …, x (H-1)`. -/
noncomputable def hdft (N H : ℕ) (x : ℕ → ℂ) (k : ℤ) : ℂ :=
  ∑ j ∈ range H, x j * w N (j * k) + ∑ j ∈ Ico 1 H, (starRingEnd ℂ) (x j) * w N (-(j * k))

/-- Cyclic convolution of two Hermitian sequences, with period `N`, at position `k`. -/
noncomputable def hermConv (N H : ℕ) (x y : ℕ → ℂ) (k : ℤ) : ℂ :=
  ∑ i ∈ Ioo (-(H : ℤ)) H, ∑ j ∈ Ioo (-(H : ℤ)) H, if (N : ℤ) ∣ i + j - k then hext H x i * hext H y j else 0

end Fftwpp
