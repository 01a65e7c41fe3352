import Verif.Spec.Herm

/-!
# Mathematical specification: convolutions of Hermitian-symmetric data
-/

namespace Fftwpp
open Finset

/-- The result of transforming the Hermitian sequences represented by `X 0, X 1, …` (real transforms of length `N`), applying the real operation
`φ e b` to the transforms at each frequency `e`, and transforming back: value at position `j` of output `b`. -/
noncomputable def hermResult (N H : ℕ) (φ : ℕ → ℕ → (ℕ → ℝ) → ℝ) (X : ℕ → ℕ → ℂ) (b j : ℕ) : ℂ :=
  1 / (N : ℂ) * ∑ e ∈ range N, (φ e b (fun a => (hdft N H (X a) e).re) : ℂ) * w N (-((j : ℤ) * e))

/-- Linear convolution of two Hermitian sequences at position `k`: `Σ_{i+j=k} x_i y_j`, where `x_{-i}` is the conjugate of `x_i`. -/
noncomputable def hermLin (H : ℕ) (x y : ℕ → ℂ) (k : ℤ) : ℂ :=
  ∑ i ∈ Ioo (-(H : ℤ)) H, ∑ j ∈ Ioo (-(H : ℤ)) H, if i + j = k then hext H x i * hext H y j else 0

end Fftwpp
