import Verif.Spec.Dft2

/-!
# Mathematical specification: correlations in two and three dimensions

Independent of the model of the code.  The arrays are supported on `[0,Lx)×[0,Ly)` and `[0,Lx)×[0,Ly)×[0,Lz)`.
-/

namespace Fftwpp
open Finset

/-- Correlation `Σ x_i conj(y_j)` over `i-j=k`. -/
noncomputable def linearCorr (L : ℕ) (x y : ℕ → ℂ) (k : ℕ) : ℂ :=
  ∑ i ∈ range L, ∑ j ∈ range L, if (i : ℤ) - j = k then x i * (starRingEnd ℂ) (y j) else 0

/-- Cyclic 2D correlation with periods `Nx`, `Ny`. -/
noncomputable def cyclicCorr2 (Nx Lx Ny Ly : ℕ) (x y : ℕ → ℕ → ℂ) (i j : ℕ) : ℂ :=
  ∑ i1 ∈ range Lx, ∑ i2 ∈ range Lx, ∑ j1 ∈ range Ly, ∑ j2 ∈ range Ly,
    if (Nx : ℤ) ∣ (i1 : ℤ) - i2 - i ∧ (Ny : ℤ) ∣ (j1 : ℤ) - j2 - j then x i1 j1 * (starRingEnd ℂ) (y i2 j2) else 0

/-- 2D correlation. -/
noncomputable def linearCorr2 (Lx Ly : ℕ) (x y : ℕ → ℕ → ℂ) (i j : ℕ) : ℂ :=
  ∑ i1 ∈ range Lx, ∑ i2 ∈ range Lx, ∑ j1 ∈ range Ly, ∑ j2 ∈ range Ly,
    if (i1 : ℤ) - i2 = i ∧ (j1 : ℤ) - j2 = j then x i1 j1 * (starRingEnd ℂ) (y i2 j2) else 0

/-- Cyclic 3D correlation with periods `Nx`, `Ny`, `Nz`. -/
noncomputable def cyclicCorr3 (Nx Lx Ny Ly Nz Lz : ℕ) (x y : ℕ → ℕ → ℕ → ℂ) (i j k : ℕ) : ℂ :=
  ∑ i1 ∈ range Lx, ∑ i2 ∈ range Lx, ∑ j1 ∈ range Ly, ∑ j2 ∈ range Ly, ∑ k1 ∈ range Lz, ∑ k2 ∈ range Lz,
    if (Nx : ℤ) ∣ (i1 : ℤ) - i2 - i ∧ (Ny : ℤ) ∣ (j1 : ℤ) - j2 - j ∧ (Nz : ℤ) ∣ (k1 : ℤ) - k2 - k then
      x i1 j1 k1 * (starRingEnd ℂ) (y i2 j2 k2) else 0

/-- 3D correlation. -/
noncomputable def linearCorr3 (Lx Ly Lz : ℕ) (x y : ℕ → ℕ → ℕ → ℂ) (i j k : ℕ) : ℂ :=
  ∑ i1 ∈ range Lx, ∑ i2 ∈ range Lx, ∑ j1 ∈ range Ly, ∑ j2 ∈ range Ly, ∑ k1 ∈ range Lz, ∑ k2 ∈ range Lz,
    if (i1 : ℤ) - i2 = i ∧ (j1 : ℤ) - j2 = j ∧ (k1 : ℤ) - k2 = k then x i1 j1 k1 * (starRingEnd ℂ) (y i2 j2 k2) else 0

end Fftwpp
