import Verif.Spec.Dft

/-!
# Mathematical specification: two- and three-dimensional transforms and convolutions

Independent of the model of the code.  `x i j` is supported on `[0,Lx)×[0,Ly)`, `x i j k` on `[0,Lx)×[0,Ly)×[0,Lz)`.
-/

namespace Fftwpp

open Finset

/-- Unnormalized 2D DFT of length `Nx×Ny`, zero-padded. -/
noncomputable def paddedDFT2 (Nx Lx Ny Ly : ℕ) (x : ℕ → ℕ → ℂ) (kx ky : ℤ) : ℂ :=
  ∑ i ∈ range Lx, ∑ j ∈ range Ly, x i j * w Nx (i * kx) * w Ny (j * ky)

/-- The 2D result for inputs `X 0, X 1, …`: inverse DFT of `φ` of the DFTs; `φ kx ky b` gives output `b` at frequency `(kx,ky)`. -/
noncomputable def convResult2 (Nx Lx Ny Ly : ℕ) (φ : ℕ → ℕ → ℕ → (ℕ → ℂ) → ℂ) (X : ℕ → ℕ → ℕ → ℂ) (b i j : ℕ) : ℂ :=
  1 / ((Nx : ℂ) * (Ny : ℂ)) * ∑ kx ∈ range Nx, ∑ ky ∈ range Ny,
    φ kx ky b (fun a => paddedDFT2 Nx Lx Ny Ly (X a) kx ky) * w Nx (-((i : ℤ) * kx)) * w Ny (-((j : ℤ) * ky))

/-- Cyclic 2D convolution with periods `Nx`, `Ny`. -/
noncomputable def cyclicConv2 (Nx Lx Ny Ly : ℕ) (x y : ℕ → ℕ → ℂ) (i j : ℕ) : ℂ :=
  ∑ i1 ∈ range Lx, ∑ i2 ∈ range Lx, ∑ j1 ∈ range Ly, ∑ j2 ∈ range Ly,
    if (i1 + i2) % Nx = i % Nx ∧ (j1 + j2) % Ny = j % Ny then x i1 j1 * y i2 j2 else 0

/-- Linear 2D convolution. -/
noncomputable def linearConv2 (Lx Ly : ℕ) (x y : ℕ → ℕ → ℂ) (i j : ℕ) : ℂ :=
  ∑ i1 ∈ range Lx, ∑ i2 ∈ range Lx, ∑ j1 ∈ range Ly, ∑ j2 ∈ range Ly,
    if i1 + i2 = i ∧ j1 + j2 = j then x i1 j1 * y i2 j2 else 0

/-- Unnormalized 3D DFT, zero-padded. -/
noncomputable def paddedDFT3 (Nx Lx Ny Ly Nz Lz : ℕ) (x : ℕ → ℕ → ℕ → ℂ) (kx ky kz : ℤ) : ℂ :=
  ∑ i ∈ range Lx, ∑ j ∈ range Ly, ∑ k ∈ range Lz, x i j k * w Nx (i * kx) * w Ny (j * ky) * w Nz (k * kz)

/-- The 3D result for inputs `X 0, X 1, …`. -/
noncomputable def convResult3 (Nx Lx Ny Ly Nz Lz : ℕ) (φ : ℕ → ℕ → ℕ → ℕ → (ℕ → ℂ) → ℂ) (X : ℕ → ℕ → ℕ → ℕ → ℂ) (b i j k : ℕ) : ℂ :=
  1 / ((Nx : ℂ) * (Ny : ℂ) * (Nz : ℂ)) * ∑ kx ∈ range Nx, ∑ ky ∈ range Ny, ∑ kz ∈ range Nz,
    φ kx ky kz b (fun a => paddedDFT3 Nx Lx Ny Ly Nz Lz (X a) kx ky kz) *
      w Nx (-((i : ℤ) * kx)) * w Ny (-((j : ℤ) * ky)) * w Nz (-((k : ℤ) * kz))

/-- Cyclic 3D convolution with periods `Nx`, `Ny`, `Nz`. -/
noncomputable def cyclicConv3 (Nx Lx Ny Ly Nz Lz : ℕ) (x y : ℕ → ℕ → ℕ → ℂ) (i j k : ℕ) : ℂ :=
  ∑ i1 ∈ range Lx, ∑ i2 ∈ range Lx, ∑ j1 ∈ range Ly, ∑ j2 ∈ range Ly, ∑ k1 ∈ range Lz, ∑ k2 ∈ range Lz,
    if (i1 + i2) % Nx = i % Nx ∧ (j1 + j2) % Ny = j % Ny ∧ (k1 + k2) % Nz = k % Nz then x i1 j1 k1 * y i2 j2 k2 else 0

/-- Linear 3D convolution. -/
noncomputable def linearConv3 (Lx Ly Lz : ℕ) (x y : ℕ → ℕ → ℕ → ℂ) (i j k : ℕ) : ℂ :=
  ∑ i1 ∈ range Lx, ∑ i2 ∈ range Lx, ∑ j1 ∈ range Ly, ∑ j2 ∈ range Ly, ∑ k1 ∈ range Lz, ∑ k2 ∈ range Lz,
    if i1 + i2 = i ∧ j1 + j2 = j ∧ k1 + k2 = k then x i1 j1 k1 * y i2 j2 k2 else 0

end Fftwpp
