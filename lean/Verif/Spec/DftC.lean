import Verif.Spec.Dft2

/-!
# Mathematical specification: transforms and convolutions of data with origin `x0`

Independent of the model of the code.  Element `j` of the data stands for position `j-x0`; `x0=0` for noncentered data and `x0=⌊L/2⌋` for
centered data.
-/

namespace Fftwpp

open Finset

/-- Unnormalized DFT (sign `+1`) of length `N` at frequency `e` of data `x 0, …, x (L-1)` at the positions `-x0, …, L-1-x0`, zero elsewhere. -/
noncomputable def cdft (N L x0 : ℕ) (x : ℕ → ℂ) (e : ℤ) : ℂ := ∑ j ∈ range L, x j * w N (((j : ℤ) - x0) * e)

/-- The result a convolution should give: inverse DFT of length `N` of `φ` of the DFTs of the inputs. -/
noncomputable def convResultC (N L x0 : ℕ) (φ : ℕ → ℕ → (ℕ → ℂ) → ℂ) (X : ℕ → ℕ → ℂ) (b j : ℕ) : ℂ :=
  1 / (N : ℂ) * ∑ e ∈ range N, φ e b (fun a => cdft N L x0 (X a) e) * w N (-(((j : ℤ) - x0) * e))

/-- `N`-periodic cyclic convolution: pairs of positions whose sum is the position of element `k` modulo `N`. -/
noncomputable def cyclicConvC (N L x0 : ℕ) (x y : ℕ → ℂ) (k : ℕ) : ℂ :=
  ∑ i ∈ range L, ∑ j ∈ range L, if (N : ℤ) ∣ ((i : ℤ) - x0) + ((j : ℤ) - x0) - ((k : ℤ) - x0) then x i * y j else 0

/-- Linear convolution: pairs of positions whose sum is the position of element `k`. -/
noncomputable def linearConvC (L x0 : ℕ) (x y : ℕ → ℂ) (k : ℕ) : ℂ :=
  ∑ i ∈ range L, ∑ j ∈ range L, if ((i : ℤ) - x0) + ((j : ℤ) - x0) = (k : ℤ) - x0 then x i * y j else 0

/-- 2D DFT. -/
noncomputable def cdft2 (Nx Lx x0 Ny Ly y0 : ℕ) (x : ℕ → ℕ → ℂ) (kx ky : ℤ) : ℂ :=
  ∑ i ∈ range Lx, ∑ j ∈ range Ly, x i j * w Nx (((i : ℤ) - x0) * kx) * w Ny (((j : ℤ) - y0) * ky)

/-- The 2D result for inputs `X 0, X 1, …`. -/
noncomputable def convResultC2 (Nx Lx x0 Ny Ly y0 : ℕ) (φ : ℕ → ℕ → ℕ → (ℕ → ℂ) → ℂ) (X : ℕ → ℕ → ℕ → ℂ) (b i j : ℕ) : ℂ :=
  1 / ((Nx : ℂ) * (Ny : ℂ)) * ∑ kx ∈ range Nx, ∑ ky ∈ range Ny,
    φ kx ky b (fun a => cdft2 Nx Lx x0 Ny Ly y0 (X a) kx ky) * w Nx (-(((i : ℤ) - x0) * kx)) * w Ny (-(((j : ℤ) - y0) * ky))

/-- Cyclic 2D convolution with periods `Nx`, `Ny`. -/
noncomputable def cyclicConvC2 (Nx Lx x0 Ny Ly y0 : ℕ) (x y : ℕ → ℕ → ℂ) (i j : ℕ) : ℂ :=
  ∑ i1 ∈ range Lx, ∑ i2 ∈ range Lx, ∑ j1 ∈ range Ly, ∑ j2 ∈ range Ly,
    if (Nx : ℤ) ∣ ((i1 : ℤ) - x0) + ((i2 : ℤ) - x0) - ((i : ℤ) - x0) ∧ (Ny : ℤ) ∣ ((j1 : ℤ) - y0) + ((j2 : ℤ) - y0) - ((j : ℤ) - y0) then
      x i1 j1 * y i2 j2 else 0

/-- Linear 2D convolution. -/
noncomputable def linearConvC2 (Lx x0 Ly y0 : ℕ) (x y : ℕ → ℕ → ℂ) (i j : ℕ) : ℂ :=
  ∑ i1 ∈ range Lx, ∑ i2 ∈ range Lx, ∑ j1 ∈ range Ly, ∑ j2 ∈ range Ly,
    if ((i1 : ℤ) - x0) + ((i2 : ℤ) - x0) = (i : ℤ) - x0 ∧ ((j1 : ℤ) - y0) + ((j2 : ℤ) - y0) = (j : ℤ) - y0 then x i1 j1 * y i2 j2 else 0

/-- 3D DFT. -/
noncomputable def cdft3 (Nx Lx x0 Ny Ly y0 Nz Lz z0 : ℕ) (x : ℕ → ℕ → ℕ → ℂ) (kx ky kz : ℤ) : ℂ :=
  ∑ i ∈ range Lx, ∑ j ∈ range Ly, ∑ k ∈ range Lz,
    x i j k * w Nx (((i : ℤ) - x0) * kx) * w Ny (((j : ℤ) - y0) * ky) * w Nz (((k : ℤ) - z0) * kz)

/-- The 3D result for inputs `X 0, X 1, …`. -/
noncomputable def convResultC3 (Nx Lx x0 Ny Ly y0 Nz Lz z0 : ℕ) (φ : ℕ → ℕ → ℕ → ℕ → (ℕ → ℂ) → ℂ) (X : ℕ → ℕ → ℕ → ℕ → ℂ)
    (b i j k : ℕ) : ℂ :=
  1 / ((Nx : ℂ) * (Ny : ℂ) * (Nz : ℂ)) * ∑ kx ∈ range Nx, ∑ ky ∈ range Ny, ∑ kz ∈ range Nz,
    φ kx ky kz b (fun a => cdft3 Nx Lx x0 Ny Ly y0 Nz Lz z0 (X a) kx ky kz) *
      w Nx (-(((i : ℤ) - x0) * kx)) * w Ny (-(((j : ℤ) - y0) * ky)) * w Nz (-(((k : ℤ) - z0) * kz))

/-- Cyclic 3D convolution with periods `Nx`, `Ny`, `Nz`. -/
noncomputable def cyclicConvC3 (Nx Lx x0 Ny Ly y0 Nz Lz z0 : ℕ) (x y : ℕ → ℕ → ℕ → ℂ) (i j k : ℕ) : ℂ :=
  ∑ i1 ∈ range Lx, ∑ i2 ∈ range Lx, ∑ j1 ∈ range Ly, ∑ j2 ∈ range Ly, ∑ k1 ∈ range Lz, ∑ k2 ∈ range Lz,
    if (Nx : ℤ) ∣ ((i1 : ℤ) - x0) + ((i2 : ℤ) - x0) - ((i : ℤ) - x0) ∧ (Ny : ℤ) ∣ ((j1 : ℤ) - y0) + ((j2 : ℤ) - y0) - ((j : ℤ) - y0) ∧
      (Nz : ℤ) ∣ ((k1 : ℤ) - z0) + ((k2 : ℤ) - z0) - ((k : ℤ) - z0) then x i1 j1 k1 * y i2 j2 k2 else 0

/-- Linear 3D convolution. -/
noncomputable def linearConvC3 (Lx x0 Ly y0 Lz z0 : ℕ) (x y : ℕ → ℕ → ℕ → ℂ) (i j k : ℕ) : ℂ :=
  ∑ i1 ∈ range Lx, ∑ i2 ∈ range Lx, ∑ j1 ∈ range Ly, ∑ j2 ∈ range Ly, ∑ k1 ∈ range Lz, ∑ k2 ∈ range Lz,
    if ((i1 : ℤ) - x0) + ((i2 : ℤ) - x0) = (i : ℤ) - x0 ∧ ((j1 : ℤ) - y0) + ((j2 : ℤ) - y0) = (j : ℤ) - y0 ∧
      ((k1 : ℤ) - z0) + ((k2 : ℤ) - z0) = (k : ℤ) - z0 then x i1 j1 k1 * y i2 j2 k2 else 0

end Fftwpp
