import Verif.Spec.HermConv
import Verif.Spec.DftC

/-!
# Mathematical specification: two- and three-dimensional convolutions of Hermitian-symmetric data

The data are stored for nonnegative positions in the last direction only; positions in the other directions are centered.
-/

namespace Fftwpp
open Finset

/-- The value at position `i ∈ ℤ` of data `x 0, …, x (L-1)` at the positions `-x0, …, L-1-x0`, zero elsewhere. -/
noncomputable def cext (L x0 : ℕ) (x : ℕ → ℂ) (i : ℤ) : ℂ := if -(x0 : ℤ) ≤ i ∧ i < L - x0 then x (i + x0).toNat else 0

/-- The value at position `(i,j)` of two-dimensional data. -/
noncomputable def cext2 (Lx x0 Ly y0 : ℕ) (x : ℕ → ℕ → ℂ) (i j : ℤ) : ℂ := cext Lx x0 (fun a => cext Ly y0 (x a) j) i

/-- The value at position `(i,j)` of the Hermitian array represented by `x a c`, `a < Lx`, `c < H` (position `(a-x0,c)`): the value at `(-i,-j)` is
the conjugate of the value at `(i,j)`, `j > 0`. -/
noncomputable def hext2 (Lx x0 H : ℕ) (x : ℕ → ℕ → ℂ) (i j : ℤ) : ℂ :=
  if j.natAbs < H then
    (if 0 ≤ j then cext Lx x0 (fun a => x a j.natAbs) i else (starRingEnd ℂ) (cext Lx x0 (fun a => x a j.natAbs) (-i)))
  else 0

/-- The stored data are Hermitian symmetric in the line `j=0`. -/
def HermData2 (Lx x0 : ℕ) (x : ℕ → ℕ → ℂ) : Prop :=
  ∀ i : ℤ, cext Lx x0 (fun a => x a 0) (-i) = (starRingEnd ℂ) (cext Lx x0 (fun a => x a 0) i)

/-- Unnormalized 2D DFT (sign `+1`) of the Hermitian array. -/
noncomputable def hdft2 (Nx Lx x0 Ny H : ℕ) (x : ℕ → ℕ → ℂ) (kx ky : ℤ) : ℂ :=
  ∑ i ∈ Ioo (-(Lx : ℤ)) Lx, ∑ j ∈ Ioo (-(H : ℤ)) H, hext2 Lx x0 H x i j * w Nx (i * kx) * w Ny (j * ky)

/-- The result of transforming the Hermitian arrays represented by `X 0, X 1, …`, applying the real operation `φ kx ky b` to the (real) transforms
at each frequency, and transforming back: value at position `(i,j)` of output `b`. -/
noncomputable def hermResult2 (Nx Lx x0 Ny H : ℕ) (φ : ℕ → ℕ → ℕ → (ℕ → ℝ) → ℝ) (X : ℕ → ℕ → ℕ → ℂ) (b : ℕ) (i j : ℤ) : ℂ :=
  1 / ((Nx : ℂ) * (Ny : ℂ)) * ∑ kx ∈ range Nx, ∑ ky ∈ range Ny,
    (φ kx ky b (fun a => (hdft2 Nx Lx x0 Ny H (X a) kx ky).re) : ℂ) * w Nx (-(i * kx)) * w Ny (-(j * ky))

/-- Cyclic convolution of two Hermitian arrays, with periods `Nx`, `Ny`, at position `(k,l)`. -/
noncomputable def hermConv2 (Nx Lx x0 Ny H : ℕ) (x y : ℕ → ℕ → ℂ) (k l : ℤ) : ℂ :=
  ∑ i1 ∈ Ioo (-(Lx : ℤ)) Lx, ∑ i2 ∈ Ioo (-(Lx : ℤ)) Lx, ∑ j1 ∈ Ioo (-(H : ℤ)) H, ∑ j2 ∈ Ioo (-(H : ℤ)) H,
    if (Nx : ℤ) ∣ i1 + i2 - k ∧ (Ny : ℤ) ∣ j1 + j2 - l then hext2 Lx x0 H x i1 j1 * hext2 Lx x0 H y i2 j2 else 0

/-- Linear convolution of two Hermitian arrays at position `(k,l)`. -/
noncomputable def hermLin2 (Lx x0 H : ℕ) (x y : ℕ → ℕ → ℂ) (k l : ℤ) : ℂ :=
  ∑ i1 ∈ Ioo (-(Lx : ℤ)) Lx, ∑ i2 ∈ Ioo (-(Lx : ℤ)) Lx, ∑ j1 ∈ Ioo (-(H : ℤ)) H, ∑ j2 ∈ Ioo (-(H : ℤ)) H,
    if i1 + i2 = k ∧ j1 + j2 = l then hext2 Lx x0 H x i1 j1 * hext2 Lx x0 H y i2 j2 else 0

/-- The value at position `(i,j,k)` of the Hermitian array represented by `x a b c`, `a < Lx`, `b < Ly`, `c < H` (position `(a-x0,b-y0,c)`). -/
noncomputable def hext3 (Lx x0 Ly y0 H : ℕ) (x : ℕ → ℕ → ℕ → ℂ) (i j k : ℤ) : ℂ :=
  if k.natAbs < H then
    (if 0 ≤ k then cext2 Lx x0 Ly y0 (fun a b => x a b k.natAbs) i j
      else (starRingEnd ℂ) (cext2 Lx x0 Ly y0 (fun a b => x a b k.natAbs) (-i) (-j)))
  else 0

/-- The stored data are Hermitian symmetric in the plane `k=0`. -/
def HermData3 (Lx x0 Ly y0 : ℕ) (x : ℕ → ℕ → ℕ → ℂ) : Prop :=
  ∀ i j : ℤ, cext2 Lx x0 Ly y0 (fun a b => x a b 0) (-i) (-j) = (starRingEnd ℂ) (cext2 Lx x0 Ly y0 (fun a b => x a b 0) i j)

/-- Unnormalized 3D DFT (sign `+1`) of the Hermitian array. -/
noncomputable def hdft3 (Nx Lx x0 Ny Ly y0 Nz H : ℕ) (x : ℕ → ℕ → ℕ → ℂ) (kx ky kz : ℤ) : ℂ :=
  ∑ i ∈ Ioo (-(Lx : ℤ)) Lx, ∑ j ∈ Ioo (-(Ly : ℤ)) Ly, ∑ k ∈ Ioo (-(H : ℤ)) H,
    hext3 Lx x0 Ly y0 H x i j k * w Nx (i * kx) * w Ny (j * ky) * w Nz (k * kz)

/-- As `hermResult2`, in three dimensions. -/
noncomputable def hermResult3 (Nx Lx x0 Ny Ly y0 Nz H : ℕ) (φ : ℕ → ℕ → ℕ → ℕ → (ℕ → ℝ) → ℝ) (X : ℕ → ℕ → ℕ → ℕ → ℂ) (b : ℕ) (i j k : ℤ) : ℂ :=
  1 / ((Nx : ℂ) * (Ny : ℂ) * (Nz : ℂ)) * ∑ kx ∈ range Nx, ∑ ky ∈ range Ny, ∑ kz ∈ range Nz,
    (φ kx ky kz b (fun a => (hdft3 Nx Lx x0 Ny Ly y0 Nz H (X a) kx ky kz).re) : ℂ) * w Nx (-(i * kx)) * w Ny (-(j * ky)) * w Nz (-(k * kz))

/-- Cyclic convolution of two Hermitian arrays, with periods `Nx`, `Ny`, `Nz`, at position `(k,l,m)`. -/
noncomputable def hermConv3 (Nx Lx x0 Ny Ly y0 Nz H : ℕ) (x y : ℕ → ℕ → ℕ → ℂ) (k l m : ℤ) : ℂ :=
  ∑ i1 ∈ Ioo (-(Lx : ℤ)) Lx, ∑ i2 ∈ Ioo (-(Lx : ℤ)) Lx, ∑ j1 ∈ Ioo (-(Ly : ℤ)) Ly, ∑ j2 ∈ Ioo (-(Ly : ℤ)) Ly,
    ∑ k1 ∈ Ioo (-(H : ℤ)) H, ∑ k2 ∈ Ioo (-(H : ℤ)) H,
    if (Nx : ℤ) ∣ i1 + i2 - k ∧ (Ny : ℤ) ∣ j1 + j2 - l ∧ (Nz : ℤ) ∣ k1 + k2 - m then
      hext3 Lx x0 Ly y0 H x i1 j1 k1 * hext3 Lx x0 Ly y0 H y i2 j2 k2 else 0

/-- Linear convolution of two Hermitian arrays at position `(k,l,m)`. -/
noncomputable def hermLin3 (Lx x0 Ly y0 H : ℕ) (x y : ℕ → ℕ → ℕ → ℂ) (k l m : ℤ) : ℂ :=
  ∑ i1 ∈ Ioo (-(Lx : ℤ)) Lx, ∑ i2 ∈ Ioo (-(Lx : ℤ)) Lx, ∑ j1 ∈ Ioo (-(Ly : ℤ)) Ly, ∑ j2 ∈ Ioo (-(Ly : ℤ)) Ly,
    ∑ k1 ∈ Ioo (-(H : ℤ)) H, ∑ k2 ∈ Ioo (-(H : ℤ)) H,
    if i1 + i2 = k ∧ j1 + j2 = l ∧ k1 + k2 = m then hext3 Lx x0 Ly y0 H x i1 j1 k1 * hext3 Lx x0 Ly y0 H y i2 j2 k2 else 0

end Fftwpp
