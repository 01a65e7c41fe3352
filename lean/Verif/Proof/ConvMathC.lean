import Verif.Proof.ConvMath
import Verif.Spec.DftC

/-! Convolution theorems for data with any origin. -/

namespace Fftwpp
open Finset

theorem cdft_inversion {N L x0 : ℕ} (hN : N ≠ 0) (hL : L ≤ N) (x : ℕ → ℂ) {j : ℕ} (hj : j < L) :
    ∑ e ∈ range N, cdft N L x0 x e * w N (-(((j : ℤ) - x0) * e)) = N * x j := by
  rw [← dft_inversion hN hL x hj]
  refine sum_congr rfl fun e _ => ?_
  unfold cdft paddedDFT
  rw [sum_mul, sum_mul]
  refine sum_congr rfl fun i _ => ?_
  rw [mul_assoc, mul_assoc, ← w_add, ← w_add]
  congr 2; ring

theorem cdft2_eq (Nx Lx x0 Ny Ly y0 : ℕ) (x : ℕ → ℕ → ℂ) (kx ky : ℤ) :
    cdft2 Nx Lx x0 Ny Ly y0 x kx ky = cdft Ny Ly y0 (fun j => cdft Nx Lx x0 (fun i => x i j) kx) ky := by
  unfold cdft2 cdft
  rw [sum_comm]
  refine sum_congr rfl fun j _ => ?_
  rw [sum_mul]

theorem cdft3_eq (Nx Lx x0 Ny Ly y0 Nz Lz z0 : ℕ) (x : ℕ → ℕ → ℕ → ℂ) (kx ky kz : ℤ) :
    cdft3 Nx Lx x0 Ny Ly y0 Nz Lz z0 x kx ky kz =
      cdft2 Ny Ly y0 Nz Lz z0 (fun j k => cdft Nx Lx x0 (fun i => x i j k) kx) ky kz := by
  unfold cdft3 cdft2 cdft
  rw [sum_comm]
  refine sum_congr rfl fun j _ => ?_
  rw [sum_comm]
  refine sum_congr rfl fun k _ => ?_
  rw [sum_mul, sum_mul]

/-- The 2D result is the 1D result in `x` of the 1D results in `y`. -/
theorem convResultC2_eq (Nx Lx x0 Ny Ly y0 : ℕ) (φ : ℕ → ℕ → ℕ → (ℕ → ℂ) → ℂ) (X : ℕ → ℕ → ℕ → ℂ) (b i j : ℕ) :
    convResultC2 Nx Lx x0 Ny Ly y0 φ X b i j =
      1 / (Nx : ℂ) * ∑ kx ∈ range Nx,
        convResultC Ny Ly y0 (φ kx) (fun a j => cdft Nx Lx x0 (fun i => X a i j) kx) b j * w Nx (-(((i : ℤ) - x0) * kx)) := by
  unfold convResultC2 convResultC
  rw [← one_div_mul_one_div, mul_assoc]
  congr 1
  rw [mul_sum]
  refine sum_congr rfl fun kx _ => ?_
  rw [mul_assoc]
  congr 1
  rw [sum_mul]
  refine sum_congr rfl fun ky _ => ?_
  simp only [cdft2_eq]
  ring

theorem convResultC3_eq (Nx Lx x0 Ny Ly y0 Nz Lz z0 : ℕ) (φ : ℕ → ℕ → ℕ → ℕ → (ℕ → ℂ) → ℂ) (X : ℕ → ℕ → ℕ → ℕ → ℂ) (b i j k : ℕ) :
    convResultC3 Nx Lx x0 Ny Ly y0 Nz Lz z0 φ X b i j k =
      1 / (Nx : ℂ) * ∑ kx ∈ range Nx,
        convResultC2 Ny Ly y0 Nz Lz z0 (φ kx) (fun a j k => cdft Nx Lx x0 (fun i => X a i j k) kx) b j k *
          w Nx (-(((i : ℤ) - x0) * kx)) := by
  unfold convResultC3 convResultC2
  rw [mul_assoc (Nx : ℂ), ← one_div_mul_one_div, mul_assoc]
  congr 1
  rw [mul_sum]
  refine sum_congr rfl fun kx _ => ?_
  rw [mul_assoc]
  congr 1
  rw [sum_mul]
  refine sum_congr rfl fun ky _ => ?_
  rw [sum_mul]
  refine sum_congr rfl fun kz _ => ?_
  simp only [cdft3_eq]
  ring

theorem convResultC_binary {N L x0 : ℕ} (hN : N ≠ 0) (X : ℕ → ℕ → ℂ) (k : ℕ) :
    convResultC N L x0 (fun _ _ Y => Y 0 * Y 1) X 0 k = cyclicConvC N L x0 (X 0) (X 1) k :=
  conv_sum (L := L) hN (X 0) (X 1) (fun i => (i : ℤ) - x0) (fun j => (j : ℤ) - x0) ((k : ℤ) - x0)

/-- The convolution theorem in the outer direction. -/
theorem conv_outerC {ι : Type} {N L x0 : ℕ} (hN : N ≠ 0) (s : Finset ι) (c : ι → Prop) [DecidablePred c] (x y : ℕ → ι → ℂ) (k : ℕ) :
    1 / (N : ℂ) * ∑ e ∈ range N, (∑ p ∈ s, if c p then cdft N L x0 (fun i => x i p) e * cdft N L x0 (fun i => y i p) e else 0) *
        w N (-(((k : ℤ) - x0) * e)) =
      ∑ i1 ∈ range L, ∑ i2 ∈ range L, ∑ p ∈ s,
        if (N : ℤ) ∣ ((i1 : ℤ) - x0) + ((i2 : ℤ) - x0) - ((k : ℤ) - x0) ∧ c p then x i1 p * y i2 p else 0 := by
  have e1 : ∀ p ∈ s, 1 / (N : ℂ) * ∑ e ∈ range N,
      (if c p then cdft N L x0 (fun i => x i p) e * cdft N L x0 (fun i => y i p) e else 0) * w N (-(((k : ℤ) - x0) * e)) =
      ∑ i1 ∈ range L, ∑ i2 ∈ range L,
        if (N : ℤ) ∣ ((i1 : ℤ) - x0) + ((i2 : ℤ) - x0) - ((k : ℤ) - x0) ∧ c p then x i1 p * y i2 p else 0 := by
    intro p _
    by_cases hc : c p
    · simp only [hc, if_true, and_true]
      have := convResultC_binary (L := L) (x0 := x0) hN (fun a i => if a = 0 then x i p else y i p) k
      unfold convResultC cyclicConvC at this
      simpa using this
    · simp [hc]
  calc _ = ∑ p ∈ s, 1 / (N : ℂ) * ∑ e ∈ range N,
      (if c p then cdft N L x0 (fun i => x i p) e * cdft N L x0 (fun i => y i p) e else 0) * w N (-(((k : ℤ) - x0) * e)) := by
        rw [← mul_sum, sum_comm]
        congr 1
        refine sum_congr rfl fun e _ => ?_
        rw [sum_mul]
    _ = ∑ p ∈ s, ∑ i1 ∈ range L, ∑ i2 ∈ range L,
        if (N : ℤ) ∣ ((i1 : ℤ) - x0) + ((i2 : ℤ) - x0) - ((k : ℤ) - x0) ∧ c p then x i1 p * y i2 p else 0 := sum_congr rfl e1
    _ = _ := by
        rw [sum_comm]
        refine sum_congr rfl fun i1 _ => ?_
        rw [sum_comm]

theorem convResultC2_binary {Nx Lx x0 Ny Ly y0 : ℕ} (hNx : Nx ≠ 0) (hNy : Ny ≠ 0) (X : ℕ → ℕ → ℕ → ℂ) (i j : ℕ) :
    convResultC2 Nx Lx x0 Ny Ly y0 (fun _ _ _ Y => Y 0 * Y 1) X 0 i j = cyclicConvC2 Nx Lx x0 Ny Ly y0 (X 0) (X 1) i j := by
  rw [convResultC2_eq]
  have e1 : ∀ kx : ℕ, convResultC Ny Ly y0 (fun _ _ Y => Y 0 * Y 1) (fun a j => cdft Nx Lx x0 (fun i => X a i j) kx) 0 j =
      ∑ p ∈ range Ly ×ˢ range Ly, if (Ny : ℤ) ∣ ((p.1 : ℤ) - y0) + ((p.2 : ℤ) - y0) - ((j : ℤ) - y0) then
        cdft Nx Lx x0 (fun i => X 0 i p.1) kx * cdft Nx Lx x0 (fun i => X 1 i p.2) kx else 0 := by
    intro kx
    rw [convResultC_binary hNy]
    unfold cyclicConvC
    rw [sum_product]
  simp only [e1]
  rw [conv_outerC hNx (range Ly ×ˢ range Ly) (fun p => (Ny : ℤ) ∣ ((p.1 : ℤ) - y0) + ((p.2 : ℤ) - y0) - ((j : ℤ) - y0))
    (fun i p => X 0 i p.1) (fun i p => X 1 i p.2)]
  unfold cyclicConvC2
  refine sum_congr rfl fun i1 _ => sum_congr rfl fun i2 _ => ?_
  rw [sum_product]

theorem convResultC3_binary {Nx Lx x0 Ny Ly y0 Nz Lz z0 : ℕ} (hNx : Nx ≠ 0) (hNy : Ny ≠ 0) (hNz : Nz ≠ 0) (X : ℕ → ℕ → ℕ → ℕ → ℂ)
    (i j k : ℕ) : convResultC3 Nx Lx x0 Ny Ly y0 Nz Lz z0 (fun _ _ _ _ Y => Y 0 * Y 1) X 0 i j k =
      cyclicConvC3 Nx Lx x0 Ny Ly y0 Nz Lz z0 (X 0) (X 1) i j k := by
  rw [convResultC3_eq]
  have e1 : ∀ kx : ℕ, convResultC2 Ny Ly y0 Nz Lz z0 (fun _ _ _ Y => Y 0 * Y 1) (fun a j k => cdft Nx Lx x0 (fun i => X a i j k) kx) 0 j k =
      ∑ p ∈ (range Ly ×ˢ range Ly) ×ˢ (range Lz ×ˢ range Lz),
        if (Ny : ℤ) ∣ ((p.1.1 : ℤ) - y0) + ((p.1.2 : ℤ) - y0) - ((j : ℤ) - y0) ∧
          (Nz : ℤ) ∣ ((p.2.1 : ℤ) - z0) + ((p.2.2 : ℤ) - z0) - ((k : ℤ) - z0) then
        cdft Nx Lx x0 (fun i => X 0 i p.1.1 p.2.1) kx * cdft Nx Lx x0 (fun i => X 1 i p.1.2 p.2.2) kx else 0 := by
    intro kx
    rw [convResultC2_binary hNy hNz]
    unfold cyclicConvC2
    rw [sum_product, sum_product]
    refine sum_congr rfl fun j1 _ => sum_congr rfl fun j2 _ => ?_
    rw [sum_product]
  simp only [e1]
  rw [conv_outerC hNx ((range Ly ×ˢ range Ly) ×ˢ (range Lz ×ˢ range Lz))
    (fun p => (Ny : ℤ) ∣ ((p.1.1 : ℤ) - y0) + ((p.1.2 : ℤ) - y0) - ((j : ℤ) - y0) ∧
      (Nz : ℤ) ∣ ((p.2.1 : ℤ) - z0) + ((p.2.2 : ℤ) - z0) - ((k : ℤ) - z0)) (fun i p => X 0 i p.1.1 p.2.1) (fun i p => X 1 i p.1.2 p.2.2)]
  unfold cyclicConvC3
  refine sum_congr rfl fun i1 _ => sum_congr rfl fun i2 _ => ?_
  rw [sum_product, sum_product]
  refine sum_congr rfl fun j1 _ => sum_congr rfl fun j2 _ => ?_
  rw [sum_product]

/-- A multiple of `N` smaller than `N` in absolute value is zero; the positions of `i1`, `i2` and `i`. -/
theorem pos_dvd {N L x0 i1 i2 i : ℕ} (h1 : L - 1 + x0 < N) (h2 : 2 * (L - 1) < N + x0) (hi1 : i1 < L) (hi2 : i2 < L) (hi : i < L) :
    (N : ℤ) ∣ ((i1 : ℤ) - x0) + ((i2 : ℤ) - x0) - ((i : ℤ) - x0) ↔ ((i1 : ℤ) - x0) + ((i2 : ℤ) - x0) = (i : ℤ) - x0 := by
  constructor
  · intro h
    have := Int.eq_zero_of_abs_lt_dvd h (by rw [abs_lt]; omega)
    omega
  · intro h
    rw [h]; simp

/-- No aliasing if the sums of two positions, less a position, are smaller than `N` in absolute value. -/
theorem cyclicConvC_linear {N L x0 : ℕ} (h1 : L - 1 + x0 < N) (h2 : 2 * (L - 1) < N + x0) (x y : ℕ → ℂ) {k : ℕ} (hk : k < L) :
    cyclicConvC N L x0 x y k = linearConvC L x0 x y k := by
  unfold cyclicConvC linearConvC
  refine sum_congr rfl fun i hi => sum_congr rfl fun j hj => ?_
  rw [mem_range] at hi hj
  simp only [pos_dvd h1 h2 hi hj hk]

theorem cyclicConvC2_linear {Nx Lx x0 Ny Ly y0 : ℕ} (h1 : Lx - 1 + x0 < Nx) (h2 : 2 * (Lx - 1) < Nx + x0)
    (h3 : Ly - 1 + y0 < Ny) (h4 : 2 * (Ly - 1) < Ny + y0) (x y : ℕ → ℕ → ℂ) {i j : ℕ} (hi : i < Lx)
    (hj : j < Ly) : cyclicConvC2 Nx Lx x0 Ny Ly y0 x y i j = linearConvC2 Lx x0 Ly y0 x y i j := by
  unfold cyclicConvC2 linearConvC2
  refine sum_congr rfl fun i1 g1 => sum_congr rfl fun i2 g2 => sum_congr rfl fun j1 g3 => sum_congr rfl fun j2 g4 => ?_
  rw [mem_range] at g1 g2 g3 g4
  simp only [pos_dvd h1 h2 g1 g2 hi, pos_dvd h3 h4 g3 g4 hj]

theorem cyclicConvC3_linear {Nx Lx x0 Ny Ly y0 Nz Lz z0 : ℕ} (h1 : Lx - 1 + x0 < Nx) (h2 : 2 * (Lx - 1) < Nx + x0)
    (h3 : Ly - 1 + y0 < Ny) (h4 : 2 * (Ly - 1) < Ny + y0) (h5 : Lz - 1 + z0 < Nz) (h6 : 2 * (Lz - 1) < Nz + z0)
    (x y : ℕ → ℕ → ℕ → ℂ) {i j k : ℕ} (hi : i < Lx) (hj : j < Ly) (hk : k < Lz) :
    cyclicConvC3 Nx Lx x0 Ny Ly y0 Nz Lz z0 x y i j k = linearConvC3 Lx x0 Ly y0 Lz z0 x y i j k := by
  unfold cyclicConvC3 linearConvC3
  refine sum_congr rfl fun i1 g1 => sum_congr rfl fun i2 g2 => sum_congr rfl fun j1 g3 => sum_congr rfl fun j2 g4 =>
    sum_congr rfl fun k1 g5 => sum_congr rfl fun k2 g6 => ?_
  rw [mem_range] at g1 g2 g3 g4 g5 g6
  simp only [pos_dvd h1 h2 g1 g2 hi, pos_dvd h3 h4 g3 g4 hj, pos_dvd h5 h6 g5 g6 hk]

end Fftwpp
