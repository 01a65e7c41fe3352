import Verif.Proof.ConvMath
import Verif.Spec.Dft2

/-! Convolution theorems in two and three dimensions. -/

namespace Fftwpp
open Finset

theorem paddedDFT2_eq (Nx Lx Ny Ly : ℕ) (x : ℕ → ℕ → ℂ) (kx ky : ℤ) :
    paddedDFT2 Nx Lx Ny Ly x kx ky = paddedDFT Ny Ly (fun j => paddedDFT Nx Lx (fun i => x i j) kx) ky := by
  unfold paddedDFT2 paddedDFT
  rw [sum_comm]
  refine sum_congr rfl fun j _ => ?_
  rw [sum_mul]

theorem paddedDFT3_eq (Nx Lx Ny Ly Nz Lz : ℕ) (x : ℕ → ℕ → ℕ → ℂ) (kx ky kz : ℤ) :
    paddedDFT3 Nx Lx Ny Ly Nz Lz x kx ky kz =
      paddedDFT2 Ny Ly Nz Lz (fun j k => paddedDFT Nx Lx (fun i => x i j k) kx) ky kz := by
  unfold paddedDFT3 paddedDFT2 paddedDFT
  rw [sum_comm]
  refine sum_congr rfl fun j _ => ?_
  rw [sum_comm]
  refine sum_congr rfl fun k _ => ?_
  rw [sum_mul, sum_mul]

/-- The 2D result is the 1D result in `x` of the 1D results in `y`. -/
theorem convResult2_eq (Nx Lx Ny Ly : ℕ) (φ : ℕ → ℕ → ℕ → (ℕ → ℂ) → ℂ) (X : ℕ → ℕ → ℕ → ℂ) (b i j : ℕ) :
    convResult2 Nx Lx Ny Ly φ X b i j =
      1 / (Nx : ℂ) * ∑ kx ∈ range Nx,
        convResult Ny Ly (φ kx) (fun a j => paddedDFT Nx Lx (fun i => X a i j) kx) b j * w Nx (-((i : ℤ) * kx)) := by
  unfold convResult2 convResult
  rw [← one_div_mul_one_div, mul_assoc]
  congr 1
  rw [mul_sum]
  refine sum_congr rfl fun kx _ => ?_
  rw [mul_assoc]
  congr 1
  rw [sum_mul]
  refine sum_congr rfl fun ky _ => ?_
  simp only [paddedDFT2_eq]
  ring

theorem convResult3_eq (Nx Lx Ny Ly Nz Lz : ℕ) (φ : ℕ → ℕ → ℕ → ℕ → (ℕ → ℂ) → ℂ) (X : ℕ → ℕ → ℕ → ℕ → ℂ) (b i j k : ℕ) :
    convResult3 Nx Lx Ny Ly Nz Lz φ X b i j k =
      1 / (Nx : ℂ) * ∑ kx ∈ range Nx,
        convResult2 Ny Ly Nz Lz (φ kx) (fun a j k => paddedDFT Nx Lx (fun i => X a i j k) kx) b j k * w Nx (-((i : ℤ) * kx)) := by
  unfold convResult3 convResult2
  rw [mul_assoc (Nx : ℂ), ← one_div_mul_one_div, mul_assoc]
  congr 1
  rw [mul_sum]
  refine sum_congr rfl fun kx _ => ?_
  rw [mul_assoc]
  congr 1
  rw [sum_mul]
  refine sum_congr rfl fun ky _ => ?_
  rw [sum_mul]
  refine sum_congr rfl fun kz _ => ?_
  simp only [paddedDFT3_eq]
  ring

/-- The convolution theorem in the outer direction. -/
theorem conv_outer {ι : Type} {N L : ℕ} (hN : N ≠ 0) (s : Finset ι) (c : ι → Prop) [DecidablePred c] (x y : ℕ → ι → ℂ) (k : ℕ) :
    1 / (N : ℂ) * ∑ e ∈ range N, (∑ p ∈ s, if c p then paddedDFT N L (fun i => x i p) e * paddedDFT N L (fun i => y i p) e else 0) *
        w N (-((k : ℤ) * e)) =
      ∑ i1 ∈ range L, ∑ i2 ∈ range L, ∑ p ∈ s, if (i1 + i2) % N = k % N ∧ c p then x i1 p * y i2 p else 0 := by
  have e1 : ∀ p ∈ s, 1 / (N : ℂ) * ∑ e ∈ range N,
      (if c p then paddedDFT N L (fun i => x i p) e * paddedDFT N L (fun i => y i p) e else 0) * w N (-((k : ℤ) * e)) =
      ∑ i1 ∈ range L, ∑ i2 ∈ range L, if (i1 + i2) % N = k % N ∧ c p then x i1 p * y i2 p else 0 := by
    intro p _
    by_cases hc : c p
    · simp only [hc, if_true, and_true]
      have := convResult_binary (L := L) hN (fun a i => if a = 0 then x i p else y i p) k
      unfold convResult cyclicConv at this
      simpa using this
    · simp [hc]
  calc _ = ∑ p ∈ s, 1 / (N : ℂ) * ∑ e ∈ range N,
      (if c p then paddedDFT N L (fun i => x i p) e * paddedDFT N L (fun i => y i p) e else 0) * w N (-((k : ℤ) * e)) := by
        rw [← mul_sum, sum_comm]
        congr 1
        refine sum_congr rfl fun e _ => ?_
        rw [sum_mul]
    _ = ∑ p ∈ s, ∑ i1 ∈ range L, ∑ i2 ∈ range L, if (i1 + i2) % N = k % N ∧ c p then x i1 p * y i2 p else 0 := sum_congr rfl e1
    _ = _ := by
        rw [sum_comm]
        refine sum_congr rfl fun i1 _ => ?_
        rw [sum_comm]

theorem convResult2_binary {Nx Lx Ny Ly : ℕ} (hNx : Nx ≠ 0) (hNy : Ny ≠ 0) (X : ℕ → ℕ → ℕ → ℂ) (i j : ℕ) :
    convResult2 Nx Lx Ny Ly (fun _ _ _ Y => Y 0 * Y 1) X 0 i j = cyclicConv2 Nx Lx Ny Ly (X 0) (X 1) i j := by
  rw [convResult2_eq]
  have e1 : ∀ kx : ℕ, convResult Ny Ly (fun _ _ Y => Y 0 * Y 1) (fun a j => paddedDFT Nx Lx (fun i => X a i j) kx) 0 j =
      ∑ p ∈ range Ly ×ˢ range Ly, if (p.1 + p.2) % Ny = j % Ny then
        paddedDFT Nx Lx (fun i => X 0 i p.1) kx * paddedDFT Nx Lx (fun i => X 1 i p.2) kx else 0 := by
    intro kx
    rw [convResult_binary hNy]
    unfold cyclicConv
    rw [sum_product]
  simp only [e1]
  rw [conv_outer hNx (range Ly ×ˢ range Ly) (fun p => (p.1 + p.2) % Ny = j % Ny) (fun i p => X 0 i p.1) (fun i p => X 1 i p.2)]
  unfold cyclicConv2
  refine sum_congr rfl fun i1 _ => sum_congr rfl fun i2 _ => ?_
  rw [sum_product]

theorem convResult3_binary {Nx Lx Ny Ly Nz Lz : ℕ} (hNx : Nx ≠ 0) (hNy : Ny ≠ 0) (hNz : Nz ≠ 0) (X : ℕ → ℕ → ℕ → ℕ → ℂ) (i j k : ℕ) :
    convResult3 Nx Lx Ny Ly Nz Lz (fun _ _ _ _ Y => Y 0 * Y 1) X 0 i j k = cyclicConv3 Nx Lx Ny Ly Nz Lz (X 0) (X 1) i j k := by
  rw [convResult3_eq]
  have e1 : ∀ kx : ℕ, convResult2 Ny Ly Nz Lz (fun _ _ _ Y => Y 0 * Y 1) (fun a j k => paddedDFT Nx Lx (fun i => X a i j k) kx) 0 j k =
      ∑ p ∈ (range Ly ×ˢ range Ly) ×ˢ (range Lz ×ˢ range Lz), if (p.1.1 + p.1.2) % Ny = j % Ny ∧ (p.2.1 + p.2.2) % Nz = k % Nz then
        paddedDFT Nx Lx (fun i => X 0 i p.1.1 p.2.1) kx * paddedDFT Nx Lx (fun i => X 1 i p.1.2 p.2.2) kx else 0 := by
    intro kx
    rw [convResult2_binary hNy hNz]
    unfold cyclicConv2
    rw [sum_product, sum_product]
    refine sum_congr rfl fun j1 _ => sum_congr rfl fun j2 _ => ?_
    rw [sum_product]
  simp only [e1]
  rw [conv_outer hNx ((range Ly ×ˢ range Ly) ×ˢ (range Lz ×ˢ range Lz))
    (fun p => (p.1.1 + p.1.2) % Ny = j % Ny ∧ (p.2.1 + p.2.2) % Nz = k % Nz) (fun i p => X 0 i p.1.1 p.2.1) (fun i p => X 1 i p.1.2 p.2.2)]
  unfold cyclicConv3
  refine sum_congr rfl fun i1 _ => sum_congr rfl fun i2 _ => ?_
  rw [sum_product, sum_product]
  refine sum_congr rfl fun j1 _ => sum_congr rfl fun j2 _ => ?_
  rw [sum_product]

/-- No aliasing when the lengths are at least `2L-1`. -/
theorem cyclicConv2_linear {Nx Lx Ny Ly : ℕ} (hx : 2 * Lx - 1 ≤ Nx) (hy : 2 * Ly - 1 ≤ Ny) (x y : ℕ → ℕ → ℂ) {i j : ℕ} (hi : i < Lx)
    (hj : j < Ly) : cyclicConv2 Nx Lx Ny Ly x y i j = linearConv2 Lx Ly x y i j := by
  unfold cyclicConv2 linearConv2
  refine sum_congr rfl fun i1 h1 => sum_congr rfl fun i2 h2 => sum_congr rfl fun j1 h3 => sum_congr rfl fun j2 h4 => ?_
  rw [mem_range] at h1 h2 h3 h4
  congr 1
  rw [Nat.mod_eq_of_lt (show i1 + i2 < Nx by omega), Nat.mod_eq_of_lt (show i < Nx by omega),
    Nat.mod_eq_of_lt (show j1 + j2 < Ny by omega), Nat.mod_eq_of_lt (show j < Ny by omega)]

theorem cyclicConv3_linear {Nx Lx Ny Ly Nz Lz : ℕ} (hx : 2 * Lx - 1 ≤ Nx) (hy : 2 * Ly - 1 ≤ Ny) (hz : 2 * Lz - 1 ≤ Nz)
    (x y : ℕ → ℕ → ℕ → ℂ) {i j k : ℕ} (hi : i < Lx) (hj : j < Ly) (hk : k < Lz) :
    cyclicConv3 Nx Lx Ny Ly Nz Lz x y i j k = linearConv3 Lx Ly Lz x y i j k := by
  unfold cyclicConv3 linearConv3
  refine sum_congr rfl fun i1 h1 => sum_congr rfl fun i2 h2 => sum_congr rfl fun j1 h3 => sum_congr rfl fun j2 h4 =>
    sum_congr rfl fun k1 h5 => sum_congr rfl fun k2 h6 => ?_
  rw [mem_range] at h1 h2 h3 h4 h5 h6
  congr 1
  rw [Nat.mod_eq_of_lt (show i1 + i2 < Nx by omega), Nat.mod_eq_of_lt (show i < Nx by omega),
    Nat.mod_eq_of_lt (show j1 + j2 < Ny by omega), Nat.mod_eq_of_lt (show j < Ny by omega),
    Nat.mod_eq_of_lt (show k1 + k2 < Nz by omega), Nat.mod_eq_of_lt (show k < Nz by omega)]

end Fftwpp
