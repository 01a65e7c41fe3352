import Verif.Proof.ConvMath2
import Verif.Spec.Corr

/-! The correlation theorem in two and three dimensions. -/

namespace Fftwpp
open Finset

theorem corr_outer {ι : Type} {N L : ℕ} (hN : N ≠ 0) (s : Finset ι) (c : ι → Prop) [DecidablePred c] (x y : ℕ → ι → ℂ) (k : ℕ) :
    1 / (N : ℂ) * ∑ e ∈ range N,
        (∑ p ∈ s, if c p then paddedDFT N L (fun i => x i p) e * (starRingEnd ℂ) (paddedDFT N L (fun i => y i p) e) else 0) * w N (-((k : ℤ) * e)) =
      ∑ i1 ∈ range L, ∑ i2 ∈ range L, ∑ p ∈ s, if (N : ℤ) ∣ (i1 : ℤ) - i2 - k ∧ c p then x i1 p * (starRingEnd ℂ) (y i2 p) else 0 := by
  have e1 : ∀ p ∈ s, 1 / (N : ℂ) * ∑ e ∈ range N,
      (if c p then paddedDFT N L (fun i => x i p) e * (starRingEnd ℂ) (paddedDFT N L (fun i => y i p) e) else 0) * w N (-((k : ℤ) * e)) =
      ∑ i1 ∈ range L, ∑ i2 ∈ range L, if (N : ℤ) ∣ (i1 : ℤ) - i2 - k ∧ c p then x i1 p * (starRingEnd ℂ) (y i2 p) else 0 := by
    intro p _
    by_cases hc : c p
    · simp only [hc, if_true, and_true]
      have := convResult_corr (L := L) hN (fun a i => if a = 0 then x i p else y i p) k
      unfold convResult cyclicCorr at this
      simpa using this
    · simp [hc]
  calc _ = ∑ p ∈ s, 1 / (N : ℂ) * ∑ e ∈ range N,
      (if c p then paddedDFT N L (fun i => x i p) e * (starRingEnd ℂ) (paddedDFT N L (fun i => y i p) e) else 0) * w N (-((k : ℤ) * e)) := by
        rw [← mul_sum, sum_comm]
        congr 1
        refine sum_congr rfl fun e _ => ?_
        rw [sum_mul]
    _ = ∑ p ∈ s, ∑ i1 ∈ range L, ∑ i2 ∈ range L, if (N : ℤ) ∣ (i1 : ℤ) - i2 - k ∧ c p then x i1 p * (starRingEnd ℂ) (y i2 p) else 0 := sum_congr rfl e1
    _ = _ := by
        rw [sum_comm]
        refine sum_congr rfl fun i1 _ => ?_
        rw [sum_comm]

theorem convResult2_corr {Nx Lx Ny Ly : ℕ} (hNx : Nx ≠ 0) (hNy : Ny ≠ 0) (X : ℕ → ℕ → ℕ → ℂ) (i j : ℕ) :
    convResult2 Nx Lx Ny Ly (fun _ _ _ Y => Y 0 * (starRingEnd ℂ) (Y 1)) X 0 i j = cyclicCorr2 Nx Lx Ny Ly (X 0) (X 1) i j := by
  rw [convResult2_eq]
  have e1 : ∀ kx : ℕ, convResult Ny Ly (fun _ _ Y => Y 0 * (starRingEnd ℂ) (Y 1)) (fun a j => paddedDFT Nx Lx (fun i => X a i j) kx) 0 j =
      ∑ p ∈ range Ly ×ˢ range Ly, if (Ny : ℤ) ∣ (p.1 : ℤ) - p.2 - j then
        paddedDFT Nx Lx (fun i => X 0 i p.1) kx * (starRingEnd ℂ) (paddedDFT Nx Lx (fun i => X 1 i p.2) kx) else 0 := by
    intro kx
    rw [convResult_corr hNy]
    unfold cyclicCorr
    rw [sum_product]
  simp only [e1]
  rw [corr_outer hNx (range Ly ×ˢ range Ly) (fun p => (Ny : ℤ) ∣ (p.1 : ℤ) - p.2 - j) (fun i p => X 0 i p.1) (fun i p => X 1 i p.2)]
  unfold cyclicCorr2
  refine sum_congr rfl fun i1 _ => sum_congr rfl fun i2 _ => ?_
  rw [sum_product]

theorem convResult3_corr {Nx Lx Ny Ly Nz Lz : ℕ} (hNx : Nx ≠ 0) (hNy : Ny ≠ 0) (hNz : Nz ≠ 0) (X : ℕ → ℕ → ℕ → ℕ → ℂ) (i j k : ℕ) :
    convResult3 Nx Lx Ny Ly Nz Lz (fun _ _ _ _ Y => Y 0 * (starRingEnd ℂ) (Y 1)) X 0 i j k = cyclicCorr3 Nx Lx Ny Ly Nz Lz (X 0) (X 1) i j k := by
  rw [convResult3_eq]
  have e1 : ∀ kx : ℕ, convResult2 Ny Ly Nz Lz (fun _ _ _ Y => Y 0 * (starRingEnd ℂ) (Y 1)) (fun a j k => paddedDFT Nx Lx (fun i => X a i j k) kx) 0 j k =
      ∑ p ∈ (range Ly ×ˢ range Ly) ×ˢ (range Lz ×ˢ range Lz), if (Ny : ℤ) ∣ (p.1.1 : ℤ) - p.1.2 - j ∧ (Nz : ℤ) ∣ (p.2.1 : ℤ) - p.2.2 - k then
        paddedDFT Nx Lx (fun i => X 0 i p.1.1 p.2.1) kx * (starRingEnd ℂ) (paddedDFT Nx Lx (fun i => X 1 i p.1.2 p.2.2) kx) else 0 := by
    intro kx
    rw [convResult2_corr hNy hNz]
    unfold cyclicCorr2
    rw [sum_product, sum_product]
    refine sum_congr rfl fun j1 _ => sum_congr rfl fun j2 _ => ?_
    rw [sum_product]
  simp only [e1]
  rw [corr_outer hNx ((range Ly ×ˢ range Ly) ×ˢ (range Lz ×ˢ range Lz))
    (fun p => (Ny : ℤ) ∣ (p.1.1 : ℤ) - p.1.2 - j ∧ (Nz : ℤ) ∣ (p.2.1 : ℤ) - p.2.2 - k) (fun i p => X 0 i p.1.1 p.2.1) (fun i p => X 1 i p.1.2 p.2.2)]
  unfold cyclicCorr3
  refine sum_congr rfl fun i1 _ => sum_congr rfl fun i2 _ => ?_
  rw [sum_product, sum_product]
  refine sum_congr rfl fun j1 _ => sum_congr rfl fun j2 _ => ?_
  rw [sum_product]

theorem lag_iff {N L a b k : ℕ} (hN : 2 * L - 1 ≤ N) (ha : a < L) (hb : b < L) (hk : k < L) : (N : ℤ) ∣ (a : ℤ) - b - k ↔ (a : ℤ) - b = k := by
  constructor
  · rintro ⟨c, hc⟩
    have h1 : -(N : ℤ) < (N : ℤ) * c := by omega
    have h2 : (N : ℤ) * c < N := by omega
    have hp : (0 : ℤ) < N := by omega
    have c1 : -1 < c := by by_contra h; nlinarith
    have c2 : c < 1 := by by_contra h; nlinarith
    have : c = 0 := by omega
    rw [this, mul_zero] at hc
    omega
  · intro h
    rw [h, sub_self]
    exact dvd_zero _

/-- No aliasing when `N ≥ 2L-1`. -/
theorem cyclicCorr_linear {N L : ℕ} (hN : 2 * L - 1 ≤ N) (x y : ℕ → ℂ) {k : ℕ} (hk : k < L) : cyclicCorr N L x y k = linearCorr L x y k := by
  unfold cyclicCorr linearCorr
  refine sum_congr rfl fun i hi => sum_congr rfl fun j hj => ?_
  rw [mem_range] at hi hj
  simp only [lag_iff hN hi hj hk]

theorem cyclicCorr2_linear {Nx Lx Ny Ly : ℕ} (hx : 2 * Lx - 1 ≤ Nx) (hy : 2 * Ly - 1 ≤ Ny) (x y : ℕ → ℕ → ℂ) {i j : ℕ} (hi : i < Lx)
    (hj : j < Ly) : cyclicCorr2 Nx Lx Ny Ly x y i j = linearCorr2 Lx Ly x y i j := by
  unfold cyclicCorr2 linearCorr2
  refine sum_congr rfl fun i1 h1 => sum_congr rfl fun i2 h2 => sum_congr rfl fun j1 h3 => sum_congr rfl fun j2 h4 => ?_
  rw [mem_range] at h1 h2 h3 h4
  simp only [lag_iff hx h1 h2 hi, lag_iff hy h3 h4 hj]

theorem cyclicCorr3_linear {Nx Lx Ny Ly Nz Lz : ℕ} (hx : 2 * Lx - 1 ≤ Nx) (hy : 2 * Ly - 1 ≤ Ny) (hz : 2 * Lz - 1 ≤ Nz)
    (x y : ℕ → ℕ → ℕ → ℂ) {i j k : ℕ} (hi : i < Lx) (hj : j < Ly) (hk : k < Lz) :
    cyclicCorr3 Nx Lx Ny Ly Nz Lz x y i j k = linearCorr3 Lx Ly Lz x y i j k := by
  unfold cyclicCorr3 linearCorr3
  refine sum_congr rfl fun i1 h1 => sum_congr rfl fun i2 h2 => sum_congr rfl fun j1 h3 => sum_congr rfl fun j2 h4 =>
    sum_congr rfl fun k1 h5 => sum_congr rfl fun k2 h6 => ?_
  rw [mem_range] at h1 h2 h3 h4 h5 h6
  simp only [lag_iff hx h1 h2 hi, lag_iff hy h3 h4 hj, lag_iff hz h5 h6 hk]

end Fftwpp
