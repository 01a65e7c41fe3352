import Verif.Proof.HConvMath2

/-! Convolution theorems for Hermitian-symmetric data in three dimensions. -/

namespace Fftwpp
open Finset ComplexConjugate

theorem cext_zero {L x0 : ℕ} {i : ℤ} : cext L x0 (fun _ => 0) i = 0 := by
  unfold cext; split_ifs <;> rfl

/-- The transform in the first direction of two-dimensional data. -/
theorem cext_cdft {N Lx x0 Ly y0 : ℕ} (hx : x0 < Lx) (g : ℕ → ℕ → ℂ) (e j : ℤ) :
    cext Ly y0 (fun b => cdft N Lx x0 (fun i => g i b) e) j = ∑ i ∈ Ioo (-(Lx : ℤ)) Lx, cext2 Lx x0 Ly y0 g i j * w N (i * e) := by
  unfold cext2
  by_cases h : -(y0 : ℤ) ≤ j ∧ j < Ly - y0
  · have h1 : ∀ y : ℕ → ℂ, cext Ly y0 y j = y (j + y0).toNat := fun y => by unfold cext; rw [if_pos h]
    simp only [h1]
    exact cdft_cext hx _ e
  · have h1 : ∀ y : ℕ → ℂ, cext Ly y0 y j = 0 := fun y => cext_out h
    simp only [h1, cext_zero, zero_mul, sum_const_zero]

theorem conj_cext_cdft {N Lx x0 Ly y0 : ℕ} (hx : x0 < Lx) (g : ℕ → ℕ → ℂ) (e j : ℤ) :
    conj (cext Ly y0 (fun b => cdft N Lx x0 (fun i => g i b) e) j) =
      ∑ i ∈ Ioo (-(Lx : ℤ)) Lx, conj (cext2 Lx x0 Ly y0 g (-i) j) * w N (i * e) := by
  rw [cext_cdft hx, map_sum, ← sum_Ioo_neg]
  refine sum_congr rfl fun i _ => ?_
  rw [map_mul, w_conj, neg_mul, neg_neg]

/-- The transform in the outer direction of the represented array. -/
theorem hext2_cdft {N Lx x0 Ly y0 H : ℕ} (hx : x0 < Lx) (x : ℕ → ℕ → ℕ → ℂ) (e j k : ℤ) :
    hext2 Ly y0 H (fun b c => cdft N Lx x0 (fun i => x i b c) e) j k =
      ∑ i ∈ Ioo (-(Lx : ℤ)) Lx, hext3 Lx x0 Ly y0 H x i j k * w N (i * e) := by
  unfold hext2 hext3
  split_ifs
  · exact cext_cdft hx (fun i b => x i b k.natAbs) e j
  · exact conj_cext_cdft hx (fun i b => x i b k.natAbs) e (-j)
  · simp

theorem hext3_edge {Lx x0 Ly y0 H : ℕ} (hx : x0 < Lx) {x : ℕ → ℕ → ℕ → ℂ} {j k : ℤ} : hext3 Lx x0 Ly y0 H x (-(Lx : ℤ)) j k = 0 := by
  unfold hext3 cext2
  rw [cext_out (by omega), cext_out (by omega)]
  simp

theorem hext2_cdft' {N Lx x0 Ly y0 H : ℕ} (hx : x0 < Lx) (x : ℕ → ℕ → ℕ → ℂ) (e j k : ℤ) :
    hext2 Ly y0 H (fun b c => cdft N Lx x0 (fun i => x i b c) e) j k =
      cdft N (2 * Lx) Lx (fun i => hext3 Lx x0 Ly y0 H x ((i : ℤ) - Lx) j k) e := by
  rw [hext2_cdft hx, sum_Ioo_range (by rw [hext3_edge hx, zero_mul])]
  rfl

theorem hdft2_cdft {Nx Lx x0 Ny Ly y0 Nz H : ℕ} (hx : x0 < Lx) (x : ℕ → ℕ → ℕ → ℂ) (kx ky kz : ℤ) :
    hdft2 Ny Ly y0 Nz H (fun b c => cdft Nx Lx x0 (fun i => x i b c) kx) ky kz = hdft3 Nx Lx x0 Ny Ly y0 Nz H x kx ky kz := by
  unfold hdft2 hdft3
  conv_rhs => rw [sum_comm]
  refine sum_congr rfl fun j _ => ?_
  conv_rhs => rw [sum_comm]
  refine sum_congr rfl fun k _ => ?_
  rw [hext2_cdft hx, sum_mul, sum_mul]

theorem HermData3.data2 {Nx Lx x0 Ly y0 : ℕ} (hx : x0 < Lx) {x : ℕ → ℕ → ℕ → ℂ} (h : HermData3 Lx x0 Ly y0 x) (e : ℤ) :
    HermData2 Ly y0 (fun b c => cdft Nx Lx x0 (fun i => x i b c) e) := by
  intro j
  rw [conj_cext_cdft hx (fun i b => x i b 0), cext_cdft hx (fun i b => x i b 0)]
  refine sum_congr rfl fun i _ => ?_
  rw [← h, neg_neg]

theorem hermResult3_eq {Nx Lx x0 Ny Ly y0 Nz H : ℕ} (hx : x0 < Lx) (φ : ℕ → ℕ → ℕ → ℕ → (ℕ → ℝ) → ℝ) (X : ℕ → ℕ → ℕ → ℕ → ℂ) (b : ℕ)
    (i j k : ℤ) :
    hermResult3 Nx Lx x0 Ny Ly y0 Nz H φ X b i j k =
      1 / (Nx : ℂ) * ∑ kx ∈ range Nx, hermResult2 Ny Ly y0 Nz H (φ kx) (fun a b c => cdft Nx Lx x0 (fun i => X a i b c) kx) b j k *
        w Nx (-(i * kx)) := by
  unfold hermResult3 hermResult2
  rw [mul_assoc (Nx : ℂ), ← one_div_mul_one_div (Nx : ℂ), mul_assoc]
  congr 1
  rw [mul_sum]
  refine sum_congr rfl fun kx _ => ?_
  rw [mul_assoc, sum_mul]
  congr 1
  refine sum_congr rfl fun ky _ => ?_
  rw [sum_mul]
  refine sum_congr rfl fun kz _ => ?_
  simp only [hdft2_cdft hx]
  ring

theorem hermConv2_prod {Nx Lx x0 Ny H : ℕ} (x y : ℕ → ℕ → ℂ) (k l : ℤ) :
    hermConv2 Nx Lx x0 Ny H x y k l = ∑ p ∈ (Ioo (-(Lx : ℤ)) Lx ×ˢ Ioo (-(Lx : ℤ)) Lx) ×ˢ (Ioo (-(H : ℤ)) H ×ˢ Ioo (-(H : ℤ)) H),
      if (Nx : ℤ) ∣ p.1.1 + p.1.2 - k ∧ (Ny : ℤ) ∣ p.2.1 + p.2.2 - l then hext2 Lx x0 H x p.1.1 p.2.1 * hext2 Lx x0 H y p.1.2 p.2.2 else 0 := by
  unfold hermConv2
  rw [sum_product, sum_product]
  simp only [sum_product]

theorem hermResult3_binary {Nx Lx x0 Ny Ly y0 Nz H : ℕ} (hx : x0 < Lx) (hy : y0 < Ly) (hNx : Nx ≠ 0) (hNy : Ny ≠ 0) (hNz : Nz ≠ 0)
    (X : ℕ → ℕ → ℕ → ℕ → ℂ) (h0 : HermData3 Lx x0 Ly y0 (X 0)) (h1 : HermData3 Lx x0 Ly y0 (X 1)) {i j : ℕ} (k : ℕ) :
    hermResult3 Nx Lx x0 Ny Ly y0 Nz H (fun _ _ _ _ Y => Y 0 * Y 1) X 0 ((i : ℤ) - x0) ((j : ℤ) - y0) k =
      hermConv3 Nx Lx x0 Ny Ly y0 Nz H (X 0) (X 1) ((i : ℤ) - x0) ((j : ℤ) - y0) k := by
  rw [hermResult3_eq hx]
  have e1 : ∀ kx : ℕ, hermResult2 Ny Ly y0 Nz H (fun _ _ _ Y => Y 0 * Y 1) (fun a b c => cdft Nx Lx x0 (fun i => X a i b c) kx) 0
        ((j : ℤ) - y0) k =
      ∑ p ∈ (Ioo (-(Ly : ℤ)) Ly ×ˢ Ioo (-(Ly : ℤ)) Ly) ×ˢ (Ioo (-(H : ℤ)) H ×ˢ Ioo (-(H : ℤ)) H),
        if (Ny : ℤ) ∣ p.1.1 + p.1.2 - ((j : ℤ) - y0) ∧ (Nz : ℤ) ∣ p.2.1 + p.2.2 - k then
        cdft Nx (2 * Lx) Lx (fun i => hext3 Lx x0 Ly y0 H (X 0) ((i : ℤ) - Lx) p.1.1 p.2.1) kx *
          cdft Nx (2 * Lx) Lx (fun i => hext3 Lx x0 Ly y0 H (X 1) ((i : ℤ) - Lx) p.1.2 p.2.2) kx else 0 := by
    intro kx
    rw [hermResult2_binary hy hNy hNz _ (h0.data2 hx kx) (h1.data2 hx kx), hermConv2_prod]
    refine sum_congr rfl fun p _ => ?_
    rw [hext2_cdft' hx, hext2_cdft' hx]
  simp only [e1]
  have := conv_outerC (L := 2 * Lx) (x0 := Lx) hNx ((Ioo (-(Ly : ℤ)) Ly ×ˢ Ioo (-(Ly : ℤ)) Ly) ×ˢ (Ioo (-(H : ℤ)) H ×ˢ Ioo (-(H : ℤ)) H))
    (fun p => (Ny : ℤ) ∣ p.1.1 + p.1.2 - ((j : ℤ) - y0) ∧ (Nz : ℤ) ∣ p.2.1 + p.2.2 - k)
    (fun i p => hext3 Lx x0 Ly y0 H (X 0) ((i : ℤ) - Lx) p.1.1 p.2.1) (fun i p => hext3 Lx x0 Ly y0 H (X 1) ((i : ℤ) - Lx) p.1.2 p.2.2) (i + Lx - x0)
  have hk : ((i + Lx - x0 : ℕ) : ℤ) - Lx = (i : ℤ) - x0 := by omega
  rw [hk] at this
  rw [this]
  unfold hermConv3
  have hz : ∀ (x : ℕ → ℕ → ℕ → ℂ) j k, hext3 Lx x0 Ly y0 H x (-(Lx : ℤ)) j k = 0 := fun x j k => hext3_edge hx
  rw [sum_Ioo_range (by simp [hz])]
  refine sum_congr rfl fun i1 _ => ?_
  rw [sum_Ioo_range (by simp [hz])]
  refine sum_congr rfl fun i2 _ => ?_
  rw [sum_product, sum_product]
  simp only [sum_product]

theorem hermResult3_real {Nx Lx x0 Ny Ly y0 Nz H : ℕ} {φ : ℕ → ℕ → ℕ → ℕ → (ℕ → ℝ) → ℝ} {X : ℕ → ℕ → ℕ → ℕ → ℂ} {b : ℕ} (i j : ℤ) :
    hermResult3 Nx Lx x0 Ny Ly y0 Nz H φ X b (-i) (-j) 0 = conj (hermResult3 Nx Lx x0 Ny Ly y0 Nz H φ X b i j 0) := by
  unfold hermResult3
  rw [map_mul, map_sum]
  congr 1
  · simp
  refine sum_congr rfl fun kx _ => ?_
  rw [map_sum]
  refine sum_congr rfl fun ky _ => ?_
  rw [map_sum]
  refine sum_congr rfl fun kz _ => ?_
  rw [map_mul, map_mul, map_mul, w_conj, w_conj, w_conj, Complex.conj_ofReal]
  simp

theorem cext2_supp {Lx Ly : ℕ} {g : ℕ → ℕ → ℂ} (hzx : Lx % 2 = 0 → ∀ j < Ly, g 0 j = 0) (hzy : Ly % 2 = 0 → ∀ i < Lx, g i 0 = 0) {i j : ℤ}
    (hi : ¬ (i.natAbs < (Lx + 1) / 2 ∧ j.natAbs < (Ly + 1) / 2)) : cext2 Lx (Lx / 2) Ly (Ly / 2) g i j = 0 := by
  unfold cext2 cext
  split_ifs with h1 h2
  · by_cases h : i.natAbs < (Lx + 1) / 2
    · have h0 : (j + (Ly / 2 : ℕ)).toNat = 0 := by omega
      rw [h0]
      exact hzy (by omega) _ (by omega)
    · have h0 : (i + (Lx / 2 : ℕ)).toNat = 0 := by omega
      rw [h0]
      exact hzx (by omega) _ (by omega)
  · rfl
  · rfl

/-- The represented array vanishes outside `|i| < ⌈Lx/2⌉`, `|j| < ⌈Ly/2⌉` when the unpaired planes are zero. -/
theorem hext3_supp {Lx Ly H : ℕ} {x : ℕ → ℕ → ℕ → ℂ} (hzx : Lx % 2 = 0 → ∀ j < Ly, ∀ k < H, x 0 j k = 0)
    (hzy : Ly % 2 = 0 → ∀ i < Lx, ∀ k < H, x i 0 k = 0) {i j : ℤ} (k : ℤ) (hi : ¬ (i.natAbs < (Lx + 1) / 2 ∧ j.natAbs < (Ly + 1) / 2)) :
    hext3 Lx (Lx / 2) Ly (Ly / 2) H x i j k = 0 := by
  unfold hext3
  split_ifs with h1 h2
  · exact cext2_supp (g := fun a b => x a b k.natAbs) (fun he j hj => hzx he j hj _ h1) (fun he i hi => hzy he i hi _ h1) hi
  · rw [cext2_supp (g := fun a b => x a b k.natAbs) (fun he j hj => hzx he j hj _ h1) (fun he i hi => hzy he i hi _ h1) (by omega), map_zero]
  · rfl

theorem hermConv3_linear {Nx Lx Ny Ly Nz H : ℕ} {x y : ℕ → ℕ → ℕ → ℂ}
    (hx1 : Lx % 2 = 0 → ∀ j < Ly, ∀ k < H, x 0 j k = 0) (hx2 : Ly % 2 = 0 → ∀ i < Lx, ∀ k < H, x i 0 k = 0)
    (hy1 : Lx % 2 = 0 → ∀ j < Ly, ∀ k < H, y 0 j k = 0) (hy2 : Ly % 2 = 0 → ∀ i < Lx, ∀ k < H, y i 0 k = 0)
    (hNx : 2 * ((Lx + 1) / 2 - 1) + Lx / 2 < Nx) (hNy : 2 * ((Ly + 1) / 2 - 1) + Ly / 2 < Ny) (hNz : 3 * H ≤ Nz + 2) {i j k : ℕ} (hi : i < Lx)
    (hj : j < Ly) (hk : k < H) :
    hermConv3 Nx Lx (Lx / 2) Ny Ly (Ly / 2) Nz H x y ((i : ℤ) - (Lx / 2 : ℕ)) ((j : ℤ) - (Ly / 2 : ℕ)) k =
      hermLin3 Lx (Lx / 2) Ly (Ly / 2) H x y ((i : ℤ) - (Lx / 2 : ℕ)) ((j : ℤ) - (Ly / 2 : ℕ)) k := by
  unfold hermConv3 hermLin3
  refine sum_congr rfl fun i1 _ => sum_congr rfl fun i2 _ => sum_congr rfl fun j1 _ => sum_congr rfl fun j2 _ =>
    sum_congr rfl fun k1 h1 => sum_congr rfl fun k2 h2 => ?_
  rw [mem_Ioo] at h1 h2
  by_cases hs : i1.natAbs < (Lx + 1) / 2 ∧ j1.natAbs < (Ly + 1) / 2
  · by_cases hs2 : i2.natAbs < (Lx + 1) / 2 ∧ j2.natAbs < (Ly + 1) / 2
    · have e1 : (Nx : ℤ) ∣ i1 + i2 - ((i : ℤ) - (Lx / 2 : ℕ)) ↔ i1 + i2 = (i : ℤ) - (Lx / 2 : ℕ) := by
        rw [dvd_small (by omega) (by omega), sub_eq_zero]
      have e2 : (Ny : ℤ) ∣ j1 + j2 - ((j : ℤ) - (Ly / 2 : ℕ)) ↔ j1 + j2 = (j : ℤ) - (Ly / 2 : ℕ) := by
        rw [dvd_small (by omega) (by omega), sub_eq_zero]
      have e3 : (Nz : ℤ) ∣ k1 + k2 - k ↔ k1 + k2 = k := by
        rw [dvd_small (by omega) (by omega), sub_eq_zero]
      simp only [e1, e2, e3]
    · rw [hext3_supp hy1 hy2 _ hs2]; simp
  · rw [hext3_supp hx1 hx2 _ hs]; simp

end Fftwpp
