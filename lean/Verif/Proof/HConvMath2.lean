import Verif.Spec.HermConv2
import Verif.Proof.HConvMath
import Verif.Proof.ConvMathC

/-! Convolution theorems for Hermitian-symmetric data in two and three dimensions. -/

namespace Fftwpp
open Finset ComplexConjugate

theorem cext_out {L x0 : ℕ} {x : ℕ → ℂ} {i : ℤ} (h : ¬ (-(x0 : ℤ) ≤ i ∧ i < L - x0)) : cext L x0 x i = 0 := by
  unfold cext; rw [if_neg h]

theorem cdft_cext {N L x0 : ℕ} (hx : x0 < L) (x : ℕ → ℂ) (e : ℤ) :
    cdft N L x0 x e = ∑ i ∈ Ioo (-(L : ℤ)) L, cext L x0 x i * w N (i * e) := by
  have h1 : ∑ i ∈ Ioo (-(L : ℤ)) L, cext L x0 x i * w N (i * e) = ∑ i ∈ Ico (-(x0 : ℤ)) (L - x0), cext L x0 x i * w N (i * e) := by
    symm
    refine sum_subset (fun i hi => ?_) (fun i _ hn => ?_)
    · rw [mem_Ico] at hi; rw [mem_Ioo]; omega
    · rw [mem_Ico] at hn
      rw [cext_out hn, zero_mul]
  rw [h1]
  unfold cdft
  refine sum_nbij' (fun j => (j : ℤ) - x0) (fun i => (i + x0).toNat) ?_ ?_ ?_ ?_ ?_
  · intro j hj; rw [mem_range] at hj; rw [mem_Ico]; omega
  · intro i hi; rw [mem_Ico] at hi; rw [mem_range]; omega
  · intro j _; simp
  · intro i hi; rw [mem_Ico] at hi; have := hi.1; show ((i + x0).toNat : ℤ) - x0 = i; omega
  · intro j hj
    rw [mem_range] at hj
    unfold cext
    rw [if_pos (by omega)]
    simp

theorem sum_Ioo_neg {L : ℕ} (g : ℤ → ℂ) : ∑ i ∈ Ioo (-(L : ℤ)) L, g (-i) = ∑ i ∈ Ioo (-(L : ℤ)) L, g i := by
  refine sum_nbij' (fun i => -i) (fun i => -i) ?_ ?_ ?_ ?_ ?_
  · intro i hi; rw [mem_Ioo] at hi ⊢; omega
  · intro i hi; rw [mem_Ioo] at hi ⊢; omega
  · intro i _; simp
  · intro i _; simp
  · intro i _; rfl

theorem conj_cdft {N L x0 : ℕ} (hx : x0 < L) (x : ℕ → ℂ) (e : ℤ) :
    conj (cdft N L x0 x e) = ∑ i ∈ Ioo (-(L : ℤ)) L, conj (cext L x0 x (-i)) * w N (i * e) := by
  rw [cdft_cext hx, map_sum, ← sum_Ioo_neg]
  refine sum_congr rfl fun i _ => ?_
  rw [map_mul, w_conj, neg_mul, neg_neg]

/-- The transform in the outer direction of the represented array. -/
theorem hext_cdft {N Lx x0 H : ℕ} (hx : x0 < Lx) (x : ℕ → ℕ → ℂ) (e j : ℤ) :
    hext H (fun c => cdft N Lx x0 (fun i => x i c) e) j = ∑ i ∈ Ioo (-(Lx : ℤ)) Lx, hext2 Lx x0 H x i j * w N (i * e) := by
  unfold hext hext2
  split_ifs
  · exact cdft_cext hx _ e
  · exact conj_cdft hx _ e
  · simp

theorem hext2_edge {Lx x0 H : ℕ} (hx : x0 < Lx) {x : ℕ → ℕ → ℂ} {j : ℤ} : hext2 Lx x0 H x (-(Lx : ℤ)) j = 0 := by
  unfold hext2
  rw [cext_out (by omega), cext_out (by omega)]
  simp

theorem hext_cdft' {N Lx x0 H : ℕ} (hx : x0 < Lx) (x : ℕ → ℕ → ℂ) (e j : ℤ) :
    hext H (fun c => cdft N Lx x0 (fun i => x i c) e) j = cdft N (2 * Lx) Lx (fun i => hext2 Lx x0 H x ((i : ℤ) - Lx) j) e := by
  rw [hext_cdft hx, sum_Ioo_range (by rw [hext2_edge hx, zero_mul])]
  rfl

theorem hdft_Ioo {N H : ℕ} (x : ℕ → ℂ) (k : ℤ) : hdft N H x k = ∑ j ∈ Ioo (-(H : ℤ)) H, hext H x j * w N (j * k) := by
  rw [hdft_range, sum_Ioo_range (by rw [hext_out (by simp), zero_mul])]

theorem hdft_cdft {Nx Lx x0 Ny H : ℕ} (hx : x0 < Lx) (x : ℕ → ℕ → ℂ) (kx ky : ℤ) :
    hdft Ny H (fun c => cdft Nx Lx x0 (fun i => x i c) kx) ky = hdft2 Nx Lx x0 Ny H x kx ky := by
  rw [hdft_Ioo]
  unfold hdft2
  rw [sum_comm]
  refine sum_congr rfl fun j _ => ?_
  rw [hext_cdft hx, sum_mul]

theorem HermData2.real {Nx Lx x0 : ℕ} (hx : x0 < Lx) {x : ℕ → ℕ → ℂ} (h : HermData2 Lx x0 x) (e : ℤ) :
    (cdft Nx Lx x0 (fun i => x i 0) e).im = 0 := by
  rw [← Complex.conj_eq_iff_im, conj_cdft hx, cdft_cext hx]
  refine sum_congr rfl fun i _ => ?_
  rw [h i, Complex.conj_conj]

theorem hermResult2_eq {Nx Lx x0 Ny H : ℕ} (hx : x0 < Lx) (φ : ℕ → ℕ → ℕ → (ℕ → ℝ) → ℝ) (X : ℕ → ℕ → ℕ → ℂ) (b : ℕ) (i : ℤ) (j : ℕ) :
    hermResult2 Nx Lx x0 Ny H φ X b i j =
      1 / (Nx : ℂ) * ∑ kx ∈ range Nx, hermResult Ny H (φ kx) (fun a c => cdft Nx Lx x0 (fun i => X a i c) kx) b j * w Nx (-(i * kx)) := by
  unfold hermResult2 hermResult
  rw [← one_div_mul_one_div, mul_assoc]
  congr 1
  rw [mul_sum]
  refine sum_congr rfl fun kx _ => ?_
  rw [mul_assoc, sum_mul]
  congr 1
  refine sum_congr rfl fun ky _ => ?_
  simp only [hdft_cdft hx]
  ring

theorem hermConv_prod {N H : ℕ} (x y : ℕ → ℂ) (k : ℤ) :
    hermConv N H x y k = ∑ p ∈ Ioo (-(H : ℤ)) H ×ˢ Ioo (-(H : ℤ)) H, if (N : ℤ) ∣ p.1 + p.2 - k then hext H x p.1 * hext H y p.2 else 0 := by
  rw [sum_product]
  rfl

theorem hermResult2_binary {Nx Lx x0 Ny H : ℕ} (hx : x0 < Lx) (hNx : Nx ≠ 0) (hNy : Ny ≠ 0) (X : ℕ → ℕ → ℕ → ℂ)
    (h0 : HermData2 Lx x0 (X 0)) (h1 : HermData2 Lx x0 (X 1)) {i : ℕ} (j : ℕ) :
    hermResult2 Nx Lx x0 Ny H (fun _ _ _ Y => Y 0 * Y 1) X 0 ((i : ℤ) - x0) j = hermConv2 Nx Lx x0 Ny H (X 0) (X 1) ((i : ℤ) - x0) j := by
  rw [hermResult2_eq hx]
  have e1 : ∀ kx : ℕ, hermResult Ny H (fun _ _ Y => Y 0 * Y 1) (fun a c => cdft Nx Lx x0 (fun i => X a i c) kx) 0 j =
      ∑ p ∈ Ioo (-(H : ℤ)) H ×ˢ Ioo (-(H : ℤ)) H, if (Ny : ℤ) ∣ p.1 + p.2 - j then
        cdft Nx (2 * Lx) Lx (fun i => hext2 Lx x0 H (X 0) ((i : ℤ) - Lx) p.1) kx *
          cdft Nx (2 * Lx) Lx (fun i => hext2 Lx x0 H (X 1) ((i : ℤ) - Lx) p.2) kx else 0 := by
    intro kx
    rw [hermResult_binary hNy _ (h0.real hx kx) (h1.real hx kx), hermConv_prod]
    refine sum_congr rfl fun p _ => ?_
    rw [hext_cdft' hx, hext_cdft' hx]
  simp only [e1]
  have := conv_outerC (L := 2 * Lx) (x0 := Lx) hNx (Ioo (-(H : ℤ)) H ×ˢ Ioo (-(H : ℤ)) H) (fun p => (Ny : ℤ) ∣ p.1 + p.2 - j)
    (fun i p => hext2 Lx x0 H (X 0) ((i : ℤ) - Lx) p.1) (fun i p => hext2 Lx x0 H (X 1) ((i : ℤ) - Lx) p.2) (i + Lx - x0)
  have hk : ((i + Lx - x0 : ℕ) : ℤ) - Lx = (i : ℤ) - x0 := by omega
  rw [hk] at this
  rw [this]
  unfold hermConv2
  have hz : ∀ (x : ℕ → ℕ → ℂ) j, hext2 Lx x0 H x (-(Lx : ℤ)) j = 0 := fun x j => hext2_edge hx
  rw [sum_Ioo_range (by simp [hz])]
  refine sum_congr rfl fun i1 _ => ?_
  rw [sum_Ioo_range (by simp [hz])]
  refine sum_congr rfl fun i2 _ => ?_
  rw [sum_product]

theorem hermResult2_real {Nx Lx x0 Ny H : ℕ} (hx : x0 < Lx) {φ : ℕ → ℕ → ℕ → (ℕ → ℝ) → ℝ} {X : ℕ → ℕ → ℕ → ℂ} {b : ℕ} (i : ℤ) :
    hermResult2 Nx Lx x0 Ny H φ X b (-i) 0 = conj (hermResult2 Nx Lx x0 Ny H φ X b i 0) := by
  unfold hermResult2
  rw [map_mul, map_sum]
  congr 1
  · simp
  refine sum_congr rfl fun kx _ => ?_
  rw [map_sum]
  refine sum_congr rfl fun ky _ => ?_
  rw [map_mul, map_mul, w_conj, w_conj, Complex.conj_ofReal]
  simp

/-- Positions that are congruent are equal. -/
theorem dvd_small {N : ℕ} {a : ℤ} (h1 : -(N : ℤ) < a) (h2 : a < N) : (N : ℤ) ∣ a ↔ a = 0 := by
  constructor
  · intro h
    exact Int.eq_zero_of_abs_lt_dvd h (by rw [abs_lt]; exact ⟨h1, h2⟩)
  · rintro rfl; simp

/-- The represented array vanishes outside `|i| < ⌈Lx/2⌉`, when the unpaired row of an even number of rows is zero. -/
theorem hext2_supp {Lx H : ℕ} {x : ℕ → ℕ → ℂ} (hz : Lx % 2 = 0 → ∀ j < H, x 0 j = 0) {i : ℤ} (j : ℤ) (hi : ¬ i.natAbs < (Lx + 1) / 2) :
    hext2 Lx (Lx / 2) H x i j = 0 := by
  have h : ∀ (i : ℤ) (c : ℕ), c < H → ¬ i.natAbs < (Lx + 1) / 2 → cext Lx (Lx / 2) (fun a => x a c) i = 0 := by
    intro i c hc hi
    unfold cext
    split_ifs with h
    · have h0 : (i + (Lx / 2 : ℕ)).toNat = 0 := by omega
      rw [h0]
      exact hz (by omega) c hc
    · rfl
  unfold hext2
  split_ifs with h1 h2
  · exact h i _ h1 hi
  · rw [h (-i) _ h1 (by omega), map_zero]
  · rfl

theorem hermConv2_linear {Nx Lx Ny H : ℕ} {x y : ℕ → ℕ → ℂ} (hzx : Lx % 2 = 0 → ∀ j < H, x 0 j = 0) (hzy : Lx % 2 = 0 → ∀ j < H, y 0 j = 0)
    (hNx : 2 * ((Lx + 1) / 2 - 1) + Lx / 2 < Nx) (hNy : 3 * H ≤ Ny + 2) {i j : ℕ} (hi : i < Lx) (hj : j < H) :
    hermConv2 Nx Lx (Lx / 2) Ny H x y ((i : ℤ) - (Lx / 2 : ℕ)) j = hermLin2 Lx (Lx / 2) H x y ((i : ℤ) - (Lx / 2 : ℕ)) j := by
  unfold hermConv2 hermLin2
  refine sum_congr rfl fun i1 _ => sum_congr rfl fun i2 _ => sum_congr rfl fun j1 h1 => sum_congr rfl fun j2 h2 => ?_
  rw [mem_Ioo] at h1 h2
  by_cases hs : i1.natAbs < (Lx + 1) / 2
  · by_cases hs2 : i2.natAbs < (Lx + 1) / 2
    · have e1 : (Nx : ℤ) ∣ i1 + i2 - ((i : ℤ) - (Lx / 2 : ℕ)) ↔ i1 + i2 = (i : ℤ) - (Lx / 2 : ℕ) := by
        rw [dvd_small (by omega) (by omega), sub_eq_zero]
      have e2 : (Ny : ℤ) ∣ j1 + j2 - j ↔ j1 + j2 = j := by
        rw [dvd_small (by omega) (by omega), sub_eq_zero]
      simp only [e1, e2]
    · rw [hext2_supp hzy _ hs2]; simp
  · rw [hext2_supp hzx _ hs]; simp

end Fftwpp
