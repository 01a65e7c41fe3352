import Verif.Spec.HermConv
import Verif.Proof.HMath
import Verif.Proof.ConvMath

/-! The convolution theorem for Hermitian-symmetric data. -/

namespace Fftwpp
open Finset ComplexConjugate

theorem hext_out {H : ℕ} {x : ℕ → ℂ} {j : ℤ} (h : H ≤ j.natAbs) : hext H x j = 0 := by
  unfold hext; rw [if_neg (by omega)]

/-- Sums over `(-H,H)` of terms vanishing at `-H`. -/
theorem sum_Ioo_range {H : ℕ} {g : ℤ → ℂ} (h0 : g (-(H : ℤ)) = 0) :
    ∑ i ∈ Ioo (-(H : ℤ)) H, g i = ∑ i ∈ range (2 * H), g ((i : ℤ) - H) := by
  have h1 : ∑ i ∈ Ioo (-(H : ℤ)) H, g i = ∑ i ∈ Ico (-(H : ℤ)) H, g i := by
    refine sum_subset (fun i hi => ?_) (fun i hi hn => ?_)
    · rw [mem_Ioo] at hi; rw [mem_Ico]; omega
    · rw [mem_Ico] at hi
      rw [mem_Ioo] at hn
      obtain rfl : i = -(H : ℤ) := by omega
      exact h0
  rw [h1]
  symm
  refine sum_bij (fun i _ => (i : ℤ) - H) ?_ ?_ ?_ ?_
  · intro i hi; rw [mem_range] at hi; rw [mem_Ico]; omega
  · intro i _ j _ h; omega
  · intro i hi
    rw [mem_Ico] at hi
    exact ⟨(i + H).toNat, by rw [mem_range]; omega, by omega⟩
  · intro i _; rfl

theorem hdft_range {N H : ℕ} (x : ℕ → ℂ) (k : ℤ) :
    hdft N H x k = ∑ i ∈ range (2 * H), hext H x ((i : ℤ) - H) * w N (((i : ℤ) - H) * k) := by
  rw [hdft_eq le_rfl x k, sum_add_distrib, add_comm, two_mul, sum_range_add]
  congr 1
  refine sum_congr rfl fun i _ => ?_
  rw [show (((H + i : ℕ) : ℤ) - H) = i by push_cast; ring]

theorem hermConv_range {N H : ℕ} (x y : ℕ → ℂ) (k : ℤ) :
    hermConv N H x y k = ∑ i ∈ range (2 * H), ∑ j ∈ range (2 * H),
      if (N : ℤ) ∣ ((i : ℤ) - H) + ((j : ℤ) - H) - k then hext H x ((i : ℤ) - H) * hext H y ((j : ℤ) - H) else 0 := by
  unfold hermConv
  have hz : ∀ x : ℕ → ℂ, hext H x (-(H : ℤ)) = 0 := fun x => hext_out (by simp)
  rw [sum_Ioo_range]
  · refine sum_congr rfl fun i _ => ?_
    rw [sum_Ioo_range]
    simp [hz]
  · simp [hz]

theorem hermResult_binary {N H : ℕ} (hN : N ≠ 0) (X : ℕ → ℕ → ℂ) (h0 : (X 0 0).im = 0) (h1 : (X 1 0).im = 0) (k : ℕ) :
    hermResult N H (fun _ _ Y => Y 0 * Y 1) X 0 k = hermConv N H (X 0) (X 1) k := by
  rw [hermConv_range, ← conv_sum hN]
  unfold hermResult
  have hr : ∀ (x : ℕ → ℂ), (x 0).im = 0 → ∀ e : ℕ, (((hdft N H x e).re : ℝ) : ℂ) = hdft N H x e := by
    intro x hx e
    apply Complex.ext <;> simp [hdft_real hx]
  congr 1
  refine sum_congr rfl fun e _ => ?_
  rw [Complex.ofReal_mul, hr _ h0, hr _ h1, ← hdft_range, ← hdft_range]

theorem hermConv_linear {N H : ℕ} (hN : 3 * H ≤ N + 2) (x y : ℕ → ℂ) {k : ℕ} (hk : k < H) : hermConv N H x y k = hermLin H x y k := by
  unfold hermConv hermLin
  refine sum_congr rfl fun i hi => sum_congr rfl fun j hj => ?_
  rw [mem_Ioo] at hi hj
  have : (N : ℤ) ∣ i + j - k ↔ i + j = k := by
    constructor
    · rintro ⟨t, ht⟩
      have h1 : -(N : ℤ) < N * t := by omega
      have h2 : (N : ℤ) * t < N := by omega
      have h3 : t = 0 := by
        rcases lt_trichotomy t 0 with h | h | h
        · have : (N : ℤ) * t ≤ N * (-1) := mul_le_mul_of_nonneg_left (by omega) (by omega)
          omega
        · exact h
        · have : (N : ℤ) * 1 ≤ N * t := mul_le_mul_of_nonneg_left (by omega) (by omega)
          omega
      rw [h3] at ht
      omega
    · intro h
      exact ⟨0, by omega⟩
  rw [if_congr this rfl rfl]

/-- The element at the origin of a result is real. -/
theorem hermResult_real {N H : ℕ} {φ : ℕ → ℕ → (ℕ → ℝ) → ℝ} {X : ℕ → ℕ → ℂ} {b : ℕ} : (hermResult N H φ X b 0).im = 0 := by
  unfold hermResult
  rw [← Complex.conj_eq_iff_im]
  simp only [map_mul, map_sum, w_conj]
  simp [w_zero]

end Fftwpp
