import Verif.Proof.Blocks

/-! The convolution theorem for zero-padded data. -/

namespace Fftwpp
open Finset

theorem mod_eq_iff_dvd {N i j : ℕ} : i % N = j % N ↔ (N : ℤ) ∣ (i : ℤ) - j := by
  constructor
  · intro h
    have : j ≡ i [MOD N] := h.symm
    exact (Nat.modEq_iff_dvd.1 this)
  · intro h
    have : j ≡ i [MOD N] := Nat.modEq_iff_dvd.2 h
    exact this.symm

/-- Products of transforms are transforms of cyclic convolutions (general exponents). -/
theorem conv_sum {N L : ℕ} (hN : N ≠ 0) (x y : ℕ → ℂ) (u v : ℕ → ℤ) (k : ℤ) :
    1 / (N : ℂ) * ∑ e ∈ range N, (∑ i ∈ range L, x i * w N (u i * e)) * (∑ j ∈ range L, y j * w N (v j * e)) * w N (-(k * e)) =
      ∑ i ∈ range L, ∑ j ∈ range L, if (N : ℤ) ∣ u i + v j - k then x i * y j else 0 := by
  have hN' : (N : ℂ) ≠ 0 := by exact_mod_cast hN
  have e1 : ∀ e : ℕ, (∑ i ∈ range L, x i * w N (u i * e)) * (∑ j ∈ range L, y j * w N (v j * e)) * w N (-(k * e)) =
      ∑ i ∈ range L, ∑ j ∈ range L, x i * y j * w N (e * (u i + v j - k)) := by
    intro e
    rw [sum_mul_sum, sum_mul]
    refine sum_congr rfl fun i _ => ?_
    rw [sum_mul]
    refine sum_congr rfl fun j _ => ?_
    rw [show (e : ℤ) * (u i + v j - k) = u i * e + v j * e + -(k * e) by ring, w_add, w_add]
    ring
  rw [sum_congr rfl fun e _ => e1 e, sum_comm, mul_sum]
  refine sum_congr rfl fun i _ => ?_
  rw [sum_comm, mul_sum]
  refine sum_congr rfl fun j _ => ?_
  rw [← mul_sum, w_sum N hN]
  split_ifs
  · field_simp
  · simp

theorem convResult_binary {N L : ℕ} (hN : N ≠ 0) (X : ℕ → ℕ → ℂ) (k : ℕ) :
    convResult N L (fun _ _ Y => Y 0 * Y 1) X 0 k = cyclicConv N L (X 0) (X 1) k := by
  unfold convResult cyclicConv paddedDFT
  have := conv_sum (L := L) hN (X 0) (X 1) (fun i => (i : ℤ)) (fun j => (j : ℤ)) k
  rw [this]
  refine sum_congr rfl fun i _ => sum_congr rfl fun j _ => ?_
  congr 1
  rw [mod_eq_iff_dvd]
  push_cast
  rfl

theorem convResult_corr {N L : ℕ} (hN : N ≠ 0) (X : ℕ → ℕ → ℂ) (k : ℕ) :
    convResult N L (fun _ _ Y => Y 0 * (starRingEnd ℂ) (Y 1)) X 0 k = cyclicCorr N L (X 0) (X 1) k := by
  unfold convResult cyclicCorr paddedDFT
  have hc : ∀ e : ℕ, (starRingEnd ℂ) (∑ j ∈ range L, X 1 j * w N (j * e)) =
      ∑ j ∈ range L, (starRingEnd ℂ) (X 1 j) * w N (-(j : ℤ) * e) := by
    intro e
    rw [map_sum]
    refine sum_congr rfl fun j _ => ?_
    rw [map_mul, w_conj]
    congr 2; ring
  simp only [hc]
  have := conv_sum (L := L) hN (X 0) (fun j => (starRingEnd ℂ) (X 1 j)) (fun i => (i : ℤ)) (fun j => -(j : ℤ)) k
  rw [this]
  refine sum_congr rfl fun i _ => sum_congr rfl fun j _ => ?_
  rw [← sub_eq_add_neg]

/-- No aliasing when `N ≥ 2L-1`. -/
theorem cyclicConv_linear {N L : ℕ} (hN : 2 * L - 1 ≤ N) (x y : ℕ → ℂ) {k : ℕ} (hk : k < L) :
    cyclicConv N L x y k = linearConv L x y k := by
  unfold cyclicConv linearConv
  refine sum_congr rfl fun i hi => sum_congr rfl fun j hj => ?_
  rw [mem_range] at hi hj
  congr 1
  rw [Nat.mod_eq_of_lt (show i + j < N by omega), Nat.mod_eq_of_lt (show k < N by omega)]

theorem convResult_congr {N L : ℕ} {φ : ℕ → ℕ → (ℕ → ℂ) → ℂ} {A : ℕ}
    (hφ : ∀ e b X Y, (∀ a < A, X a = Y a) → φ e b X = φ e b Y) {X Y : ℕ → ℕ → ℂ} (hXY : ∀ a < A, ∀ j < L, X a j = Y a j) (b j : ℕ) :
    convResult N L φ X b j = convResult N L φ Y b j := by
  unfold convResult
  congr 1
  refine sum_congr rfl fun e _ => ?_
  congr 1
  refine hφ _ _ _ _ fun a ha => ?_
  unfold paddedDFT
  refine sum_congr rfl fun j hj => ?_
  rw [hXY a ha j (mem_range.1 hj)]

end Fftwpp
