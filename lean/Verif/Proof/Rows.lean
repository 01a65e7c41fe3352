import Verif.Proof.Roots
import Mathlib.Algebra.BigOperators.Intervals

/-! Algebra of residue rows: how one residue of a padded DFT is an FFT of length `m` of a folded, twisted row. -/

namespace Fftwpp
open Finset

/-- Row of residue `k`: the data folded modulo `m` with twiddle factors. -/
noncomputable def fillv (N L m p : ℕ) (x : ℕ → ℂ) (k : ℤ) (s : ℕ) : ℂ :=
  ∑ u ∈ range p, if s + m * u < L then x (s + m * u) * w N (((s + m * u : ℕ) : ℤ) * k) else 0

theorem sum_split (p m : ℕ) (g : ℕ → ℂ) :
    ∑ j ∈ range (m * p), g j = ∑ s ∈ range m, ∑ u ∈ range p, g (s + m * u) := by
  induction p with
  | zero => simp
  | succ p ih =>
    rw [Nat.mul_succ, sum_range_add, ih, ← sum_add_distrib]
    refine sum_congr rfl fun s _ => ?_
    rw [sum_range_succ, Nat.add_comm (m * p) s]

theorem sum_trunc (L K : ℕ) (h : L ≤ K) (g : ℕ → ℂ) :
    ∑ j ∈ range L, g j = ∑ j ∈ range K, if j < L then g j else 0 := by
  rw [← sum_filter]
  refine sum_congr ?_ fun _ _ => rfl
  ext j
  simp only [mem_range, mem_filter]
  omega

theorem paddedDFT_congr {N L : ℕ} {x : ℕ → ℂ} {k k' : ℤ} (h : (N : ℤ) ∣ k - k') :
    paddedDFT N L x k = paddedDFT N L x k' := by
  unfold paddedDFT
  refine sum_congr rfl fun j _ => ?_
  congr 1
  apply w_congr
  obtain ⟨t, ht⟩ := h
  exact ⟨j * t, by linear_combination (j : ℤ) * ht⟩

theorem paddedDFT_ext {N L : ℕ} {x y : ℕ → ℂ} {k : ℤ} (h : ∀ j < L, x j = y j) :
    paddedDFT N L x k = paddedDFT N L y k :=
  sum_congr rfl fun j hj => by rw [h j (mem_range.1 hj)]

theorem fillv_ext {N L m p : ℕ} {x y : ℕ → ℂ} {k : ℤ} {s : ℕ} (h : ∀ j < L, x j = y j) :
    fillv N L m p x k s = fillv N L m p y k s :=
  sum_congr rfl fun u _ => by split_ifs with h1 <;> simp [h _, h1]

/-- The FFT of a row gives the padded DFT at the frequencies `q i + k`. -/
theorem row_fft {N L m p q : ℕ} (hN : N = m * q) (hm : m ≠ 0) (hq : q ≠ 0) (hL : L ≤ m * p) (x : ℕ → ℂ) (k : ℤ) (i : ℕ) :
    ∑ s ∈ range m, fillv N L m p x k s * w m (1 * s * i) = paddedDFT N L x (q * i + k) := by
  unfold paddedDFT fillv
  rw [sum_trunc L (m * p) hL, sum_split]
  refine sum_congr rfl fun s _ => ?_
  rw [sum_mul]
  refine sum_congr rfl fun u _ => ?_
  split_ifs with h
  · rw [mul_assoc]
    congr 1
    have h1 : w m (1 * s * i) = w N (((s + m * u : ℕ) : ℤ) * (q * i)) := by
      have h2 : (((s + m * u : ℕ) : ℤ) * (q * i)) = (q : ℤ) * (s * i) + (N : ℤ) * (u * i) := by
        rw [hN]; push_cast; ring
      rw [h2, w_add_mul, hN, w_base m q hq, one_mul]
    rw [h1, ← w_add]
    congr 1
    ring
  · simp

theorem fillv_one {N L m : ℕ} (x : ℕ → ℂ) (k : ℤ) (s : ℕ) :
    fillv N L m 1 x k s = if s < L then x s * w N (s * k) else 0 := by
  simp [fillv]

theorem fillv_two {N L m : ℕ} (x : ℕ → ℂ) (k : ℤ) (s : ℕ) :
    fillv N L m 2 x k s = (if s < L then x s * w N (s * k) else 0) +
      (if s + m < L then x (s + m) * w N (((s + m : ℕ) : ℤ) * k) else 0) := by
  simp [fillv, sum_range_succ]

/-- Backward: one row's contribution to `f[j]`. -/
theorem row_back {N m q : ℕ} (hN : N = m * q) (hm : m ≠ 0) (hq : q ≠ 0) (F : ℕ → ℂ) (k : ℤ) (s u : ℕ) :
    w N (-(((s + m * u : ℕ) : ℤ) * k)) * ∑ i ∈ range m, F i * w m (-1 * i * s) =
      ∑ i ∈ range m, F i * w N (-(((s + m * u : ℕ) : ℤ) * (q * i + k))) := by
  rw [mul_sum]
  refine sum_congr rfl fun i _ => ?_
  have h1 : w m (-1 * i * s) = w N (-(((s + m * u : ℕ) : ℤ) * (q * i))) := by
    have h2 : -(((s + m * u : ℕ) : ℤ) * (q * i)) = (q : ℤ) * (-1 * i * s) + (N : ℤ) * (-(u * i)) := by
      rw [hN]; push_cast; ring
    rw [h2, w_add_mul, hN, w_base m q hq]
  have h3 : -(((s + m * u : ℕ) : ℤ) * (q * i + k)) =
      -(((s + m * u : ℕ) : ℤ) * (q * i)) + -(((s + m * u : ℕ) : ℤ) * k) := by ring
  rw [h1, h3, w_add]
  ring

end Fftwpp
