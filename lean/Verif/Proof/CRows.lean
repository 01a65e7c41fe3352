import Verif.Proof.Rows
import Verif.Spec.DftC
import Mathlib.Tactic.LinearCombination

/-! Algebra of residue rows for centered data. -/

namespace Fftwpp
open Finset

theorem cdft_congr {N L H : ℕ} {x : ℕ → ℂ} {k k' : ℤ} (h : (N : ℤ) ∣ k - k') : cdft N L H x k = cdft N L H x k' := by
  unfold cdft
  refine sum_congr rfl fun j _ => ?_
  congr 1
  apply w_congr
  obtain ⟨t, ht⟩ := h
  exact ⟨((j : ℤ) - H) * t, by linear_combination ((j : ℤ) - H) * ht⟩

/-- Splitting centered data into the part at nonnegative positions and the part at negative positions (wrapped around `K`). -/
theorem cent_sum {L H K : ℕ} (hHL : H ≤ L) (hHK : H ≤ K) (hLK : L - H ≤ K) (g : ℕ → ℂ) :
    ∑ j ∈ range L, g j = ∑ y ∈ range K, ((if y + H < L then g (y + H) else 0) + (if K - H ≤ y then g (y - (K - H)) else 0)) := by
  rw [sum_add_distrib]
  have h1 : ∑ j ∈ range L, g j = ∑ j ∈ range H, g j + ∑ j ∈ range (L - H), g (H + j) := by
    conv_lhs => rw [show L = H + (L - H) by omega]
    rw [sum_range_add]
  rw [h1, add_comm]
  congr 1
  · rw [sum_trunc (L - H) K hLK]
    refine sum_congr rfl fun y _ => ?_
    by_cases h2 : y + H < L
    · rw [if_pos (by omega), if_pos h2, Nat.add_comm]
    · rw [if_neg (by omega), if_neg h2]
  · obtain ⟨a, rfl⟩ : ∃ a, K = a + H := ⟨K - H, by omega⟩
    have h0 : ∑ y ∈ range a, (if a + H - H ≤ y then g (y - (a + H - H)) else 0) = 0 := by
      refine sum_eq_zero fun y hy => ?_
      rw [mem_range] at hy
      rw [if_neg (by omega)]
    rw [sum_range_add, h0, zero_add]
    refine sum_congr rfl fun j _ => ?_
    rw [if_pos (by omega)]
    congr 1; omega

/-- Row of residue `k`: the data folded modulo `m`, with twiddle factors (`P` blocks). -/
noncomputable def fillc (N L m P H : ℕ) (x : ℕ → ℂ) (k : ℤ) (s : ℕ) : ℂ :=
  ∑ t ∈ range P, ((if s + m * t + H < L then x (s + m * t + H) * w N ((s + m * t : ℕ) * k) else 0) +
    (if m * P - H ≤ s + m * t then x (s + m * t - (m * P - H)) * w N (((s + m * t : ℕ) - (m * P : ℕ) : ℤ) * k) else 0))

theorem fillc_one {N L m H : ℕ} (x : ℕ → ℂ) (k : ℤ) (s : ℕ) :
    fillc N L m 1 H x k s = (if s + H < L then x (s + H) * w N (s * k) else 0) +
      (if m - H ≤ s then x (s - (m - H)) * w N (((s : ℤ) - m) * k) else 0) := by
  simp [fillc]

/-- The FFT of a row gives the centered DFT at the frequencies `q i + k`. -/
theorem row_fftc {N L m P H q : ℕ} (hN : N = m * q) (hq : q ≠ 0) (hHL : H ≤ L) (hHK : H ≤ m * P)
    (hLK : L - H ≤ m * P) (x : ℕ → ℂ) (k : ℤ) (i : ℕ) :
    ∑ s ∈ range m, fillc N L m P H x k s * w m (1 * s * i) = cdft N L H x (q * i + k) := by
  unfold cdft fillc
  rw [cent_sum hHL hHK hLK, sum_split]
  refine sum_congr rfl fun s _ => ?_
  rw [sum_mul]
  refine sum_congr rfl fun t _ => ?_
  have key : ∀ a : ℤ, w m (1 * s * i) = w N (((s : ℤ) + m * a) * (q * i)) := by
    intro a
    have h2 : (((s : ℤ) + m * a) * (q * i)) = (q : ℤ) * (s * i) + (N : ℤ) * (a * i) := by
      rw [hN]; push_cast; ring
    rw [h2, w_add_mul, hN, w_base m q hq, one_mul]
  rw [add_mul]
  congr 1
  · split_ifs with h
    · rw [mul_assoc, key t, ← w_add]
      congr 2
      push_cast; ring
    · rw [zero_mul]
  · split_ifs with h
    · rw [mul_assoc, key ((t : ℤ) - P), ← w_add]
      congr 2
      have : ((s + m * t - (m * P - H) : ℕ) : ℤ) = s + m * t - (m * P - H) := by
        rw [Nat.cast_sub h, Nat.cast_sub hHK]; push_cast; ring
      rw [this]
      push_cast; ring
    · rw [zero_mul]

/-- Backward: one row's contribution at position `e ≡ s` modulo `m`. -/
theorem row_backc {N m q : ℕ} (hN : N = m * q) (hq : q ≠ 0) (F : ℕ → ℂ) (k e : ℤ) (s : ℕ) (he : (m : ℤ) ∣ e - s) :
    w N (-(e * k)) * ∑ i ∈ range m, F i * w m (-1 * i * s) =
      ∑ i ∈ range m, F i * w N (-(e * (q * i + k))) := by
  rw [mul_sum]
  refine sum_congr rfl fun i _ => ?_
  obtain ⟨a, ha⟩ := he
  have he' : e = s + m * a := by omega
  have h1 : w m (-1 * i * s) = w N (-(e * (q * i))) := by
    have h2 : -(e * (q * i)) = (q : ℤ) * (-1 * i * s) + (N : ℤ) * (-(a * i)) := by
      rw [hN, he']; push_cast; ring
    rw [h2, w_add_mul, hN, w_base m q hq]
  have h3 : -(e * (q * i + k)) = -(e * (q * i)) + -(e * k) := by ring
  rw [h1, h3, w_add]
  ring

/-- Row `t` before the inner transform of length `P` (`q=P n`). -/
noncomputable def gfill (q L m P H : ℕ) (x : ℕ → ℂ) (σ : ℤ) (t s : ℕ) : ℂ :=
  (if s + m * t + H < L then x (s + m * t + H) * w q (t * σ) else 0) +
    (if m * P - H ≤ s + m * t then x (s + m * t - (m * P - H)) * w q (((t : ℤ) - P) * σ) else 0)

/-- The inner transform followed by the twiddle factors gives the row of residue `n u + σ`. -/
theorem inner_fftc {N L m P H q n : ℕ} (hN : N = m * q) (hqP : q = P * n) (hm : m ≠ 0) (hn : n ≠ 0)
    (x : ℕ → ℂ) (σ : ℤ) (u s : ℕ) :
    (∑ t ∈ range P, gfill q L m P H x σ t s * w P (1 * t * u)) * w N (s * (n * u + σ)) =
      fillc N L m P H x (n * u + σ) s := by
  unfold fillc
  rw [sum_mul]
  refine sum_congr rfl fun t _ => ?_
  have key : ∀ a : ℤ, w N (((s : ℤ) + m * (t + P * a)) * (n * u + σ)) =
      w q ((t + P * a) * σ) * w P (1 * t * u) * w N (s * (n * u + σ)) := by
    intro a
    have h1 : w P (1 * t * u) = w q ((t + P * a) * (n * u)) := by
      have : ((t : ℤ) + P * a) * (n * u) = n * (1 * t * u) + q * (a * u) := by rw [hqP]; push_cast; ring
      rw [this, w_add_mul, hqP, w_base P n hn]
    rw [h1, ← w_add, ← w_base q m hm, Nat.mul_comm q m, ← hN, ← w_add]
    congr 1; ring
  unfold gfill
  rw [add_mul, add_mul]
  congr 1
  · split_ifs with h
    · have := key 0
      rw [mul_zero, add_zero] at this
      rw [show (((s + m * t : ℕ) : ℤ) * (n * u + σ)) = ((s : ℤ) + m * t) * (n * u + σ) by push_cast; ring, this]
      ring
    · ring
  · split_ifs with h
    · have := key (-1)
      rw [show (t : ℤ) + P * -1 = t - P by ring] at this
      rw [show (((s + m * t : ℕ) : ℤ) - (m * P : ℕ)) * (n * u + σ) = ((s : ℤ) + m * (t - P)) * (n * u + σ) by push_cast; ring, this]
      ring
    · ring

/-- Backward: the inner inverse transform, at block `t' ≡ t` modulo `P`. -/
theorem inner_backc {N m P q n : ℕ} (hN : N = m * q) (hqP : q = P * n) (hm : m ≠ 0) (hn : n ≠ 0)
    (Y : ℕ → ℂ) (σ t' e : ℤ) (t s : ℕ) (ht : (P : ℤ) ∣ t' - t) (he : e = s + m * t') :
    w q (-(t' * σ)) * ∑ u ∈ range P, Y u * w N (-(s * (n * u + σ))) * w P (-1 * u * t) =
      ∑ u ∈ range P, w N (-(e * (n * u + σ))) * Y u := by
  rw [mul_sum]
  refine sum_congr rfl fun u _ => ?_
  obtain ⟨a, ha⟩ := ht
  have ht' : t' = t + P * a := by omega
  have h1 : w P (-1 * u * t) = w q (-(t' * (n * u))) := by
    have : -(t' * (n * u)) = n * (-1 * u * t) + q * (-(a * u)) := by rw [hqP, ht']; push_cast; ring
    rw [this, w_add_mul, hqP, w_base P n hn]
  have h2 : w q (-(t' * σ)) * w q (-(t' * (n * u))) = w N (-(m * t' * (n * u + σ))) := by
    rw [← w_add, ← w_base q m hm, Nat.mul_comm q m, ← hN]
    congr 1; ring
  have h3 : w N (-(e * (n * u + σ))) = w N (-(m * t' * (n * u + σ))) * w N (-(s * (n * u + σ))) := by
    rw [← w_add, he]; congr 1; ring
  rw [h1, h3, ← h2]
  ring

end Fftwpp
