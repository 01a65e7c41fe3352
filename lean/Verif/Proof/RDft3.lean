import Verif.Proof.MpiFft3b
import Verif.Proof.RDft2
import Verif.Spec.RDft3

/-!
# Spectra of three-dimensional real arrays
-/

namespace Fftwpp
open Finset

theorem rdft3_zero (X Y Z : ℕ) (G : ℕ → ℕ → ℕ → ℝ) (kx ky kz : ℕ) :
    rdft3 X Y Z 0 0 G kx ky kz = dft3 X Y Z (-1) (fun i j k => (G i j k : ℂ)) kx ky kz := by
  unfold rdft3 dft3
  refine sum_congr rfl fun i _ => sum_congr rfl fun j _ => sum_congr rfl fun k _ => ?_
  rw [show (-((i : ℤ) * ((kx : ℤ) - (0 : ℕ)))) = -1 * i * kx by push_cast; ring, show (-((j : ℤ) * ((ky : ℤ) - (0 : ℕ)))) = -1 * j * ky by push_cast; ring,
    show (-((k : ℤ) * (kz : ℤ))) = -1 * k * kz by ring]

theorem irdft3_zero (X Y Z : ℕ) (F : ℕ → ℕ → ℕ → ℂ) (i j k : ℕ) : irdft3 X Y Z 0 0 F i j k = dft3 X Y Z 1 F i j k := by
  unfold irdft3 dft3
  refine sum_congr rfl fun kx _ => sum_congr rfl fun ky _ => sum_congr rfl fun kz _ => ?_
  rw [show ((i : ℤ) * ((kx : ℤ) - (0 : ℕ))) = 1 * kx * i by push_cast; ring, show ((j : ℤ) * ((ky : ℤ) - (0 : ℕ))) = 1 * ky * j by push_cast; ring,
    show ((k : ℤ) * (kz : ℤ)) = 1 * kz * k by ring]

/-- Fourier origins at half of even sizes amount to alternating signs. -/
theorem rdft3_half {X Y Z : ℕ} (hX : 0 < X) (hx : X % 2 = 0) (hY : 0 < Y) (hy : Y % 2 = 0) (G : ℕ → ℕ → ℕ → ℝ) (kx ky kz : ℕ) :
    rdft3 X Y Z (X / 2) (Y / 2) G kx ky kz = rdft3 X Y Z 0 0 (fun i j k => Net.Rcfft2MPI.sgn (i + j) * G i j k) kx ky kz := by
  unfold rdft3
  refine sum_congr rfl fun i _ => sum_congr rfl fun j _ => sum_congr rfl fun k _ => ?_
  rw [show (-((i : ℤ) * ((kx : ℤ) - (X / 2 : ℕ)))) = -((i : ℤ) * ((kx : ℤ) - (0 : ℕ))) + i * (X / 2 : ℕ) by push_cast; ring, w_add, w_halfX hX hx,
    show (-((j : ℤ) * ((ky : ℤ) - (Y / 2 : ℕ)))) = -((j : ℤ) * ((ky : ℤ) - (0 : ℕ))) + j * (Y / 2 : ℕ) by push_cast; ring, w_add, w_halfX hY hy]
  have : Net.Rcfft2MPI.sgn (i + j) = Net.Rcfft2MPI.sgn i * Net.Rcfft2MPI.sgn j := by
    unfold Net.Rcfft2MPI.sgn
    split_ifs <;> first | omega | norm_num
  beta_reduce
  rw [this]
  push_cast
  ring

theorem irdft3_half {X Y Z : ℕ} (hX : 0 < X) (hx : X % 2 = 0) (hY : 0 < Y) (hy : Y % 2 = 0) (F : ℕ → ℕ → ℕ → ℂ) (i j k : ℕ) :
    irdft3 X Y Z (X / 2) (Y / 2) F i j k = (Net.Rcfft2MPI.sgn (i + j) : ℂ) * irdft3 X Y Z 0 0 F i j k := by
  have : Net.Rcfft2MPI.sgn (i + j) = Net.Rcfft2MPI.sgn i * Net.Rcfft2MPI.sgn j := by
    unfold Net.Rcfft2MPI.sgn
    split_ifs <;> first | omega | norm_num
  have h1 : w X (-((i : ℤ) * (X / 2 : ℕ))) = (Net.Rcfft2MPI.sgn i : ℂ) := by rw [← w_conj, w_halfX hX hx, sgn_conj]
  have h2 : w Y (-((j : ℤ) * (Y / 2 : ℕ))) = (Net.Rcfft2MPI.sgn j : ℂ) := by rw [← w_conj, w_halfX hY hy, sgn_conj]
  unfold irdft3
  rw [mul_sum]
  refine sum_congr rfl fun kx _ => ?_
  rw [mul_sum]
  refine sum_congr rfl fun ky _ => ?_
  rw [mul_sum]
  refine sum_congr rfl fun kz _ => ?_
  rw [show ((i : ℤ) * ((kx : ℤ) - (X / 2 : ℕ))) = (i : ℤ) * ((kx : ℤ) - (0 : ℕ)) + -((i : ℤ) * (X / 2 : ℕ)) by push_cast; ring, w_add, h1,
    show ((j : ℤ) * ((ky : ℤ) - (Y / 2 : ℕ))) = (j : ℤ) * ((ky : ℤ) - (0 : ℕ)) + -((j : ℤ) * (Y / 2 : ℕ)) by push_cast; ring, w_add, h2, this]
  push_cast
  ring

theorem w_opp_sub {X kx : ℕ} (hkx : kx < X) {x0 : ℕ} (h0 : (X : ℤ) ∣ 2 * x0) (i : ℕ) :
    w X (-(i * ((((X - kx) % X : ℕ) : ℤ) - x0))) = w X (- -(i * ((kx : ℤ) - x0))) := by
  refine w_congr ?_
  have h := opp_dvd hkx
  have : (-(i * ((((X - kx) % X : ℕ) : ℤ) - x0)) - - -(i * ((kx : ℤ) - x0)) : ℤ) = -i * ((((X - kx) % X : ℕ) : ℤ) + kx) + i * (2 * x0) := by ring
  rw [this]
  exact dvd_add (h.mul_left _) (h0.mul_left _)

/-- The spectrum of a real array. -/
theorem rdft3_herm {X Y Z x0 y0 : ℕ} (h0 : (X : ℤ) ∣ 2 * x0) (h1 : (Y : ℤ) ∣ 2 * y0) (G : ℕ → ℕ → ℕ → ℝ) : HermSpec3 X Y Z (rdft3 X Y Z x0 y0 G) := by
  intro kx hkx ky hky kz hkz
  unfold rdft3
  rw [map_sum]
  refine sum_congr rfl fun i _ => ?_
  rw [map_sum]
  refine sum_congr rfl fun j _ => ?_
  rw [map_sum]
  refine sum_congr rfl fun k _ => ?_
  rw [map_mul, map_mul, map_mul, Complex.conj_ofReal, w_conj, w_conj, w_conj, w_opp_sub hkx h0, w_opp_sub hky h1]
  congr 1
  have := w_opp_sub (x0 := 0) hkz (by simp) k
  rw [Nat.cast_zero, sub_zero, sub_zero] at this
  exact this

/-- The transform in x of a Hermitian array has Hermitian planes. -/
theorem herm3_x {X Y Z : ℕ} {F : ℕ → ℕ → ℕ → ℂ} (h : HermSpec3 X Y Z F) (i : ℕ) :
    HermSpec2 Y Z fun ky kz => ∑ t ∈ range X, F t ky kz * w X (1 * t * i) := by
  intro ky hky kz hkz
  beta_reduce
  rw [map_sum, ← sum_opp X]
  refine sum_congr rfl fun kx hkx => ?_
  rw [map_mul, w_conj, h kx (mem_range.1 hkx) ky hky kz hkz]
  congr 1
  have := w_opp (mem_range.1 hkx) (i : ℤ)
  rw [show ((1 : ℤ) * (((X - kx) % X : ℕ) : ℤ) * i) = i * (((X - kx) % X : ℕ) : ℤ) by ring, this]
  congr 1; ring

theorem roundtrip_real3 {X Y Z : ℕ} (hX : 0 < X) (hY : 0 < Y) (hZ : 0 < Z) (G : ℕ → ℕ → ℕ → ℝ) {i j k : ℕ} (hi : i < X) (hj : j < Y) (hk : k < Z) :
    (irdft3 X Y Z 0 0 (rdft3 X Y Z 0 0 G) i j k).re / ((X * Y * Z : ℕ) : ℝ) = G i j k := by
  have e1 : rdft3 X Y Z 0 0 G = dft3 X Y Z (-1) fun i j k => (G i j k : ℂ) := funext fun a => funext fun b => funext fun c => rdft3_zero X Y Z G a b c
  have e2 := Net.dft3_inv X Y Z (-1) (Or.inr rfl) (fun i j k => (G i j k : ℂ)) hi hj hk
  rw [neg_neg] at e2
  rw [irdft3_zero, e1, e2]
  have : ((X * Y * Z : ℕ) : ℝ) ≠ 0 := by exact_mod_cast (Nat.mul_pos (Nat.mul_pos hX hY) hZ).ne'
  rw [show (((X * Y * Z : ℕ) : ℂ) * (G i j k : ℂ)) = (((X * Y * Z : ℕ) : ℝ) * G i j k : ℝ) by push_cast; ring, Complex.ofReal_re]
  exact mul_div_cancel_left₀ _ this

end Fftwpp
