import Verif.Proof.MpiFft2
import Verif.Proof.MpiRcfft

/-!
# Spectra of real arrays
-/

namespace Fftwpp
open Finset

theorem opp_opp {N k : ℕ} (hk : k < N) : (N - (N - k) % N) % N = k := by
  rcases Nat.eq_zero_or_pos k with rfl | h
  · simp
  · rw [Nat.mod_eq_of_lt (show N - k < N by omega), Nat.mod_eq_of_lt (show N - (N - k) < N by omega)]; omega

theorem sum_opp (N : ℕ) (f : ℕ → ℂ) : ∑ k ∈ range N, f ((N - k) % N) = ∑ k ∈ range N, f k := by
  refine Finset.sum_nbij' (fun k => (N - k) % N) (fun k => (N - k) % N) ?_ ?_ ?_ ?_ ?_
  · intro k hk; exact mem_range.2 (Nat.mod_lt _ (by have := mem_range.1 hk; omega))
  · intro k hk; exact mem_range.2 (Nat.mod_lt _ (by have := mem_range.1 hk; omega))
  · intro k hk; exact opp_opp (mem_range.1 hk)
  · intro k hk; exact opp_opp (mem_range.1 hk)
  · intro k _; rfl

theorem opp_dvd {N k : ℕ} (hk : k < N) : (N : ℤ) ∣ (((N - k) % N : ℕ) : ℤ) + k := by
  rcases Nat.eq_zero_or_pos k with rfl | h
  · simp
  · rw [Nat.mod_eq_of_lt (show N - k < N by omega), Nat.cast_sub hk.le]; simp

/-- The root at the opposite frequency. -/
theorem w_opp {N k : ℕ} (hk : k < N) (a : ℤ) : w N (a * ((N - k) % N : ℕ)) = w N (-(a * k)) := by
  refine w_congr ?_
  have := (opp_dvd hk).mul_left a
  rwa [mul_add, ← sub_neg_eq_add] at this

theorem w_halfX {X : ℕ} (hX : 0 < X) (h2 : X % 2 = 0) (i : ℕ) : w X (i * (X / 2 : ℕ)) = (Net.Rcfft2MPI.sgn i : ℂ) := by
  obtain ⟨M, rfl⟩ : ∃ M, X = 2 * M := ⟨X / 2, by omega⟩
  rw [show 2 * M / 2 = M by omega, mul_comm (i : ℤ), mul_comm 2 M, w_base' M 2 (by omega)]
  have h1 : w 2 1 = -1 := by
    unfold w
    rw [show (2 * Real.pi * Complex.I * ((1 : ℤ) : ℂ) / ((2 : ℕ) : ℂ) : ℂ) = Real.pi * Complex.I by push_cast; ring]
    exact Complex.exp_pi_mul_I
  have h3 : w 2 (i : ℤ) = (-1) ^ i := by
    rw [← h1, w_pow, mul_one]
  rw [h3]
  unfold Net.Rcfft2MPI.sgn
  rcases Nat.even_or_odd i with h | h
  · rw [h.neg_one_pow, if_pos (Nat.even_iff.1 h)]; simp
  · rw [h.neg_one_pow, if_neg (by have := Nat.odd_iff.1 h; omega)]; simp

/-- A Fourier origin at `X/2` amounts to alternating signs. -/
theorem rdft2_half {X Y : ℕ} (hX : 0 < X) (h2 : X % 2 = 0) (G : ℕ → ℕ → ℝ) (kx ky : ℕ) :
    rdft2 X Y (X / 2) G kx ky = rdft2 X Y 0 (fun i j => Net.Rcfft2MPI.sgn i * G i j) kx ky := by
  unfold rdft2
  refine sum_congr rfl fun i _ => sum_congr rfl fun j _ => ?_
  rw [show (-((i : ℤ) * ((kx : ℤ) - (X / 2 : ℕ)))) = -((i : ℤ) * ((kx : ℤ) - (0 : ℕ))) + i * (X / 2 : ℕ) by push_cast; ring, w_add, w_halfX hX h2]
  push_cast
  ring

theorem sgn_conj (i : ℕ) : (starRingEnd ℂ) (Net.Rcfft2MPI.sgn i : ℂ) = (Net.Rcfft2MPI.sgn i : ℂ) := Complex.conj_ofReal _

theorem irdft2_half {X Y : ℕ} (hX : 0 < X) (h2 : X % 2 = 0) (F : ℕ → ℕ → ℂ) (i j : ℕ) :
    irdft2 X Y (X / 2) F i j = (Net.Rcfft2MPI.sgn i : ℂ) * irdft2 X Y 0 F i j := by
  unfold irdft2
  rw [mul_sum]
  refine sum_congr rfl fun kx _ => ?_
  rw [mul_sum]
  refine sum_congr rfl fun ky _ => ?_
  have : w X (-((i : ℤ) * (X / 2 : ℕ))) = (Net.Rcfft2MPI.sgn i : ℂ) := by rw [← w_conj, w_halfX hX h2, sgn_conj]
  rw [show ((i : ℤ) * ((kx : ℤ) - (X / 2 : ℕ))) = (i : ℤ) * ((kx : ℤ) - (0 : ℕ)) + -((i : ℤ) * (X / 2 : ℕ)) by push_cast; ring, w_add, this]
  ring

theorem rdft2_zero (X Y : ℕ) (G : ℕ → ℕ → ℝ) (kx ky : ℕ) : rdft2 X Y 0 G kx ky = dft2 X Y (-1) (fun i j => (G i j : ℂ)) kx ky := by
  unfold rdft2 dft2
  refine sum_congr rfl fun i _ => sum_congr rfl fun j _ => ?_
  congr 2 <;> push_cast <;> ring

theorem irdft2_zero (X Y : ℕ) (F : ℕ → ℕ → ℂ) (i j : ℕ) : irdft2 X Y 0 F i j = dft2 X Y 1 F i j := by
  unfold irdft2 dft2
  refine sum_congr rfl fun kx _ => sum_congr rfl fun ky _ => ?_
  congr 2
  · congr 1; push_cast; ring
  · ring

/-- The spectrum of a real array. -/
theorem rdft2_herm {X Y x0 : ℕ} (h0 : (X : ℤ) ∣ 2 * x0) (G : ℕ → ℕ → ℝ) : HermSpec2 X Y (rdft2 X Y x0 G) := by
  intro kx hkx ky hky
  unfold rdft2
  rw [map_sum]
  refine sum_congr rfl fun i _ => ?_
  rw [map_sum]
  refine sum_congr rfl fun j _ => ?_
  rw [map_mul, map_mul, Complex.conj_ofReal, w_conj, w_conj]
  have e1 : w X (-(i * ((((X - kx) % X : ℕ) : ℤ) - x0))) = w X (- -(i * ((kx : ℤ) - x0))) := by
    refine w_congr ?_
    have h := opp_dvd hkx
    have : (-(i * ((((X - kx) % X : ℕ) : ℤ) - x0)) - - -(i * ((kx : ℤ) - x0)) : ℤ) = -i * ((((X - kx) % X : ℕ) : ℤ) + kx) + i * (2 * x0) := by ring
    rw [this]
    exact dvd_add (h.mul_left _) (h0.mul_left _)
  have e2 : w Y (-(j * (((Y - ky) % Y : ℕ) : ℤ))) = w Y (- -(j * (ky : ℤ))) := by
    refine w_congr ?_
    have h := opp_dvd hky
    have : (-(j * (((Y - ky) % Y : ℕ) : ℤ)) - - -(j * (ky : ℤ)) : ℤ) = -j * ((((Y - ky) % Y : ℕ) : ℤ) + ky) := by ring
    rw [this]
    exact h.mul_left _
  rw [e1, e2]

/-- The transform in x of a Hermitian array has Hermitian lines. -/
theorem dftX_herm {X Y : ℕ} {F : ℕ → ℕ → ℂ} (h : HermSpec2 X Y F) (i : ℕ) {ky : ℕ} (hky : ky < Y) :
    Net.dftX X 1 F i ((Y - ky) % Y) = (starRingEnd ℂ) (Net.dftX X 1 F i ky) := by
  unfold Net.dftX
  rw [map_sum, ← sum_opp X]
  refine sum_congr rfl fun kx hkx => ?_
  rw [map_mul, w_conj, h kx (mem_range.1 hkx) ky hky]
  congr 1
  have := w_opp (mem_range.1 hkx) (i : ℤ)
  rw [show ((1 : ℤ) * (((X - kx) % X : ℕ) : ℤ) * i) = i * (((X - kx) % X : ℕ) : ℤ) by ring, this]
  congr 1; ring

/-- The complex-to-real transform of Hermitian lines. -/
theorem c2r_line {Y : ℕ} (hY : 0 < Y) {u : ℕ → ℂ} (h : ∀ ky < Y, u ((Y - ky) % Y) = (starRingEnd ℂ) (u ky)) {S : ℕ → ℂ} (hS : ∀ s < Y / 2 + 1, S s = u s) :
    RPlan.realSpec Y S ∧ ∀ j : ℕ, (((∑ s ∈ range Y, RPlan.full Y S s * w Y (s * j)).re : ℝ) : ℂ) = ∑ s ∈ range Y, u s * w Y (s * j) := by
  have hfull : ∀ s < Y, RPlan.full Y S s = u s := by
    intro s hs
    unfold RPlan.full
    split_ifs with hc
    · exact hS s hc
    · rw [hS _ (by omega)]
      have := h s hs
      rw [Nat.mod_eq_of_lt (show Y - s < Y by omega)] at this
      rw [this, Complex.conj_conj]
  refine ⟨⟨?_, fun he => ?_⟩, fun j => ?_⟩
  · rw [hS 0 (by omega)]
    have := h 0 hY
    rw [Nat.sub_zero, Nat.mod_self] at this
    exact Complex.conj_eq_iff_im.1 this.symm
  · rw [hS _ (by omega)]
    have := h (Y / 2) (by omega)
    rw [show (Y - Y / 2) % Y = Y / 2 by rw [Nat.mod_eq_of_lt (by omega)]; omega] at this
    exact Complex.conj_eq_iff_im.1 this.symm
  · rw [sum_congr rfl fun s hs => by rw [hfull s (mem_range.1 hs)]]
    refine Complex.conj_eq_iff_re.1 ?_
    rw [map_sum, ← sum_opp Y fun s => u s * w Y (s * j)]
    refine sum_congr rfl fun s hs => ?_
    rw [map_mul, w_conj, h s (mem_range.1 hs)]
    congr 1
    have := w_opp (mem_range.1 hs) (j : ℤ)
    rw [mul_comm (((Y - s) % Y : ℕ) : ℤ), this, mul_comm (j : ℤ)]

end Fftwpp
