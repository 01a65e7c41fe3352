import Verif.Spec.Dft
import Mathlib.Tactic.FieldSimp
import Mathlib.Tactic.Ring
import Mathlib.Tactic.Push

/-! Helper lemmas on `w N k`. -/

namespace Fftwpp
open Finset

theorem w_add (N : ℕ) (a b : ℤ) : w N (a + b) = w N a * w N b := by
  unfold w
  rw [← Complex.exp_add]
  congr 1
  push_cast
  ring

@[simp] theorem w_zero (N : ℕ) : w N 0 = 1 := by simp [w]

theorem w_ne_zero (N : ℕ) (a : ℤ) : w N a ≠ 0 := Complex.exp_ne_zero _

theorem w_neg (N : ℕ) (a : ℤ) : w N (-a) = (w N a)⁻¹ := by
  have h := w_add N a (-a)
  rw [add_neg_cancel, w_zero] at h
  exact (eq_inv_of_mul_eq_one_right h.symm)

theorem w_conj (N : ℕ) (a : ℤ) : (starRingEnd ℂ) (w N a) = w N (-a) := by
  unfold w
  rw [← Complex.exp_conj]
  congr 1
  have h2 : (starRingEnd ℂ) (2 : ℂ) = 2 := map_ofNat _ 2
  simp [h2]

theorem w_base (a b : ℕ) (hb : b ≠ 0) (k : ℤ) : w (a * b) (b * k) = w a k := by
  unfold w
  congr 1
  have : (b : ℂ) ≠ 0 := by exact_mod_cast hb
  push_cast
  rcases eq_or_ne a 0 with rfl | ha
  · simp
  have ha' : (a : ℂ) ≠ 0 := by exact_mod_cast ha
  field_simp

theorem w_base' (a b : ℕ) (ha : a ≠ 0) (k : ℤ) : w (a * b) (a * k) = w b k := by
  rw [Nat.mul_comm, w_base b a ha]

theorem w_self_mul (N : ℕ) (k : ℤ) : w N (N * k) = 1 := by
  rcases eq_or_ne N 0 with rfl | hN
  · simp
  unfold w
  rw [Complex.exp_eq_one_iff]
  refine ⟨k, ?_⟩
  have : (N : ℂ) ≠ 0 := by exact_mod_cast hN
  push_cast
  field_simp

theorem w_self (N : ℕ) : w N N = 1 := by simpa using w_self_mul N 1

theorem w_mul_self (N : ℕ) (k : ℤ) : w N (k * N) = 1 := by rw [mul_comm]; exact w_self_mul N k

theorem w_add_mul (N : ℕ) (a k : ℤ) : w N (a + N * k) = w N a := by
  rw [w_add, w_self_mul, mul_one]

theorem w_congr {N : ℕ} {a b : ℤ} (h : (N : ℤ) ∣ a - b) : w N a = w N b := by
  obtain ⟨k, hk⟩ := h
  have : a = b + N * k := by linarith
  rw [this, w_add_mul]

theorem w_pow (N : ℕ) (a : ℤ) (k : ℕ) : w N a ^ k = w N (k * a) := by
  induction k with
  | zero => simp
  | succ k ih => rw [pow_succ, ih, ← w_add]; congr 1; push_cast; ring

theorem w_one_prim (N : ℕ) (hN : N ≠ 0) : IsPrimitiveRoot (w N 1) N := by
  have := Complex.isPrimitiveRoot_exp N hN
  unfold w
  simpa using this

theorem w_eq_one_iff (N : ℕ) (hN : N ≠ 0) (a : ℤ) : w N a = 1 ↔ (N : ℤ) ∣ a := by
  constructor
  · intro h
    unfold w at h
    rw [Complex.exp_eq_one_iff] at h
    obtain ⟨k, hk⟩ := h
    refine ⟨k, ?_⟩
    have hN' : (N : ℂ) ≠ 0 := by exact_mod_cast hN
    have h2 : (2 * Real.pi * Complex.I : ℂ) ≠ 0 := Complex.two_pi_I_ne_zero
    field_simp at hk
    have : (a : ℂ) = N * k := by
      rw [hk]
    exact_mod_cast this
  · rintro ⟨k, rfl⟩
    exact w_self_mul N k

/-- Orthogonality of characters. -/
theorem w_sum (N : ℕ) (hN : N ≠ 0) (a : ℤ) :
    ∑ k ∈ range N, w N (k * a) = if (N : ℤ) ∣ a then (N : ℂ) else 0 := by
  split_ifs with h
  · have : ∀ k ∈ range N, w N (k * a) = 1 := by
      intro k _
      rw [w_eq_one_iff N hN]
      exact Dvd.dvd.mul_left h _
    rw [sum_congr rfl this]
    simp
  · have hne : w N a ≠ 1 := fun h' => h ((w_eq_one_iff N hN a).1 h')
    have : ∀ k ∈ range N, w N (k * a) = (w N a) ^ k := by
      intro k _; rw [w_pow]
    rw [sum_congr rfl this, geom_sum_eq hne, w_pow, w_self_mul]
    simp

end Fftwpp
